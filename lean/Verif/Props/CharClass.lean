import Verif.CharSetProofs
import Verif.Spec.CharClass
/-!
# C46: the characters of a set text
-/

set_option autoImplicit false

namespace JPS
open Spec

/-! ### The parser of the texts -/

theorem hex_pair : ∀ h l : Fin 16, 0 < h.val + l.val →
    hexStringToDec [digit h.val, digit l.val] = 16 * h.val + l.val := by decide

/-- One character of the text. -/
theorem csetLoop_char {c : Spell} (hc : c.ok = true) (lf : Bool) {n : Nat} {rest : List Nat}
    (hn : (c.text ++ rest).length ≤ n) (s : CMap) (last : Nat) (conn : Bool) :
    ∃ n', rest.length ≤ n' ∧ csetLoop lf n (c.text ++ rest) s last conn =
      (csetChar lf s last conn c.val).bind fun t => csetLoop lf n' rest t.1 t.2.1 t.2.2 := by
  cases c with
  | plain b =>
    simp [Spell.ok] at hc
    simp [Spell.text] at hn
    obtain ⟨n, rfl⟩ : ∃ m, n = m + 1 := ⟨n - 1, by omega⟩
    refine ⟨n, by omega, ?_⟩
    have hv : byteVal b = b := if_pos hc.1.1.2
    simp only [Spell.text, List.cons_append, List.nil_append, csetLoop, hc.1.2, hc.2, if_false, hv,
      Spell.val]
    cases csetChar lf s last conn b <;> rfl
  | esc b =>
    simp [Spell.ok] at hc
    simp [Spell.text] at hn
    obtain ⟨n, rfl⟩ : ∃ m, n = m + 1 := ⟨n - 1, by omega⟩
    refine ⟨n, by omega, ?_⟩
    have hv : byteVal b = b := if_pos hc.1.1.1.2
    have he : escapeSet (b :: rest) = some ((Spell.esc b).val, rest) := by
      unfold escapeSet
      simp only [hc.1.1.2, hc.1.2, hc.2, if_false, hv]
      split
      · rename_i h; subst h; rfl
      · split
        · rename_i h; subst h; rfl
        · split
          · rename_i h; subst h; rfl
          · split
            · rename_i h; subst h; rfl
            · split
              · rename_i h; subst h; rfl
              · simp only [Spell.val]
    simp only [Spell.text, List.cons_append, List.nil_append, csetLoop, he]
    simp only [Nat.reduceEqDiff, if_false, if_true]
    cases csetChar lf s last conn (Spell.esc b).val <;> rfl
  | hex h l =>
    simp [Spell.ok] at hc
    simp [Spell.text] at hn
    obtain ⟨n, rfl⟩ : ∃ m, n = m + 1 := ⟨n - 1, by omega⟩
    refine ⟨n, by omega, ?_⟩
    have he : escapeSet (120 :: digit h :: digit l :: rest) = some ((Spell.hex h l).val, rest) := by
      have := hex_pair ⟨h, hc.1.1⟩ ⟨l, hc.1.2⟩ (by simp; omega)
      simp only at this
      simp [escapeSet, Spell.val, this]
    simp only [Spell.text, List.cons_append, List.nil_append, csetLoop, he]
    simp only [Nat.reduceEqDiff, if_false, if_true]
    cases csetChar lf s last conn (Spell.hex h l).val <;> rfl

theorem Spell.val_pos {c : Spell} (hc : c.ok = true) : 0 < c.val := by
  cases c with
  | plain b => simp [Spell.ok] at hc; simp [Spell.val]; omega
  | esc b =>
    simp [Spell.ok] at hc
    unfold Spell.val
    split <;> simp_all
  | hex h l => simp [Spell.ok] at hc; simp [Spell.val]; omega

theorem Spell.val_lt {c : Spell} (hc : c.ok = true) : c.val < 256 := by
  cases c with
  | plain b => simp [Spell.ok] at hc; simp [Spell.val]; omega
  | esc b =>
    simp [Spell.ok] at hc
    unfold Spell.val
    split <;> simp_all
    omega
  | hex h l => simp [Spell.ok] at hc; simp [Spell.val]; omega

/-- The condition on the ranges of a text, given the parts before: none of the characters of a
range and not the character before it has occurred.  If the right operand of a subtraction is
evaluated first (`lf = false`), every range comes before all characters that have occurred. -/
def rangesApart (lf : Bool) : List CPart → List CPart → Prop
  | _, [] => True
  | done, .one c :: r => rangesApart lf (.one c :: done) r
  | done, .range p q :: r =>
    (p.val < q.val → ∀ x, partsHave done x = true → (x + 1 < p.val ∧ lf = true) ∨ q.val < x) ∧
      rangesApart lf (.range p q :: done) r

/-- The map with the character that waits to be inserted. -/
def pend (s : CMap) (last : Nat) : CMap := if last ≠ 0 then s.insert last else s

theorem csetLoop_parts {lf : Bool} {ps : List CPart} : ∀ {done : List CPart} {n : Nat} {s : CMap}
    {last : Nat}, (∀ p ∈ ps, p.ok = true) → rangesApart lf done ps →
    (ps.flatMap CPart.text).length ≤ n → CWf 0 (pend s last) →
    (∀ x, (pend s last).has x = partsHave done x) →
    ∃ s', csetLoop lf n (ps.flatMap CPart.text) s last false = some s' ∧ CWf 0 s' ∧
      ∀ x, s'.has x = (partsHave ps x || partsHave done x) := by
  induction ps with
  | nil =>
    intro done n s last _ _ _ hw hh
    refine ⟨pend s last, ?_, hw, fun x => by simp [hh, partsHave]⟩
    cases n <;> rfl
  | cons p ps ih =>
    intro done n s last hok hap hn hw hh
    have hok' : ∀ p ∈ ps, p.ok = true := fun p hp => hok p (by simp [hp])
    have hp := hok p (by simp)
    cases p with
    | one c =>
      simp only [CPart.ok] at hp
      simp only [List.flatMap_cons, CPart.text] at hn ⊢
      obtain ⟨n', hn', e⟩ := csetLoop_char hp lf hn s last false
      rw [e]
      have hc : csetChar lf s last false c.val = some (pend s last, c.val, false) := by
        simp [csetChar, pend]
      rw [hc, Option.bind_some]
      have hpos := Spell.val_pos hp
      have hpe : pend (pend s last) c.val = (pend s last).insert c.val := if_pos (by omega)
      obtain ⟨i1, i2⟩ := insert_has hw (c := c.val) (Nat.zero_le _)
      obtain ⟨s', j1, j2, j3⟩ := ih (done := .one c :: done) (s := pend s last) (last := c.val)
        hok' hap hn' (by rw [hpe]; exact i1) (fun x => by
          rw [hpe, i2, hh]; simp [partsHave, CPart.has])
      refine ⟨s', j1, j2, fun x => ?_⟩
      rw [j3]
      simp only [partsHave, List.any_cons]
      cases CPart.has (.one c) x <;> simp
    | range p q =>
      simp only [CPart.ok, Bool.and_eq_true, decide_eq_true_eq] at hp
      obtain ⟨⟨hp, hq⟩, hpq⟩ := hp
      simp only [List.flatMap_cons, CPart.text, List.append_assoc] at hn ⊢
      obtain ⟨n', hn', e⟩ := csetLoop_char hp lf hn s last false
      rw [e]
      have hc : csetChar lf s last false p.val = some (pend s last, p.val, false) := by
        simp [csetChar, pend]
      rw [hc, Option.bind_some]
      simp only [List.cons_append, List.length_cons] at hn'
      obtain ⟨n', rfl⟩ : ∃ m, n' = m + 1 := ⟨n' - 1, by omega⟩
      simp only [List.cons_append, csetLoop, if_true]
      obtain ⟨n2, hn2, e2⟩ := csetLoop_char hq lf (n := n') (rest := ps.flatMap CPart.text)
        (by omega) (pend s last) p.val true
      rw [e2]
      obtain ⟨s2, k1, k2, k3⟩ := insertRange_has hw (lf := lf) (p := p.val) (q := q.val)
        (Nat.zero_le _) hpq (fun hlt x hx => hap.1 hlt x (by rw [← hh]; exact hx))
      have hc2 : csetChar lf (pend s last) p.val true q.val = some (s2, 0, false) := by
        simp [csetChar, k1]
      rw [hc2, Option.bind_some]
      have hpe : pend s2 0 = s2 := if_neg (by simp)
      obtain ⟨s', j1, j2, j3⟩ := ih (done := .range p q :: done) (s := s2) (last := 0)
        hok' hap.2 hn2 (by rw [hpe]; exact k2) (fun x => by
          rw [hpe, k3, hh]; simp [partsHave, CPart.has])
      refine ⟨s', j1, j2, fun x => ?_⟩
      rw [j3]
      simp only [partsHave, List.any_cons]
      cases CPart.has (.range p q) x <;> simp

/-- The parsed text. -/
theorem ofString_text {lf : Bool} {t : CText} (hok : t.ok = true)
    (hap : rangesApart lf [] t.parts) :
    ∃ s, CharSet.ofString lf t.text = some ⟨s, t.neg⟩ ∧ CWf 0 s ∧
      ∀ x, s.has x = partsHave t.parts x := by
  simp only [CText.ok, Bool.and_eq_true, List.all_eq_true] at hok
  obtain ⟨hp, hh⟩ := hok
  obtain ⟨s, h1, h2, h3⟩ := csetLoop_parts (n := (t.parts.flatMap CPart.text).length) hp hap
    (Nat.le_refl _) (s := []) (last := 0) .nil (fun x => rfl)
  refine ⟨s, ?_, h2, fun x => by rw [h3]; simp [partsHave]⟩
  obtain ⟨neg, ps⟩ := t
  cases neg with
  | true =>
    simp only [CText.text, if_true, List.cons_append, List.nil_append, CharSet.ofString]
    simp only at h1
    rw [h1]; rfl
  | false =>
    simp only [CText.text, Bool.false_eq_true, if_false, List.nil_append, Bool.false_or] at hh h1 ⊢
    unfold CharSet.ofString
    split
    · rename_i r hr
      rw [hr] at hh; simp at hh
    · rw [h1]; rfl

/-! ### The set converter -/

theorem cvsFill_spec (v : Bool) : ∀ {n p : Nat} {cvs : List Bool}, p + n ≤ cvs.length →
    ∃ cvs', cvsFill v p n cvs = some cvs' ∧ cvs'.length = cvs.length ∧
      ∀ x, (cvs'[x]?).getD false = if p ≤ x ∧ x < p + n then v else (cvs[x]?).getD false := by
  intro n
  induction n with
  | zero =>
    intro p cvs _
    exact ⟨cvs, rfl, rfl, fun x => by rw [if_neg (by omega)]⟩
  | succ n ih =>
    intro p cvs h
    obtain ⟨cvs', h1, h2, h3⟩ := ih (p := p + 1) (cvs := cvs.set p v) (by simp; omega)
    refine ⟨cvs', ?_, by simpa using h2, fun x => ?_⟩
    · rw [cvsFill, if_pos (by omega)]; exact h1
    · rw [h3]
      by_cases hx : x = p
      · subst hx
        rw [if_neg (by omega), if_pos (by omega), List.getElem?_set_self (by omega)]; rfl
      · rw [List.getElem?_set_ne (by omega)]
        by_cases h4 : p + 1 ≤ x ∧ x < p + 1 + n
        · rw [if_pos h4, if_pos (by omega)]
        · rw [if_neg h4, if_neg (by omega)]

theorem cvsLoop_spec (v : Bool) : ∀ {sp : List (Nat × Nat)} {cvs : List Bool},
    (∀ e ∈ sp, e.1 ≤ e.2 ∧ e.2 < cvs.length) →
    ∃ cvs', cvsLoop v sp cvs = some cvs' ∧
      ∀ x, (cvs'[x]?).getD false = if spansHave sp x then v else (cvs[x]?).getD false := by
  intro sp
  induction sp with
  | nil => intro cvs _; exact ⟨cvs, rfl, fun x => rfl⟩
  | cons e sp ih =>
    intro cvs h
    have he := h e (by simp)
    obtain ⟨c1, h1, h2, h3⟩ := cvsFill_spec v (n := e.2 + 1 - e.1) (p := e.1) (cvs := cvs) (by omega)
    obtain ⟨c2, g1, g2⟩ := ih (cvs := c1) (fun f hf => by
      have := h f (by simp [hf]); omega)
    refine ⟨c2, by simp [cvsLoop, h1, g1], fun x => ?_⟩
    have key : spansHave (e :: sp) x =
        ((decide (e.1 ≤ x) && decide (x ≤ e.2)) || spansHave sp x) := rfl
    rw [g2, h3, key]
    by_cases hx : e.1 ≤ x ∧ x ≤ e.2
    · rw [if_pos (c := e.1 ≤ x ∧ x < e.1 + (e.2 + 1 - e.1)) (by omega)]
      simp [hx.1, hx.2]
    · rw [if_neg (c := e.1 ≤ x ∧ x < e.1 + (e.2 + 1 - e.1)) (by omega)]
      have : (decide (e.1 ≤ x) && decide (x ≤ e.2)) = false := by
        rw [Bool.eq_false_iff]; simpa using hx
      simp [this]

/-! ### C46 -/

/-- **C46** (part).  The set converter gives a `RegexSet` exactly the letters its text denotes,
for every text of single characters and ranges, with or without complement, whose ranges are
apart.  `lf` is the order of evaluation chosen by the compiler. -/
theorem c46_set_partial (lf : Bool) (t : CText) (hok : t.ok = true)
    (hap : rangesApart lf [] t.parts) :
    setConvert lf t.text = some ((List.range 256).filter t.has) := by
  obtain ⟨s, h1, h2, h3⟩ := ofString_text hok hap
  obtain ⟨sp, g1, g2, _, g4⟩ := h2.spans
  have hlt : ∀ x, s.has x = true → x < 256 := by
    intro x hx
    rw [h3] at hx
    simp only [CText.ok, Bool.and_eq_true, List.all_eq_true] at hok
    simp only [partsHave, List.any_eq_true] at hx
    obtain ⟨p, hp, hx⟩ := hx
    have hpk := hok.1 p hp
    cases p with
    | one c =>
      simp [CPart.has] at hx; subst hx
      exact Spell.val_lt hpk
    | range p q =>
      simp [CPart.ok] at hpk
      simp [CPart.has] at hx
      have := Spell.val_lt hpk.1.2
      omega
  obtain ⟨cvs, c1, c2⟩ := cvsLoop_spec (!t.neg) (sp := sp) (cvs := List.replicate 256 t.neg)
    (fun e he => ⟨(g4 e he).1, by rw [List.length_replicate]; exact hlt _ (g4 e he).2.2⟩)
  simp only [setConvert, h1, Option.bind_some, g1, c1, Option.map_some, Option.some.injEq]
  apply List.filter_congr
  intro x hx
  rw [List.mem_range] at hx
  rw [c2, g2, h3, CText.has]
  rw [List.getElem?_replicate, if_pos hx, Option.getD_some]
  cases partsHave t.parts x <;> cases t.neg <;> rfl

/-- The text `^a-fA-F\-\x0a` meets the hypotheses for both orders of evaluation. -/
def exSetText : CText :=
  ⟨true, [.range (.plain 97) (.plain 102), .range (.plain 65) (.plain 70), .one (.esc 45),
    .one (.hex 0 10)]⟩

theorem exSetText_apart (lf : Bool) : rangesApart lf [] exSetText.parts := by
  refine ⟨fun _ x hx => by simp [partsHave] at hx, fun _ x hx => .inr ?_, trivial⟩
  have hx' : partsHave [.range (.plain 97) (.plain 102)] x = true := hx
  simp [partsHave, CPart.has, Spell.val] at hx'
  have h97 := of_decide_eq_true hx'.1
  show 70 < x
  omega

example : exSetText.text = [94, 97, 45, 102, 65, 45, 70, 92, 45, 92, 120, 48, 97] ∧
    exSetText.ok = true ∧ (∀ lf, rangesApart lf [] exSetText.parts) ∧
    exSetText.has 98 = false ∧ exSetText.has 122 = true :=
  ⟨by decide, by decide, exSetText_apart, by decide, by decide⟩

/-- **C46 is false in general: overlapping ranges.**  For `a-cb-d` the code erases a range
of the map from a later to an earlier entry, whatever the order of evaluation. -/
theorem c46_false_overlap (lf : Bool) :
    let t : CText := ⟨false, [.range (.plain 97) (.plain 99), .range (.plain 98) (.plain 100)]⟩
    t.ok = true ∧ setConvert lf t.text = none := by
  cases lf <;> decide

/-- **C46 is false in general: a range over a character that has occurred.**  `ba-c`. -/
theorem c46_false_inside (lf : Bool) :
    let t : CText := ⟨false, [.one (.plain 98), .range (.plain 97) (.plain 99)]⟩
    t.ok = true ∧ setConvert lf t.text = none := by
  cases lf <;> decide

/-- **C46 is false in general: adjacent ranges.**  `a-bc-d`. -/
theorem c46_false_adjacent (lf : Bool) :
    let t : CText := ⟨false, [.range (.plain 97) (.plain 98), .range (.plain 99) (.plain 100)]⟩
    t.ok = true ∧ setConvert lf t.text = none := by
  cases lf <;> decide

/-- **C46 depends on the compiler.**  For `0-9a-z` the outcome is right or undefined according to
the order in which the operands of `i->first - (--i)->first` are evaluated. -/
theorem c46_false_order :
    let t : CText := ⟨false, [.range (.plain 48) (.plain 57), .range (.plain 97) (.plain 122)]⟩
    t.ok = true ∧ setConvert true t.text = some ((List.range 256).filter t.has) ∧
      setConvert false t.text = none := by
  decide +kernel

/-- **Characters beyond ASCII.**  A byte from 128 on becomes a negative `char`: the converter
writes far outside its vector. -/
theorem c46_false_utf8 (lf : Bool) : setConvert lf [195, 169] = none := by
  cases lf <;> decide +kernel

/-- **A reversed range** is stored as an interval without end (`b-a`); the converter reads past
the end of the map. -/
theorem c46_false_reversed : setConvert true [98, 45, 97] = none := by decide

/-- **The copy of a complement** is not a complement. -/
theorem c46_false_copy : ∃ c, CharSet.ofString true [94, 97] = some c ∧ c.negate = true ∧
    c.copy.map = c.map ∧ c.copy.negate = false :=
  ⟨⟨[(97, .solo)], true⟩, by decide⟩

end JPS
