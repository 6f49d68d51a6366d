import Verif.EquivClass
import Verif.CharSetProofs
/-!
# Equivalence classes: refinement by sets and characters
-/

set_option autoImplicit false

namespace JPS

/-- The numbers of the classes lie between 1 and `sum`. -/
def EClass.Ok (e : EClass) : Prop :=
  e.vec.length = 256 ∧ ∀ x, x < 256 → 1 ≤ e.at x ∧ e.at x ≤ e.sum

theorem at_set {e : EClass} {s k v x : Nat} (hk : k < e.vec.length) :
    EClass.at ⟨s, e.vec.set k v⟩ x = if x = k then v else e.at x := by
  unfold EClass.at
  by_cases h : x = k
  · subst h; simp [hk]
  · simp only [h, if_false]
    rw [List.getElem?_set_ne (by omega)]

theorem init_ok : EClass.init.Ok := by
  refine ⟨List.length_replicate, fun x hx => ?_⟩
  have : EClass.init.at x = 1 := by
    unfold EClass.at EClass.init
    simp only
    rw [List.getElem?_replicate, if_pos hx]; rfl
  rw [this]
  exact ⟨Nat.le_refl _, Nat.le_refl _⟩

/-- State of the loop of `Add(CharSet&)` when the characters in `P` have been treated. -/
structure Refining (e0 e : EClass) (m : List (Nat × Nat)) (P : Nat → Prop) : Prop where
  len : e.vec.length = 256
  sum : e0.sum ≤ e.sum
  old : ∀ x, x < 256 → ¬ P x → e.at x = e0.at x
  new : ∀ x, P x → mapGet m (e0.at x) = some (e.at x)
  key : ∀ k v, mapGet m k = some v → e0.sum < v ∧ v ≤ e.sum
  inj : ∀ k k' v, mapGet m k = some v → mapGet m k' = some v → k = k'

theorem mapGet_cons {k' v k : Nat} {m : List (Nat × Nat)} :
    mapGet ((k', v) :: m) k = if k' = k then some v else mapGet m k := rfl

/-- One character. -/
theorem Refining.step {e0 e : EClass} {m : List (Nat × Nat)} {P : Nat → Prop}
    (h : Refining e0 e m P) (h0 : e0.Ok) {k v s' : Nat} {m' : List (Nat × Nat)} (hk : k < 256)
    (hP : ¬ P k) (hr : newClass e.sum m (e.at k) = (v, m', s')) :
    Refining e0 ⟨s', e.vec.set k v⟩ m' (fun x => P x ∨ x = k) ∧
      mapGet m' (e.at k) = some v := by
  have hlt : k < e.vec.length := by rw [h.len]; exact hk
  have hat := h.old k hk hP
  unfold newClass at hr
  cases hg : mapGet m (e.at k) with
  | some w =>
    simp only [hg, Prod.mk.injEq] at hr
    obtain ⟨rfl, rfl, rfl⟩ := hr
    refine ⟨⟨by simpa using h.len, h.sum, fun x hx hn => ?_, fun x hx => ?_, h.key, h.inj⟩, hg⟩
    · rw [at_set hlt, if_neg (fun e => hn (.inr e))]
      exact h.old x hx (fun e => hn (.inl e))
    · rw [at_set hlt]
      by_cases he : x = k
      · subst he; rw [if_pos rfl, ← hat]; exact hg
      · rw [if_neg he]; exact h.new x (hx.resolve_right he)
  | none =>
    simp only [hg, Prod.mk.injEq] at hr
    obtain ⟨rfl, rfl, rfl⟩ := hr
    have hs := h.sum
    refine ⟨⟨by simpa using h.len, by simp; omega, fun x hx hn => ?_, fun x hx => ?_,
      fun k' v hv => ?_, fun k1 k2 v h1 h2 => ?_⟩, by simp [mapGet_cons]⟩
    · rw [at_set hlt, if_neg (fun e => hn (.inr e))]
      exact h.old x hx (fun e => hn (.inl e))
    · rw [at_set hlt, mapGet_cons]
      by_cases he : x = k
      · subst he; rw [if_pos rfl, if_pos hat]
      · have hp := hx.resolve_right he
        rw [if_neg he, if_neg]
        · exact h.new x hp
        · intro hkk
          rw [hkk, h.new x hp] at hg
          cases hg
    · rw [mapGet_cons] at hv
      by_cases hkk : e.at k = k'
      · rw [if_pos hkk] at hv; cases hv; simp; omega
      · rw [if_neg hkk] at hv
        have := h.key k' v hv; simp; omega
    · rw [mapGet_cons] at h1 h2
      by_cases e1 : e.at k = k1
      · by_cases e2 : e.at k = k2
        · rw [← e1, ← e2]
        · rw [if_pos e1] at h1; rw [if_neg e2] at h2
          cases h1
          have := h.key _ _ h2; omega
      · by_cases e2 : e.at k = k2
        · rw [if_neg e1] at h1; rw [if_pos e2] at h2
          cases h2
          have := h.key _ _ h1; omega
        · rw [if_neg e1] at h1; rw [if_neg e2] at h2
          exact h.inj _ _ _ h1 h2

theorem Refining.congr {e0 e : EClass} {m : List (Nat × Nat)} {P Q : Nat → Prop}
    (h : Refining e0 e m P) (hPQ : ∀ x, P x ↔ Q x) : Refining e0 e m Q :=
  ⟨h.len, h.sum, fun x hx hn => h.old x hx (fun hp => hn ((hPQ x).1 hp)),
    fun x hx => h.new x ((hPQ x).2 hx), h.key, h.inj⟩

/-- The characters of an interval. -/
theorem Refining.span {e0 : EClass} (h0 : e0.Ok) : ∀ {n : Nat} {e : EClass} {m : List (Nat × Nat)}
    {cache : Option (Nat × Nat)} {k : Nat} {P : Nat → Prop}, Refining e0 e m P →
    (∀ ck cv, cache = some (ck, cv) → mapGet m ck = some cv) → k + n ≤ 256 →
    (∀ x, k ≤ x → x < k + n → ¬ P x) →
    ∃ e' m', EClass.insertSpan n e m cache k = some (e', m') ∧
      Refining e0 e' m' (fun x => P x ∨ (k ≤ x ∧ x < k + n)) := by
  intro n
  induction n with
  | zero =>
    intro e m cache k P h _ _ _
    exact ⟨e, m, rfl, h.congr fun x => ⟨.inl, fun hx => hx.resolve_right (by omega)⟩⟩
  | succ n ih =>
    intro e m cache k P h hc hk hP
    have hlt : k < e.vec.length := by rw [h.len]; omega
    have hPk := hP k (Nat.le_refl _) (by omega)
    have hmerge : ∀ x, ((P x ∨ x = k) ∨ (k + 1 ≤ x ∧ x < k + 1 + n)) ↔
        (P x ∨ (k ≤ x ∧ x < k + (n + 1))) := by
      intro x
      constructor
      · rintro ((h | h) | h)
        · exact .inl h
        · exact .inr (by omega)
        · exact .inr (by omega)
      · rintro (h | h)
        · exact .inl (.inl h)
        · by_cases hx : x = k
          · exact .inl (.inr hx)
          · exact .inr (by omega)
    have hP' : ∀ x, k + 1 ≤ x → x < k + 1 + n → ¬ (P x ∨ x = k) := by
      rintro x h1 h2 (h3 | h3)
      · exact hP x (by omega) (by omega) h3
      · omega
    have hmiss : ∃ e' m', EClass.insertSpan n
        ⟨(newClass e.sum m (e.at k)).2.2, e.vec.set k (newClass e.sum m (e.at k)).1⟩
        (newClass e.sum m (e.at k)).2.1
        (some (e.at k, (newClass e.sum m (e.at k)).1)) (k + 1) = some (e', m') ∧
        Refining e0 e' m' (fun x => P x ∨ (k ≤ x ∧ x < k + (n + 1))) := by
      obtain ⟨g1, g2⟩ := h.step h0 (k := k) (by omega) hPk rfl
      obtain ⟨e', m', i1, i2⟩ := ih (cache := some (e.at k, (newClass e.sum m (e.at k)).1))
        g1 (fun ck cv he => by cases he; exact g2) (k := k + 1) (by omega) hP'
      exact ⟨e', m', i1, i2.congr hmerge⟩
    cases cache with
    | none => simpa only [EClass.insertSpan, hlt, if_true] using hmiss
    | some c =>
      obtain ⟨ck, cv⟩ := c
      simp only [EClass.insertSpan, hlt, if_true]
      by_cases hck : e.at k = ck
      · rw [if_pos hck]
        have hg := hc ck cv rfl
        have hr : newClass e.sum m (e.at k) = (cv, m, e.sum) := by
          rw [newClass, hck, hg]
        obtain ⟨g1, g2⟩ := h.step h0 (k := k) (by omega) hPk hr
        obtain ⟨e', m', i1, i2⟩ := ih (cache := some (ck, cv)) g1
          (fun ck cv he => by cases he; exact hg) (k := k + 1) (by omega) hP'
        exact ⟨e', m', i1, i2.congr hmerge⟩
      · rw [if_neg hck]; exact hmiss

theorem spansHave_cons {e : Nat × Nat} {sp : List (Nat × Nat)} {x : Nat} :
    spansHave (e :: sp) x = true ↔ (e.1 ≤ x ∧ x ≤ e.2) ∨ spansHave sp x = true := by
  simp [spansHave]

theorem Refining.spans {e0 : EClass} (h0 : e0.Ok) : ∀ {sp : List (Nat × Nat)} {e : EClass}
    {m : List (Nat × Nat)} {P : Nat → Prop}, Refining e0 e m P →
    sp.Pairwise (fun e f => e.2 < f.1) → (∀ e ∈ sp, e.1 ≤ e.2 ∧ e.2 < 256) →
    (∀ x, spansHave sp x = true → ¬ P x) →
    ∃ e' m', EClass.addSpans sp e m = some e' ∧
      Refining e0 e' m' (fun x => P x ∨ spansHave sp x = true) := by
  intro sp
  induction sp with
  | nil =>
    intro e m P h _ _ _
    exact ⟨e, m, rfl, h.congr fun x => by simp [spansHave]⟩
  | cons f sp ih =>
    intro e m P h hpw hb hP
    obtain ⟨p, q⟩ := f
    have hf := hb (p, q) (by simp)
    simp only at hf
    obtain ⟨hpw1, hpw2⟩ := List.pairwise_cons.1 hpw
    have hdis : ∀ x, spansHave sp x = true → q < x := by
      intro x hx
      simp only [spansHave, List.any_eq_true, Bool.and_eq_true, decide_eq_true_eq] at hx
      obtain ⟨g, hg, hx⟩ := hx
      have := hpw1 g hg
      simp only at this
      omega
    have hP' : ∀ x, spansHave sp x = true → ¬ (P x ∨ (p ≤ x ∧ x ≤ q)) := by
      rintro x hx (h1 | h1)
      · exact hP x (spansHave_cons.2 (.inr hx)) h1
      · have := hdis x hx; omega
    have fin : ∀ {e1 m1}, Refining e0 e1 m1 (fun x => P x ∨ (p ≤ x ∧ x ≤ q)) →
        ∃ e' m', EClass.addSpans sp e1 m1 = some e' ∧
          Refining e0 e' m' (fun x => P x ∨ spansHave ((p, q) :: sp) x = true) := by
      intro e1 m1 h1
      obtain ⟨e', m', i1, i2⟩ := ih h1 hpw2 (fun e he => hb e (by simp [he])) hP'
      refine ⟨e', m', i1, i2.congr fun x => ?_⟩
      rw [spansHave_cons]
      exact or_assoc
    unfold EClass.addSpans
    by_cases hpq : p = q
    · subst hpq
      rw [if_pos rfl]
      have hlt : p < e.vec.length := by rw [h.len]; omega
      have hPp := hP p (spansHave_cons.2 (.inl ⟨Nat.le_refl _, Nat.le_refl _⟩))
      obtain ⟨g1, _⟩ := h.step h0 (k := p) (by omega) hPp rfl
      obtain ⟨e', m', i1, i2⟩ := fin (g1.congr fun x => by
        constructor
        · rintro (h | rfl)
          · exact .inl h
          · exact .inr ⟨Nat.le_refl _, Nat.le_refl _⟩
        · rintro (h | h)
          · exact .inl h
          · exact .inr (by omega))
      refine ⟨e', m', ?_, i2⟩
      rw [EClass.insertOne, if_pos hlt, Option.bind_some]
      exact i1
    · rw [if_neg hpq]
      obtain ⟨e1, m1, g1, g2⟩ := Refining.span h0 (n := q + 1 - p) (cache := none) (k := p) h
        (fun _ _ h => by cases h) (by omega) (fun x h1 h2 =>
          hP x (spansHave_cons.2 (.inl ⟨h1, by simp only; omega⟩)))
      obtain ⟨e', m', i1, i2⟩ := fin (g2.congr fun x => by
        constructor
        · rintro (h | h)
          · exact .inl h
          · exact .inr (by omega)
        · rintro (h | h)
          · exact .inl h
          · exact .inr (by omega))
      exact ⟨e', m', by rw [g1]; exact i1, i2⟩

/-- Adding a set splits every class into its characters inside and outside the set. -/
theorem addSet_refines {e : EClass} (he : e.Ok) {c : CharSet} (hw : CWf 0 c.map)
    (hlt : ∀ x, c.map.has x = true → x < 256) :
    ∃ e', e.addSet c = some e' ∧ e'.Ok ∧ ∀ x y, x < 256 → y < 256 →
      (e'.at x = e'.at y ↔ e.at x = e.at y ∧ c.map.has x = c.map.has y) := by
  obtain ⟨sp, g1, g2, g3, g4⟩ := hw.spans
  have hinit : Refining e e [] (fun _ => False) :=
    ⟨he.1, Nat.le_refl _, fun _ _ _ => rfl, fun _ h => h.elim, fun _ _ h => (by cases h),
      fun _ _ _ h => (by cases h)⟩
  obtain ⟨e', m', h1, h2⟩ := Refining.spans he (sp := sp) hinit g3
    (fun f hf => ⟨(g4 f hf).1, hlt _ (g4 f hf).2.2⟩) (fun _ _ h => h)
  have h2 := h2.congr (Q := fun x => c.map.has x = true) (fun x => by rw [g2]; simp)
  refine ⟨e', by simp [EClass.addSet, g1, h1], ⟨h2.len, fun x hx => ?_⟩, fun x y hx hy => ?_⟩
  · by_cases hc : c.map.has x = true
    · have := h2.key _ _ (h2.new x hc)
      omega
    · rw [h2.old x hx hc]
      have := he.2 x hx
      have := h2.sum
      omega
  · have hx1 := he.2 x hx
    have hy1 := he.2 y hy
    by_cases hcx : c.map.has x = true
    · have kx := h2.new x hcx
      by_cases hcy : c.map.has y = true
      · have ky := h2.new y hcy
        constructor
        · intro h
          rw [← h] at ky
          exact ⟨h2.inj _ _ _ kx ky, by rw [hcx, hcy]⟩
        · rintro ⟨h, _⟩
          rw [h, ky] at kx
          exact (Option.some.inj kx).symm
      · constructor
        · intro h
          have := h2.key _ _ kx
          rw [h, h2.old y hy hcy] at this
          omega
        · rintro ⟨_, h⟩
          rw [h] at hcx; exact absurd hcx hcy
    · by_cases hcy : c.map.has y = true
      · have ky := h2.new y hcy
        constructor
        · intro h
          have := h2.key _ _ ky
          rw [← h, h2.old x hx hcx] at this
          omega
        · rintro ⟨_, h⟩
          rw [← h] at hcy; exact absurd hcy hcx
      · rw [h2.old x hx hcx, h2.old y hy hcy]
        rw [Bool.not_eq_true] at hcx hcy
        rw [hcx, hcy]
        simp

/-- Adding a character splits it off its class. -/
theorem addChar_refines {e : EClass} (he : e.Ok) {c : Nat} (hc : c < 256) :
    ∃ e', e.addChar c = some e' ∧ e'.Ok ∧ ∀ x y, x < 256 → y < 256 →
      (e'.at x = e'.at y ↔ e.at x = e.at y ∧ (x == c) = (y == c)) := by
  have hlt : c < e.vec.length := by rw [he.1]; exact hc
  refine ⟨_, if_pos hlt, ⟨by simpa using he.1, fun x hx => ?_⟩, fun x y hx hy => ?_⟩
  · have := he.2 x hx
    rw [at_set hlt]; split <;> simp <;> omega
  · have hx1 := he.2 x hx
    have hy1 := he.2 y hy
    rw [at_set hlt, at_set hlt]
    by_cases h1 : x = c <;> by_cases h2 : y = c
    · simp [h1, h2]
    · simp only [h1, h2, if_true, if_false]
      have : (y == c) = false := by simpa using h2
      simp [this]; omega
    · simp only [h1, h2, if_true, if_false]
      have : (x == c) = false := by simpa using h1
      simp [this]; omega
    · simp only [h1, h2, if_false]
      have e1 : (x == c) = false := by simpa using h1
      have e2 : (y == c) = false := by simpa using h2
      simp [e1, e2]

/-! ### `Rearrage` -/

theorem numberLoop_get : ∀ {l : List Bool} {p i : Nat}, l[i]? = some true →
    (numberLoop l p)[i]? = some (p + (l.take i).countP id + 1) := by
  intro l
  induction l with
  | nil => intro p i h; simp at h
  | cons b l ih =>
    intro p i h
    cases i with
    | zero =>
      simp at h; subst h
      simp [numberLoop]
    | succ i =>
      simp only [List.getElem?_cons_succ] at h
      cases b with
      | true =>
        simp only [numberLoop, List.getElem?_cons_succ, ih h, List.take_succ_cons]
        simp; omega
      | false =>
        simp only [numberLoop, List.getElem?_cons_succ, ih h, List.take_succ_cons]
        simp

theorem countP_take_lt {l : List Bool} {i j : Nat} (hi : l[i]? = some true) (hij : i < j) :
    (l.take i).countP id < (l.take j).countP id := by
  induction l generalizing i j with
  | nil => simp at hi
  | cons b l ih =>
    cases j with
    | zero => omega
    | succ j =>
      cases i with
      | zero =>
        simp at hi; subst hi
        simp
      | succ i =>
        simp only [List.getElem?_cons_succ] at hi
        have := ih hi (j := j) (by omega)
        cases b <;> simp <;> omega

theorem countP_take_le {l : List Bool} {i : Nat} (hi : l[i]? = some true) :
    (l.take i).countP id < l.countP id := by
  have hlt := (List.getElem?_eq_some_iff.1 hi).1
  have := countP_take_lt hi hlt
  rwa [List.take_length] at this

/-- The new numbers of used classes are different, from 1 to the number of used classes. -/
theorem numbers_spec {e : EClass} (he : e.Ok) {x : Nat} (hx : x < 256) :
    ∃ n, e.numbers[e.at x]? = some n ∧ 1 ≤ n ∧ n ≤ e.rearrage.sum ∧
      ∀ y, y < 256 → e.numbers[e.at y]? = some n → e.at x = e.at y := by
  have key : ∀ x, x < 256 → e.at x ≠ 0 ∧
      (List.map (fun i => e.vec.contains (i + 1)) (List.range e.sum))[e.at x - 1]? = some true := by
    intro x hx
    have h1 := he.2 x hx
    refine ⟨by omega, ?_⟩
    rw [List.getElem?_map, List.getElem?_range (by omega), Option.map_some]
    have : e.at x - 1 + 1 = e.at x := by omega
    rw [this]
    congr 1
    rw [List.contains_iff_mem]
    have hl : x < e.vec.length := by rw [he.1]; exact hx
    unfold EClass.at
    rw [List.getElem?_eq_getElem hl, Option.getD_some]
    exact List.getElem_mem hl
  have get : ∀ x, x < 256 → e.numbers[e.at x]? = some (0 +
      (List.take (e.at x - 1) (List.map (fun i => e.vec.contains (i + 1))
        (List.range e.sum))).countP id + 1) := by
    intro x hx
    have h1 := he.2 x hx
    have h2 := key x hx
    obtain ⟨j, hj⟩ : ∃ j, e.at x = j + 1 := ⟨e.at x - 1, by omega⟩
    unfold EClass.numbers
    rw [hj] at h2 ⊢
    rw [List.getElem?_cons_succ]
    exact numberLoop_get h2.2
  refine ⟨_, get x hx, by omega, ?_, fun y hy h => ?_⟩
  · have := countP_take_le (key x hx).2
    have hs : e.rearrage.sum = (List.map (fun i => e.vec.contains (i + 1))
        (List.range e.sum)).countP id := by
      rw [List.countP_map, List.countP_eq_length_filter]; rfl
    omega
  · rw [get y hy] at h
    have h := Option.some.inj h
    have hx1 := he.2 x hx
    have hy1 := he.2 y hy
    rcases Nat.lt_trichotomy (e.at x) (e.at y) with hlt | heq | hlt
    · have := countP_take_lt (key x hx).2 (show e.at x - 1 < e.at y - 1 by omega)
      omega
    · exact heq
    · have := countP_take_lt (key y hy).2 (show e.at y - 1 < e.at x - 1 by omega)
      omega

/-- `Rearrage` keeps the classes of all characters but 0, numbers them from 1 on, and gives the
character 0 the number 0. -/
theorem rearrage_spec {e : EClass} (he : e.Ok) :
    e.rearrage.vec.length = 256 ∧ e.rearrage.at 0 = 0 ∧
    (∀ x, 0 < x → x < 256 → 1 ≤ e.rearrage.at x ∧ e.rearrage.at x ≤ e.rearrage.sum) ∧
    (∀ x y, 0 < x → x < 256 → 0 < y → y < 256 →
      (e.rearrage.at x = e.rearrage.at y ↔ e.at x = e.at y)) := by
  have hl : e.rearrage.vec.length = 256 := by simp [EClass.rearrage, he.1]
  have hat : ∀ x, 0 < x → x < 256 → e.rearrage.at x = (e.numbers[e.at x]?).getD 0 := by
    intro x h0 hx
    unfold EClass.at EClass.rearrage
    simp only
    rw [List.getElem?_set_ne (by omega), List.getElem?_map]
    have : x < e.vec.length := by rw [he.1]; exact hx
    rw [List.getElem?_eq_getElem this]
    rfl
  refine ⟨hl, ?_, fun x h0 hx => ?_, fun x y h0 hx h0' hy => ?_⟩
  · unfold EClass.at EClass.rearrage
    simp only
    rw [List.getElem?_set_self (by simp [he.1])]
    rfl
  · obtain ⟨n, h1, h2, h3, _⟩ := numbers_spec he hx
    rw [hat x h0 hx, h1]
    exact ⟨h2, h3⟩
  · obtain ⟨n, h1, _, _, h4⟩ := numbers_spec he hx
    obtain ⟨n', h1', _, _, _⟩ := numbers_spec he hy
    rw [hat x h0 hx, hat y h0' hy]
    constructor
    · intro h
      rw [h1, h1'] at h
      simp at h
      exact h4 y hy (by rw [h1', h])
    · intro h; rw [h]

/-! ### `makeSet` -/

/-- Has a class been put into the set (or taken out of it, for a complement)? -/
def touched (neg : Bool) (cs : List Nat) (c : Nat) : Prop := if neg then c ∉ cs else c ∈ cs

theorem touched_put {neg : Bool} {cs : List Nat} {c d : Nat} :
    touched neg (classPut neg cs d) c ↔ touched neg cs c ∨ c = d := by
  cases neg with
  | false =>
    simp only [touched, classPut, Bool.false_eq_true, if_false, List.mem_cons]
    exact or_comm
  | true =>
    simp only [touched, classPut, if_true, List.mem_filter, bne_iff_ne]
    by_cases h : c = d <;> simp [h]

theorem makeSpan_spec {neg : Bool} {e : EClass} (he : e.vec.length = 256) :
    ∀ {n k last : Nat} {cs : List Nat}, k + n ≤ 256 → (last = 0 ∨ touched neg cs last) →
    ∃ cs', e.makeSpan neg n k last cs = some cs' ∧ ∀ c, c ≠ 0 →
      (touched neg cs' c ↔ touched neg cs c ∨ ∃ x, k ≤ x ∧ x < k + n ∧ e.at x = c) := by
  intro n
  induction n with
  | zero =>
    intro k last cs _ _
    refine ⟨cs, rfl, fun c _ => ⟨.inl, ?_⟩⟩
    rintro (h | ⟨x, h1, h2, _⟩)
    · exact h
    · omega
  | succ n ih =>
    intro k last cs hk hl
    have hlt : k < e.vec.length := by rw [he]; omega
    simp only [EClass.makeSpan, hlt, if_true]
    by_cases h : last = e.at k
    · rw [if_neg (by simpa using h)]
      obtain ⟨cs', i1, i2⟩ := ih (k := k + 1) (last := last) (cs := cs) (by omega) hl
      refine ⟨cs', i1, fun c hc => ?_⟩
      rw [i2 c hc]
      constructor
      · rintro (h1 | ⟨x, h1, h2, h3⟩)
        · exact .inl h1
        · exact .inr ⟨x, by omega, by omega, h3⟩
      · rintro (h1 | ⟨x, h1, h2, h3⟩)
        · exact .inl h1
        · by_cases hx : x = k
          · subst hx
            left
            rw [← h3, ← h]
            refine hl.resolve_left ?_
            intro h0; rw [h, h3] at h0; exact hc h0
          · exact .inr ⟨x, by omega, by omega, h3⟩
    · rw [if_pos h]
      obtain ⟨cs', i1, i2⟩ := ih (k := k + 1) (last := e.at k)
        (cs := classPut neg cs (e.at k)) (by omega) (.inr (touched_put.2 (.inr rfl)))
      refine ⟨cs', i1, fun c hc => ?_⟩
      rw [i2 c hc, touched_put]
      constructor
      · rintro ((h1 | h1) | ⟨x, h1, h2, h3⟩)
        · exact .inl h1
        · exact .inr ⟨k, by omega, by omega, h1.symm⟩
        · exact .inr ⟨x, by omega, by omega, h3⟩
      · rintro (h1 | ⟨x, h1, h2, h3⟩)
        · exact .inl (.inl h1)
        · by_cases hx : x = k
          · subst hx; exact .inl (.inr h3.symm)
          · exact .inr ⟨x, by omega, by omega, h3⟩

theorem makeLoop_spec {neg : Bool} {e : EClass} (he : e.vec.length = 256) :
    ∀ {sp : List (Nat × Nat)} {cs : List Nat}, (∀ f ∈ sp, f.1 ≤ f.2 ∧ f.2 < 256) →
    ∃ cs', e.makeLoop neg sp cs = some cs' ∧ ∀ c, c ≠ 0 →
      (touched neg cs' c ↔ touched neg cs c ∨ ∃ x, spansHave sp x = true ∧ e.at x = c) := by
  intro sp
  induction sp with
  | nil =>
    intro cs _
    exact ⟨cs, rfl, fun c _ => by simp [spansHave]⟩
  | cons f sp ih =>
    intro cs hb
    obtain ⟨p, q⟩ := f
    have hf := hb (p, q) (by simp)
    simp only at hf
    have hb' : ∀ f ∈ sp, f.1 ≤ f.2 ∧ f.2 < 256 := fun f h => hb f (by simp [h])
    unfold EClass.makeLoop
    by_cases hpq : p = q
    · subst hpq
      have hlt : p < e.vec.length := by rw [he]; omega
      rw [if_pos rfl, if_pos hlt]
      obtain ⟨cs', i1, i2⟩ := ih (cs := classPut neg cs (e.at p)) hb'
      refine ⟨cs', i1, fun c hc => ?_⟩
      rw [i2 c hc, touched_put]
      constructor
      · rintro ((h1 | h1) | ⟨x, h1, h2⟩)
        · exact .inl h1
        · exact .inr ⟨p, spansHave_cons.2 (.inl ⟨Nat.le_refl _, Nat.le_refl _⟩), h1.symm⟩
        · exact .inr ⟨x, spansHave_cons.2 (.inr h1), h2⟩
      · rintro (h1 | ⟨x, h1, h2⟩)
        · exact .inl (.inl h1)
        · rcases spansHave_cons.1 h1 with h3 | h3
          · have : x = p := by simp only at h3; omega
            subst this
            exact .inl (.inr h2.symm)
          · exact .inr ⟨x, h3, h2⟩
    · rw [if_neg hpq]
      obtain ⟨c1, g1, g2⟩ := makeSpan_spec (neg := neg) he (n := q + 1 - p) (k := p) (last := 0)
        (cs := cs) (by omega) (.inl rfl)
      obtain ⟨cs', i1, i2⟩ := ih (cs := c1) hb'
      refine ⟨cs', by rw [g1]; exact i1, fun c hc => ?_⟩
      rw [i2 c hc, g2 c hc]
      constructor
      · rintro ((h1 | ⟨x, h1, h2, h3⟩) | ⟨x, h1, h2⟩)
        · exact .inl h1
        · exact .inr ⟨x, spansHave_cons.2 (.inl ⟨h1, by simp only; omega⟩), h3⟩
        · exact .inr ⟨x, spansHave_cons.2 (.inr h1), h2⟩
      · rintro (h1 | ⟨x, h1, h2⟩)
        · exact .inl (.inl h1)
        · rcases spansHave_cons.1 h1 with h3 | h3
          · simp only at h3
            exact .inl (.inr ⟨x, by omega, by omega, h2⟩)
          · exact .inr ⟨x, h3, h2⟩

/-- The classes of a set that does not cut a class. -/
theorem makeSet_spec {e : EClass} (he : e.vec.length = 256)
    (hr : ∀ x, 0 < x → x < 256 → 1 ≤ e.at x ∧ e.at x ≤ e.sum) (h0 : e.at 0 = 0)
    {c : CharSet} (hw : CWf 0 c.map) (hlt : ∀ x, c.map.has x = true → x < 256)
    (hcut : ∀ x y, 0 < x → x < 256 → 0 < y → y < 256 → e.at x = e.at y →
      c.map.has x = c.map.has y) :
    ∃ cs, e.makeSet c = some cs ∧ ∀ x, 0 < x → x < 256 →
      cs.contains (e.at x) = (c.map.has x != c.negate) := by
  obtain ⟨sp, g1, g2, _, g4⟩ := hw.spans
  obtain ⟨cs, i1, i2⟩ := makeLoop_spec (neg := c.negate) he (sp := sp)
    (cs := if c.negate then (List.range e.sum).map (· + 1) else [])
    (fun f hf => ⟨(g4 f hf).1, hlt _ (g4 f hf).2.2⟩)
  refine ⟨cs, by simp [EClass.makeSet, g1, i1], fun x hx0 hx => ?_⟩
  have hc := hr x hx0 hx
  have key : touched c.negate cs (e.at x) ↔ c.map.has x = true := by
    rw [i2 _ (by omega)]
    have hn : ¬ touched c.negate (if c.negate then (List.range e.sum).map (· + 1) else [])
        (e.at x) := by
      cases c.negate with
      | false => simp [touched]
      | true =>
        simp only [touched, if_true, Classical.not_not, List.mem_map, List.mem_range]
        exact ⟨e.at x - 1, by omega, by omega⟩
    constructor
    · rintro (h | ⟨y, h1, h2⟩)
      · exact absurd h hn
      · rw [g2] at h1
        have hy : 0 < y := by
          rcases Nat.eq_zero_or_pos y with rfl | h
          · omega
          · exact h
        rw [← hcut y x hy (hlt y h1) hx0 hx h2]; exact h1
    · intro h
      exact .inr ⟨x, by rw [g2]; exact h, rfl⟩
  cases hneg : c.negate with
  | false =>
    rw [hneg] at key
    simp only [touched, Bool.false_eq_true, if_false] at key
    rw [Bool.eq_iff_iff, List.contains_iff_mem, key]
    simp
  | true =>
    rw [hneg] at key
    simp only [touched, if_true] at key
    rw [Bool.eq_iff_iff, List.contains_iff_mem]
    by_cases h : e.at x ∈ cs
    · have : c.map.has x = false := by
        rw [Bool.eq_false_iff]; exact fun h' => key.2 h' h
      simp [h, this]
    · simp [h, key.1 h]

end JPS
