import Verif.FilterCtx
import Verif.PathLang
import Verif.Predicate
import Verif.Props.Filter
/-!
# The automaton of a path with filters
-/

set_option autoImplicit false

namespace JPS
open Spec

/-! ### States are reachable -/

theorem wlRow_all {σ : Type} [DecidableEq σ] (next : σ → Nat → Option σ) (s : σ) (R : σ → Prop) :
    ∀ (as : List Nat) (L : List σ), (∀ a ∈ as, ∀ t, next s a = some t → R t) → (∀ t ∈ L, R t) →
    ∀ t ∈ (wlRow next s as L).1, R t
  | [], L, _, hL => hL
  | a :: as, L, hs, hL => by
    unfold wlRow
    cases hn : next s a with
    | none =>
      simp only
      exact wlRow_all next s R as L (fun b hb => hs b (by simp [hb])) hL
    | some t =>
      simp only
      refine wlRow_all next s R as _ (fun b hb => hs b (by simp [hb])) ?_
      intro x hx
      split at hx
      · exact hL x hx
      · rcases List.mem_append.1 hx with hx | hx
        · exact hL x hx
        · simp at hx; subst hx; exact hs a (by simp) x hn

theorem wlLoop_all {σ : Type} [DecidableEq σ] (next : σ → Nat → Option σ) (m : Nat) (R : σ → Prop)
    (hstep : ∀ s, R s → ∀ a, 1 ≤ a → a < m → ∀ t, next s a = some t → R t) :
    ∀ (fuel p : Nat) (L : List σ) (rows : List (List Nat)), (∀ t ∈ L, R t) →
    ∀ t ∈ (wlLoop next m fuel p L rows).1, R t
  | 0, _, L, _, hL => hL
  | fuel + 1, p, L, rows, hL => by
    unfold wlLoop
    cases hs : L[p]? with
    | none => exact hL
    | some s =>
      simp only
      refine wlLoop_all next m R hstep fuel (p + 1) _ _ ?_
      refine wlRow_all next s R _ L ?_ hL
      intro a ha t ht
      rw [List.mem_range'] at ha
      obtain ⟨i, hi, rfl⟩ := ha
      exact hstep s (hL s (List.mem_of_getElem? hs)) _ (by omega) (by omega) t ht

theorem idxOf_nodup {σ : Type} [DecidableEq σ] {L : List σ} (h : L.Nodup) {i : Nat} (hi : i < L.length) :
    L.idxOf L[i] = i := h.idxOf_getElem i hi

/-- Every state but 0 is the state after some word. -/
theorem SCtx.reach (c : SCtx) (j : Nat) (h0 : j ≠ 0) (hj : j < c.dfa.rows.length + 1) :
    ∃ w, c.letters w ∧ c.run w = j := by
  have hex := c.explored
  have hall := wlLoop_all (mixNext (c.rules.map (createDFA · (c.names.length + 3)))) (c.names.length + 3)
    (fun t => ∃ w, c.letters w ∧
      optRun (mixNext (c.rules.map (createDFA · (c.names.length + 3))))
        (some (List.replicate (c.rules.map (createDFA · (c.names.length + 3))).length 1)) w = some t)
    (by
      rintro s ⟨w, hw, hs⟩ a ha1 ha2 t ht
      refine ⟨w ++ [a], ?_, ?_⟩
      · intro x hx
        rcases List.mem_append.1 hx with hx | hx
        · exact hw x hx
        · simp at hx; subst hx; exact ⟨ha1, ha2⟩
      · rw [optRun_append, hs]; exact ht)
    (mixFuel (c.rules.map (createDFA · (c.names.length + 3)))) 0
    [List.replicate (c.rules.map (createDFA · (c.names.length + 3))).length 1] []
    (by intro t ht; simp at ht; subst ht; exact ⟨[], by intro x hx; simp at hx, by simp [optRun]⟩)
  have hlt : j - 1 < (wlLoop (mixNext (c.rules.map (createDFA · (c.names.length + 3)))) (c.names.length + 3)
        (mixFuel (c.rules.map (createDFA · (c.names.length + 3)))) 0
        [List.replicate (c.rules.map (createDFA · (c.names.length + 3))).length 1] []).1.length := by
    rw [← hex.len]; omega
  obtain ⟨w, hw, he⟩ := hall _ (List.getElem_mem hlt)
  refine ⟨w, hw, ?_⟩
  obtain ⟨_, h2⟩ := hex.run1 w hw
  have : c.run w = w.foldl (rowsNext c.dfa.rows) 1 := rfl
  rw [this, h2, he]
  simp only [numOf]
  rw [idxOf_nodup hex.nodup hlt]
  omega

/-! ### Rules that are plain words -/

/-- An item for one letter. -/
def litItem (a : Nat) : Item := ⟨some a, .none⟩

theorem lang_lits : ∀ (as w : List Nat), Lang (as.map litItem) w ↔ w = as
  | [], w => by
    constructor
    · intro h; cases h; rfl
    · rintro rfl; exact .nil
  | a :: as, w => by
    constructor
    · intro h
      cases h with
      | one h1 h2 h3 =>
        have := (lang_lits as _).1 h3
        have h2' := h2
        simp only [litItem, Item.edge, beq_iff_eq] at h2'
        rw [h2', this]
      | skip h1 _ => cases h1
      | more h1 _ _ => cases h1
      | last h1 _ _ => cases h1
      | again h1 _ _ => cases h1
    · rintro rfl
      exact .one rfl (by simp [litItem, Item.edge]) ((lang_lits as as).2 rfl)

theorem firstLoop_lits (as : List Nat) (j : Nat) : ∀ i ∈ firstLoop (as.map litItem) j, i = j := by
  intro i hi
  cases as with
  | nil => simp [firstLoop] at hi
  | cons a as => simpa [firstLoop, litItem, Item.nullable] using hi

theorem optRun_lits (as : List Nat) : ∀ (n : Nat) (w : List Nat), w.length = n → ∀ S,
    optRun (bNext (as.map litItem)) (some [(as.map litItem).length]) w = some S →
    (∀ p ∈ S, (w = [] ∧ p = as.length) ∨ p + 1 = w.length) ∧ w <+: as := by
  intro n
  induction n with
  | zero =>
    intro w hw S h
    have : w = [] := List.length_eq_zero_iff.1 hw
    subst this
    simp only [optRun, List.foldl_nil, Option.some.injEq] at h
    subst h
    exact ⟨by simp, List.nil_prefix⟩
  | succ n ih =>
    intro w hw S h
    obtain ⟨w, a, rfl⟩ : ∃ w' a, w = w' ++ [a] := by
      have hne : w ≠ [] := by intro h; rw [h] at hw; simp at hw
      exact ⟨w.dropLast, w.getLast hne, (List.dropLast_concat_getLast hne).symm⟩
    have hwn : w.length = n := by simpa using hw
    rw [optRun_append] at h
    cases ho : optRun (bNext (as.map litItem)) (some [(as.map litItem).length]) w with
    | none => rw [ho] at h; cases h
    | some S0 =>
      rw [ho] at h
      obtain ⟨i1, i2⟩ := ih w hwn S0 ho
      have h' : bNext (as.map litItem) S0 a = some S := h
      unfold bNext at h'
      split at h'
      · cases h'
      · rename_i hne
        simp only [Option.some.injEq] at h'
        have key : ∀ f ∈ nextSet (as.map litItem) S0 a, f = w.length ∧ as[f]? = some a := by
          intro f hf
          obtain ⟨it, p, e1, e2, e3, e4⟩ := mem_nextSet.1 hf
          rw [List.getElem?_map] at e1
          cases hg : as[f]? with
          | none => rw [hg] at e1; cases e1
          | some b =>
            rw [hg] at e1
            simp only [Option.map_some, Option.some.injEq] at e1
            subst e1
            simp only [litItem, Item.edge, beq_iff_eq] at e2
            subst e2
            refine ⟨?_, rfl⟩
            have hflt : f < as.length := (List.getElem?_eq_some_iff.1 hg).1
            rcases i1 p e3 with ⟨hw0, hp⟩ | hp
            · subst hw0
              unfold followB at e4
              rw [if_pos (by simpa using hp)] at e4
              simpa using firstLoop_lits as 0 f e4
            · unfold followB at e4
              have hple : p + 1 ≤ as.length := by rw [hp]; exact i2.length_le
              rw [if_neg (by rw [List.length_map]; omega)] at e4
              unfold follow at e4
              rw [List.mem_append] at e4
              rcases e4 with e4 | e4
              · rw [List.getElem?_map] at e4
                cases hgp : as[p]? with
                | none => rw [hgp] at e4; simp at e4
                | some b => rw [hgp] at e4; simp [litItem, Item.rep] at e4
              · rw [← List.map_drop] at e4
                rw [← hp]; exact firstLoop_lits _ _ f e4
        obtain ⟨f, hf⟩ := List.exists_mem_of_ne_nil _ hne
        obtain ⟨hf1, hf2⟩ := key f hf
        refine ⟨?_, ?_⟩
        · intro p hp
          rw [← h'] at hp
          right; rw [(key p hp).1]; simp
        · obtain ⟨r, hr⟩ := i2
          subst hr
          rw [hf1, List.getElem?_append_right (Nat.le_refl _)] at hf2
          cases r with
          | nil => simp at hf2
          | cons b r =>
            simp at hf2; subst hf2
            exact ⟨r, by simp⟩

/-! ### Words of steps -/

/-- The label a step reads. -/
def lab : Step → Label
  | .prop k => .key k
  | _ => .elem 0

/-- Words of names and array steps. -/
def SimpleWord (w : List Step) : Prop := ∀ s ∈ w, s = .all ∨ ∃ k, s = .prop k

theorem CleanWord.simple {w : List Step} (h : CleanWord w) : SimpleWord w := by
  intro s hs
  rcases h s hs with h | ⟨k, h, _⟩
  · exact .inl h
  · exact .inr ⟨k, h⟩

/-- The letters of a word. -/
def SCtx.word (c : SCtx) (w : List Step) : List Nat := (w.map lab).map c.col

/-- The state after a word. -/
def SCtx.state (c : SCtx) (w : List Step) : Nat := c.run (c.word w)

theorem itemsOf_clean (c : SCtx) : ∀ (w : List Step), CleanWord w → Named c.names w →
    itemsOf c.names w = (c.word w).map litItem
  | [], _, _ => rfl
  | s :: w, hw, hn => by
    have ih := itemsOf_clean c w (fun s hs => hw s (by simp [hs])) (fun s hs => hn s (by simp [hs]))
    unfold itemsOf SCtx.word at ih ⊢
    simp only [List.map_cons, List.flatMap_cons, ih]
    rcases hw s (by simp) with rfl | ⟨k, rfl, _⟩
    · rfl
    · have hk : k ∈ c.names := hn (.prop k) (by simp) k rfl
      simp only [seOf, SE.items, lab, SCtx.col, if_pos hk, litItem, List.cons_append, List.nil_append]

theorem word_inj (c : SCtx) : ∀ (q w : List Step), CleanWord q → Named c.names q → SimpleWord w →
    c.word w = c.word q → w = q
  | [], [], _, _, _, _ => rfl
  | [], s :: w, _, _, _, h => by simp [SCtx.word] at h
  | t :: q, [], _, _, _, h => by simp [SCtx.word] at h
  | t :: q, s :: w, hq, hn, hw, h => by
    simp only [SCtx.word, List.map_cons, List.cons.injEq] at h
    have ih := word_inj c q w (fun s hs => hq s (by simp [hs])) (fun s hs => hn s (by simp [hs]))
      (fun s hs => hw s (by simp [hs])) h.2
    rw [ih]
    congr 1
    have hkey : ∀ k, c.col (.key k) ≠ 2 := by
      intro k
      simp only [SCtx.col, nameCol]
      split <;> omega
    rcases hq t (by simp) with rfl | ⟨k, rfl, _⟩ <;> rcases hw s (by simp) with rfl | ⟨k', rfl⟩
    · rfl
    · exact absurd h.1 (hkey k')
    · exact absurd h.1.symm (hkey k)
    · have hk : k ∈ c.names := hn (.prop k) (by simp) k rfl
      have h1 := h.1
      simp only [lab, SCtx.col, if_pos hk, nameCol] at h1
      split at h1
      · rename_i hk'
        have he : c.names.idxOf k' = c.names.idxOf k := by omega
        have : k' = k := by
          have g1 := List.getElem_idxOf (List.idxOf_lt_length_of_mem hk')
          have g2 := List.getElem_idxOf (List.idxOf_lt_length_of_mem hk)
          rw [← g1, ← g2]; simp only [he]
        rw [this]
      · omega

/-! ### The finished context -/

/-- The registered words of a finished compilation: one of them is the result. -/
structure FWords (Q : List Reg) (T : List (Option Ast)) (c : SCtx) : Prop where
  inv : FInv [] (Q.map Reg.w) T c
  few : c.names.length ≤ 253
  nodup : (Q.map Reg.w).Nodup
  nonempty : ∀ r ∈ Q, r.w ≠ []
  out : ∃ i U, Q[i]? = some ⟨U, .out⟩ ∧ c.lastId = some (i + 1) ∧ ∀ j w, Q[j]? = some ⟨w, .out⟩ → j = i
  predEnd : ∀ w e ds, ⟨w, .pred e ds⟩ ∈ Q → ∃ w', w = w' ++ [.all]
  condEnd : ∀ w q, ⟨w, .cond q⟩ ∈ Q → ∃ w' k, w = w' ++ [.prop k]

/-- Every word has the subtree of its role, and filters know their conditions. -/
structure FTab (Q : List Reg) (c : SCtx) : Prop extends FWords Q (Q.map (·.role.tree)) c where
  maps : ∀ h w e ds, Q[h]? = some ⟨w, .pred e ds⟩ →
    MapOk c.mapping (Q.map (·.role.tree)) h (ds.map joinPath)

/-- What a word stands for. -/
def roleOf (Q : List Reg) (w : List Step) : Option Role := (Q.find? (fun r => r.w == w)).map Reg.role

theorem nodup_index {α : Type} {l : List α} (h : l.Nodup) {i j : Nat} {x : α} (hi : l[i]? = some x)
    (hj : l[j]? = some x) : i = j := by
  obtain ⟨h1, e1⟩ := List.getElem?_eq_some_iff.1 hi
  obtain ⟨h2, e2⟩ := List.getElem?_eq_some_iff.1 hj
  exact (List.getElem_inj (h₀ := h1) (h₁ := h2) h).1 (e1.trans e2.symm)

theorem roleOf_some {Q : List Reg} (hn : (Q.map Reg.w).Nodup) {w : List Step} {r : Role} :
    roleOf Q w = some r ↔ ⟨w, r⟩ ∈ Q := by
  unfold roleOf
  constructor
  · intro h
    cases hf : Q.find? (fun r => r.w == w) with
    | none => rw [hf] at h; cases h
    | some x =>
      rw [hf] at h
      simp only [Option.map_some, Option.some.injEq] at h
      have h1 := List.mem_of_find?_eq_some hf
      have h2 := List.find?_some hf
      simp only [beq_iff_eq] at h2
      obtain ⟨xw, xr⟩ := x
      simp only at h h2
      rw [← h, ← h2]; exact h1
  · intro h
    cases hf : Q.find? (fun r => r.w == w) with
    | none =>
      have := List.find?_eq_none.1 hf _ h
      simp at this
    | some x =>
      have h1 := List.mem_of_find?_eq_some hf
      have h2 := List.find?_some hf
      simp only [beq_iff_eq] at h2
      obtain ⟨i, hi⟩ := List.getElem?_of_mem h1
      obtain ⟨j, hj⟩ := List.getElem?_of_mem h
      have : i = j := nodup_index hn (x := w) (by rw [List.getElem?_map, hi]; simp [h2])
        (by rw [List.getElem?_map, hj]; rfl)
      subst this
      rw [hi] at hj
      simp only [Option.some.injEq] at hj
      rw [hj]; rfl

theorem roleOf_none {Q : List Reg} {w : List Step} : roleOf Q w = none ↔ w ∉ Q.map Reg.w := by
  unfold roleOf
  simp [List.find?_eq_none]

namespace FWords
variable {Q : List Reg} {T : List (Option Ast)} {c : SCtx}

theorem rules (h : FWords Q T c) : c.rules = (Q.map Reg.w).map (itemsOf c.names) := h.inv.rules

theorem ok (h : FWords Q T c) : c.Ok := by
  obtain ⟨i, U, hQ, _⟩ := h.out
  have hQ0 : Q ≠ [] := by rintro rfl; simp at hQ
  refine ⟨by rw [h.rules]; simpa using hQ0, ?_, h.inv.nodup, h.few⟩
  intro r hr it hit
  rw [h.rules] at hr
  obtain ⟨q, _, rfl⟩ := List.mem_map.1 hr
  unfold itemsOf at hit
  obtain ⟨se, hse, hit⟩ := List.mem_flatMap.1 hit
  obtain ⟨s, _, rfl⟩ := List.mem_map.1 hse
  cases s <;> simp [seOf, SE.items, nameCol] at hit
  all_goals first
    | (subst hit; simp)
    | (rcases hit with rfl | rfl <;> simp)

theorem letters (w : List Step) : c.letters (c.word w) := c.letters_map _

theorem state_lt (w : List Step) : c.state w < c.dfa.rows.length + 1 := c.run_lt _ (FWords.letters w)

/-- The index of a word decides the stop value of its state. -/
theorem stop_of_word (h : FWords Q T c) {x : List Nat} (hx : c.letters x) :
    (c.dfa.stop (c.run x) = 0 ∧ ∀ r ∈ Q, x ≠ c.word r.w) ∨
    (∃ k r, Q[k]? = some r ∧ x = c.word r.w ∧ c.dfa.stop (c.run x) = k + 1) := by
  have hl : ∀ r ∈ Q, (Lang (itemsOf c.names r.w) x ↔ x = c.word r.w) := by
    intro r hr
    have hm : r.w ∈ Q.map Reg.w := List.mem_map_of_mem hr
    rw [itemsOf_clean c r.w (h.inv.clean _ hm) (h.inv.named _ hm), lang_lits]
  by_cases hne : x = []
  · subst hne
    refine .inl ⟨buildDfa_start c.rules _, ?_⟩
    intro r hr he
    have := h.nonempty r hr
    cases hw : r.w with
    | nil => exact this hw
    | cons s w => rw [hw] at he; simp [SCtx.word] at he
  · rw [c.stop_run x hx hne, h.rules]
    rcases lastMatch_spec ((Q.map Reg.w).map (itemsOf c.names)) x 0 with ⟨h1, h2⟩ | ⟨k, r, h1, h2, h3, h4⟩
    · refine .inl ⟨h1, ?_⟩
      intro r hr he
      exact h2 (itemsOf c.names r.w) (List.mem_map_of_mem (List.mem_map_of_mem hr)) ((hl r hr).2 he)
    · rw [List.map_map, List.getElem?_map] at h1
      cases hg : Q[k]? with
      | none => rw [hg] at h1; cases h1
      | some r' =>
        rw [hg] at h1
        simp only [Option.map_some, Function.comp, Option.some.injEq] at h1
        subst h1
        exact .inr ⟨k, r', hg, (hl r' (List.mem_of_getElem? hg)).1 h3, by omega⟩

theorem stop_state (h : FWords Q T c) {w : List Step} (hw : SimpleWord w) :
    (c.dfa.stop (c.state w) = 0 ∧ roleOf Q w = none) ∨
    (∃ k r, Q[k]? = some ⟨w, r⟩ ∧ roleOf Q w = some r ∧ c.dfa.stop (c.state w) = k + 1) := by
  rcases h.stop_of_word (FWords.letters (c := c) w) with ⟨h1, h2⟩ | ⟨k, r, h1, h2, h3⟩
  · refine .inl ⟨h1, roleOf_none.2 ?_⟩
    intro hm
    obtain ⟨r, hr, rfl⟩ := List.mem_map.1 hm
    exact h2 r hr rfl
  · have hm : r.w ∈ Q.map Reg.w := List.mem_map_of_mem (List.mem_of_getElem? h1)
    have := word_inj c r.w w (h.inv.clean _ hm) (h.inv.named _ hm) hw h2
    subst this
    exact .inr ⟨k, r.role, h1, (roleOf_some h.nodup).2 (List.mem_of_getElem? h1), h3⟩

theorem ranges_zero (h : FWords Q T c) (k : Nat) : c.ranges.getD k (0, 0) = (0, 0) := by
  rw [h.inv.ranges, List.getD_eq_getElem?_getD, List.getElem?_map]
  cases (Q.map Reg.w)[k]? <;> rfl

theorem inRange (h : FWords Q T c) (w : List Step) (n : Nat) : (tableOf c).inRange (c.state w) n = true := by
  unfold QDfa.inRange
  have e1 := c.lower_run _ (FWords.letters (c := c) w)
  have e2 := c.upper_run _ (FWords.letters (c := c) w)
  rw [h.ranges_zero] at e1 e2
  have e1' : (tableOf c).lower (c.state w) = 0 := by
    show (tableOf c).lower (c.run (c.word w)) = 0
    rw [e1]; simp
  have e2' : (tableOf c).upper (c.state w) = 0 := by
    show (tableOf c).upper (c.run (c.word w)) = 0
    rw [e2]; simp
  rw [e1', e2']; rfl

theorem goKey (h : FWords Q T c) (w : List Step) (n : Nat) (k : Str) :
    (tableOf c).go (c.state w) n (some k) = c.state (w ++ [.prop k]) := by
  unfold QDfa.go
  rw [if_pos (h.inRange w n)]
  have := c.nextByStr_run h.ok (c.word w) (FWords.letters w) k
  unfold SCtx.state
  rw [this]
  simp [SCtx.word, lab]

theorem goArr (h : FWords Q T c) (w : List Step) (n : Nat) :
    (tableOf c).go (c.state w) n none = c.state (w ++ [.all]) := by
  unfold QDfa.go
  rw [if_pos (h.inRange w n)]
  have := c.nextByStr_arr h.ok (c.word w) (FWords.letters w)
  unfold SCtx.state
  rw [this]
  simp [SCtx.word, lab, SCtx.col]

/-- The accept type of a role. -/
def accOf : Option Role → Acc
  | none => .none
  | some (.pred _ _) => .predicate
  | some (.cond _) => .condition
  | some .out => .output

theorem byArray_all (h : FWords Q T c) (w : List Step) : c.byArray (c.state (w ++ [.all])) = true := by
  have := c.byArray_run h.ok (c.word w) (FWords.letters w)
  unfold SCtx.state
  rw [show c.word (w ++ [.all]) = c.word w ++ [2] by simp [SCtx.word, lab, SCtx.col]]
  exact this

theorem byArray_prop (h : FWords Q T c) {w : List Step} {k : Str} {r : Role} (hm : ⟨w ++ [.prop k], r⟩ ∈ Q) :
    c.byArray (c.state (w ++ [.prop k])) = false := by
  have hw : SimpleWord (w ++ [.prop k]) := (h.inv.clean _ (List.mem_map_of_mem hm)).simple
  have hstop : ∃ i, Q[i]? = some ⟨w ++ [.prop k], r⟩ ∧ c.dfa.stop (c.state (w ++ [.prop k])) = i + 1 := by
    rcases h.stop_state hw with ⟨_, h2⟩ | ⟨i, r', h1, h2, h3⟩
    · rw [(roleOf_some h.nodup).2 hm] at h2; cases h2
    · rw [(roleOf_some h.nodup).2 hm] at h2
      simp only [Option.some.injEq] at h2; subst h2
      exact ⟨i, h1, h3⟩
  obtain ⟨i, hi, hs⟩ := hstop
  rw [Bool.eq_false_iff]
  intro hb
  unfold SCtx.byArray at hb
  rw [List.any_eq_true] at hb
  obtain ⟨j, hj, he⟩ := hb
  rw [List.mem_range] at hj
  simp only [beq_iff_eq] at he
  have ht := c.table_eq h.ok j 2 hj (by omega) (by omega)
  have e : (tableOf c).table j 2 =
      if j < c.dfa.rows.length + 1 ∧ 2 < c.names.length + 3 then (compress c.dfa.rows).nextState j 2
      else 0 := rfl
  rw [e, if_pos ⟨hj, by omega⟩, he] at ht
  by_cases hj0 : j = 0
  · subst hj0
    have : c.dfa.next 0 2 = 0 := by simp [SDfa.next, rowsNext]
    rw [this] at ht
    rw [ht] at hs
    simp [SDfa.stop] at hs
  · obtain ⟨x, hx, hxr⟩ := c.reach j hj0 hj
    have hx2 : c.letters (x ++ [2]) := by
      intro a ha
      rcases List.mem_append.1 ha with ha | ha
      · exact hx a ha
      · simp at ha; subst ha; omega
    have hrun : c.run (x ++ [2]) = c.state (w ++ [.prop k]) := by
      rw [ht, ← hxr]; simp [SCtx.run]
    rcases h.stop_of_word hx2 with ⟨h1, _⟩ | ⟨i', r', h1, h2, h3⟩
    · rw [hrun, hs] at h1; omega
    · rw [hrun, hs] at h3
      have : i = i' := by omega
      subst this
      rw [hi] at h1
      simp only [Option.some.injEq] at h1
      subst h1
      simp only [SCtx.word, List.map_append, List.map_cons, List.map_nil, lab] at h2
      have := List.append_inj_right' h2 (by simp)
      simp only [List.cons.injEq, and_true, SCtx.col, nameCol] at this
      split at this <;> omega

theorem accept (h : FWords Q T c) {w : List Step} (hw : SimpleWord w) :
    (tableOf c).accept (c.state w) = accOf (roleOf Q w) := by
  unfold SCtx.state
  rw [c.accept_run _ (FWords.letters w)]
  have hst := h.stop_state hw
  unfold SCtx.state at hst
  rcases hst with ⟨h1, h2⟩ | ⟨k, r, h1, h2, h3⟩
  · rw [h1, h2]; rfl
  · rw [h3, h2]
    obtain ⟨i, U, hi, hid, huniq⟩ := h.out
    unfold acceptOf
    rw [if_neg (Nat.succ_ne_zero k), hid, Nat.add_sub_cancel, h.ranges_zero]
    simp only [ne_eq, not_true_eq_false, or_self, false_and, if_false, Option.some.injEq]
    have hm := List.mem_of_getElem? h1
    by_cases hk : k = i
    · rw [if_pos (by omega)]
      subst hk
      rw [hi] at h1
      simp at h1
      rw [← h1.2]; rfl
    · rw [if_neg (by omega)]
      cases r with
      | out => exact absurd (huniq k w h1) hk
      | pred e ds =>
        obtain ⟨w', rfl⟩ := h.predEnd w e ds hm
        have := h.byArray_all w'
        unfold SCtx.state at this
        rw [this]; rfl
      | cond q =>
        obtain ⟨w', k', rfl⟩ := h.condEnd w q hm
        have := h.byArray_prop hm
        unfold SCtx.state at this
        rw [this]; rfl

theorem matched (h : FWords Q T c) {w : List Step} (hw : SimpleWord w) (n : Nat) :
    (tableOf c).matchedType (c.state w) n = accOf (roleOf Q w) := by
  unfold QDfa.matchedType
  rw [h.accept hw, h.inRange w n]
  cases roleOf Q w with
  | none => rfl
  | some r => cases r <;> rfl

theorem stopQ (h : FWords Q T c) (i : Nat) : (tableOf c).stop i = if i < c.dfa.rows.length + 1 then c.dfa.stop i else 0 := by
  have e : (tableOf c).stop i = if i < c.dfa.rows.length + 1 then stopOf c (c.dfa.stop i) else 0 := rfl
  rw [e]
  unfold stopOf
  rw [h.ranges_zero]
  simp

/-! ### Number of states -/

theorem run_prefix (h : FWords Q T c) {x : List Nat} (hx : c.letters x) (hne : c.run x ≠ 0) :
    ∃ r ∈ Q, x <+: c.word r.w := by
  have hz := buildDfa_zero c.rules h.ok.rules (c.names.length + 3) x hx
  have : ¬ ∀ r ∈ c.rules, x.foldl (createDFA r (c.names.length + 3)).next 1 = 0 := fun hall => hne (hz.2 hall)
  have : ∃ r ∈ c.rules, x.foldl (createDFA r (c.names.length + 3)).next 1 ≠ 0 := by
    apply Classical.byContradiction
    intro hno
    apply this
    intro r hr
    apply Classical.byContradiction
    intro hn; exact hno ⟨r, hr, hn⟩
  obtain ⟨items, hi, hn⟩ := this
  rw [h.rules] at hi
  obtain ⟨w, hw, rfl⟩ := List.mem_map.1 hi
  have hw' := hw
  obtain ⟨r, hr, rfl⟩ := List.mem_map.1 hw'
  rw [ne_eq, createDFA_zero _ _ x hx, itemsOf_clean c r.w (h.inv.clean _ hw) (h.inv.named _ hw)] at hn
  cases ho : optRun (bNext ((c.word r.w).map litItem)) (some [((c.word r.w).map litItem).length]) x with
  | none => exact absurd ho hn
  | some S => exact ⟨r, hr, (optRun_lits (c.word r.w) x.length x rfl S ho).2⟩

theorem states_le (h : FWords Q T c) {D : List (List Step)}
    (hD : ∀ r ∈ Q, ∀ n, n < r.w.length → r.w.take (n + 1) ∈ D) : (tableOf c).statesNum ≤ 2 + D.length := by
  have e : (tableOf c).statesNum = c.dfa.rows.length + 1 := rfl
  rw [e]
  have hsub : List.range' 1 c.dfa.rows.length ⊆ ([] :: D).map fun v => c.run (c.word v) := by
    intro j hj
    rw [List.mem_range'] at hj
    obtain ⟨i, hi, rfl⟩ := hj
    obtain ⟨x, hx, hr⟩ := c.reach (1 + 1 * i) (by omega) (by omega)
    obtain ⟨r, hrq, hp⟩ := h.run_prefix hx (by omega)
    have hl := hp.length_le
    rw [show (c.word r.w).length = r.w.length by simp [SCtx.word]] at hl
    have hx' : c.word (r.w.take x.length) = x := by
      rw [show c.word (r.w.take x.length) = (c.word r.w).take x.length by simp [SCtx.word, List.map_take]]
      exact (List.prefix_iff_eq_take.1 hp).symm
    refine List.mem_map.2 ⟨r.w.take x.length, ?_, by rw [hx', hr]⟩
    cases hn : x.length with
    | zero => simp
    | succ n => exact List.mem_cons_of_mem _ (hD r hrq n (by omega))
  have := List.Nodup.length_le_of_subset List.nodup_range' hsub
  rw [List.length_range', List.length_map, List.length_cons] at this
  omega

end FWords

/-! ### The context of the filter -/

namespace FTab
variable {Q : List Reg} {c : SCtx}

theorem subtrees_of (h : FTab Q c) {i k : Nat} {r : Reg} (hi : i < c.dfa.rows.length + 1) (hs : c.dfa.stop i = k + 1)
    (hk : Q[k]? = some r) : (contextOf c).subtrees i = r.role.tree := by
  have e : (contextOf c).subtrees i = if (tableOf c).stop i = 0 then none else c.trees.getD ((tableOf c).stop i - 1) none := rfl
  rw [e, h.stopQ, if_pos hi, hs, if_neg (Nat.succ_ne_zero k), Nat.add_sub_cancel, h.inv.trees,
    List.getD_eq_getElem?_getD, List.getElem?_map, hk]
  rfl

theorem subtrees (h : FTab Q c) {w : List Step} (hw : SimpleWord w) :
    (contextOf c).subtrees (c.state w) = (roleOf Q w).bind Role.tree := by
  rcases h.stop_state hw with ⟨h1, h2⟩ | ⟨k, r, h1, h2, h3⟩
  · have e : (contextOf c).subtrees (c.state w) = if (tableOf c).stop (c.state w) = 0 then none
        else c.trees.getD ((tableOf c).stop (c.state w) - 1) none := rfl
    rw [e, h.stopQ, h1, h2]; simp
  · rw [h.subtrees_of (FWords.state_lt w) h3 h1, h2]; rfl

/-- The state of a registered word is found by `acc_id2state`. -/
theorem accId (h : FTab Q c) {x : Nat} {r : Reg} (hx : Q[x]? = some r) :
    ∃ i, accIdState c.dfa (x + 1) = some i ∧ (contextOf c).subtrees i = r.role.tree := by
  have hw : SimpleWord r.w := (h.inv.clean _ (List.mem_map_of_mem (List.mem_of_getElem? hx))).simple
  have hs : c.dfa.stop (c.state r.w) = x + 1 := by
    rcases h.stop_state hw with ⟨_, h2⟩ | ⟨k, r', h1, _, h3⟩
    · exact absurd (List.mem_map_of_mem (List.mem_of_getElem? hx)) (roleOf_none.1 h2)
    · have : k = x := nodup_index h.nodup (x := r.w) (by rw [List.getElem?_map, h1]; rfl)
        (by rw [List.getElem?_map, hx]; rfl)
      rw [h3, this]
  unfold accIdState
  cases hf : (List.range (c.dfa.rows.length + 1)).find? fun i => c.dfa.stop i == x + 1 with
  | none =>
    have := List.find?_eq_none.1 hf (c.state r.w) (List.mem_range.2 (FWords.state_lt r.w))
    simp [hs] at this
  | some i =>
    refine ⟨i, rfl, ?_⟩
    have h1 := List.mem_range.1 (List.mem_of_find?_eq_some hf)
    have h2 := List.find?_some hf
    simp only [beq_iff_eq] at h2
    exact h.subtrees_of h1 h2 hx

/-- The condition names of a filter. -/
theorem condNames_of (h : FTab Q c) {i k : Nat} {w : List Step} {e : Expr Num} {ds : List (List Str)}
    (hi : i < c.dfa.rows.length + 1) (hs : c.dfa.stop i = k + 1) (hk : Q[k]? = some ⟨w, .pred e ds⟩) :
    ((contextOf c).mapping i).map (condName (contextOf c)) = ds.map fun q => some (joinPath q) := by
  obtain ⟨xs, m1, m2⟩ := h.maps k w e ds hk
  have e1 : (contextOf c).mapping i = if (tableOf c).stop i = 0 then [] else
      (((c.mapping.find? (fun p => p.1 == (tableOf c).stop i - 1)).map Prod.snd).getD []).map
        (fun x => accIdState c.dfa (x + 1)) := rfl
  rw [e1, h.stopQ, if_pos hi, hs, if_neg (Nat.succ_ne_zero k), Nat.add_sub_cancel, m1]
  simp only [Option.getD_some, List.map_map]
  have : ∀ (xs : List Nat) (ns : List Str), xs.map (fun x => (Q.map (·.role.tree))[x]?) = ns.map (fun n => some (some (.var n))) →
      xs.map (condName (contextOf c) ∘ fun x => accIdState c.dfa (x + 1)) = ns.map some := by
    intro xs
    induction xs with
    | nil => intro ns hn; cases ns <;> simp at hn ⊢
    | cons x xs ih =>
      intro ns hn
      cases ns with
      | nil => simp at hn
      | cons n ns =>
        simp only [List.map_cons, List.cons.injEq] at hn ⊢
        refine ⟨?_, ih ns hn.2⟩
        have hx := hn.1
        rw [List.getElem?_map] at hx
        cases hg : Q[x]? with
        | none => rw [hg] at hx; cases hx
        | some r =>
          rw [hg] at hx
          simp only [Option.map_some, Option.some.injEq] at hx
          obtain ⟨i', a1, a2⟩ := h.accId hg
          simp only [Function.comp, condName, a1, Option.bind_some, a2, hx, Ast.str?]
  rw [this xs _ m2, List.map_map]
  rfl

theorem predStates (h : FTab Q c) {w : List Step} {e : Expr Num} {ds : List (List Str)}
    (hr : roleOf Q w = some (.pred e ds)) (hw : SimpleWord w) : c.state w ∈ (contextOf c).predStates := by
  show c.state w ∈ ((List.range (tableOf c).statesNum).filter fun i =>
    (tableOf c).stop i ≠ 0 && (tableOf c).accept i == .predicate)
  rw [List.mem_filter, List.mem_range]
  refine ⟨FWords.state_lt w, ?_⟩
  rw [h.accept hw, hr, h.stopQ, if_pos (FWords.state_lt w)]
  rcases h.stop_state hw with ⟨_, h2⟩ | ⟨k, r', h1, _, h3⟩
  · rw [hr] at h2; cases h2
  · rw [h3]; simp [FWords.accOf]

theorem initConds (h : FTab Q c) {w : List Step} {e : Expr Num} {ds : List (List Str)}
    (hr : roleOf Q w = some (.pred e ds)) (hw : SimpleWord w) :
    (PF.init (contextOf c)).conds (c.state w) = some (condTable (ds.map joinPath) fun _ => none) := by
  show (if c.state w ∈ (contextOf c).predStates then
      some (((contextOf c).mapping (c.state w)).filterMap fun x => (condName (contextOf c) x).map fun n => (n, none))
    else none) = _
  rw [if_pos (h.predStates hr hw)]
  rcases h.stop_state hw with ⟨_, h2⟩ | ⟨k, r', h1, h2, h3⟩
  · rw [hr] at h2; cases h2
  · rw [hr] at h2
    simp only [Option.some.injEq] at h2; subst h2
    have := h.condNames_of (FWords.state_lt w) h3 h1
    congr 1
    generalize (contextOf c).mapping (c.state w) = M at *
    unfold condTable
    rw [List.map_map]
    clear h1 hr
    induction M generalizing ds with
    | nil => cases ds <;> simp at this ⊢
    | cons x M ih =>
      cases ds with
      | nil => simp at this
      | cons q ds =>
        simp only [List.map_cons, List.cons.injEq] at this
        rw [List.filterMap_cons, this.1]
        simp only [Option.map_some, List.map_cons, ih this.2]
        rfl

end FTab

end JPS
