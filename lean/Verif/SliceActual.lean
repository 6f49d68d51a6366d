import Verif.PathSerial
import Verif.Spec.SliceActual
/-!
# Slices below descendant steps: what the compiled table selects
-/

set_option autoImplicit false

namespace JPS
open Spec

theorem anyElem_eq : Step.anyElem = unslice := by
  funext s; cases s <;> rfl

theorem rule_iff {p q : List Step} (hp : p ≠ []) : Rule p q ↔ q ∈ prefsOf p := by
  constructor
  · rintro ⟨⟨r, hr⟩, h⟩
    rcases h with rfl | ⟨q', a, b, hq⟩
    · obtain ⟨Q, hQ, _⟩ := prefsOf_last hp
      rw [hQ]; simp
    · unfold prefsOf
      refine List.mem_append_left _ ?_
      rw [hr]
      exact mem_slicePrefs_of (pre := []) (endsSlice_iff.2 ⟨q', a, b, hq⟩)
  · intro h
    obtain ⟨h1, h2⟩ := mem_prefsOf h
    refine ⟨h2, ?_⟩
    rcases h1 with h1 | h1
    · exact .inr (endsSlice_iff.1 h1)
    · exact .inl h1

theorem slicePrefs_sorted : ∀ (p pre : List Step), (slicePrefs pre p).Pairwise (fun q q' => q.length < q'.length) ∧
    ∀ q ∈ slicePrefs pre p, pre.length < q.length
  | [], _ => ⟨.nil, by simp [slicePrefs]⟩
  | s :: r, pre => by
    obtain ⟨h1, h2⟩ := slicePrefs_sorted r (pre ++ [s])
    have h3 : ∀ q ∈ slicePrefs (pre ++ [s]) r, pre.length + 1 < q.length := by
      intro q hq; have := h2 q hq; simpa using this
    rw [slicePrefs]
    split
    · refine ⟨List.pairwise_cons.2 ⟨fun q hq => ?_, h1⟩, fun q hq => ?_⟩
      · simpa using h3 q hq
      · rcases List.mem_cons.1 hq with rfl | hq
        · simp
        · have := h3 q hq; omega
    · refine ⟨h1, fun q hq => ?_⟩
      have := h3 q hq; omega

theorem prefsOf_sorted {p : List Step} (hp : p ≠ []) : (prefsOf p).Pairwise (fun q q' => q.length < q'.length) := by
  unfold prefsOf
  split
  · rw [List.append_nil]; exact (slicePrefs_sorted p []).1
  · rename_i he
    refine List.pairwise_append.2 ⟨(slicePrefs_sorted p []).1, List.pairwise_singleton _ _, ?_⟩
    intro q hq q' hq'
    rw [List.mem_singleton] at hq'
    subst hq'
    obtain ⟨h1, q0, r, h2, h3, _⟩ := mem_slicePrefs hq
    rw [List.nil_append] at h3
    subst h3
    have : r ≠ [] := by
      rintro rfl
      rw [List.append_nil] at h2
      exact he (h2 ▸ h1)
    have := List.length_pos_iff.2 this
    rw [h2, List.length_append]
    omega

/-- The state after a location stands for the rule in force there. -/
theorem PathCtx.stop_force {p : List Step} {c : SCtx} (h : PathCtx p c) (l : Loc) :
    (c.dfa.stop (c.run (l.map c.col)) = 0 ∧ ∀ q, ¬ InForce p q l) ∨
    (∃ k q, (prefsOf p)[k]? = some q ∧ c.dfa.stop (c.run (l.map c.col)) = k + 1 ∧ InForce p q l ∧ ∀ q', InForce p q' l → q' = q) := by
  rcases h.stop_cases l with ⟨h1, h2⟩ | ⟨k, q, h1, h2, h3, h4⟩
  · refine .inl ⟨h1, ?_⟩
    rintro q ⟨hr, hm, _⟩
    rw [anyElem_eq] at hm
    exact h2 q ((rule_iff h.ne).1 hr) hm
  · have hle : ∀ q', Rule p q' → Matches (q'.map Step.anyElem) l → q'.length ≤ q.length := by
      intro q' hr hm
      rw [anyElem_eq] at hm
      obtain ⟨k', hk'⟩ := List.getElem?_of_mem ((rule_iff h.ne).1 hr)
      by_cases hlt : k < k'
      · exact absurd hm (h4 k' q' hlt hk')
      · by_cases he : k' = k
        · subst he
          rw [h1] at hk'
          cases hk'
          exact Nat.le_refl _
        · obtain ⟨hb1, e1⟩ := List.getElem?_eq_some_iff.1 hk'
          obtain ⟨hb2, e2⟩ := List.getElem?_eq_some_iff.1 h1
          have := List.pairwise_iff_getElem.1 (prefsOf_sorted h.ne) k' k hb1 hb2 (by omega)
          rw [e1, e2] at this
          omega
    have hf : InForce p q l := ⟨(rule_iff h.ne).2 (List.mem_of_getElem? h1), by rw [anyElem_eq]; exact h3, hle⟩
    refine .inr ⟨k, q, h1, h2, hf, ?_⟩
    rintro q' ⟨hr', hm', hle'⟩
    have e1 := hle q' hr' hm'
    have e2 := hle' q hf.1 hf.2.1
    obtain ⟨r, hr⟩ := hr'.1
    obtain ⟨r2, hr2⟩ := hf.1.1
    rw [hr] at hr2
    exact (List.append_inj hr2 (by omega)).1

/-- The last index of a location is in the slice of the rule in force. -/
def ForceOk (p : List Step) (l : Loc) : Prop := ∀ q a b, InForce p (q ++ [.slice a b]) l → inSlice a b (lastIdx l)

theorem inRange_slice {a b : Option Int} {i : Nat} (hi : (i : Int) < intMax) :
    sliceLo a ≤ (i : Int) ∧ (i : Int) < sliceHi b ↔ inSlice a b i := by
  constructor
  · rintro ⟨h1, h2⟩
    refine ⟨?_, ?_⟩
    · intro x hx; subst hx; exact h1
    · intro x hx; subst hx; exact h2
  · rintro ⟨h1, h2⟩
    refine ⟨?_, ?_⟩
    · cases a with
      | none => simp only [sliceLo, intMin, Option.getD_none]; omega
      | some x => exact h1 x rfl
    · cases b with
      | none => exact hi
      | some x => exact h2 x rfl

theorem PathCtx.inRange_force {p : List Step} {c : SCtx} (h : PathCtx p c) (hb : boundsOk p) (l : Loc)
    (hl : (lastIdx l : Int) < intMax) :
    (tableOf c).inRange (c.run (l.map c.col)) (lastIdx l) = true ↔ ForceOk p l := by
  unfold QDfa.inRange
  rw [c.lower_run _ (c.letters_map l), c.upper_run _ (c.letters_map l)]
  rcases h.stop_force l with ⟨h1, h2⟩ | ⟨k, q, h1, h2, h3, h4⟩
  · rw [h1]
    simp only [ne_eq, not_true_eq_false, if_false, beq_self_eq_true, Bool.and_self, Bool.true_or, true_iff]
    intro q a b hf
    exact absurd hf (h2 _)
  · rw [h2]
    simp only [ne_eq, Nat.add_eq_zero_iff, Nat.add_sub_cancel, h.range_get h1]
    simp only [Nat.succ_ne_self, and_false, not_false_eq_true, if_true, Bool.or_eq_true,
      Bool.and_eq_true, decide_eq_true_eq, beq_iff_eq]
    by_cases he : endsSlice q = true
    · have hne := rangeOf_ne hb (mem_prefsOf (List.mem_of_getElem? h1)).2.choose_spec he
      obtain ⟨q', a, b, rfl⟩ := endsSlice_iff.1 he
      have hrg : rangeOf (q' ++ [.slice a b]) = (sliceLo a, sliceHi b) := by simp [rangeOf]
      rw [hrg] at hne ⊢
      constructor
      · rintro (⟨e1, e2⟩ | ⟨e1, e2⟩)
        · rcases hne with hne | hne
          · exact absurd e1 hne
          · exact absurd e2 hne
        · intro q2 a2 b2 hf
          have := h4 _ hf
          obtain ⟨_, e⟩ := List.append_inj' this rfl
          cases e
          exact (inRange_slice hl).1 ⟨e1, e2⟩
      · intro hs
        exact .inr ((inRange_slice hl).2 (hs _ _ _ h3))
    · have e0 := rangeOf_not he
      constructor
      · intro _ q2 a2 b2 hf
        have := h4 _ hf
        exact absurd (endsSlice_iff.2 ⟨_, _, _, this.symm⟩) he
      · intro _; rw [e0]; exact .inl ⟨rfl, rfl⟩

open Classical in
theorem PathCtx.accept_force {p : List Step} {c : SCtx} (h : PathCtx p c) (hb : boundsOk p) (l : Loc) :
    (tableOf c).accept (c.run (l.map c.col)) = if Matches (p.map unslice) l then .output else .none := by
  rw [c.accept_run _ (c.letters_map l)]
  obtain ⟨Q, hQ, _⟩ := prefsOf_last h.ne
  have hpm : p ∈ prefsOf p := by rw [hQ]; simp
  rcases h.stop_cases l with ⟨h1, h2⟩ | ⟨k, q, h1, h2, h3, h4⟩
  · rw [h1, if_neg (h2 p hpm)]; simp [acceptOf]
  · rw [h2]
    have hq := List.mem_of_getElem? h1
    have hlen : (prefsOf p).length = Q.length + 1 := by rw [hQ]; simp
    have hklt : k < (prefsOf p).length := (List.getElem?_eq_some_iff.1 h1).1
    by_cases hm : Matches (p.map unslice) l
    · have hk : k + 1 = (prefsOf p).length := by
        apply Classical.byContradiction
        intro hne
        exact h4 Q.length p (by omega) (by rw [hQ]; simp) hm
      rw [if_pos hm]
      simp only [acceptOf, h.lastId, hk]
      rw [if_neg (by omega)]
      simp
    · have hqp : q ≠ p := fun e => hm (e ▸ h3)
      rw [if_neg hm]
      have hk : ¬ (prefsOf p).length = k + 1 := by
        intro hk
        have : k = Q.length := by omega
        subst this
        rw [hQ] at h1; simp at h1
        exact hqp h1.symm
      have he : endsSlice q = true := by
        rcases (mem_prefsOf hq).1 with h | h
        · exact h
        · exact absurd h hqp
      have hne := rangeOf_ne hb (mem_prefsOf hq).2.choose_spec he
      simp only [acceptOf, h.lastId, Nat.add_sub_cancel, h.range_get h1]
      have hk' : ¬ (some (prefsOf p).length = some (k + 1)) := by simpa using hk
      rw [if_neg (by omega), if_neg hk', if_pos]
      refine ⟨hne, ?_⟩
      split <;> simp

theorem chosen_iff {p : List Step} (hp : p ≠ []) {l : Loc} :
    Chosen p l ↔ Matches (p.map unslice) l ∧ ∀ n, n ≤ l.length → ForceOk p (l.take n) := by
  unfold Chosen
  rw [anyElem_eq]
  refine and_congr_right fun hm => ⟨fun h n hn q a b hf => ?_, fun h l1 i l2 hl q a b hf => ?_⟩
  · -- the rule ends in a slice, so the location ends in an element
    have hm2 := hf.2.1
    rw [List.map_append] at hm2
    obtain ⟨l3, l4, h34, _, h4⟩ := matches_split hm2
    simp only [List.map_cons, List.map_nil, Step.anyElem] at h4
    cases h4 with
    | all i hnil =>
      cases hnil
      have : lastIdx (l.take n) = i := by rw [h34]; simp [lastIdx, labelIdx]
      rw [this]
      refine h l3 i (l.drop n) ?_ q a b (h34 ▸ hf)
      have e := List.take_append_drop n l
      rw [h34, List.append_assoc] at e
      exact e.symm
  · have hle : (l1 ++ [Label.elem i]).length ≤ l.length := by rw [hl]; simp
    have htk : l.take (l1 ++ [Label.elem i]).length = l1 ++ [.elem i] := by
      rw [hl, show l1 ++ Label.elem i :: l2 = (l1 ++ [.elem i]) ++ l2 by simp]
      exact List.take_left' rfl
    have := h _ hle q a b (by rw [htk]; exact hf)
    rw [htk] at this
    simpa [lastIdx, labelIdx] using this

theorem lastIdx_lt {l : Loc} (hl : ∀ i, Label.elem i ∈ l → (i : Int) < intMax) (n : Nat) : (lastIdx (l.take n) : Int) < intMax := by
  unfold lastIdx
  cases h : (l.take n).getLast? with
  | none => simp [intMax]
  | some x =>
    cases x with
    | key k => simp [labelIdx, intMax]
    | elem i => exact hl i (List.mem_of_mem_take (List.mem_of_getLast? h))

open Classical in
/-- What the table decides at a location. -/
theorem PathCtx.matched_chosen {p : List Step} {c : SCtx} (h : PathCtx p c) (hb : boundsOk p) (l : Loc)
    (hl : ∀ i, Label.elem i ∈ l → (i : Int) < intMax) :
    (tableOf c).matchedType (locState (tableOf c) 1 0 l).1 (locState (tableOf c) 1 0 l).2 =
      if Chosen p l then .output else .none := by
  obtain ⟨e1, e2, e3⟩ := c.locState_eq h.ok l
  have hrg : ∀ n, (tableOf c).inRange (c.run ((l.take n).map c.col)) (lastIdx (l.take n)) = true ↔ ForceOk p (l.take n) :=
    fun n => h.inRange_force hb _ (lastIdx_lt hl n)
  have hrl := hrg l.length
  rw [List.take_length] at hrl
  rw [e1]
  by_cases hr : inRanges (tableOf c) (fun l => c.run (l.map c.col)) l
  · rw [e2 hr]
    unfold QDfa.matchedType
    rw [h.accept_force hb]
    have hr' : ∀ n, n < l.length → ForceOk p (l.take n) := fun n hn => (hrg n).1 (hr n hn)
    by_cases hm : Matches (p.map unslice) l
    · rw [if_pos hm]
      simp only
      by_cases hi : (tableOf c).inRange (c.run (l.map c.col)) (lastIdx l) = true
      · rw [if_pos hi, if_pos]
        rw [chosen_iff h.ne]
        refine ⟨hm, ?_⟩
        intro n hn
        by_cases hn' : n < l.length
        · exact hr' n hn'
        · have : l.take n = l := List.take_of_length_le (by omega)
          rw [this]; exact hrl.1 hi
      · rw [if_neg hi, if_neg]
        intro hm'
        have := ((chosen_iff h.ne).1 hm').2 l.length (Nat.le_refl _)
        rw [List.take_length] at this
        exact hi (hrl.2 this)
    · have hm' : ¬ Chosen p l := fun hm' => hm ((chosen_iff h.ne).1 hm').1
      rw [if_neg hm, if_neg hm']
  · rw [e3 hr]
    have : (tableOf c).matchedType 0 (lastIdx l) = .none := by
      unfold QDfa.matchedType; rw [c.accept_zero]
    rw [this, if_neg]
    intro hm
    apply hr
    intro n hn
    exact (hrg n).2 (((chosen_iff h.ne).1 hm).2 n (by omega))

end JPS
