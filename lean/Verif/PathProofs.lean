import Verif.PathLang
/-!
# Result states of a path without filters
-/

namespace JPS
open Spec

/-- No descendant step stands before a slice. -/
def noDescBeforeSlice : List Step → Bool
  | [] => true
  | s :: r => (!isDesc s || r.all (fun t => !isSlice t)) && noDescBeforeSlice r

theorem endsSlice_iff {q : List Step} : endsSlice q = true ↔ ∃ q' a b, q = q' ++ [.slice a b] := by
  constructor
  · intro h
    unfold endsSlice at h
    cases hl : q.getLast? with
    | none => rw [hl] at h; cases h
    | some s =>
      rw [hl] at h
      obtain ⟨q', rfl⟩ := List.getLast?_eq_some_iff.1 hl
      cases s with
      | slice a b => exact ⟨q', a, b, rfl⟩
      | _ => simp [isSlice] at h
  · rintro ⟨q', a, b, rfl⟩; simp [endsSlice, isSlice]

theorem noDesc_prefix {p q r : List Step} (h : noDescBeforeSlice p = true) (hp : p = q ++ r)
    (hq : endsSlice q = true) : ∀ s ∈ q, isDesc s = false := by
  induction q generalizing p with
  | nil => intro s hs; simp at hs
  | cons x q ih =>
    subst hp
    simp only [List.cons_append, noDescBeforeSlice, Bool.and_eq_true, Bool.or_eq_true,
      Bool.not_eq_true'] at h
    obtain ⟨h1, h2⟩ := h
    cases q with
    | nil =>
      intro s hs
      simp at hs; subst hs
      cases s <;> simp_all [endsSlice, isSlice, isDesc]
    | cons y q =>
      have hq' : endsSlice (y :: q) = true := by simpa [endsSlice, List.getLast?_cons_cons] using hq
      have hx : isDesc x = false := by
        rcases h1 with h1 | h1
        · exact h1
        · obtain ⟨q', a, b, he⟩ := endsSlice_iff.1 hq'
          rw [he] at h1
          simp [isSlice] at h1
      intro s hs
      rcases List.mem_cons.1 hs with rfl | hs
      · exact hx
      · exact ih h2 rfl hq' s hs

theorem mem_slicePrefs_of {pre q r : List Step} (hq : endsSlice q = true) :
    pre ++ q ∈ slicePrefs pre (q ++ r) := by
  obtain ⟨q', a, b, rfl⟩ := endsSlice_iff.1 hq
  induction q' generalizing pre with
  | nil => simp [slicePrefs, isSlice]
  | cons s q' ih =>
    have := ih (pre := pre ++ [s]) (by simp [endsSlice, isSlice])
    simp only [List.cons_append, slicePrefs, List.mem_append]
    right; simpa using this

theorem prefsOf_last {p : List Step} (hp : p ≠ []) :
    ∃ Q, prefsOf p = Q ++ [p] ∧ ∀ q ∈ Q, q.length < p.length := by
  obtain ⟨p, s, rfl⟩ : ∃ p' s, p = p' ++ [s] :=
    ⟨p.dropLast, p.getLast hp, (List.dropLast_concat_getLast hp).symm⟩
  refine ⟨slicePrefs [] p, ?_, ?_⟩
  · unfold prefsOf
    rw [slicePrefs_snoc]
    by_cases h : isSlice s = true
    · simp [endsSlice, h]
    · have h : isSlice s = false := by simpa using h
      simp [endsSlice, h]
  · intro q hq
    obtain ⟨_, q', r, h1, h2, h3⟩ := mem_slicePrefs hq
    subst h1; simp at h2; subst h2
    simp

theorem mem_prefsOf {p q : List Step} (h : q ∈ prefsOf p) :
    (endsSlice q = true ∨ q = p) ∧ ∃ r, p = q ++ r := by
  unfold prefsOf at h
  rcases List.mem_append.1 h with h | h
  · obtain ⟨h1, q', r, h2, h3, _⟩ := mem_slicePrefs h
    simp at h3; subst h3
    exact ⟨.inl h1, r, h2⟩
  · split at h
    · simp at h
    · simp at h; subst h; exact ⟨.inr rfl, [], by simp⟩

theorem unslice_noDesc {q : List Step} (h : ∀ s ∈ q, isDesc s = false) :
    ∀ s ∈ q.map unslice, isDesc s = false := by
  intro s hs
  obtain ⟨t, ht, rfl⟩ := List.mem_map.1 hs
  rw [isDesc_unslice]; exact h t ht

/-- At most one of the registered prefixes matches a location. -/
theorem prefs_unique {p : List Step} (hd : noDescBeforeSlice p = true) {q q' : List Step} {l : Loc}
    (hq : q ∈ prefsOf p) (hq' : q' ∈ prefsOf p) (h : Matches (q.map unslice) l)
    (h' : Matches (q'.map unslice) l) : q = q' := by
  have key : ∀ {q q' : List Step}, q ∈ prefsOf p → q' ∈ prefsOf p → Matches (q.map unslice) l →
      Matches (q'.map unslice) l → endsSlice q = true → q = q' := by
    intro q q' hq hq' h h' he
    obtain ⟨_, r, hr⟩ := mem_prefsOf hq
    obtain ⟨h2, r', hr'⟩ := mem_prefsOf hq'
    have hl := matches_length h (unslice_noDesc (noDesc_prefix hd hr he))
    have hle := matches_length_le h'
    rw [List.length_map] at hl hle
    have hlen : q.length = q'.length := by
      rcases h2 with h2 | h2
      · have hl' := matches_length h' (unslice_noDesc (noDesc_prefix hd hr' h2))
        rw [List.length_map] at hl'; omega
      · have := congrArg List.length hr
        rw [List.length_append, ← h2] at this
        omega
    have := hr.symm.trans hr'
    exact (List.append_inj this hlen).1
  obtain ⟨h1, _⟩ := mem_prefsOf hq
  obtain ⟨h1', _⟩ := mem_prefsOf hq'
  rcases h1 with h1 | h1
  · exact key hq hq' h h' h1
  · rcases h1' with h1' | h1'
    · exact (key hq' hq h' h h1').symm
    · rw [h1, h1']

/-! ### The finished context -/

/-- Context of a path. -/
structure PathCtx (p : List Step) (c : SCtx) : Prop where
  ne : p ≠ []
  small : fewNames p
  inv : CtxInv p (prefsOf p) c
  lastId : c.lastId = some (prefsOf p).length

theorem mem_distinct {k : Str} : ∀ {l : List Str}, k ∈ distinct l ↔ k ∈ l
  | [] => Iff.rfl
  | x :: r => by
    unfold distinct
    split
    · rename_i hx
      rw [mem_distinct, List.mem_cons]
      exact ⟨.inr, fun h => h.elim (fun e => e ▸ hx) id⟩
    · rw [List.mem_cons, List.mem_cons, mem_distinct]

theorem distinct_length_le : ∀ (l : List Str), (distinct l).length ≤ l.length
  | [] => Nat.le_refl _
  | x :: r => by
    have := distinct_length_le r
    unfold distinct
    split <;> simp only [List.length_cons] <;> omega

/-- A path of at most 253 steps has few names. -/
theorem fewNames_of_length {p : List Step} (h : p.length ≤ 253) : fewNames p := by
  have h1 := distinct_length_le (p.filterMap stepName)
  have h2 := List.length_filterMap_le stepName p
  unfold fewNames
  omega

theorem PathCtx.names_le {p : List Step} {c : SCtx} (h : PathCtx p c) : c.names.length ≤ 253 := by
  have hsub : c.names ⊆ distinct (p.filterMap stepName) := by
    intro k hk
    obtain ⟨s, h1, h2⟩ := h.inv.from_ k hk
    exact mem_distinct.2 (List.mem_filterMap.2 ⟨s, h1, h2⟩)
  have h1 := List.Nodup.length_le_of_subset h.inv.nodup hsub
  have : (distinct (p.filterMap stepName)).length ≤ 253 := h.small
  omega

theorem PathCtx.ok {p : List Step} {c : SCtx} (h : PathCtx p c) : c.Ok := by
  refine ⟨?_, ?_, h.inv.nodup, h.names_le⟩
  · obtain ⟨Q, hQ, _⟩ := prefsOf_last h.ne
    rw [h.inv.rules, hQ]; simp
  · intro r hr it hit
    rw [h.inv.rules] at hr
    obtain ⟨q, _, rfl⟩ := List.mem_map.1 hr
    unfold itemsOf at hit
    obtain ⟨se, hse, hit⟩ := List.mem_flatMap.1 hit
    obtain ⟨s, _, rfl⟩ := List.mem_map.1 hse
    cases s <;> simp [seOf, SE.items, nameCol] at hit
    all_goals first
      | (subst hit; simp)
      | (rcases hit with rfl | rfl <;> simp)

/-- Which registered prefix a state stands for. -/
theorem PathCtx.stop_cases {p : List Step} {c : SCtx} (h : PathCtx p c) (l : Loc) :
    (c.dfa.stop (c.run (l.map c.col)) = 0 ∧ ∀ q ∈ prefsOf p, ¬ Matches (q.map unslice) l) ∨
    (∃ k q, (prefsOf p)[k]? = some q ∧ c.dfa.stop (c.run (l.map c.col)) = k + 1 ∧
      Matches (q.map unslice) l ∧
      ∀ k' q', k < k' → (prefsOf p)[k']? = some q' → ¬ Matches (q'.map unslice) l) := by
  have hlm : ∀ q ∈ prefsOf p, (Lang (itemsOf c.names q) (l.map c.col) ↔ Matches (q.map unslice) l) :=
    fun q hq => c.lang_matches h.names_le q (h.inv.named q hq) l
  by_cases hne : l = []
  · subst hne
    refine .inl ⟨?_, ?_⟩
    · exact buildDfa_start c.rules _
    · intro q hq hm
      rw [matches_nil] at hm
      have hq0 : q = [] := by simpa using hm
      obtain ⟨h1, _⟩ := mem_prefsOf hq
      rcases h1 with h1 | h1
      · rw [hq0] at h1; simp [endsSlice] at h1
      · exact h.ne (by rw [← h1, hq0])
  · rw [c.stop_run _ (c.letters_map l) (by simpa using hne), h.inv.rules]
    rcases lastMatch_spec ((prefsOf p).map (itemsOf c.names)) (l.map c.col) 0 with ⟨h1, h2⟩ | ⟨k, r, h1, h2, h3, h4⟩
    · refine .inl ⟨h1, ?_⟩
      intro q hq hm
      exact h2 _ (List.mem_map_of_mem hq) ((hlm q hq).2 hm)
    · rw [List.getElem?_map] at h1
      cases hg : (prefsOf p)[k]? with
      | none => rw [hg] at h1; cases h1
      | some q =>
        rw [hg] at h1
        simp at h1; subst h1
        refine .inr ⟨k, q, hg, by omega, (hlm q (List.mem_of_getElem? hg)).1 h3, ?_⟩
        intro k' q' hk hq' hm
        refine h4 k' (itemsOf c.names q') hk (by simp [hq']) ((hlm q' (List.mem_of_getElem? hq')).2 hm)

/-- Condition on the bounds of all slices: not both zero, which would mean "no condition". -/
def boundsOk (p : List Step) : Prop := ∀ a b, Step.slice a b ∈ p → ¬ (sliceLo a = 0 ∧ sliceHi b = 0)

theorem rangeOf_ne {p q r : List Step} (hb : boundsOk p) (hp : p = q ++ r) (hq : endsSlice q = true) :
    (rangeOf q).1 ≠ 0 ∨ (rangeOf q).2 ≠ 0 := by
  obtain ⟨q', a, b, rfl⟩ := endsSlice_iff.1 hq
  have : ¬ (sliceLo a = 0 ∧ sliceHi b = 0) := hb a b (by rw [hp]; simp)
  simp only [rangeOf, List.getLast?_append, List.getLast?_singleton, Option.some_or]
  by_cases h : sliceLo a = 0
  · right; intro h2; exact this ⟨h, h2⟩
  · left; exact h

theorem rangeOf_not {q : List Step} (hq : endsSlice q ≠ true) : rangeOf q = (0, 0) := by
  unfold rangeOf
  cases hl : q.getLast? with
  | none => rfl
  | some s =>
    obtain ⟨q', rfl⟩ := List.getLast?_eq_some_iff.1 hl
    cases s with
    | slice a b => exact absurd (by simp [endsSlice, isSlice]) hq
    | _ => rfl

theorem PathCtx.range_get {p : List Step} {c : SCtx} (h : PathCtx p c) {k : Nat} {q : List Step}
    (hk : (prefsOf p)[k]? = some q) : c.ranges.getD k (0, 0) = rangeOf q := by
  rw [h.inv.ranges, List.getD_eq_getElem?_getD, List.getElem?_map, hk]; rfl

/-- The index condition at a location. -/
def sliceCond (p : List Step) (l : Loc) : Prop :=
  ∀ q ∈ prefsOf p, endsSlice q = true → Matches (q.map unslice) l →
    (rangeOf q).1 ≤ (lastIdx l : Int) ∧ (lastIdx l : Int) < (rangeOf q).2

theorem PathCtx.inRange_iff {p : List Step} {c : SCtx} (h : PathCtx p c)
    (hd : noDescBeforeSlice p = true) (hb : boundsOk p) (l : Loc) :
    (tableOf c).inRange (c.run (l.map c.col)) (lastIdx l) = true ↔ sliceCond p l := by
  unfold QDfa.inRange
  rw [c.lower_run _ (c.letters_map l), c.upper_run _ (c.letters_map l)]
  rcases h.stop_cases l with ⟨h1, h2⟩ | ⟨k, q, h1, h2, h3, _⟩
  · rw [h1]
    simp only [ne_eq, not_true_eq_false, if_false, beq_self_eq_true, Bool.and_self, Bool.true_or, true_iff]
    intro q hq _ hm
    exact absurd hm (h2 q hq)
  · rw [h2]
    simp only [ne_eq, Nat.add_eq_zero_iff, Nat.add_sub_cancel, h.range_get h1]
    simp only [Nat.succ_ne_self, and_false, not_false_eq_true, if_true, Bool.or_eq_true,
      Bool.and_eq_true, decide_eq_true_eq, beq_iff_eq]
    have hq := List.mem_of_getElem? h1
    by_cases he : endsSlice q = true
    · have hne := rangeOf_ne hb (mem_prefsOf hq).2.choose_spec he
      constructor
      · rintro (⟨e1, e2⟩ | ⟨e1, e2⟩)
        · rcases hne with hne | hne
          · exact absurd e1 hne
          · exact absurd e2 hne
        · intro q' hq' _ hm'
          rw [← prefs_unique hd hq hq' h3 hm']
          exact ⟨e1, e2⟩
      · intro hs
        exact .inr (hs q hq he h3)
    · have e0 := rangeOf_not he
      constructor
      · intro _ q' hq' he' hm'
        rw [← prefs_unique hd hq hq' h3 hm'] at he'
        exact absurd he' he
      · intro _; rw [e0]; exact .inl ⟨rfl, rfl⟩

open Classical in
theorem PathCtx.accept_eq {p : List Step} {c : SCtx} (h : PathCtx p c)
    (hd : noDescBeforeSlice p = true) (hb : boundsOk p) (l : Loc) :
    (tableOf c).accept (c.run (l.map c.col)) = if Matches (p.map unslice) l then .output else .none := by
  rw [c.accept_run _ (c.letters_map l)]
  obtain ⟨Q, hQ, _⟩ := prefsOf_last h.ne
  have hpm : p ∈ prefsOf p := by rw [hQ]; simp
  rcases h.stop_cases l with ⟨h1, h2⟩ | ⟨k, q, h1, h2, h3, h4⟩
  · rw [h1, if_neg (h2 p hpm)]; simp [acceptOf]
  · rw [h2]
    have hq := List.mem_of_getElem? h1
    have hlen : (prefsOf p).length = Q.length + 1 := by rw [hQ]; simp
    have hklt : k < (prefsOf p).length := (List.getElem?_eq_some_iff.1 h1).1
    by_cases hqp : q = p
    · have hk : k + 1 = (prefsOf p).length := by
        apply Classical.byContradiction
        intro hne
        exact h4 Q.length p (by omega) (by rw [hQ]; simp) (by rw [← hqp]; exact h3)
      rw [if_pos (by rw [← hqp]; exact h3)]
      simp only [acceptOf, h.lastId, hk]
      rw [if_neg (by omega)]
      simp
    · have hm : ¬ Matches (p.map unslice) l := fun hm => hqp (prefs_unique hd hq hpm h3 hm)
      rw [if_neg hm]
      have hk : ¬ (prefsOf p).length = k + 1 := by
        intro hk
        have : k = Q.length := by omega
        subst this
        rw [hQ] at h1; simp at h1
        exact hqp h1.symm
      have he : endsSlice q = true := by
        rcases (mem_prefsOf hq).1 with h | h
        · exact h
        · exact absurd h hqp
      have hne := rangeOf_ne hb (mem_prefsOf hq).2.choose_spec he
      simp only [acceptOf, h.lastId, Nat.add_sub_cancel, h.range_get h1]
      have hk' : ¬ (some (prefsOf p).length = some (k + 1)) := by simpa using hk
      rw [if_neg (by omega), if_neg hk', if_pos]
      refine ⟨hne, ?_⟩
      split <;> simp

theorem PathCtx.inRanges_iff {p : List Step} {c : SCtx} (h : PathCtx p c)
    (hd : noDescBeforeSlice p = true) (hb : boundsOk p) (l : Loc) :
    inRanges (tableOf c) (fun l => c.run (l.map c.col)) l ↔ ∀ n, n < l.length → sliceCond p (l.take n) := by
  constructor
  · intro hr n hn; exact (h.inRange_iff hd hb _).1 (hr n hn)
  · intro hr n hn; exact (h.inRange_iff hd hb _).2 (hr n hn)

/-- The index conditions on all prefixes make up for the forgotten bounds. -/
theorem matches_iff_unslice {p : List Step} (hd : noDescBeforeSlice p = true) (l : Loc)
    (hl : ∀ i, Label.elem i ∈ l → (i : Int) < intMax) :
    Matches p l ↔ Matches (p.map unslice) l ∧ ∀ n, n ≤ l.length → sliceCond p (l.take n) := by
  constructor
  · intro hm
    refine ⟨matches_unslice hm, ?_⟩
    intro n hn q hq he hqm
    obtain ⟨_, r, hr⟩ := mem_prefsOf hq
    have hnd := noDesc_prefix hd hr he
    rw [hr] at hm
    obtain ⟨l1, l2, hl12, hm1, _⟩ := matches_split hm
    have e1 := matches_length hm1 hnd
    have e2 := matches_length hqm (unslice_noDesc hnd)
    rw [List.length_map, List.length_take] at e2
    have hn' : n = l1.length := by omega
    have htake : l.take n = l1 := by rw [hn', hl12]; simp
    rw [htake]
    obtain ⟨q', a, b, rfl⟩ := endsSlice_iff.1 he
    obtain ⟨l3, l4, h34, _, hm4⟩ := matches_split hm1
    cases hm4 with
    | slice _ _ i hi hnil =>
      cases hnil
      have hmem : Label.elem i ∈ l := by rw [hl12, h34]; simp
      have hli := hl i hmem
      have : lastIdx l1 = i := by rw [h34]; simp [lastIdx, labelIdx]
      rw [this]
      simp only [rangeOf, List.getLast?_append, List.getLast?_singleton, Option.some_or]
      obtain ⟨ha, hb⟩ := hi
      refine ⟨?_, ?_⟩
      · cases a with
        | none => simp only [sliceLo, intMin, Option.getD_none]; omega
        | some x => exact ha x rfl
      · cases b with
        | none => exact hli
        | some x => exact hb x rfl
  · rintro ⟨hm, hs⟩
    -- general statement for prefixes of the path
    have gen : ∀ (q : List Step), (∃ r, p = q ++ r) → (∀ s ∈ q, isDesc s = false) → ∀ l1 l2,
        l = l1 ++ l2 → Matches (q.map unslice) l1 → Matches q l1 := by
      intro q
      generalize hn : q.length = n
      induction n generalizing q with
      | zero =>
        have : q = [] := List.length_eq_zero_iff.1 hn
        subst this
        intro _ _ l1 l2 _ h; exact h
      | succ n ih =>
        obtain ⟨q, s, rfl⟩ : ∃ q' s, q = q' ++ [s] := by
          have hne : q ≠ [] := by intro h; rw [h] at hn; simp at hn
          exact ⟨q.dropLast, q.getLast hne, (List.dropLast_concat_getLast hne).symm⟩
        rintro ⟨r, hr⟩ hnd l1 l2 hl12 hqm
        have hqm' := hqm
        rw [List.map_append] at hqm
        obtain ⟨l3, l4, h34, hm3, hm4⟩ := matches_split hqm
        have hm3' := ih q (by simpa using hn) ⟨[s] ++ r, by simp [hr]⟩ (fun s hs => hnd s (by simp [hs]))
          l3 (l4 ++ l2) (by rw [hl12, h34]; simp) hm3
        rw [h34]
        refine matches_append hm3' ?_
        cases s with
        | slice a b =>
          simp only [List.map_cons, List.map_nil, unslice] at hm4
          cases hm4 with
          | all i hnil =>
            cases hnil
            have hq : q ++ [.slice a b] ∈ prefsOf p := by
              unfold prefsOf
              refine List.mem_append_left _ ?_
              rw [hr]
              exact mem_slicePrefs_of (pre := []) (by simp [endsSlice, isSlice])
            have hle : l1.length ≤ l.length := by rw [hl12]; simp
            have := hs l1.length hle (q ++ [.slice a b]) hq (by simp [endsSlice, isSlice])
              (by rw [hl12, List.take_left' rfl]; exact hqm')
            rw [hl12, List.take_left' rfl, h34] at this
            simp only [rangeOf, lastIdx, List.getLast?_append, List.getLast?_singleton, Option.some_or,
              Option.map_some, Option.getD_some, labelIdx] at this
            refine .slice a b i ⟨?_, ?_⟩ .nil
            · intro x hx; subst hx; exact this.1
            · intro x hx; subst hx; exact this.2
        | _ => exact hm4
    -- split the path after its last slice
    have split : ∀ p : List Step, ∃ F G, p = F ++ G ∧ (F = [] ∨ endsSlice F = true) ∧ ∀ s ∈ G, isSlice s = false := by
      intro p
      induction p with
      | nil => exact ⟨[], [], rfl, .inl rfl, by simp⟩
      | cons s p ih =>
        obtain ⟨F, G, rfl, h1, h2⟩ := ih
        rcases h1 with rfl | h1
        · by_cases hs : isSlice s = true
          · exact ⟨[s], G, rfl, .inr (by simp [endsSlice, hs]), h2⟩
          · refine ⟨[], s :: G, rfl, .inl rfl, ?_⟩
            intro t ht
            rcases List.mem_cons.1 ht with rfl | ht
            · simpa using hs
            · exact h2 t ht
        · refine ⟨s :: F, G, rfl, .inr ?_, h2⟩
          obtain ⟨q', a, b, rfl⟩ := endsSlice_iff.1 h1
          exact endsSlice_iff.2 ⟨s :: q', a, b, rfl⟩
    obtain ⟨F, G, hFG, hF, hG⟩ := split p
    have hGu : G.map unslice = G := by
      have : ∀ s ∈ G, unslice s = s := by
        intro s hs
        have := hG s hs
        cases s <;> simp_all [unslice, isSlice]
      rw [List.map_congr_left this]; simp
    have hFd : ∀ s ∈ F, isDesc s = false := by
      rcases hF with rfl | hF
      · simp
      · exact noDesc_prefix hd hFG hF
    rw [hFG, List.map_append, hGu] at hm
    obtain ⟨l1, l2, hl12, h1, h2⟩ := matches_split hm
    rw [hFG, hl12]
    exact matches_append (gen F ⟨G, hFG⟩ hFd l1 l2 hl12 h1) h2

open Classical in
/-- What the automaton decides at a location: a result iff the location matches the path. -/
theorem PathCtx.matched {p : List Step} {c : SCtx} (h : PathCtx p c)
    (hd : noDescBeforeSlice p = true) (hb : boundsOk p) (l : Loc)
    (hl : ∀ i, Label.elem i ∈ l → (i : Int) < intMax) :
    (tableOf c).matchedType (locState (tableOf c) 1 0 l).1 (locState (tableOf c) 1 0 l).2 =
      if Matches p l then .output else .none := by
  obtain ⟨e1, e2, e3⟩ := c.locState_eq h.ok l
  rw [e1]
  by_cases hr : inRanges (tableOf c) (fun l => c.run (l.map c.col)) l
  · rw [e2 hr]
    unfold QDfa.matchedType
    rw [h.accept_eq hd hb]
    rw [h.inRanges_iff hd hb] at hr
    by_cases hm : Matches (p.map unslice) l
    · rw [if_pos hm]
      simp only
      by_cases hi : (tableOf c).inRange (c.run (l.map c.col)) (lastIdx l) = true
      · rw [if_pos hi, if_pos]
        rw [matches_iff_unslice hd l hl]
        refine ⟨hm, ?_⟩
        intro n hn
        by_cases hn' : n < l.length
        · exact hr n hn'
        · have : l.take n = l := List.take_of_length_le (by omega)
          rw [this]; exact (h.inRange_iff hd hb l).1 hi
      · rw [if_neg hi, if_neg]
        intro hm'
        have := ((matches_iff_unslice hd l hl).1 hm').2 l.length (Nat.le_refl _)
        rw [List.take_length] at this
        exact hi ((h.inRange_iff hd hb l).2 this)
    · have hm' : ¬ Matches p l := fun hm' => hm (matches_unslice hm')
      rw [if_neg hm, if_neg hm']
  · rw [e3 hr]
    have : (tableOf c).matchedType 0 (lastIdx l) = .none := by
      unfold QDfa.matchedType; rw [c.accept_zero]
    rw [this, if_neg]
    intro hm
    apply hr
    rw [h.inRanges_iff hd hb]
    intro n hn
    exact ((matches_iff_unslice hd l hl).1 hm).2 n (by omega)

theorem pathCtx_of_build (p : List Step) (hp : p ≠ []) (hs : fewNames p) :
    ∃ c, buildCtx (astOf p) = some c ∧ PathCtx p c := by
  obtain ⟨c, h1, h2, h3⟩ := buildCtx_path p hp
  exact ⟨c, h1, hp, hs, h2, h3⟩

end JPS
