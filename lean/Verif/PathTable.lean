import Verif.PathProofs
import Verif.ParJoin
import Verif.Props.Query
/-!
# What the parallel run needs of the tables the query compiler makes
-/

set_option autoImplicit false

namespace JPS
open Spec

theorem rowsNext_bound {σ : Type} [DecidableEq σ] {next : σ → Nat → Option σ} {m : Nat} {init : σ} {L : List σ}
    {rows : List (List Nat)} (h : Explored next m init L rows) (s a : Nat) (ha1 : 1 ≤ a) (ha2 : a < m) :
    rowsNext rows s a < rows.length + 1 := by
  unfold rowsNext
  split
  · omega
  · next h0 =>
    cases hL : L[s - 1]? with
    | none =>
      have : rows[s - 1]? = none := by
        rw [List.getElem?_eq_none_iff] at hL ⊢
        rw [h.len]; exact hL
      rw [this]; simp
    | some t =>
      have hlt : s - 1 < rows.length := by
        rw [h.len]
        exact (List.getElem?_eq_some_iff.1 hL).1
      obtain ⟨h1, h2⟩ := h.ok.succ (s - 1) t hlt hL a ha1 ha2
      have := numOf_le h1
      rw [h2]
      simp only [Option.getD_some]
      rw [h.len]; omega

/-- Every entry of the table is a state. -/
theorem SCtx.table_bound (c : SCtx) (h : c.names.length + 3 ≤ 2147483648) (s a : Nat) (ha : 1 ≤ a) : (tableOf c).table s a < (tableOf c).statesNum := by
  have e : (tableOf c).table s a =
      if s < c.dfa.rows.length + 1 ∧ a < c.names.length + 3 then (compress c.dfa.rows).nextState s a
      else 0 := rfl
  have en : (tableOf c).statesNum = c.dfa.rows.length + 1 := rfl
  rw [en]
  by_cases hc : s < c.dfa.rows.length + 1 ∧ a < c.names.length + 3
  · rw [c.table_few h s a hc.1 ha hc.2]
    exact rowsNext_bound c.explored s a ha hc.2
  · rw [e, if_neg hc]; omega

/-- State 0 of a compiled automaton is a trap. -/
theorem SCtx.dead_few (c : SCtx) (h : c.names.length + 3 ≤ 2147483648) : Dead (tableOf c) (tableOf c).statesNum := by
  refine ⟨c.accept_zero, c.range_zero, nextByStr_zero c, ?_, Nat.succ_pos _⟩
  intro s k
  cases k with
  | none => exact c.table_bound h s 2 (by omega)
  | some k =>
    simp only [QDfa.nextByStr]
    split
    · next x hx =>
      have := ((tableOf c).findCol_spec s k _ _).1 x hx
      exact c.table_bound h s x (by omega)
    · exact c.table_bound h s 1 (by omega)

/-- The same for the contexts of paths. -/
theorem SCtx.dead (c : SCtx) (h : c.Ok) : Dead (tableOf c) (tableOf c).statesNum := c.dead_few (by have := h.few; omega)

/-- State 1 exists. -/
theorem SCtx.one_lt (c : SCtx) : 1 < (tableOf c).statesNum := by
  have h := c.explored
  have h1 := h.first
  have h2 := h.len
  have : 0 < c.dfa.rows.length := by
    rw [h2]
    rcases Nat.eq_zero_or_pos (wlLoop (mixNext (c.rules.map (createDFA · (c.names.length + 3)))) (c.names.length + 3)
        (mixFuel (c.rules.map (createDFA · (c.names.length + 3)))) 0
        [List.replicate (c.rules.map (createDFA · (c.names.length + 3))).length 1] []).1.length with h0 | h0
    · rw [List.getElem?_eq_none (by omega)] at h1; cases h1
    · exact h0
  show 1 < c.dfa.rows.length + 1
  omega

/-- Without slices no state carries an index range. -/
theorem SCtx.noIdx (c : SCtx) (h : ∀ r ∈ c.ranges, r = (0, 0)) (s : Nat) : NoIdx (tableOf c) s := by
  have hg : ∀ k, c.ranges.getD k (0, 0) = (0, 0) := by
    intro k
    rw [List.getD_eq_getElem?_getD]
    cases hk : c.ranges[k]? with
    | none => rfl
    | some r => exact h r (List.mem_of_getElem? hk)
  have e : (tableOf c).lower s = if s < c.dfa.rows.length + 1 ∧ c.dfa.stop s ≠ 0 then
      (c.ranges.getD (c.dfa.stop s - 1) (0, 0)).1 else 0 := rfl
  have e' : (tableOf c).upper s = if s < c.dfa.rows.length + 1 ∧ c.dfa.stop s ≠ 0 then
      (c.ranges.getD (c.dfa.stop s - 1) (0, 0)).2 else 0 := rfl
  refine ⟨?_, ?_⟩
  · rw [e, hg]; split <;> rfl
  · rw [e', hg]; split <;> rfl

theorem PathCtx.ranges_zero {p : List Step} {c : SCtx} (h : PathCtx p c) (hs : noSlices p) :
    ∀ r ∈ c.ranges, r = (0, 0) := by
  intro r hr
  rw [h.inv.ranges] at hr
  obtain ⟨q, hq, rfl⟩ := List.mem_map.1 hr
  apply rangeOf_not
  intro he
  obtain ⟨t, ht⟩ := h.inv.pre q hq
  unfold endsSlice at he
  cases hl : q.getLast? with
  | none => rw [hl] at he; cases he
  | some s =>
    rw [hl] at he
    have hm := List.mem_of_getLast? hl
    have := hs s (by rw [ht]; exact List.mem_append_left _ hm)
    simp [this] at he

theorem noDesc_before {q : List Step} (h : ∀ s ∈ q, isDesc s = false) : noDescBeforeSlice q = true := by
  induction q with
  | nil => rfl
  | cons s q ih =>
    simp only [noDescBeforeSlice, h s (by simp), Bool.not_false, Bool.true_or, Bool.true_and]
    exact ih fun x hx => h x (by simp [hx])

/-- Only the elements of an array to which a slice is applied have a state with an index range. -/
theorem PathCtx.noIdx_loc {p : List Step} {c : SCtx} (h : PathCtx p c) (hd : noDescBeforeSlice p = true) (hb : boundsOk p) (l : Loc)
    (hl : ∀ i, Label.elem i ∈ l → (i : Int) < intMax) (hs : ∀ l' i, l = l' ++ [.elem i] → ¬ SlicedAt p l') :
    NoIdx (tableOf c) (locState (tableOf c) 1 0 l).1 := by
  obtain ⟨_, e2, e3⟩ := c.locState_eq h.ok l
  by_cases hr : inRanges (tableOf c) (fun l => c.run (l.map c.col)) l
  · rw [e2 hr]
    rw [h.inRanges_iff hd hb] at hr
    unfold NoIdx
    rw [c.lower_run _ (c.letters_map l), c.upper_run _ (c.letters_map l)]
    rcases h.stop_cases l with ⟨h1, _⟩ | ⟨k, q, h1, h2, h3, _⟩
    · rw [h1]; simp
    · rw [h2]
      simp only [Nat.add_sub_cancel, h.range_get h1]
      by_cases he : endsSlice q = true
      · exfalso
        obtain ⟨_, r, hpr⟩ := mem_prefsOf (List.mem_of_getElem? h1)
        have hnd := noDesc_prefix hd hpr he
        obtain ⟨q', a, b, rfl⟩ := endsSlice_iff.1 he
        rw [List.map_append] at h3
        obtain ⟨l1, l2, e, m1, m2⟩ := matches_split h3
        obtain ⟨i, rfl⟩ : ∃ i, l2 = [.elem i] := by
          cases m2 with
          | all i hm => cases hm; exact ⟨i, rfl⟩
        subst e
        refine hs l1 i rfl ⟨q', a, b, r, by rw [hpr]; simp, ?_⟩
        rw [matches_iff_unslice (noDesc_before fun s hs => hnd s (by simp [hs])) l1 (fun i hi => hl i (by simp [hi]))]
        refine ⟨m1, fun n hn q2 hq2 he2 hm2 => ?_⟩
        have := hr n (by simp; omega) q2 (by
          obtain ⟨_, r2, e2⟩ := mem_prefsOf hq2
          unfold prefsOf
          refine List.mem_append_left _ ?_
          have e3 : p = q2 ++ (r2 ++ Step.slice a b :: r) := by rw [hpr, e2]; simp
          rw [e3]
          simpa using mem_slicePrefs_of (pre := []) (r := r2 ++ Step.slice a b :: r) he2) he2
        rw [List.take_append_of_le_length hn] at this
        exact this hm2
      · rw [rangeOf_not he]; simp
  · rw [e3 hr]; exact c.range_zero

/-- The start state carries no index range. -/
theorem PathCtx.noIdx_start {p : List Step} {c : SCtx} (h : PathCtx p c) (hd : noDescBeforeSlice p = true) (hb : boundsOk p) :
    NoIdx (tableOf c) 1 :=
  h.noIdx_loc hd hb [] (by simp) (by simp)

/-- The slices of a path are ones for which the serial run is exact (C02): none after a descendant step, none that is `[0:0]`, the
bounds within `int`. -/
structure SlicesOK (p : List Step) : Prop where
  desc : noDescBeforeSlice p = true
  bounds : boundsOk p
  ints : boundsInt p

theorem noSlices.ok {p : List Step} (h : noSlices p) : SlicesOK p :=
  ⟨noSlices_desc h, noSlices_bounds h, fun a b hm => by have := h _ hm; cases this⟩

theorem noSlices_at {p : List Step} (hs : noSlices p) (l : Loc) : ¬ SlicedAt p l := by
  rintro ⟨q, a, b, r, rfl, _⟩
  have := hs (.slice a b) (by simp)
  cases this

end JPS
