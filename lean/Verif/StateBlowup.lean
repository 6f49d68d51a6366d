import Verif.StateCount
/-!
# Paths whose automaton has exponentially many states
-/

set_option autoImplicit false

namespace JPS
open Spec

/-- `..a` followed by `n` times `.*`. -/
def deepPath (a : Str) (n : Nat) : List Step := .descProp a :: List.replicate n .dotAll

theorem matches_stars : ∀ (n : Nat) (l : Loc), Matches (List.replicate n .dotAll) l ↔ l.length = n
  | 0, l => by
    cases l with
    | nil => simp [matches_nil]
    | cons x l => simp; intro h; cases h
  | n + 1, [] => by
    rw [matches_nil]; simp
  | n + 1, x :: l => by
    rw [List.replicate_succ, matches_dotAll, matches_stars n l]; simp

/-- The path selects the locations whose label before the last `n` is `a`. -/
theorem matches_deep (a : Str) (n : Nat) : ∀ l : Loc,
    Matches (deepPath a n) l ↔ n < l.length ∧ l[l.length - 1 - n]? = some (.key a)
  | [] => by
    unfold deepPath
    rw [matches_nil]; simp
  | x :: l => by
    have ih := matches_deep a n l
    unfold deepPath at ih ⊢
    rw [matches_descProp, ih, matches_stars]
    by_cases h : l.length ≤ n
    · rw [show (x :: l).length - 1 - n = 0 from by simp; omega]
      simp
      constructor
      · rintro (⟨rfl, rfl⟩ | ⟨h1, _⟩)
        · simp
        · omega
      · rintro ⟨h1, rfl⟩
        exact .inl ⟨rfl, by omega⟩
    · rw [show (x :: l).length - 1 - n = (l.length - 1 - n) + 1 from by simp; omega]
      simp
      constructor
      · rintro (⟨_, h1⟩ | ⟨h1, h2⟩)
        · omega
        · exact ⟨by omega, h2⟩
      · rintro ⟨_, h2⟩
        exact .inr ⟨by omega, h2⟩

/-- All lists of `n` Booleans. -/
def allBools : Nat → List (List Bool)
  | 0 => [[]]
  | n + 1 => (allBools n).map (true :: ·) ++ (allBools n).map (false :: ·)

theorem allBools_length : ∀ n, (allBools n).length = 2 ^ n
  | 0 => rfl
  | n + 1 => by simp [allBools, allBools_length n, Nat.pow_succ]; omega

theorem allBools_mem : ∀ {n : Nat} {u : List Bool}, u ∈ allBools n → u.length = n
  | 0, u, h => by simp [allBools] at h; subst h; rfl
  | n + 1, u, h => by
    simp only [allBools, List.mem_append, List.mem_map] at h
    rcases h with ⟨t, ht, rfl⟩ | ⟨t, ht, rfl⟩ <;> simp [allBools_mem ht]

theorem allBools_nodup : ∀ n, (allBools n).Nodup
  | 0 => by simp [allBools]
  | n + 1 => by
    unfold allBools
    rw [List.nodup_append]
    refine ⟨?_, ?_, ?_⟩
    · exact List.pairwise_map.2 ((allBools_nodup n).imp fun h e => h (List.cons.inj e).2)
    · exact List.pairwise_map.2 ((allBools_nodup n).imp fun h e => h (List.cons.inj e).2)
    · intro x hx y hy e
      obtain ⟨t, _, rfl⟩ := List.mem_map.1 hx
      obtain ⟨t', _, rfl⟩ := List.mem_map.1 hy
      cases e

theorem bools_differ {n : Nat} {u t : List Bool} (hu : u.length = n) (ht : t.length = n) (h : u ≠ t) :
    ∃ i < n, (u[i]? = some true ∧ t[i]? = some false) ∨ (t[i]? = some true ∧ u[i]? = some false) := by
  apply Classical.byContradiction
  intro hno
  apply h
  apply List.ext_getElem (by omega)
  intro i h1 h2
  cases e1 : u[i] <;> cases e2 : t[i]
  · rfl
  · exact absurd ⟨i, by omega, .inr ⟨by simp [List.getElem?_eq_getElem h2, e2], by simp [List.getElem?_eq_getElem h1, e1]⟩⟩ hno
  · exact absurd ⟨i, by omega, .inl ⟨by simp [List.getElem?_eq_getElem h1, e1], by simp [List.getElem?_eq_getElem h2, e2]⟩⟩ hno
  · rfl

/-- The location spelled by Booleans. -/
def bitLoc (a : Str) (u : List Bool) : Loc := u.map fun b => if b then .key a else .elem 0

theorem bitLoc_get (a : Str) {u : List Bool} {i : Nat} {b : Bool} (h : u[i]? = some b) :
    (bitLoc a u)[i]? = some (if b then .key a else .elem 0) := by
  unfold bitLoc
  rw [List.getElem?_map, h]; rfl

theorem run_app (c : SCtx) (u v : Loc) : c.run ((u ++ v).map c.col) = (v.map c.col).foldl c.dfa.next (c.run (u.map c.col)) := by
  simp [SCtx.run]

/-- Pairwise different states give a lower bound on their number. -/
theorem states_ge {α : Type} {L : List α} (hL : L.Nodup) (c : SCtx) (f : α → Loc)
    (hinj : ∀ u ∈ L, ∀ t ∈ L, c.run ((f u).map c.col) = c.run ((f t).map c.col) → u = t) :
    L.length ≤ (tableOf c).statesNum := by
  have e : (tableOf c).statesNum = c.dfa.rows.length + 1 := rfl
  rw [e]
  have hnd : (L.map fun u => c.run ((f u).map c.col)).Nodup :=
    List.pairwise_map.2 (hL.imp_of_mem fun hu ht hne he => hne (hinj _ hu _ ht he))
  have := hnd.length_le_of_subset (l₂ := List.range (c.dfa.rows.length + 1)) (by
    intro s hs
    obtain ⟨u, _, rfl⟩ := List.mem_map.1 hs
    rw [List.mem_range]
    exact c.run_lt _ (c.letters_map _))
  simpa using this

theorem deep_noSlices (a : Str) (n : Nat) : ∀ s ∈ deepPath a n, isSlice s = false := by
  intro s hs
  rcases List.mem_cons.1 hs with rfl | hs
  · rfl
  · rw [(List.mem_replicate.1 hs).2]; rfl

theorem deep_unslice (a : Str) (n : Nat) : (deepPath a n).map unslice = deepPath a n := by
  simp [deepPath, unslice]

/-- The stop states of `..a` and `n` times `.*`. -/
theorem PathCtx.deep_stop {a : Str} {n : Nat} {c : SCtx} (h : PathCtx (deepPath a n) c) (l : Loc) :
    c.dfa.stop (c.run (l.map c.col)) ≠ 0 ↔ Matches (deepPath a n) l := by
  have hmem : deepPath a n ∈ prefsOf (deepPath a n) := by
    obtain ⟨Q, hQ, _⟩ := prefsOf_last h.ne
    rw [hQ]; simp
  have honly : ∀ q ∈ prefsOf (deepPath a n), q = deepPath a n := by
    intro q hq
    obtain ⟨h1, r, hr⟩ := mem_prefsOf hq
    rcases h1 with h1 | h1
    · exfalso
      unfold endsSlice at h1
      cases hg : q.getLast? with
      | none => rw [hg] at h1; cases h1
      | some s =>
        rw [hg] at h1
        have := deep_noSlices a n s (by rw [hr]; exact List.mem_append_left _ (List.mem_of_getLast? hg))
        simp at h1
        rw [h1] at this; cases this
    · exact h1
  rcases h.stop_cases l with ⟨h1, h2⟩ | ⟨k, q, h1, h2, h3, _⟩
  · have := h2 _ hmem
    rw [deep_unslice] at this
    simp [h1, this]
  · rw [honly q (List.mem_of_getElem? h1), deep_unslice] at h3
    simp [h2, h3]

/-- After any `n + 1` labels the automaton knows which of them were `a`. -/
theorem PathCtx.deep_inj {a : Str} {n : Nat} {c : SCtx} (h : PathCtx (deepPath a n) c) : ∀ u ∈ allBools (n + 1), ∀ t ∈ allBools (n + 1),
    c.run ((bitLoc a u).map c.col) = c.run ((bitLoc a t).map c.col) → u = t := by
  have hstop := h.deep_stop
  intro u hu t ht he
  have hul := allBools_mem hu
  have htl := allBools_mem ht
  apply Classical.byContradiction
  intro hne
  have key : ∀ u t : List Bool, u.length = n + 1 → t.length = n + 1 →
      c.run ((bitLoc a u).map c.col) = c.run ((bitLoc a t).map c.col) →
      ∀ i < n + 1, u[i]? = some true → t[i]? = some false → False := by
    intro u t hu ht he i hi h1 h2
    have e : c.run ((bitLoc a u ++ List.replicate i (Label.elem 0)).map c.col) =
        c.run ((bitLoc a t ++ List.replicate i (Label.elem 0)).map c.col) := by
      rw [run_app, run_app, he]
    have hm : ∀ v : List Bool, v.length = n + 1 →
        (Matches (deepPath a n) (bitLoc a v ++ List.replicate i (Label.elem 0)) ↔ (bitLoc a v)[i]? = some (.key a)) := by
      intro v hv
      have hvl : (bitLoc a v).length = n + 1 := by simp [bitLoc, hv]
      rw [matches_deep, List.length_append, List.length_replicate, hvl,
        show n + 1 + i - 1 - n = i from by omega, List.getElem?_append_left (by omega)]
      constructor
      · exact fun h => h.2
      · exact fun h => ⟨by omega, h⟩
    have m1 := (hm u hu).2 (bitLoc_get a h1)
    rw [← hstop, e, hstop, hm t ht, bitLoc_get a h2] at m1
    simp at m1
  obtain ⟨i, hi, ⟨h1, h2⟩ | ⟨h1, h2⟩⟩ := bools_differ hul htl hne
  · exact key u t hul htl he i hi h1 h2
  · exact key t u htl hul he.symm i hi h1 h2

/-- At least `2 ^ (n + 1)` states for `..a` and `n` times `.*`. -/
theorem PathCtx.deep_states {a : Str} {n : Nat} {c : SCtx} (h : PathCtx (deepPath a n) c) : 2 ^ (n + 1) ≤ (tableOf c).statesNum := by
  rw [← allBools_length (n + 1)]
  exact states_ge (allBools_nodup (n + 1)) c (bitLoc a) h.deep_inj

/-! ### Filters below such paths -/

theorem not_matches_end {B w : List Step} {k : Str} {l : Loc} {i : Nat} : ¬ Matches (B ++ (w ++ [.prop k])) (l ++ [.elem i]) := by
  intro h
  rw [← List.append_assoc] at h
  obtain ⟨l1, l2, e, _, h2⟩ := matches_split h
  have h3 := matches_length h2 (by simp [isDesc])
  match l2, h3 with
  | [x], _ =>
    rw [matches_prop] at h2
    have := List.append_inj' e rfl
    rw [h2.1] at this
    simp at this

theorem matches_end_all {B : List Step} {l : Loc} {i : Nat} : Matches (B ++ [.all]) (l ++ [.elem i]) ↔ Matches B l := by
  constructor
  · intro h
    obtain ⟨l1, l2, e, h1, h2⟩ := matches_split h
    have h3 := matches_length h2 (by simp [isDesc])
    match l2, h3 with
    | [x], _ =>
      have := List.append_inj' e rfl
      rw [this.1]; exact h1
  · intro h
    exact matches_append h (.all i .nil)

theorem one_filter_regs {B : List Step} {c : SCtx} {e : Expr Num} {k : Str} (h : FPre B (pathRegs [.filter e, .prop k]) c) :
    ⟨[.all], .pred e (testedPaths e)⟩ ∈ pathRegs [.filter e, .prop k] ∧
    ∀ r ∈ pathRegs [.filter e, .prop k], r = ⟨[.all], .pred e (testedPaths e)⟩ ∨ ∃ w' k', r.w = w' ++ [.prop k'] := by
  have e1 : pathRegs [.filter e, .prop k] = block [.all] e ++ [⟨[.all, .prop k], .out⟩] := by
    simp [pathRegs, regs, sk]
  refine ⟨by rw [e1]; simp [block], ?_⟩
  intro r hr
  obtain ⟨w, ro⟩ := r
  cases ro with
  | cond q => exact .inr (h.condEnd w q hr)
  | out =>
    rw [e1] at hr
    simp only [block, List.cons_append, List.mem_cons, List.mem_append, List.mem_map, List.not_mem_nil, or_false] at hr
    rcases hr with hr | ⟨q, _, hr⟩ | hr
    · cases hr
    · cases hr
    · cases hr; exact .inr ⟨[.all], k, rfl⟩
  | pred e' ds =>
    rw [e1] at hr
    simp only [block, List.cons_append, List.mem_cons, List.mem_append, List.mem_map, List.not_mem_nil, or_false] at hr
    rcases hr with hr | ⟨q, _, hr⟩ | hr
    · exact .inl hr
    · cases hr
    · cases hr

/-- At least `2 ^ n` filter states for `..a`, `n` times `.*` and a filter. -/
theorem FPre.deep_preds {a : Str} {n : Nat} {e : Expr Num} {k : Str} {c : SCtx}
    (h : FPre (deepPath a n) (pathRegs [.filter e, .prop k]) c) : 2 ^ n ≤ (contextOf c).predStates.length := by
  have hB := deep_noSlices a n
  obtain ⟨hp, hall⟩ := one_filter_regs h
  have hstop : ∀ l : Loc, (c.dfa.stop (c.run ((l ++ [Label.elem 0]).map c.col)) ≠ 0 ↔ Matches (deepPath a n) l) ∧
      (Matches (deepPath a n) l → c.run ((l ++ [Label.elem 0]).map c.col) ∈ (contextOf c).predStates) := by
    intro l
    rcases h.stop_loc hB (l ++ [.elem 0]) with ⟨h1, h2⟩ | ⟨i, r, h1, h2, h3, _⟩
    · have := h2 _ hp
      simp only [matches_end_all] at this
      exact ⟨⟨fun h => absurd h1 h, fun h => absurd h this⟩, fun h => absurd h this⟩
    · have hr : r = ⟨[.all], .pred e (testedPaths e)⟩ := by
        rcases hall r (List.mem_of_getElem? h1) with hr | ⟨w', k', hr⟩
        · exact hr
        · rw [hr] at h3; exact absurd h3 not_matches_end
      subst hr
      simp only [matches_end_all] at h3
      refine ⟨⟨fun _ => h3, fun _ => by rw [h2]; exact Nat.succ_ne_zero i⟩, fun _ => ?_⟩
      have hro : roleOf (pathRegs [.filter e, .prop k]) [.all] = some (.pred e (testedPaths e)) := (roleOf_some h.nodup).2 hp
      have hlt := c.run_lt ((l ++ [Label.elem 0]).map c.col) (c.letters_map _)
      have hacc := h.accept (w := [.all]) ⟨hlt, .inr ⟨i, _, h1, hro, h2⟩⟩
      show _ ∈ ((List.range (tableOf c).statesNum).filter fun i =>
        (tableOf c).stop i ≠ 0 && (tableOf c).accept i == .predicate)
      rw [List.mem_filter, List.mem_range]
      refine ⟨hlt, ?_⟩
      rw [hacc, hro, h.stopQ, if_pos hlt, h2]
      simp [FWords.accOf]
  rw [← allBools_length n]
  have hdeep : ∀ (v : List Bool) (i : Nat), v.length = n → i ≤ n + 1 →
      (Matches (deepPath a n) (bitLoc a (true :: v) ++ List.replicate i (Label.elem 0)) ↔ (bitLoc a (true :: v) ++ [.elem 0])[i]? = some (.key a)) := by
    intro v i hv hi
    have hvl : (bitLoc a (true :: v)).length = n + 1 := by simp [bitLoc, hv]
    rw [matches_deep, List.length_append, List.length_replicate, hvl, show n + 1 + i - 1 - n = i from by omega]
    by_cases hi' : i < n + 1
    · rw [List.getElem?_append_left (by omega), List.getElem?_append_left (by omega)]
      constructor
      · exact fun h => h.2
      · exact fun h => ⟨by omega, h⟩
    · have : i = n + 1 := by omega
      subst this
      rw [List.getElem?_append_right (by omega), List.getElem?_append_right (by omega), hvl]
      simp
  have key : ∀ u t : List Bool, u.length = n → t.length = n →
      c.run ((bitLoc a (true :: u) ++ [Label.elem 0]).map c.col) = c.run ((bitLoc a (true :: t) ++ [Label.elem 0]).map c.col) →
      ∀ i < n, u[i]? = some true → t[i]? = some false → False := by
    intro u t hu ht he i hi h1 h2
    have e : ∀ v : List Bool, c.run (((bitLoc a (true :: v) ++ List.replicate (i + 1) (Label.elem 0)) ++ [Label.elem 0]).map c.col) =
        ((List.replicate (i + 1) (Label.elem 0)).map c.col).foldl c.dfa.next
          (c.run ((bitLoc a (true :: v) ++ [Label.elem 0]).map c.col)) := by
      intro v
      rw [← run_app]
      congr 2
      rw [List.append_assoc, List.append_assoc, ← List.replicate_succ', List.replicate_succ]
      rfl
    have hb : ∀ (v : List Bool) (b : Bool), v.length = n → v[i]? = some b →
        (bitLoc a (true :: v) ++ [Label.elem 0])[i + 1]? = some (if b then .key a else .elem 0) := by
      intro v b hv hvi
      rw [List.getElem?_append_left (by simp [bitLoc, hv]; exact hi)]
      exact bitLoc_get a (by simpa using hvi)
    have m1 := (hdeep u (i + 1) hu (by omega)).2 (hb u true hu h1)
    rw [← (hstop _).1, e, he, ← e, (hstop _).1, hdeep t (i + 1) ht (by omega), hb t false ht h2] at m1
    simp at m1
  have hnd : ((allBools n).map fun u => c.run ((bitLoc a (true :: u) ++ [Label.elem 0]).map c.col)).Nodup := by
    refine List.pairwise_map.2 ((allBools_nodup n).imp_of_mem ?_)
    intro u t hu ht hne he
    have hul := allBools_mem hu
    have htl := allBools_mem ht
    obtain ⟨i, hi, ⟨h1, h2⟩ | ⟨h1, h2⟩⟩ := bools_differ hul htl hne
    · exact key u t hul htl he i hi h1 h2
    · exact key t u htl hul he.symm i hi h1 h2
  have := hnd.length_le_of_subset (l₂ := (contextOf c).predStates) (by
    intro s hs
    obtain ⟨u, hu, rfl⟩ := List.mem_map.1 hs
    refine (hstop _).2 ?_
    have := (hdeep u 0 (allBools_mem hu) (by omega)).2 (by simp [bitLoc])
    simpa using this)
  simpa using this

/-- More than 100 filter states: one of them has no place in an array of 100. -/
theorem preds_overrun {c : SCtx} {n : Nat} (h : n < (contextOf c).predStates.length) : ∃ s ∈ (contextOf c).predStates, n ≤ s := by
  apply Classical.byContradiction
  intro hno
  have hnd : (contextOf c).predStates.Nodup := List.Pairwise.filter _ List.nodup_range
  have := hnd.length_le_of_subset (l₂ := List.range n) (by
    intro s hs
    rw [List.mem_range]
    exact Nat.lt_of_not_le fun hle => hno ⟨s, hs, hle⟩)
  simp at this
  omega

end JPS
