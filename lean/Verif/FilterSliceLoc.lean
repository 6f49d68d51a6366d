import Verif.Props.ParallelFilter
import Verif.Props.FilterSlice
/-!
# Locations and the automaton of a path with filters and slices
-/

set_option autoImplicit false

namespace JPS
open Spec

theorem regs_out : ∀ (p : List (QStep Num)) (u w : List Step), (⟨w, .out⟩ : Reg) ∉ regs u p
  | [], u, w => by simp [regs]
  | .prop k :: p, u, w => regs_out p _ w
  | .all :: p, u, w => regs_out p _ w
  | .filter e :: p, u, w => by
    simp only [regs, List.mem_append, not_or]
    exact ⟨by simp [block], regs_out p _ w⟩

theorem dead_locState {d : QDfa} (hd : d.Dead0) : ∀ (l : Loc) (n : Nat), (locState d 0 n l).1 = 0
  | [], _ => rfl
  | x :: l, n => by
    simp only [locState, hd.go]
    exact dead_locState hd l _

/-- The word of the result. -/
theorem pathRegs_out {p : List (QStep Num)} {w : List Step} (hm : (⟨w, .out⟩ : Reg) ∈ pathRegs p) : w = p.map sk := by
  unfold pathRegs at hm
  rcases List.mem_append.1 hm with hm | hm
  · exact absurd hm (regs_out p [] w)
  · simpa using hm

/-- The automaton of a path with slices at a location: the word of the location, or dead. -/
theorem STab.locState {Q : List SReg} {c : SCtx} (h : STab Q c) (hd : (tableOf c).Dead0) : ∀ (l : Loc) (w : List Step) (n : Nat),
    (JPS.locState (tableOf c) (c.state w) n l).1 = c.state (w ++ wordOf l) ∨
    (JPS.locState (tableOf c) (c.state w) n l).1 = 0
  | [], w, n => .inl (by simp [wordOf, JPS.locState])
  | x :: l, w, n => by
    cases hr : (tableOf c).inRange (c.state w) n with
    | true =>
      cases x with
      | key k =>
        simp only [JPS.locState, labelKey, h.goKey hr]
        have := h.locState hd l (w ++ [.prop k]) (labelIdx (.key k))
        simpa [wordOf] using this
      | elem i =>
        simp only [JPS.locState, labelKey, h.goArr hr]
        have := h.locState hd l (w ++ [.all]) (labelIdx (.elem i))
        simpa [wordOf] using this
    | false =>
      right
      simp only [JPS.locState]
      unfold QDfa.go
      rw [hr]
      exact dead_locState hd l _

/-- The indices of the location lie in the slices of the path. -/
def passes : Option (List (SStep Num)) → Loc → Prop
  | _, [] => True
  | q, .key k :: l => passes (sKey k q) l
  | q, .elem i :: l => sTakes q i = true ∧ passes (sElem q) l

/-- The automaton of a path with slices at a location: dead, or after the word of the location with all indices but perhaps the last one
in the slices. -/
theorem STab.live {Q : List SReg} {c : SCtx} (h : STab Q c) (hd : (tableOf c).Dead0) : ∀ (l : Loc) (w : List Step) (r : Res)
    (q : Option (List (SStep Num))) (n : Nat), SPos Q w r q → (tableOf c).inRange (c.state w) n = true →
    (∀ i, Label.elem i ∈ l → (i : Int) < intMax) →
    (JPS.locState (tableOf c) (c.state w) n l).1 = 0 ∨
    ((JPS.locState (tableOf c) (c.state w) n l).1 = c.state (w ++ wordOf l) ∧
      (passes q l ∨ (tableOf c).inRange (JPS.locState (tableOf c) (c.state w) n l).1 (JPS.locState (tableOf c) (c.state w) n l).2 = false))
  | [], w, r, q, n, _, _, _ => .inr ⟨by simp [wordOf, JPS.locState], .inl trivial⟩
  | .key k :: l, w, r, q, n, hp, hn, hl => by
    simp only [JPS.locState, labelKey, h.goKey hn, labelIdx]
    have hin : (tableOf c).inRange (c.state (w ++ [.prop k])) 0 = true := by
      rw [h.inRange (hp.key k).track.simple, hp.rng [.prop k] (by simp), orng_prop]; rfl
    have := h.live hd l _ _ _ 0 (hp.key k) hin (fun i hi => hl i (by simp [hi]))
    simpa [wordOf, passes] using this
  | .elem i :: l, w, r, q, n, hp, hn, hl => by
    simp only [JPS.locState, labelKey, h.goArr hn, labelIdx]
    have ht := takes_range h hp (hl i (by simp))
    cases hs : sTakes q i with
    | true =>
      rw [hs] at ht
      have := h.live hd l _ _ _ i hp.elem ht (fun i hi => hl i (by simp [hi]))
      simpa [wordOf, passes, hs] using this
    | false =>
      rw [hs] at ht
      cases l with
      | nil => exact .inr ⟨by simp [JPS.locState, wordOf], .inr (by simpa [JPS.locState] using ht)⟩
      | cons x l =>
        left
        simp only [JPS.locState]
        unfold QDfa.go
        rw [ht]
        exact dead_locState hd l _

/-- A location with the word of a path whose indices lie in its slices is one the path leads to, whatever its filters say. -/
theorem matches_passes : ∀ (p : List (SStep Num)) (r : List (SStep Num)) (l : Loc), wordOf l = (wholes p).map sk → passes (some (p ++ r)) l →
    Matches (p.map ssk) l
  | [], r, l, h, _ => by
    cases l with
    | nil => exact .nil
    | cons x l => simp [wordOf, wholes] at h
  | s :: p, r, [], h, _ => by simp [wordOf, wholes] at h
  | s :: p, r, x :: l, h, hp => by
    simp only [wordOf, List.map_cons, List.cons.injEq, wholes] at h
    cases s with
    | prop k =>
      cases x with
      | key k' =>
        simp only [sk, SStep.whole, Step.prop.injEq] at h
        obtain ⟨rfl, h⟩ := h
        simp only [List.cons_append, passes, sKey, if_true] at hp
        exact .prop _ (matches_passes p r l h hp)
      | elem i => simp [sk, SStep.whole] at h
    | all =>
      cases x with
      | key k' => simp [sk, SStep.whole] at h
      | elem i => exact .all i (matches_passes p r l h.2 hp.2)
    | filter e =>
      cases x with
      | key k' => simp [sk, SStep.whole] at h
      | elem i => exact .all i (matches_passes p r l h.2 hp.2)
    | slice a b =>
      cases x with
      | key k' => simp [sk, SStep.whole] at h
      | elem i =>
        refine .slice a b i ?_ (matches_passes p r l h.2 hp.2)
        have h1 : inBounds a b i = true := hp.1
        unfold inBounds at h1
        rw [Bool.and_eq_true] at h1
        exact ⟨fun x hx => by subst hx; simpa using h1.1, fun x hx => by subst hx; simpa using h1.2⟩

/-- The automaton of a path at a location. -/
theorem STab.root {p : List (SStep Num)} {c : SCtx} (h : STab (pathSRegs p) c) (hd : (tableOf c).Dead0) (hb : slicesOk p) (l : Loc)
    (hl : ∀ i, Label.elem i ∈ l → (i : Int) < intMax) :
    (JPS.locState (tableOf c) 1 0 l).1 = 0 ∨
    ((JPS.locState (tableOf c) 1 0 l).1 = c.state (wordOf l) ∧
      (passes (some p) l ∨ (tableOf c).inRange (JPS.locState (tableOf c) 1 0 l).1 (JPS.locState (tableOf c) 1 0 l).2 = false)) := by
  have hin : (tableOf c).inRange (c.state []) 0 = true := by
    rw [h.inRange (by intro s hs; simp at hs), h.rng_path, srng_nil]; rfl
  have := h.live hd l [] (Res.init (wholes p)) (some p) 0 (spos_init h hb) hin hl
  rwa [List.nil_append] at this

/-- What the path without its filters does not lead to is not reported. -/
theorem STab.reported {p : List (SStep Num)} {c : SCtx} (h : STab (pathSRegs p) c) (hd : (tableOf c).Dead0) (hb : slicesOk p) (l : Loc)
    (hl : ∀ i, Label.elem i ∈ l → (i : Int) < intMax)
    (hm : (tableOf c).matchedType (JPS.locState (tableOf c) 1 0 l).1 (JPS.locState (tableOf c) 1 0 l).2 = .output) :
    Matches (p.map ssk) l := by
  have hw := wordOf_simple l
  rcases h.root hd hb l hl with hr | ⟨hr, hp⟩
  · rw [hr, hd.matched] at hm; cases hm
  · cases hin : (tableOf c).inRange (JPS.locState (tableOf c) 1 0 l).1 (JPS.locState (tableOf c) 1 0 l).2 with
    | false =>
      rw [hr] at hin hm
      rw [h.matched_out hw hin] at hm; cases hm
    | true =>
      have hp' := hp.resolve_right (by rw [hin]; simp)
      rw [hr] at hin hm
      rw [h.matched hw hin, low_pathSRegs] at hm
      cases hro : roleOf (pathRegs (wholes p)) (wordOf l) with
      | none => rw [hro] at hm; cases hm
      | some ro =>
        rw [hro] at hm
        cases ro with
        | pred e ds => cases hm
        | cond q => cases hm
        | out =>
          have hmem := (roleOf_some (by rw [← low_pathSRegs]; exact low_nodup h.nodup)).1 hro
          exact matches_passes p [] l (pathRegs_out hmem) (by rwa [List.append_nil])

theorem srng_sliced : ∀ (p : List (SStep Num)) (w : List Step), srng p w ≠ (0, 0) →
    ∃ q a b r, p = q ++ .slice a b :: r ∧ w = (wholes q).map sk ++ [.all]
  | [], w, h => absurd rfl h
  | s :: p, [], h => absurd (srng_nil _) h
  | .prop k :: p, x :: y, h => by
    cases x with
    | prop k' =>
      rw [srng] at h
      split at h
      · rename_i hk
        obtain ⟨q, a, b, r, h1, h2⟩ := srng_sliced p y h
        exact ⟨.prop k :: q, a, b, r, by rw [h1]; rfl, by rw [h2, hk]; rfl⟩
      · exact absurd rfl h
    | _ => exact absurd rfl h
  | .all :: p, x :: y, h => by
    cases x with
    | all =>
      obtain ⟨q, a, b, r, h1, h2⟩ := srng_sliced p y h
      exact ⟨.all :: q, a, b, r, by rw [h1]; rfl, by rw [h2]; rfl⟩
    | _ => exact absurd rfl h
  | .filter e :: p, x :: y, h => by
    cases x with
    | all =>
      obtain ⟨q, a, b, r, h1, h2⟩ := srng_sliced p y h
      exact ⟨.filter e :: q, a, b, r, by rw [h1]; rfl, by rw [h2]; rfl⟩
    | _ => exact absurd rfl h
  | .slice a b :: p, x :: y, h => by
    cases x with
    | all =>
      cases y with
      | nil => exact ⟨[], a, b, p, rfl, rfl⟩
      | cons s y =>
        rw [srng_slice _ _ _ (by simp)] at h
        obtain ⟨q, a', b', r, h1, h2⟩ := srng_sliced p _ h
        exact ⟨.slice a b :: q, a', b', r, by rw [h1]; rfl, by rw [h2]; rfl⟩
    | _ => exact absurd rfl h

theorem STab.bounds {Q : List SReg} {c : SCtx} (h : STab Q c) {w : List Step} (hw : SimpleWord w) :
    (tableOf c).lower (c.state w) = (STab.rng Q w).1 ∧ (tableOf c).upper (c.state w) = (STab.rng Q w).2 := by
  have e1 := c.lower_run _ (FWords.letters (c := c) w)
  have e2 := c.upper_run _ (FWords.letters (c := c) w)
  show (tableOf c).lower (c.run (c.word w)) = (STab.rng Q w).1 ∧ (tableOf c).upper (c.run (c.word w)) = (STab.rng Q w).2
  have hst := h.stop_state hw
  unfold SCtx.state at hst
  rw [e1, e2]
  rcases hst with ⟨h1, h2⟩ | ⟨k, r, h1, h2, h3⟩
  · rw [h1, STab.rng_none h2]; simp
  · rw [h3, if_pos (by omega), if_pos (by omega), Nat.add_sub_cancel, h.range_at h1, ← h2,
      h.rng_mem (List.mem_of_getElem? h1)]
    simp

/-- Only elements of sliced arrays are counted. -/
theorem STab.noIdx_loc {p : List (SStep Num)} {c : SCtx} (h : STab (pathSRegs p) c) (hd : (tableOf c).Dead0) (hb : slicesOk p) (l : Loc)
    (hl : ∀ i, Label.elem i ∈ l → (i : Int) < intMax) (hs : ∀ l' i, l = l' ++ [.elem i] → ¬ SlicedAt (p.map ssk) l') :
    NoIdx (tableOf c) (JPS.locState (tableOf c) 1 0 l).1 := by
  rcases h.root hd hb l hl with hr | ⟨hr, _⟩
  · rw [hr]; exact c.range_zero
  · by_cases hz : srng p (wordOf l) = (0, 0)
    · rw [hr]
      obtain ⟨b1, b2⟩ := h.bounds (wordOf_simple l)
      rw [h.rng_path, hz] at b1 b2
      exact ⟨b1, b2⟩
    · obtain ⟨q, a, b, r, h1, h2⟩ := srng_sliced p _ hz
      by_cases hl0 : l = []
      · subst hl0; simp [wordOf] at h2
      · obtain ⟨l', x, rfl⟩ : ∃ l' x, l = l' ++ [x] := ⟨l.dropLast, l.getLast hl0, (List.dropLast_concat_getLast hl0).symm⟩
        have h3 : wordOf (l' ++ [x]) = wordOf l' ++ wordOf [x] := by simp [wordOf]
        rw [h3] at h2
        obtain ⟨h4, h5⟩ := List.append_inj' h2 rfl
        cases x with
        | key k => simp [wordOf] at h5
        | elem i =>
          have hl' : ∀ i, Label.elem i ∈ l' → (i : Int) < intMax := fun i hi => hl i (by simp [hi])
          by_cases hdead : (JPS.locState (tableOf c) 1 0 (l' ++ [.elem i])).1 = 0
          · rw [hdead]; exact c.range_zero
          · exfalso
            rw [locState_append] at hdead
            simp only [JPS.locState] at hdead
            rcases h.root hd hb l' hl' with hr' | ⟨hr', hp | hp⟩
            · rw [hr', hd.go] at hdead; exact hdead rfl
            · refine hs l' i rfl ⟨q.map ssk, a, b, r.map ssk, by rw [h1]; simp [ssk], ?_⟩
              exact matches_passes q (.slice a b :: r) l' h4 (by rw [← h1]; exact hp)
            · unfold QDfa.go at hdead
              rw [hp] at hdead; exact hdead rfl

/-- Elements of an array are tested only if the path has a filter for them. -/
theorem STab.accept_pred {p : List (SStep Num)} {c : SCtx} (h : STab (pathSRegs p) c) (hd : (tableOf c).Dead0) (l : Loc)
    (ha : (tableOf c).accept (JPS.locState (tableOf c) 1 0 l).1 = .predicate) :
    ∃ q e r, wholes p = q ++ .filter e :: r ∧ wordOf l = q.map sk ++ [.all] := by
  have hw := wordOf_simple l
  have hl : (JPS.locState (tableOf c) 1 0 l).1 = c.state (wordOf l) ∨ (JPS.locState (tableOf c) 1 0 l).1 = 0 := by
    have := h.locState hd l [] 0
    rwa [List.nil_append] at this
  rcases hl with hl | hl
  · rw [hl, h.accept hw, low_pathSRegs] at ha
    cases hro : roleOf (pathRegs (wholes p)) (wordOf l) with
    | none => rw [hro] at ha; cases ha
    | some ro =>
      rw [hro] at ha
      cases ro with
      | out => cases ha
      | cond q => cases ha
      | pred e ds =>
        have hmem := (roleOf_some (by rw [← low_pathSRegs]; exact low_nodup h.nodup)).1 hro
        rw [pathRegs, List.mem_append] at hmem
        rcases hmem with h1 | h1
        · obtain ⟨q, e', r, h4, h5⟩ := regs_filter (wholes p) [] _ _ _ h1
          rw [List.nil_append] at h5
          exact ⟨q, e', r, h4, h5⟩
        · simp at h1
  · rw [hl, (c.dead h.ok).acc] at ha; cases ha

end JPS
