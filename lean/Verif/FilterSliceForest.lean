import Verif.FilterSliceWords
/-!
# What the filter sees of a document below slices

The tuples of a document are those of the forest of the document without the elements outside the slices.
-/

set_option autoImplicit false

namespace JPS
open Spec

/-! ### Ranges below a position -/

/-- The range the automaton tests after the word `y`, read from the start of a path. -/
def srng : List (SStep Num) → List Step → Int × Int
  | .slice a b :: _, [.all] => (sliceLo a, sliceHi b)
  | .slice _ _ :: p, .all :: y => srng p y
  | .all :: p, .all :: y => srng p y
  | .filter _ :: p, .all :: y => srng p y
  | .prop k :: p, .prop k' :: y => if k = k' then srng p y else (0, 0)
  | _, _ => (0, 0)

theorem srng_nil (p : List (SStep Num)) : srng p [] = (0, 0) := by
  cases p with
  | nil => rfl
  | cons s p => cases s <;> rfl

theorem srng_slice (a b : Option Int) (p : List (SStep Num)) {y : List Step} (hy : y ≠ []) :
    srng (.slice a b :: p) (.all :: y) = srng p y := by
  cases y with
  | nil => exact absurd rfl hy
  | cons s y => rfl

theorem srng_props : ∀ (p : List (SStep Num)) (q : List Str), srng p (q.map .prop) = (0, 0)
  | [], q => by cases q <;> rfl
  | .prop k :: p, [] => rfl
  | .prop k :: p, k' :: q => by
    simp only [List.map_cons, srng]
    rw [srng_props p q]; split <;> rfl
  | .all :: p, q => by cases q <;> rfl
  | .slice a b :: p, q => by cases q <;> rfl
  | .filter e :: p, q => by cases q <;> rfl

theorem srng_sregs : ∀ (p : List (SStep Num)) (u : List Step), ∀ r ∈ sregs u p,
    ∃ y, y ≠ [] ∧ r.w = u ++ y ∧ rangeOf r.w = srng p (flat y)
  | [], u, r, h => by simp [sregs] at h
  | .prop k :: p, u, r, h => by
    obtain ⟨y, h1, h2, h3⟩ := srng_sregs p (u ++ [.prop k]) r h
    exact ⟨.prop k :: y, by simp, by simpa using h2, by rw [h3]; simp [flat, unslice, srng]⟩
  | .all :: p, u, r, h => by
    obtain ⟨y, h1, h2, h3⟩ := srng_sregs p (u ++ [.all]) r h
    exact ⟨.all :: y, by simp, by simpa using h2, by rw [h3]; simp [flat, unslice, srng]⟩
  | .slice a b :: p, u, r, h => by
    simp only [sregs, List.mem_cons] at h
    rcases h with rfl | h
    · exact ⟨[.slice a b], by simp, rfl, by simp [rangeOf_slice, flat, unslice, srng]⟩
    · obtain ⟨y, h1, h2, h3⟩ := srng_sregs p (u ++ [.slice a b]) r h
      refine ⟨.slice a b :: y, by simp, by simpa using h2, ?_⟩
      rw [h3, show flat (.slice a b :: y) = .all :: flat y from rfl, srng_slice]
      simpa [flat] using h1
  | .filter e :: p, u, r, h => by
    simp only [sregs, List.mem_append] at h
    rcases h with h | h
    · simp only [block, List.map_cons, List.mem_cons, List.mem_map] at h
      rcases h with rfl | ⟨_, ⟨q, _, rfl⟩, rfl⟩
      · exact ⟨[.all], by simp, rfl, by simp [Reg.up, rangeOf_all, flat, unslice, srng, srng_nil]⟩
      · refine ⟨.all :: q.map .prop, by simp, by simp [Reg.up], ?_⟩
        have h1 : rangeOf (u ++ [Step.all] ++ q.map .prop) = (0, 0) := by
          cases q with
          | nil => simp [rangeOf_all]
          | cons k q => exact rangeOf_props _ (by simp)
        show rangeOf (u ++ [Step.all] ++ q.map .prop) = srng _ (.all :: flat (q.map .prop))
        rw [h1, flat_props, srng, srng_props]
    · obtain ⟨y, h1, h2, h3⟩ := srng_sregs p (u ++ [.all]) r h
      exact ⟨.all :: y, by simp, by simpa using h2, by rw [h3]; simp [flat, unslice, srng]⟩

theorem sregs_srng : ∀ (p : List (SStep Num)) (u : List Step) (y : List Step), srng p y ≠ (0, 0) →
    ∃ r ∈ sregs u p, flat r.w = flat u ++ y
  | [], u, y, h => absurd rfl h
  | .prop k :: p, u, y, h => by
    match y, h with
    | [], h => exact absurd rfl h
    | .prop k' :: y, h =>
      by_cases hk : k = k'
      · subst hk
        rw [srng, if_pos rfl] at h
        obtain ⟨r, h1, h2⟩ := sregs_srng p (u ++ [.prop k]) y h
        exact ⟨r, h1, by rw [h2, flat_append]; simp [flat, unslice]⟩
      · rw [srng, if_neg hk] at h; exact absurd rfl h
    | .all :: y, h => exact absurd rfl h
    | .slice _ _ :: y, h => exact absurd rfl h
    | .dotAll :: y, h => exact absurd rfl h
    | .descAll :: y, h => exact absurd rfl h
    | .descProp _ :: y, h => exact absurd rfl h
  | .all :: p, u, y, h => by
    match y, h with
    | [], h => exact absurd rfl h
    | .all :: y, h =>
      obtain ⟨r, h1, h2⟩ := sregs_srng p (u ++ [.all]) y h
      exact ⟨r, h1, by rw [h2, flat_append]; simp [flat, unslice]⟩
    | .prop _ :: y, h => exact absurd rfl h
    | .slice _ _ :: y, h => exact absurd rfl h
    | .dotAll :: y, h => exact absurd rfl h
    | .descAll :: y, h => exact absurd rfl h
    | .descProp _ :: y, h => exact absurd rfl h
  | .filter e :: p, u, y, h => by
    match y, h with
    | [], h => exact absurd rfl h
    | .all :: y, h =>
      obtain ⟨r, h1, h2⟩ := sregs_srng p (u ++ [.all]) y h
      exact ⟨r, by simp only [sregs, List.mem_append]; exact .inr h1, by rw [h2, flat_append]; simp [flat, unslice]⟩
    | .prop _ :: y, h => exact absurd rfl h
    | .slice _ _ :: y, h => exact absurd rfl h
    | .dotAll :: y, h => exact absurd rfl h
    | .descAll :: y, h => exact absurd rfl h
    | .descProp _ :: y, h => exact absurd rfl h
  | .slice a b :: p, u, y, h => by
    match y, h with
    | [], h => exact absurd rfl h
    | [.all], h => exact ⟨_, List.mem_cons_self, by simp [flat, unslice]⟩
    | .all :: s :: y, h =>
      rw [srng_slice _ _ _ (by simp)] at h
      obtain ⟨r, h1, h2⟩ := sregs_srng p (u ++ [.slice a b]) (s :: y) h
      exact ⟨r, List.mem_cons_of_mem _ h1, by rw [h2, flat_append]; simp [flat, unslice]⟩
    | .prop _ :: y, h => exact absurd rfl h
    | .slice _ _ :: y, h => exact absurd rfl h
    | .dotAll :: y, h => exact absurd rfl h
    | .descAll :: y, h => exact absurd rfl h
    | .descProp _ :: y, h => exact absurd rfl h

theorem srng_full : ∀ (p : List (SStep Num)), endsS p = false → srng p (flat (p.map ssk)) = (0, 0)
  | [], _ => rfl
  | .prop k :: p, h => by
    show srng (.prop k :: p) (.prop k :: flat (p.map ssk)) = _
    rw [srng, if_pos rfl]; exact srng_full p (endsS_tail h)
  | .all :: p, h => srng_full p (endsS_tail h)
  | .filter e :: p, h => srng_full p (endsS_tail h)
  | .slice a b :: p, h => by
    show srng (.slice a b :: p) (.all :: flat (p.map ssk)) = _
    have hp : p ≠ [] := by rintro rfl; cases h
    rw [srng_slice _ _ _ (by simpa [flat] using hp)]
    exact srng_full p (endsS_tail h)

theorem STab.rng_path {p : List (SStep Num)} {c : SCtx} (h : STab (pathSRegs p) c) (w : List Step) :
    STab.rng (pathSRegs p) w = srng p w := by
  by_cases hx : ∃ r ∈ pathSRegs p, flat r.w = w
  · obtain ⟨r, hr, rfl⟩ := hx
    rw [h.rng_mem hr]
    unfold pathSRegs at hr
    rcases List.mem_append.1 hr with hr | hr
    · obtain ⟨y, _, h2, h3⟩ := srng_sregs p [] r hr
      rw [List.nil_append] at h2
      rw [h3, h2]
    · split at hr
      · cases hr
      · rename_i he
        simp only [List.mem_singleton] at hr
        subst hr
        have he' : endsS p = false := by simpa using he
        rw [srng_full p he']
        exact endsS_range p he'
  · rw [STab.rng_none (fun r hr he => hx ⟨r, hr, he⟩)]
    apply Classical.byContradiction
    intro hne
    obtain ⟨r, h1, h2⟩ := sregs_srng p [] w (fun he => hne he.symm)
    exact hx ⟨r, by unfold pathSRegs; exact List.mem_append_left _ h1, by simpa [flat] using h2⟩

/-! ### Positions -/

/-- The rest of a path after a name. -/
def sKey (k : Str) : Option (List (SStep Num)) → Option (List (SStep Num))
  | some (.prop k' :: p) => if k' = k then some p else none
  | _ => none

/-- The rest of a path below the elements of an array. -/
def sElem : Option (List (SStep Num)) → Option (List (SStep Num))
  | some (.all :: p) => some p
  | some (.slice _ _ :: p) => some p
  | some (.filter _ :: p) => some p
  | _ => none

/-- The index is not outside a slice. -/
def sTakes : Option (List (SStep Num)) → Nat → Bool
  | some (.slice a b :: _), i => inBounds a b i
  | _, _ => true

/-- The range after the word `y`. -/
def orng (q : Option (List (SStep Num))) (y : List Step) : Int × Int :=
  match q with
  | some p => srng p y
  | none => (0, 0)

/-- The value without the elements the path passes over because of their index. -/
def qprune (q : Option (List (SStep Num))) (v : J) : J :=
  match q with
  | some p => v.prune p
  | none => v
def qpruneE (q : Option (List (SStep Num))) (i : Nat) (es : Elems) : Elems :=
  match q with
  | some (.all :: p) => es.prune (.all : SStep Num) i p
  | some (.slice a b :: p) => es.prune (.slice a b) i p
  | some (.filter e :: p) => es.prune (.filter e) i p
  | _ => es
def qpruneM (q : Option (List (SStep Num))) (ms : Members) : Members :=
  match q with
  | some (.prop k :: p) => ms.prune k p
  | _ => ms

theorem orng_key (k : Str) (q : Option (List (SStep Num))) (y : List Step) : orng q (.prop k :: y) = orng (sKey k q) y := by
  cases q with
  | none => rfl
  | some p =>
    cases p with
    | nil => rfl
    | cons s p =>
      cases s with
      | prop k' =>
        simp only [orng, srng, sKey]
        split <;> rfl
      | _ => rfl

theorem orng_elem (q : Option (List (SStep Num))) {y : List Step} (hy : y ≠ []) : orng q (.all :: y) = orng (sElem q) y := by
  cases q with
  | none => rfl
  | some p =>
    cases p with
    | nil => rfl
    | cons s p =>
      cases s with
      | slice a b => exact srng_slice a b p hy
      | _ => rfl

theorem orng_prop (k : Str) (q : Option (List (SStep Num))) : orng q [.prop k] = (0, 0) := by
  cases q with
  | none => rfl
  | some p => exact srng_props p [k]

theorem rem_key {r : Res} {q : Option (List (SStep Num))} (h : r.rem = q.map wholes) (k : Str) :
    (r.key k).rem = (sKey k q).map wholes := by
  unfold Res.key
  simp only [h]
  cases q with
  | none => rfl
  | some p =>
    cases p with
    | nil => rfl
    | cons s p =>
      cases s with
      | prop k' =>
        simp only [Option.map_some, wholes_prop, remProp, sKey]
        split <;> rfl
      | _ => rfl

theorem rem_elem {r : Res} {q : Option (List (SStep Num))} (h : r.rem = q.map wholes) :
    r.elem.rem = (sElem q).map wholes := by
  unfold Res.elem
  simp only [h]
  cases q with
  | none => rfl
  | some p =>
    cases p with
    | nil => rfl
    | cons s p => cases s <;> rfl

theorem qprune_lit (q : Option (List (SStep Num))) (t : Str) : qprune q (.lit t) = .lit t := by
  cases q with
  | none => rfl
  | some p => exact prune_lit t p
theorem qprune_str (q : Option (List (SStep Num))) (t : Str) : qprune q (.str t) = .str t := by
  cases q with
  | none => rfl
  | some p => exact prune_str t p
theorem qprune_arr (q : Option (List (SStep Num))) (a : Str) (es : Elems) : qprune q (.arr a es) = .arr a (qpruneE q 0 es) := by
  cases q with
  | none => rfl
  | some p =>
    cases p with
    | nil => simp [qprune, qpruneE, J.prune]
    | cons s p => cases s <;> simp [qprune, qpruneE, J.prune]
theorem qprune_obj (q : Option (List (SStep Num))) (a : Str) (ms : Members) : qprune q (.obj a ms) = .obj a (qpruneM q ms) := by
  cases q with
  | none => rfl
  | some p =>
    cases p with
    | nil => simp [qprune, qpruneM, J.prune]
    | cons s p => cases s <;> simp [qprune, qpruneM, J.prune]

theorem qpruneE_nil (q : Option (List (SStep Num))) (i : Nat) : qpruneE q i .nil = .nil := by
  unfold qpruneE
  split <;> simp [Elems.prune]
theorem qpruneE_cons (q : Option (List (SStep Num))) (i : Nat) (pre : Str) (v : J) (post : Str) (rest : Elems) :
    qpruneE q i (.cons pre v post rest) =
      if sTakes q i then .cons pre (qprune (sElem q) v) post (qpruneE q (i + 1) rest) else qpruneE q (i + 1) rest := by
  cases q with
  | none => rfl
  | some p =>
    cases p with
    | nil => rfl
    | cons s p =>
      cases s with
      | slice a b => simp only [qprune, qpruneE, Elems.prune, sTakes, SStep.takes, sElem]; rfl
      | _ => simp [qprune, qpruneE, Elems.prune, sTakes, SStep.takes, sElem]
theorem qpruneM_nil (q : Option (List (SStep Num))) : qpruneM q .nil = .nil := by
  unfold qpruneM
  split <;> simp [Members.prune]
theorem qpruneM_cons (q : Option (List (SStep Num))) (pre k mid pre2 : Str) (v : J) (post : Str) (rest : Members) :
    qpruneM q (.cons pre k mid pre2 v post rest) = .cons pre k mid pre2 (qprune (sKey k q) v) post (qpruneM q rest) := by
  cases q with
  | none => rfl
  | some p =>
    cases p with
    | nil => rfl
    | cons s p =>
      cases s with
      | prop k' =>
        simp only [qpruneM, Members.prune, sKey]
        by_cases hk : k = k'
        · subst hk; simp [qprune]
        · rw [if_neg hk, if_neg (Ne.symm hk)]; rfl
      | _ => rfl

theorem tidyPre_q (q : Option (List (SStep Num))) {pre2 post : Str} {v : J} {rest : Members} (h : tidyPre pre2 v post rest = true) :
    tidyPre pre2 v post (qpruneM q rest) = true := by
  cases rest with
  | nil => rw [qpruneM_nil]; exact h
  | cons => rw [qpruneM_cons]; simpa [tidyPre] using h

theorem inR_bounds {a b : Option Int} (h : ¬ (sliceLo a = 0 ∧ sliceHi b = 0)) {i : Nat} (hi : (i : Int) < intMax) :
    inR (sliceLo a, sliceHi b) i = inBounds a b i := by
  have h0 : (sliceLo a == 0 && sliceHi b == 0) = false := by
    rw [Bool.eq_false_iff]
    simpa using h
  unfold inR inBounds
  rw [h0, Bool.false_or]
  congr 1
  · cases a with
    | none => simp only [sliceLo, Option.getD_none, ge_iff_le, decide_eq_true_eq, intMin]; omega
    | some x => rfl
  · cases b with
    | none => simp only [sliceHi, Option.getD_none]; exact decide_eq_true hi
    | some x => rfl

/-! ### Tuples -/

/-- The path rest `q` belongs to the position `r` after the word `w`. -/
structure SPos (Q : List SReg) (w : List Step) (r : Res) (q : Option (List (SStep Num))) : Prop where
  track : Track (low Q) w r
  rem : r.rem = q.map wholes
  rng : ∀ y, y ≠ [] → STab.rng Q (w ++ y) = orng q y
  ok : ∀ p, q = some p → slicesOk p

theorem SPos.key {Q : List SReg} {w : List Step} {r : Res} {q : Option (List (SStep Num))} (h : SPos Q w r q) (k : Str) :
    SPos Q (w ++ [.prop k]) (r.key k) (sKey k q) := by
  refine ⟨h.track.key k, rem_key h.rem k, ?_, ?_⟩
  · intro y _
    rw [← orng_key, ← h.rng _ (by simp)]; simp
  · intro p hp
    unfold sKey at hp
    split at hp
    · split at hp
      · cases hp; exact (h.ok _ rfl).tail
      · cases hp
    · cases hp

theorem SPos.elem {Q : List SReg} {w : List Step} {r : Res} {q : Option (List (SStep Num))} (h : SPos Q w r q) :
    SPos Q (w ++ [.all]) r.elem (sElem q) := by
  refine ⟨h.track.elem, rem_elem h.rem, ?_, ?_⟩
  · intro y hy
    rw [← orng_elem q hy, ← h.rng _ (by simp)]; simp
  · intro p hp
    unfold sElem at hp
    split at hp <;> first | (cases hp; exact (h.ok _ rfl).tail) | cases hp

theorem SPos.out {Q : List SReg} {w : List Step} {r : Res} {q : Option (List (SStep Num))} (h : SPos Q w r q)
    (hr : r.role = some .out) : q = some [] := by
  have hrem : r.rem = some [] := by
    unfold Res.role at hr
    split at hr
    · cases hr
    · split at hr
      · cases hr
      · split at hr
        · exact remDone_iff.1 ‹_›
        · cases hr
  rw [h.rem] at hrem
  cases q with
  | none => cases hrem
  | some p =>
    simp only [Option.map_some, Option.some.injEq] at hrem
    cases p with
    | nil => rfl
    | cons s p => simp [wholes] at hrem

theorem takes_range {Q : List SReg} {c : SCtx} (h : STab Q c) {w : List Step} {r : Res} {q : Option (List (SStep Num))} (hp : SPos Q w r q) {i : Nat}
    (hi : (i : Int) < intMax) : (tableOf c).inRange (c.state (w ++ [.all])) i = sTakes q i := by
  rw [h.inRange hp.elem.track.simple, hp.rng [.all] (by simp)]
  cases q with
  | none => rfl
  | some p =>
    cases p with
    | nil => rfl
    | cons s p =>
      cases s with
      | slice a b => exact inR_bounds (hp.ok _ rfl a b (by simp)) hi
      | prop k => rfl
      | all => simp [orng, srng, srng_nil, sTakes, inR]
      | filter e => simp [orng, srng, srng_nil, sTakes, inR]

section
variable {Q : List SReg} {c : SCtx} (h : STab Q c) (hd : (tableOf c).Dead0) (M : Int) (hM : M = intMax)
include h hd hM

mutual
/-- The tuples of the forest of the smaller document are those the automaton emits for the document. -/
theorem pruned_tuples (r : Res) (w : List Step) (q : Option (List (SStep Num))) (hp : SPos Q w r q) (obs obs' : Str → Str)
    (el : Bool) (cnt : Nat) (hel : r.tst.isSome = true → el = true) (hin : (tableOf c).inRange (c.state w) cnt = true) :
    ∀ (v : J), ExactObs obs v → ExactObs obs' v → v.tidy = true → (v.render.length : Int) ≤ M → ∀ (rest : Forest),
    forestTuples (forest c.state r w obs' (qprune q v) rest) = emit (tableOf c) obs el (c.state w) cnt v ++ forestTuples rest
  | .lit t, ho, ho', _, _, rest => by
    have hm := h.matched hp.track.simple hin
    rw [hp.track.role (low_nodup h.nodup)] at hm
    rw [qprune_lit]
    unfold forest emit leafForest
    rw [ho t rfl, ho' t rfl]
    cases hr : r.role with
    | none => rw [hr] at hm; rw [hm]; rfl
    | some ro => rw [hr] at hm; rw [hm]; cases ro <;> rfl
  | .str t, _, _, _, _, rest => by
    have hm := h.matched hp.track.simple hin
    rw [hp.track.role (low_nodup h.nodup)] at hm
    rw [qprune_str]
    unfold forest emit leafForest
    cases hr : r.role with
    | none => rw [hr] at hm; rw [hm]; rfl
    | some ro => rw [hr] at hm; rw [hm]; cases ro <;> rfl
  | .arr a es, _, _, htd, hlen, rest => by
    have hm := h.matched hp.track.simple hin
    rw [hp.track.role (low_nodup h.nodup)] at hm
    have hlen' : ((0 + es.render.length : Nat) : Int) < M := by
      simp only [J.render, List.length_cons, List.length_append] at hlen
      omega
    have ih := prunedE_tuples r w q hp es 0 (by simpa [J.tidy] using htd) (fun _ => hlen')
    rw [qprune_arr]
    unfold forest emit
    rw [h.goArr hin]
    cases hr : r.role with
    | none => rw [hr] at hm; rw [hm]; exact ih rest
    | some ro =>
      rw [hr] at hm; rw [hm]
      cases ro with
      | pred e ds => exact ih rest
      | cond q => simp only [forestTuples, FWords.accOf, ih rest, List.cons_append]
      | out =>
        have hq := hp.out hr
        subst hq
        simp only [forestTuples, FWords.accOf, ih _, List.append_assoc, List.cons_append, List.nil_append]
        rfl
  | .obj a ms, _, _, htd, hlen, rest => by
    have hm := h.matched hp.track.simple hin
    rw [hp.track.role (low_nodup h.nodup)] at hm
    have hlen' : (ms.render.length : Int) < M := by
      simp only [J.render, List.length_cons, List.length_append] at hlen
      omega
    have ih := prunedM_tuples r w q hp cnt hin ms (by simpa [J.tidy] using htd) hlen'
    rw [qprune_obj]
    unfold forest emit
    cases hr : r.role with
    | none => rw [hr] at hm; rw [hm]; exact ih rest
    | some ro =>
      rw [hr] at hm; rw [hm]
      cases ro with
      | pred e ds =>
        have htst : r.tst.isSome = true := by
          unfold Res.role at hr
          cases hts : r.tst with
          | some e => rfl
          | none =>
            rw [hts] at hr
            simp only at hr
            split at hr
            · cases hr
            · split at hr <;> cases hr
        rw [hel htst]
        simp only [forestTuples, FWords.accOf, ih .nil, List.append_nil, if_true, List.cons_append, List.append_assoc,
          List.nil_append]
      | cond q => simp only [forestTuples, FWords.accOf, ih rest, List.cons_append]
      | out =>
        have hq := hp.out hr
        subst hq
        simp only [forestTuples, FWords.accOf, ih _, List.append_assoc, List.cons_append, List.nil_append]
        rfl
theorem prunedE_tuples (r : Res) (w : List Step) (q : Option (List (SStep Num))) (hp : SPos Q w r q) :
    ∀ (es : Elems) (i : Nat), es.tidy = true → (es ≠ .nil → ((i + es.render.length : Nat) : Int) < M) → ∀ (rest : Forest),
    forestTuples (forestE c.state r.elem (w ++ [Step.all]) (qpruneE q i es) rest) =
      emitE (tableOf c) (c.state (w ++ [Step.all])) i es ++ forestTuples rest
  | .nil, _, _, _, rest => by rw [qpruneE_nil]; simp [forestE, emitE]
  | .cons pre v post tail, i, htd, hlen, rest => by
    simp only [Elems.tidy, Bool.and_eq_true] at htd
    have hl := hlen (by simp)
    simp only [Elems.render, List.length_append] at hl
    have hi : (i : Int) < M := by omega
    have ih := prunedE_tuples r w q hp tail (i + 1) htd.2 (by
      intro ht
      cases tail with
      | nil => exact absurd rfl ht
      | cons a b c d =>
        simp only [Elems.sep, List.length_cons] at hl
        omega) rest
    have hr := takes_range h hp (hM ▸ hi)
    rw [qpruneE_cons]
    unfold emitE
    cases ht : sTakes q i with
    | true =>
      rw [ht] at hr
      rw [if_pos rfl]
      unfold forestE
      rw [pruned_tuples r.elem (w ++ [Step.all]) (sElem q) hp.elem _ _ true i (fun _ => rfl) hr v (exactE htd.1.1) (exactE htd.1.1)
        htd.1.2 (by omega), ih, List.append_assoc]
    | false =>
      rw [ht] at hr
      rw [if_neg (by simp), h.emit_out hd hp.elem.track.simple hr, ih]; rfl
theorem prunedM_tuples (r : Res) (w : List Step) (q : Option (List (SStep Num))) (hp : SPos Q w r q) (cnt : Nat)
    (hin : (tableOf c).inRange (c.state w) cnt = true) :
    ∀ (ms : Members), ms.tidy = true → (ms.render.length : Int) < M → ∀ (rest : Forest),
    forestTuples (forestM c.state r w (qpruneM q ms) rest) = emitM (tableOf c) (c.state w) cnt ms ++ forestTuples rest
  | .nil, _, _, rest => by rw [qpruneM_nil]; simp [forestM, emitM]
  | .cons pre k mid pre2 v post tail, htd, hlen, rest => by
    simp only [Members.tidy, Bool.and_eq_true] at htd
    simp only [Members.render, List.length_append, List.length_cons] at hlen
    have ih := prunedM_tuples r w q hp cnt hin tail htd.2 (by
      cases tail with
      | nil => simp only [Members.render, List.length_nil]; omega
      | cons =>
        simp only [Members.sep, List.length_cons] at hlen
        omega) rest
    have hin0 : (tableOf c).inRange (c.state (w ++ [.prop k])) 0 = true := by
      rw [h.inRange (hp.key k).track.simple, hp.rng _ (by simp), orng_prop]; rfl
    rw [qpruneM_cons]
    unfold forestM emitM
    rw [pruned_tuples (r.key k) (w ++ [Step.prop k]) (sKey k q) (hp.key k) _ _ false 0 (by simp [Res.key]) hin0 v
        (exactM htd.1.1.1 htd.1.1.2) (exactM htd.1.1.1 (tidyPre_q q htd.1.1.2)) htd.1.2 (by omega),
      ih, List.append_assoc, h.goKey hin k]
end

end

theorem spos_init {p : List (SStep Num)} {c : SCtx} (h : STab (pathSRegs p) c) (hb : slicesOk p) :
    SPos (pathSRegs p) [] (Res.init (wholes p)) (some p) := by
  refine ⟨by rw [low_pathSRegs]; exact track_init, rfl, ?_, ?_⟩
  · intro y _
    rw [List.nil_append, h.rng_path]; rfl
  · intro q hq; cases hq; exact hb

/-- The tuples of a document are those of the forest of the document without the elements outside the slices. -/
theorem STab.tuples {p : List (SStep Num)} {c : SCtx} (h : STab (pathSRegs p) c) (hd : (tableOf c).Dead0) (hb : slicesOk p) (v : J)
    (htd : v.tidy = true) (hlen : (v.render.length : Int) ≤ intMax) :
    forestTuples (forest c.state (Res.init (wholes p)) [] id (v.prune p) .nil) = emit (tableOf c) id false 1 0 v := by
  have hin : (tableOf c).inRange (c.state []) 0 = true := by
    rw [h.inRange (by intro s hs; simp at hs), h.rng_path, srng_nil]; rfl
  have := pruned_tuples h hd intMax rfl (Res.init (wholes p)) [] (some p) (spos_init h hb) id id false 0 (by intro h; cases h) hin v
    (fun t _ => rfl) (fun t _ => rfl) htd hlen .nil
  rw [show qprune (some p) v = v.prune p from rfl] at this
  rw [this, show c.state [] = 1 from rfl]
  simp [forestTuples]

theorem STab.states {p : List (SStep Num)} {c : SCtx} (h : STab (pathSRegs p) c) (hsz : treeSize (wholes p) ≤ 98) :
    (tableOf c).statesNum ≤ 100 := by
  have h2 := h.states_le (D := stepTree [] (wholes p)) (by rw [low_pathSRegs]; exact pathRegs_stepTree _)
  rw [length_stepTree] at h2
  omega

end JPS
