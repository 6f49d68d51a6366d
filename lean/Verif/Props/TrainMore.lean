import Verif.Props.Train
import Verif.Props.ParallelBelow
import Verif.Props.PruneBelow
import Verif.Props.ParallelSlice
import Verif.Props.OptActual
/-!
# C62: further queries

The theorems of Props/Train.lean for filters below other steps, filters with slices, and slices below descendant steps.
-/

set_option autoImplicit false

namespace JPS
open Spec

theorem FPre.noIdx_all {B : List Step} {Q : List Reg} {c : SCtx} (h : FPre B Q c) (s : Nat) : NoIdx (tableOf c) s := by
  refine c.noIdx (fun r hr => ?_) s
  obtain ⟨k, hk⟩ := List.getElem?_of_mem hr
  have := h.ranges_zero k
  rw [List.getD_eq_getElem?_getD, hk] at this
  exact this

/-- **C62 for filter queries below other steps**: a table learned from any document `v'` of the same shape. -/
theorem c62_below_partial (O : NumOps) (B : List Step) (p : List (QStep Num)) (hq : BelowQuery B p)
    (pre trail : Str) (v : J) (h : Readable pre trail v) (ht : v.tidy = true) (ha : Apart B v)
    (hd : ∀ x ∈ selected B v, x.decided (arith O) O.atof p = true)
    (hw : v.within 998 = true) (hl : v.tokenCount ≤ MAX_TUPLE_LIST)
    (hn : ((selected B v).flatMap fun x => x.select (arith O) O.atof (unfiltered p)).length ≤ MAX_OUTPUT)
    (hx : ∀ x ∈ selected B v, ∀ y ∈ x.select (arith O) O.atof (unfiltered p), y.render.length ≤ 998)
    (hpl : v.plainStrings = true) (h0 : NUL ∉ pre ++ v.render ++ trail)
    (cores : Nat) (hc : 0 < cores) (hcm : cores ≤ MAX_THREAD) (g : Nat → Str)
    (u : Nat → Nat → UState) (ru : Nat → Nat → Nat → UState)
    (hpart : partition cores (pre ++ v.render ++ trail) ≠ none)
    (q : QDfa × QCtx) (hbq : buildQuery (belowAst B p) = some q) (hsz : Sizes q.1 v) (hkeys : v.keysWithin 98 = true)
    (htorn : ∀ xs ys : List Str, partition cores (pre ++ v.render ++ trail) = some ((xs ++ ys).map some) → xs ≠ [] → ys ≠ [] →
      Untorn (Matches (B ++ p.map sk)) pre v xs.flatten.length)
    (hearly : ∀ (x : Str) (xs ys : List Str), partition cores (pre ++ v.render ++ trail) = some ((x :: xs ++ ys).map some) → ys ≠ [] →
      FilteredBelowEarly B p pre v x.length (x :: xs).flatten.length)
    (pre' trail' : Str) (v' : J) (h' : DocOK pre' trail' v') (hshape : SameShape v' v) :
    ∃ r, parallelRunOpt O MEMORY_FOOTPRINT cores (some (collectConstraints g q.1 (pre' ++ v'.render ++ trail'))) u ru (belowAst B p)
        (pre ++ v.render ++ trail) = some (some r) ∧
      r.k.re = false ∧ r.k.bad = false ∧ r.pf.ub = false ∧
      r.pf.output = ((selected B v).flatMap fun x => x.select (arith O) O.atof p).map J.render := by
  obtain ⟨c, hbc, hf, _⟩ := hq.table
  have hq' : buildQuery (belowAst B p) = some (tableOf c, contextOf c) := by unfold buildQuery; rw [hbc]; rfl
  rw [hq'] at hbq
  cases hbq
  have hcov := c62_covers_shape g (d := tableOf c) hf.noIdx_all h' h.doc hshape
  have hclean := c57_clean_partial O B p hq pre trail v h ht ha hd hw hl hn hx
  obtain ⟨r, a1, a2⟩ := below_ct_safe O B hq.noSlices p hbc hf pre trail v h hpl h0 cores hc hcm
    (some (collectConstraints g (tableOf c) (pre' ++ v'.render ++ trail')))
    (fun c' e => by cases e; exact learned_nodup g _ _) (learned_statesIn g (c.dead hf.ok) c.one_lt _) (u 0) hpart hsz (.inr hkeys) hclean
    htorn hearly
  obtain ⟨a3, a4⟩ := a2 (.inl fun ps _ ht => ctChunks_covers hcov ht ps [] SA.init rfl Is.init)
  obtain ⟨b1, b2⟩ := tree_ct O (belowAst B p) hbc (c.dead hf.ok) (hf.noIdx (c.letters_map [])) pre trail v h hpl h0 cores hc
    (some (collectConstraints g (tableOf c) (pre' ++ v'.render ++ trail'))) (fun c' e => by cases e; exact learned_nodup g _ _) (u 0) r a1 a3
    hclean (fun xs ys e hx hy hb => hf.cutsOK hq.noSlices hb (htorn xs ys e hx hy))
    (.inl fun ps _ ht => ctChunks_covers hcov ht ps [] SA.init rfl Is.init)
  refine ⟨r, ?_, b2, a3, a4, ?_⟩
  · rw [parallelRunOpt_single O _ cores _ u ru _ _ c hbc h.nonempty h.size, parallelPartialRunOpt_eq a1 b2]
    rfl
  · rw [c57_prefix_partial O B p hq pre trail v h ht ha hd] at b1
    exact (Option.some.inj b1).symm

/-- **C62 for paths with filters and slices**: a table learned from any document `v'` with keys and arrays at the same places. -/
theorem c62_filter_slices_partial (O : NumOps) (p : List (SStep Num)) (hq : SliceQuery p)
    (pre trail : Str) (v : J) (h : Readable pre trail v) (ht : v.tidy = true) (hd : v.settled (arith O) O.atof p = true)
    (hw : v.within 998 = true) (hl : v.tokenCount ≤ MAX_TUPLE_LIST)
    (hn : (v.choose (arith O) O.atof (unfilteredS p)).length ≤ MAX_OUTPUT)
    (hx : ∀ x ∈ v.choose (arith O) O.atof (unfilteredS p), x.render.length ≤ 998)
    (hpl : v.plainStrings = true) (h0 : NUL ∉ pre ++ v.render ++ trail)
    (cores : Nat) (hc : 0 < cores) (hcm : cores ≤ MAX_THREAD) (g : Nat → Str)
    (u : Nat → Nat → UState) (ru : Nat → Nat → Nat → UState)
    (hpart : partition cores (pre ++ v.render ++ trail) ≠ none)
    (q : QDfa × QCtx) (hbq : buildQuery (sAst p) = some q) (hsz : Sizes q.1 v) (hkeys : v.keysWithin 98 = true)
    (htorn : ∀ xs ys : List Str, partition cores (pre ++ v.render ++ trail) = some ((xs ++ ys).map some) → xs ≠ [] → ys ≠ [] →
      UntornPath (p.map ssk) pre v xs.flatten.length)
    (hearly : ∀ (x : Str) (xs ys : List Str), partition cores (pre ++ v.render ++ trail) = some ((x :: xs ++ ys).map some) → ys ≠ [] →
      FilteredSEarly p pre v x.length (x :: xs).flatten.length)
    (pre' trail' : Str) (v' : J) (h' : DocOK pre' trail' v') (hshape : SamePlaces v' v) :
    ∃ r, parallelRunOpt O MEMORY_FOOTPRINT cores (some (collectConstraints g q.1 (pre' ++ v'.render ++ trail'))) u ru (sAst p)
        (pre ++ v.render ++ trail) = some (some r) ∧
      r.k.re = false ∧ r.k.bad = false ∧ r.pf.ub = false ∧ r.pf.output = (v.choose (arith O) O.atof p).map J.render := by
  obtain ⟨c, hbc, hf, hd0⟩ := hq.table
  have hq' : buildQuery (sAst p) = some (tableOf c, contextOf c) := by unfold buildQuery; rw [hbc]; rfl
  rw [hq'] at hbq
  cases hbq
  have hcov := c62_covers_places g (tableOf c) h' h.doc hshape
  have hclean := c35_filter_slices_partial O p hq pre trail v h ht hd hw hl hn hx
  obtain ⟨r, a1, a2⟩ := slices_ct_safe O p hq.bounds hbc hf hd0 pre trail v h hpl h0 cores hc hcm
    (some (collectConstraints g (tableOf c) (pre' ++ v'.render ++ trail')))
    (fun c' e => by cases e; exact learned_nodup g _ _) (learned_statesIn g (c.dead hf.ok) c.one_lt _) (u 0) hpart hsz (.inr hkeys) hclean
    htorn hearly
  obtain ⟨a3, a4⟩ := a2 (.inl fun ps _ ht => ctChunks_covers hcov ht ps [] SA.init rfl Is.init)
  obtain ⟨b1, b2, b3⟩ := c43_filter_slices_partial O p hq pre trail v h hpl h0 cores hc _ hq' _ (learned_nodup g _ _)
    hcov u ru r a1 a3 hclean htorn
  refine ⟨r, b2, b1, a3, a4, ?_⟩
  rw [c03_slices_partial O p hq pre trail v h ht hd] at b3
  exact (Option.some.inj b3).symm

/-- **C62 for every path without filters**, also with slices below descendant steps. -/
theorem c62_chosen_partial (O : NumOps) (p : List Step) (hp : p ≠ []) (hlen : fewNames p) (hb : boundsOk p)
    (pre trail : Str) (v : J) (h : Readable pre trail v) (ht : v.tidy = true) (hpl : v.plainStrings = true)
    (h0 : NUL ∉ pre ++ v.render ++ trail)
    (cores : Nat) (hc : 0 < cores) (hcm : cores ≤ MAX_THREAD) (g : Nat → Str) (u : Nat → Nat → UState) (ru : Nat → Nat → Nat → UState)
    (hpart : partition cores (pre ++ v.render ++ trail) ≠ none) (q : QDfa × QCtx) (hq : buildQuery (astOf p) = some q) (hsz : Sizes q.1 v)
    (hkeys : v.keysWithin 98 = true)
    (hnum : (chosen p v).length ≤ MAX_OUTPUT) (htext : ∀ x ∈ chosen p v, x.render.length ≤ 998)
    (htorn : ∀ xs ys : List Str, partition cores (pre ++ v.render ++ trail) = some ((xs ++ ys).map some) → xs ≠ [] → ys ≠ [] →
      UntornChosen p pre v xs.flatten.length)
    (pre' trail' : Str) (v' : J) (h' : DocOK pre' trail' v') (hshape : SamePlaces v' v) :
    ∃ r, parallelRunOpt O MEMORY_FOOTPRINT cores (some (collectConstraints g q.1 (pre' ++ v'.render ++ trail'))) u ru (astOf p)
        (pre ++ v.render ++ trail) = some (some r) ∧
      r.k.re = false ∧ r.k.bad = false ∧ r.pf.ub = false ∧ r.pf.output = (chosen p v).map J.render := by
  obtain ⟨c, hbc, hpc⟩ := pathCtx_of_build p hp hlen
  have hq' : buildQuery (astOf p) = some (tableOf c, contextOf c) := by unfold buildQuery; rw [hbc]; rfl
  rw [hq'] at hq
  cases hq
  have hcov := c62_covers_places g (tableOf c) h' h.doc hshape
  obtain ⟨h1, h2⟩ := c02_actual_partial O p hp hb hlen pre trail v h ht
  have hclean := h2 (short_mono (by decide) v hsz.short) hnum htext
  obtain ⟨r, a1, a2⟩ := tree_ct_safe O (astOf p) hbc (c.dead hpc.ok) (hpc.noIdx_counted [] (by simp)) pre trail v h hpl h0 cores hc hcm
    (some (collectConstraints g (tableOf c) (pre' ++ v'.render ++ trail')))
    (fun c' e => by cases e; exact learned_nodup g _ _) (learned_statesIn g (c.dead hpc.ok) c.one_lt _) (u 0) hpart hsz (.inr hkeys) hclean
    (fun xs ys e hx hy hbf => hpc.cutsOK_chosen hb (size_int h) hbf (htorn xs ys e hx hy))
    (fun _ _ _ _ _ _ => chunksPred_of (hpc.noPredicate hb) _ _ _ (Nat.le_refl _))
  obtain ⟨a3, a4⟩ := a2 (.inl fun ps _ ht => ctChunks_covers hcov ht ps [] SA.init rfl Is.init)
  obtain ⟨b1, b2, b3⟩ := c43_chosen_partial O p hp hlen hb pre trail v h hpl h0 cores hc c hbc _ (learned_nodup g _ _)
    hcov u ru r a1 a3 hclean htorn
  refine ⟨r, b2, b1, a3, a4, ?_⟩
  rw [h1] at b3
  exact (Option.some.inj b3).symm

/-! ### Examples -/

/-- `c62_chosen_partial` applied: the table learned from `exPlaces`, the run of `$..b[1:]` on `exParSlice` and three threads. -/
example (O : NumOps) (g : Nat → Str) (u : Nat → Nat → UState) (ru : Nat → Nat → Nat → UState) (q : QDfa × QCtx)
    (hq : buildQuery (astOf exParDescPath) = some q) :
    ∃ r, parallelRunOpt O MEMORY_FOOTPRINT 3 (some (collectConstraints g q.1 ([] ++ exPlaces.render ++ []))) u ru (astOf exParDescPath)
        ([] ++ exParSlice.render ++ []) = some (some r) ∧
      r.k.re = false ∧ r.k.bad = false ∧ r.pf.ub = false ∧ r.pf.output = ["2".toList, "3".toList, "5".toList] := by
  rw [← exParDesc_chosen_out]
  have e : (buildQuery (astOf exParDescPath)).map (·.1.statesNum) = some 5 := by decide
  rw [hq] at e
  have e : q.1.statesNum = 5 := Option.some.inj e
  exact c62_chosen_partial O exParDescPath (by decide) (by decide) exParDesc_bounds [] [] exParSlice
    ⟨by decide, by decide, by decide, by decide, by decide, by decide, by decide, by decide⟩ (by decide) (by decide)
    (by decide) 3 (by decide) (by decide) g u ru (by rw [List.nil_append, List.append_nil, exParSlice_partition]; nofun) q hq
    ⟨by decide, by decide, by rw [e]; decide, by rw [e]; decide, by rw [e]; decide⟩
    (by decide) exParDesc_few exParDesc_short exParDesc_untorn [] [] exPlaces
    ⟨by decide, by decide, by decide, by decide, by decide, by decide⟩ (by unfold SamePlaces; decide)

/-- The hypotheses of `c62_below_partial` on the two documents, and the result, for the query of Props/ParallelBelow.lean
(`$..a[?(@.c > 3)].b`); the other hypotheses are shown there. -/
example : DocOK [] [] exSmall ∧ SameShape exSmall exParTidy ∧ exParTidy.keysWithin 98 = true ∧
    ((buildCtx (belowAst [.descProp ['a']] exBelowTail)).bind fun c => parallelRunOpt intOps MEMORY_FOOTPRINT 3
      (some (collectConstraints (fun _ => []) (tableOf c) exSmall.render)) (fun _ _ => .other) (fun _ _ _ => .other)
      (belowAst [.descProp ['a']] exBelowTail) exParTidy.render).map (·.map fun r => (r.pf.output, r.k.bad, r.k.re)) =
      some (some (["{\"q\": 1}".toList, "7".toList], false, false)) :=
  ⟨exSmall_ok, exSmall_shape, by decide, by decide +kernel⟩

/-- The hypotheses of `c62_filter_slices_partial` on the two documents, and the result, for the query of Props/ParallelSlice.lean; the other
hypotheses are shown there. -/
example : DocOK [] [] exPlaces ∧ SamePlaces exPlaces exParSlice ∧ exParSlice.keysWithin 98 = true ∧
    ((buildCtx (sAst exFilterSlice)).bind fun c => parallelRunOpt intOps MEMORY_FOOTPRINT 3
      (some (collectConstraints (fun _ => []) (tableOf c) exPlaces.render)) (fun _ _ => .other) (fun _ _ _ => .other)
      (sAst exFilterSlice) exParSlice.render).map (·.map fun r => (r.pf.output, r.k.bad, r.k.re)) =
      some (some (["5".toList], false, false)) :=
  ⟨⟨by decide, by decide, by decide, by decide, by decide, by decide⟩, by unfold SamePlaces; decide, by decide, by decide +kernel⟩

end JPS
