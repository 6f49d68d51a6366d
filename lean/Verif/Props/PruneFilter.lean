import Verif.Props.Prune
import Verif.Props.ParallelFilter

/-!
# C42, C43 and C45 for paths with filters: optimised parallel runs

Props/Prune.lean and Props/ParallelSafe.lean treat optimised parallel runs of plain paths.  The same statements for paths with
filters; the conditions on the file are those of C32 and C45 for filter queries (Props/ParallelFilter.lean).
-/

set_option autoImplicit false

namespace JPS

open Spec

/-- **C42 for paths with filters.**  Whatever the constraint table says (as long as it lists no state twice for a key): if the
optimised parallel run meets no undefined behaviour and finds no unit to reprocess, it prints what the serial run prints, under the
conditions of `c32_filters_partial`. -/
theorem c42_pruned_filters_partial (O : NumOps) (p : List (QStep Num)) (hq : FilterQuery p)
    (pre trail : Str) (v : J) (h : Readable pre trail v) (hpl : v.plainStrings = true) (h0 : NUL ∉ pre ++ v.render ++ trail)
    (cores : Nat) (hc : 0 < cores) (ct : CTable) (hnd : ∀ k ks, ct.lookup k = some ks → ks.Nodup)
    (u : Nat → Nat → UState) (ru : Nat → Nat → Nat → UState) (r : ParallelCtx)
    (hr : parallelRunOpt O MEMORY_FOOTPRINT cores (some ct) u ru (fAst p) (pre ++ v.render ++ trail) = some (some r))
    (hbad : r.k.bad = false) (hre : r.k.re = false) (hclean : clean O (fAst p) (pre ++ v.render ++ trail))
    (htorn : ∀ xs ys : List Str, partition cores (pre ++ v.render ++ trail) = some ((xs ++ ys).map some) → xs ≠ [] → ys ≠ [] →
      Untorn (Matches (p.map sk)) pre v xs.flatten.length) :
    results O (fAst p) (pre ++ v.render ++ trail) = some r.pf.output := by
  obtain ⟨c, hbc, hf⟩ := ftab_of_build p hq.ne hq.clean hq.named hq.fresh hq.names
  rw [parallelRunOpt_single O _ cores (some ct) u ru _ _ c hbc h.nonempty h.size] at hr
  obtain ⟨r', hr', e⟩ := Option.map_eq_some_iff.1 hr
  cases e
  exact (tree_ct O (fAst p) hbc (c.dead hf.ok) (hf.toFWords.noIdx 1) pre trail v h hpl h0 cores hc (some ct)
    (fun c' e => by cases e; exact hnd) (u 0) r (parallelPartialRunOpt_inv hr' hre) hbad hclean
    (fun xs ys e hx hy hb => hf.cutsOK hb (htorn xs ys e hx hy)) (.inr hre)).1

/-- **C43 for paths with filters.**  With a constraint table that covers the file, no unit is reprocessed and the optimised parallel
run prints what the serial run prints, under the conditions of `c32_filters_partial`; the undefined behaviour to be excluded is that
of the run without reprocessing. -/
theorem c43_covering_filters_partial (O : NumOps) (p : List (QStep Num)) (hq : FilterQuery p)
    (pre trail : Str) (v : J) (h : Readable pre trail v) (hpl : v.plainStrings = true) (h0 : NUL ∉ pre ++ v.render ++ trail)
    (cores : Nat) (hc : 0 < cores) (c : SCtx) (hbc : buildCtx (fAst p) = some c)
    (ct : CTable) (hnd : ∀ k ks, ct.lookup k = some ks → ks.Nodup) (hcov : Covers ct (tableOf c) (pre ++ v.render ++ trail))
    (u : Nat → Nat → UState) (ru : Nat → Nat → Nat → UState) (r : ParallelCtx)
    (hr : parallelPartialRun O (tableOf c) (contextOf c) (some ct) (u 0) cores none (pre ++ v.render ++ trail) = some r)
    (hbad : r.k.bad = false) (hclean : clean O (fAst p) (pre ++ v.render ++ trail))
    (htorn : ∀ xs ys : List Str, partition cores (pre ++ v.render ++ trail) = some ((xs ++ ys).map some) → xs ≠ [] → ys ≠ [] →
      Untorn (Matches (p.map sk)) pre v xs.flatten.length) :
    r.k.re = false ∧
    parallelRunOpt O MEMORY_FOOTPRINT cores (some ct) u ru (fAst p) (pre ++ v.render ++ trail) = some (some r) ∧
    results O (fAst p) (pre ++ v.render ++ trail) = some r.pf.output := by
  obtain ⟨c', hbc', hf⟩ := ftab_of_build p hq.ne hq.clean hq.named hq.fresh hq.names
  rw [hbc] at hbc'; cases hbc'
  obtain ⟨h1, h2⟩ := tree_ct O (fAst p) hbc (c.dead hf.ok) (hf.toFWords.noIdx 1) pre trail v h hpl h0 cores hc (some ct)
    (fun c' e => by cases e; exact hnd) (u 0) r hr hbad hclean
    (fun xs ys e hx hy hb => hf.cutsOK hb (htorn xs ys e hx hy))
    (.inl fun ps _ ht => ctChunks_covers hcov ht ps [] SA.init rfl Is.init)
  refine ⟨h2, ?_, h1⟩
  rw [parallelRunOpt_single O _ cores (some ct) u ru _ _ c hbc h.nonempty h.size, parallelPartialRunOpt_eq hr h2]
  rfl

/-- **C45 for paths with filters, optimised runs on the file learned from.**  With the table learned from the file itself, whatever
the memory of the table held before, the optimised parallel run of a filter query ends without undefined behaviour, reprocesses
nothing and prints exactly the selected values. -/
theorem c45_same_file_filters_partial (O : NumOps) (p : List (QStep Num)) (hq : FilterQuery p)
    (pre trail : Str) (v : J) (h : Readable pre trail v) (ht : v.tidy = true) (hd : v.decided (arith O) O.atof p = true)
    (hw : v.within 998 = true) (hl : v.tokenCount ≤ MAX_TUPLE_LIST)
    (hn : (v.select (arith O) O.atof (unfiltered p)).length ≤ MAX_OUTPUT)
    (hx : ∀ x ∈ v.select (arith O) O.atof (unfiltered p), x.render.length ≤ 998)
    (hpl : v.plainStrings = true) (h0 : NUL ∉ pre ++ v.render ++ trail)
    (cores : Nat) (hc : 0 < cores) (hcm : cores ≤ MAX_THREAD) (g : Nat → Str)
    (u : Nat → Nat → UState) (ru : Nat → Nat → Nat → UState)
    (hpart : partition cores (pre ++ v.render ++ trail) ≠ none)
    (q : QDfa × QCtx) (hbq : buildQuery (fAst p) = some q) (hsz : Sizes q.1 v) (hkeys : v.keysWithin 98 = true)
    (htorn : ∀ xs ys : List Str, partition cores (pre ++ v.render ++ trail) = some ((xs ++ ys).map some) → xs ≠ [] → ys ≠ [] →
      Untorn (Matches (p.map sk)) pre v xs.flatten.length)
    (hearly : ∀ (x : Str) (xs ys : List Str), partition cores (pre ++ v.render ++ trail) = some ((x :: xs ++ ys).map some) → ys ≠ [] →
      FilteredEarly p pre v x.length (x :: xs).flatten.length) :
    ∃ r, parallelRunOpt O MEMORY_FOOTPRINT cores (some (collectConstraints g q.1 (pre ++ v.render ++ trail))) u ru (fAst p)
        (pre ++ v.render ++ trail) = some (some r) ∧
      r.k.re = false ∧ r.k.bad = false ∧ r.pf.ub = false ∧ r.pf.output = (v.select (arith O) O.atof p).map J.render := by
  obtain ⟨c, hbc, hf⟩ := ftab_of_build p hq.ne hq.clean hq.named hq.fresh hq.names
  have hq' : buildQuery (fAst p) = some (tableOf c, contextOf c) := by unfold buildQuery; rw [hbc]; rfl
  rw [hq'] at hbq
  cases hbq
  have hclean := c35_filter_partial O p hq pre trail v h ht hd hw hl hn hx
  obtain ⟨r, a1, a2⟩ := filters_ct_safe O p hbc hf pre trail v h hpl h0 cores hc hcm
    (some (collectConstraints g (tableOf c) (pre ++ v.render ++ trail)))
    (fun c' e => by cases e; exact learned_nodup g _ _) (learned_statesIn g (c.dead hf.ok) c.one_lt _) (u 0) hpart hsz (.inr hkeys) hclean
    htorn hearly
  obtain ⟨a3, a4⟩ := a2 (.inl fun ps _ ht => ctChunks_covers (covers_learned g _ _) ht ps [] SA.init rfl Is.init)
  obtain ⟨b1, b2, b3⟩ := c43_covering_filters_partial O p hq pre trail v h hpl h0 cores hc c hbc _ (learned_nodup g _ _)
    (covers_learned g _ _) u ru r a1 a3 hclean htorn
  refine ⟨r, b2, b1, a3, a4, ?_⟩
  rw [c03_select_partial O p hq pre trail v h ht hd] at b3
  exact (Option.some.inj b3).symm

/-! ### Examples -/

/-- The table learned from a text for a path with filters. -/
def learnedF (p : List (QStep Num)) (file : Str) : Option CTable :=
  (buildCtx (fAst p)).map fun c => collectConstraints (fun _ => []) (tableOf c) file

set_option maxRecDepth 100000 in
/-- The query and the document of Props/ParallelFilter.lean with the table learned from the document, on three threads: hypotheses on
the table and the run of `c43_covering_filters_partial` and of `c42_pruned_filters_partial`, and the result.  The other hypotheses, and
those of `c45_same_file_filters_partial`, are shown in Props/ParallelFilter.lean. -/
example : (learnedF exParFilter exParTidy.render).map (·.info.map (·.states)) =
      some [[1], [1], [2], [3], [3], [5], [1]] ∧
    (parallelRunOpt intOps MEMORY_FOOTPRINT 3 (learnedF exParFilter exParTidy.render) (fun _ _ => .other) (fun _ _ _ => .other)
      (fAst exParFilter) exParTidy.render).map (·.map fun r => (r.pf.output, r.k.bad, r.k.re)) =
      some (some (["{\"q\": 1}".toList, "7".toList], false, false)) :=
  ⟨by with_unfolding_all rfl, by with_unfolding_all rfl⟩

end JPS
