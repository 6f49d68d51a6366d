import Verif.Props.ParallelBelow
import Verif.Props.PiecesOpt
/-!
# C42, C43 and C51 for filter queries below wildcard and descendant steps: optimised parallel runs
-/

set_option autoImplicit false

namespace JPS
open Spec

/-- **C42 for filter queries below other steps.**  Whatever the constraint table says (as long as it lists no state twice for a key):
if the optimised parallel run meets no undefined behaviour and finds no unit to reprocess, it prints what the serial run prints, under
the conditions of `c32_below_partial`. -/
theorem c42_below_partial (O : NumOps) (B : List Step) (p : List (QStep Num)) (hq : BelowQuery B p)
    (pre trail : Str) (v : J) (h : Readable pre trail v) (hpl : v.plainStrings = true) (h0 : NUL ∉ pre ++ v.render ++ trail)
    (cores : Nat) (hc : 0 < cores) (ct : CTable) (hnd : ∀ k ks, ct.lookup k = some ks → ks.Nodup)
    (u : Nat → Nat → UState) (ru : Nat → Nat → Nat → UState) (r : ParallelCtx)
    (hr : parallelRunOpt O MEMORY_FOOTPRINT cores (some ct) u ru (belowAst B p) (pre ++ v.render ++ trail) = some (some r))
    (hbad : r.k.bad = false) (hre : r.k.re = false) (hclean : clean O (belowAst B p) (pre ++ v.render ++ trail))
    (htorn : ∀ xs ys : List Str, partition cores (pre ++ v.render ++ trail) = some ((xs ++ ys).map some) → xs ≠ [] → ys ≠ [] →
      Untorn (Matches (B ++ p.map sk)) pre v xs.flatten.length) :
    results O (belowAst B p) (pre ++ v.render ++ trail) = some r.pf.output := by
  obtain ⟨c, hbc, hf, _⟩ := hq.table
  rw [parallelRunOpt_single O _ cores (some ct) u ru _ _ c hbc h.nonempty h.size] at hr
  obtain ⟨r', hr', e⟩ := Option.map_eq_some_iff.1 hr
  cases e
  exact (tree_ct O (belowAst B p) hbc (c.dead hf.ok) (hf.noIdx (c.letters_map [])) pre trail v h hpl h0 cores hc (some ct)
    (fun c' e => by cases e; exact hnd) (u 0) r (parallelPartialRunOpt_inv hr' hre) hbad hclean
    (fun xs ys e hx hy hb => hf.cutsOK hq.noSlices hb (htorn xs ys e hx hy)) (.inr hre)).1

/-- **C43 for filter queries below other steps.**  With a constraint table that covers the file, no unit is reprocessed and the
optimised parallel run prints what the serial run prints, under the conditions of `c32_below_partial`; the undefined behaviour to be
excluded is that of the run without reprocessing. -/
theorem c43_below_partial (O : NumOps) (B : List Step) (p : List (QStep Num)) (hq : BelowQuery B p)
    (pre trail : Str) (v : J) (h : Readable pre trail v) (hpl : v.plainStrings = true) (h0 : NUL ∉ pre ++ v.render ++ trail)
    (cores : Nat) (hc : 0 < cores) (q : QDfa × QCtx) (hbq : buildQuery (belowAst B p) = some q)
    (ct : CTable) (hnd : ∀ k ks, ct.lookup k = some ks → ks.Nodup) (hcov : Covers ct q.1 (pre ++ v.render ++ trail))
    (u : Nat → Nat → UState) (ru : Nat → Nat → Nat → UState) (r : ParallelCtx)
    (hr : parallelPartialRun O q.1 q.2 (some ct) (u 0) cores none (pre ++ v.render ++ trail) = some r)
    (hbad : r.k.bad = false) (hclean : clean O (belowAst B p) (pre ++ v.render ++ trail))
    (htorn : ∀ xs ys : List Str, partition cores (pre ++ v.render ++ trail) = some ((xs ++ ys).map some) → xs ≠ [] → ys ≠ [] →
      Untorn (Matches (B ++ p.map sk)) pre v xs.flatten.length) :
    r.k.re = false ∧
    parallelRunOpt O MEMORY_FOOTPRINT cores (some ct) u ru (belowAst B p) (pre ++ v.render ++ trail) = some (some r) ∧
    results O (belowAst B p) (pre ++ v.render ++ trail) = some r.pf.output := by
  obtain ⟨c, hbc, hf, _⟩ := hq.table
  have hq' : buildQuery (belowAst B p) = some (tableOf c, contextOf c) := by unfold buildQuery; rw [hbc]; rfl
  rw [hq'] at hbq
  cases hbq
  obtain ⟨h1, h2⟩ := tree_ct O (belowAst B p) hbc (c.dead hf.ok) (hf.noIdx (c.letters_map [])) pre trail v h hpl h0 cores hc (some ct)
    (fun c' e => by cases e; exact hnd) (u 0) r hr hbad hclean
    (fun xs ys e hx hy hb => hf.cutsOK hq.noSlices hb (htorn xs ys e hx hy))
    (.inl fun ps _ ht => ctChunks_covers hcov ht ps [] SA.init rfl Is.init)
  refine ⟨h2, ?_, h1⟩
  rw [parallelRunOpt_single O _ cores (some ct) u ru _ _ c hbc h.nonempty h.size, parallelPartialRunOpt_eq hr h2]
  rfl

/-- **C51 for filter queries below other steps, optimised runs.** -/
theorem c51_opt_below_partial (O : NumOps) (B : List Step) (p : List (QStep Num)) (hq : BelowQuery B p)
    (pre trail : Str) (v : J) (h : DocOK pre trail v) (hsp : pre.head? ≠ some ' ')
    (hpl : v.plainStrings = true) (h0 : NUL ∉ pre ++ v.render ++ trail) (hff : ∀ c ∈ pre ++ v.render ++ trail, c.toNat ≠ 255)
    (N cores : Nat) (hN : 0 < N) (hc : 0 < cores) (q : QDfa × QCtx) (hb : buildQuery (belowAst B p) = some q)
    (ct : CTable) (hnd : ∀ k ks, ct.lookup k = some ks → ks.Nodup) (hcov : Covers ct q.1 (pre ++ v.render ++ trail))
    (u : Nat → Nat → UState) (ru : Nat → Nat → Nat → UState) (r : ParallelCtx)
    (hr : PrunedRun O q.1 q.2 ct N cores u (pre ++ v.render ++ trail) r)
    (hub : ∀ N' s, (pre ++ v.render ++ trail).length ≤ N' →
      serialRun O N' (belowAst B p) (pre ++ v.render ++ trail) = some s → s.sa.ub = false)
    (htorn : ∀ xs ys : List Str, fileChunks N cores (pre ++ v.render ++ trail) = xs ++ ys → xs ≠ [] → ys ≠ [] →
      Untorn (Matches (B ++ p.map sk)) pre v xs.flatten.length) :
    parallelRunOpt O N cores (some ct) u ru (belowAst B p) (pre ++ v.render ++ trail) = some (some r) ∧
    (serialRun O N (belowAst B p) (pre ++ v.render ++ trail)).map (·.pf.output) = some r.pf.output ∧
    ∀ N', (pre ++ v.render ++ trail).length ≤ N' →
      (serialRun O N' (belowAst B p) (pre ++ v.render ++ trail)).map (·.pf.output) = some r.pf.output := by
  obtain ⟨c, hbc, hf, _⟩ := hq.table
  have hbq : buildQuery (belowAst B p) = some (tableOf c, contextOf c) := by unfold buildQuery; rw [hbc]; rfl
  rw [hbq] at hb
  cases hb
  obtain ⟨h1, h2⟩ := tree_pieces_ct O (belowAst B p) hbc (c.dead hf.ok) (hf.noIdx (c.letters_map [])) pre trail v h hsp hpl h0 hff N
    cores hN hc (some ct) (fun c' e => by cases e; exact hnd) u r hr.run hr.defined
    (fun ps _ ht => ctChunks_covers hcov ht ps [] SA.init rfl Is.init) hub
    (fun xs ys e hx hy hb => hf.cutsOK hq.noSlices hb (htorn xs ys e hx hy))
  refine ⟨?_, h1⟩
  unfold parallelRunOpt
  rw [hbq]
  exact parallelPiecesOpt_eq _ _ _ _ hr.run h2

/-! ### Cases -/

/-- The run assumed by `c42_below_partial` and `c43_below_partial`, for `$..a[?(@.c > 3)].b` on the document of
Props/ParallelBelow.lean on three threads with the table learned from it; the other hypotheses are shown there. -/
example : (buildCtx (belowAst [.descProp ['a']] exBelowTail)).map (fun c =>
      (parallelRunOpt intOps MEMORY_FOOTPRINT 3 (some (collectConstraints (fun _ => []) (tableOf c) exParTidy.render))
        (fun _ _ => .other) (fun _ _ _ => .other) (belowAst [.descProp ['a']] exBelowTail) exParTidy.render).map
        (·.map fun r => (r.pf.output, r.k.bad, r.k.re))) = some (some (some (["{\"q\": 1}".toList, "7".toList], false, false))) := by
  decide +kernel

/-- The hypotheses of `c51_opt_below_partial` on the table and the run hold for `$..a[?(@.c > 1)].b` on a document loaded in two pieces
for two threads, with the table learned from it; the others are shown in Props/ParallelBelow.lean. -/
example : ∃ q r, buildQuery (belowAst [.descProp ['a']] exAboveTail) = some q ∧
    (∀ k ks, (collectConstraints (fun _ => []) q.1 ([] ++ exLongF.render ++ [])).lookup k = some ks → ks.Nodup) ∧
    Covers (collectConstraints (fun _ => []) q.1 ([] ++ exLongF.render ++ [])) q.1 ([] ++ exLongF.render ++ []) ∧
    PrunedRun intOps q.1 q.2 (collectConstraints (fun _ => []) q.1 ([] ++ exLongF.render ++ [])) 40 2 (fun _ _ => .other)
      ([] ++ exLongF.render ++ []) r ∧
    r.pf.output = ["2".toList, "3".toList, "4".toList] := by
  have h1 : (buildQuery (belowAst [.descProp ['a']] exAboveTail)).map (fun q => (parallelPieces intOps q.1 q.2
      (some (collectConstraints (fun _ => []) q.1 ([] ++ exLongF.render ++ []))) (fun _ _ => .other) 2 0 none
      (pieces 40 ([] ++ exLongF.render ++ []) (([] ++ exLongF.render ++ []).length + 1) 0)).map (·.map (·.pf.output))) =
      some (some (some ["2".toList, "3".toList, "4".toList])) := by decide +kernel
  have h2 : (buildQuery (belowAst [.descProp ['a']] exAboveTail)).map (fun q => prunedDefinedB intOps q.1 q.2
      (collectConstraints (fun _ => []) q.1 ([] ++ exLongF.render ++ [])) 40 2 (fun _ _ => .other) ([] ++ exLongF.render ++ [])) =
      some true := by decide +kernel
  cases hq : buildQuery (belowAst [.descProp ['a']] exAboveTail) with
  | none => rw [hq] at h2; cases h2
  | some q =>
    rw [hq] at h1 h2
    simp only [Option.map_some, Option.some.injEq] at h1 h2
    obtain ⟨z, hz, e⟩ := Option.map_eq_some_iff.1 h1
    obtain ⟨r, rfl, e⟩ := Option.map_eq_some_iff.1 e
    exact ⟨q, r, rfl, learned_nodup _ _ _, covers_learned _ _ _, prunedRun_of hz h2, Option.some.inj e⟩

end JPS
