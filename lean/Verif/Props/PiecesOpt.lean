import Verif.Props.ParallelPieces
import Verif.Props.PruneFilter

/-!
# C51 for optimised runs

`parallelRunOpt` over a file of several pieces with a constraint table that covers the file, in particular one learned from it.
-/

set_option autoImplicit false

namespace JPS

open Spec

/-- If no piece is found to need reprocessing, the optimised run is the pruned run without reprocessing. -/
theorem parallelPiecesOpt_eq {O : NumOps} {d : QDfa} {ctx : QCtx} {ct : Option CTable} {u : Nat → Nat → UState}
    {ru : Nat → Nat → Nat → UState} {cores : Nat} : ∀ (ps : List Str) (n : Nat) (c : Option ParallelCtx) (r : ParallelCtx),
    parallelPieces O d ctx ct u cores n c ps = some (some r) →
    (∀ qs z, qs <+: ps → qs ≠ [] → parallelPieces O d ctx ct u cores n c qs = some (some z) → z.k.re = false) →
    parallelPiecesOpt O d ctx ct u ru cores n c ps = some (some r)
  | [], _, _, _, h, _ => h
  | p :: ps, n, c, r, h, hre => by
    cases hx : parallelPartialRun O d ctx ct (u n) cores c p with
    | none => simp only [parallelPieces, hx] at h; cases h
    | some z =>
      have hz : z.k.re = false := hre [p] z ⟨ps, rfl⟩ (by simp) (by simp only [parallelPieces, hx])
      simp only [parallelPieces, hx] at h
      simp only [parallelPiecesOpt, parallelPartialRunOpt_eq (ru := ru n) hx hz]
      exact parallelPiecesOpt_eq ps (n + 1) (some z) r h fun qs y hq hn hy =>
        hre (p :: qs) y (List.cons_prefix_cons.2 ⟨rfl, hq⟩) (by simp) (by simp only [parallelPieces, hx]; exact hy)

/-- The run over the pieces of a file with a constraint table and without reprocessing is `r`, and no piece is processed with undefined
behaviour. -/
structure PrunedRun (O : NumOps) (d : QDfa) (ctx : QCtx) (ct : CTable) (B cores : Nat) (u : Nat → Nat → UState) (file : Str)
    (r : ParallelCtx) : Prop where
  run : parallelPieces O d ctx (some ct) u cores 0 none (pieces B file (file.length + 1) 0) = some (some r)
  defined : ∀ qs z, qs <+: pieces B file (file.length + 1) 0 →
    parallelPieces O d ctx (some ct) u cores 0 none qs = some (some z) → z.k.bad = false

/-- **C51 for paths, optimised runs.**  Under the conditions of `c51_paths_partial`, with a constraint table that covers the file, the
optimised run over any pieces reprocesses nothing and returns what the serial run returns on the same pieces, and on the whole file;
the undefined behaviour to be excluded is that of the run without reprocessing. -/
theorem c51_opt_paths_partial (O : NumOps) (p : List Step) (hp : p ≠ []) (hlen : fewNames p) (hs : SlicesOK p)
    (pre trail : Str) (v : J) (h : DocOK pre trail v) (hsp : pre.head? ≠ some ' ') (hint : (v.render.length : Int) ≤ intMax)
    (hpl : v.plainStrings = true) (h0 : NUL ∉ pre ++ v.render ++ trail) (hff : ∀ c ∈ pre ++ v.render ++ trail, c.toNat ≠ 255)
    (B cores : Nat) (hB : 0 < B) (hc : 0 < cores) (q : QDfa × QCtx) (hq : buildQuery (astOf p) = some q)
    (ct : CTable) (hnd : ∀ k ks, ct.lookup k = some ks → ks.Nodup) (hcov : Covers ct q.1 (pre ++ v.render ++ trail))
    (u : Nat → Nat → UState) (ru : Nat → Nat → Nat → UState) (r : ParallelCtx)
    (hr : PrunedRun O q.1 q.2 ct B cores u (pre ++ v.render ++ trail) r)
    (hub : ∀ B' s, (pre ++ v.render ++ trail).length ≤ B' → serialRun O B' (astOf p) (pre ++ v.render ++ trail) = some s → s.sa.ub = false)
    (htorn : ∀ xs ys : List Str, fileChunks B cores (pre ++ v.render ++ trail) = xs ++ ys → xs ≠ [] → ys ≠ [] →
      UntornPath p pre v xs.flatten.length) :
    parallelRunOpt O B cores (some ct) u ru (astOf p) (pre ++ v.render ++ trail) = some (some r) ∧
    (serialRun O B (astOf p) (pre ++ v.render ++ trail)).map (·.pf.output) = some r.pf.output ∧
    ∀ B', (pre ++ v.render ++ trail).length ≤ B' →
      (serialRun O B' (astOf p) (pre ++ v.render ++ trail)).map (·.pf.output) = some r.pf.output := by
  obtain ⟨c, hbc, hpc⟩ := pathCtx_of_build p hp hlen
  have hbq : buildQuery (astOf p) = some (tableOf c, contextOf c) := by unfold buildQuery; rw [hbc]; rfl
  rw [hbq] at hq
  cases hq
  obtain ⟨h1, h2⟩ := tree_pieces_ct O (astOf p) hbc (c.dead hpc.ok) (hpc.noIdx_start hs.desc hs.bounds) pre trail v h hsp hpl h0 hff B
    cores hB hc (some ct) (fun c' e => by cases e; exact hnd) u r hr.run hr.defined
    (fun ps _ ht => ctChunks_covers hcov ht ps [] SA.init rfl Is.init) hub
    (fun xs ys e hx hy hbf => hpc.cutsOK hs hint hbf (htorn xs ys e hx hy))
  refine ⟨?_, h1⟩
  unfold parallelRunOpt
  rw [hbq]
  exact parallelPiecesOpt_eq _ _ _ _ hr.run h2

/-- **C51 for filter queries, optimised runs.** -/
theorem c51_opt_filters_partial (O : NumOps) (p : List (QStep Num)) (hq : FilterQuery p)
    (pre trail : Str) (v : J) (h : DocOK pre trail v) (hsp : pre.head? ≠ some ' ')
    (hpl : v.plainStrings = true) (h0 : NUL ∉ pre ++ v.render ++ trail) (hff : ∀ c ∈ pre ++ v.render ++ trail, c.toNat ≠ 255)
    (B cores : Nat) (hB : 0 < B) (hc : 0 < cores) (q : QDfa × QCtx) (hb : buildQuery (fAst p) = some q)
    (ct : CTable) (hnd : ∀ k ks, ct.lookup k = some ks → ks.Nodup) (hcov : Covers ct q.1 (pre ++ v.render ++ trail))
    (u : Nat → Nat → UState) (ru : Nat → Nat → Nat → UState) (r : ParallelCtx)
    (hr : PrunedRun O q.1 q.2 ct B cores u (pre ++ v.render ++ trail) r)
    (hub : ∀ B' s, (pre ++ v.render ++ trail).length ≤ B' → serialRun O B' (fAst p) (pre ++ v.render ++ trail) = some s → s.sa.ub = false)
    (htorn : ∀ xs ys : List Str, fileChunks B cores (pre ++ v.render ++ trail) = xs ++ ys → xs ≠ [] → ys ≠ [] →
      Untorn (Matches (p.map sk)) pre v xs.flatten.length) :
    parallelRunOpt O B cores (some ct) u ru (fAst p) (pre ++ v.render ++ trail) = some (some r) ∧
    (serialRun O B (fAst p) (pre ++ v.render ++ trail)).map (·.pf.output) = some r.pf.output ∧
    ∀ B', (pre ++ v.render ++ trail).length ≤ B' →
      (serialRun O B' (fAst p) (pre ++ v.render ++ trail)).map (·.pf.output) = some r.pf.output := by
  obtain ⟨c, hbc, hf⟩ := ftab_of_build p hq.ne hq.clean hq.named hq.fresh hq.names
  have hbq : buildQuery (fAst p) = some (tableOf c, contextOf c) := by unfold buildQuery; rw [hbc]; rfl
  rw [hbq] at hb
  cases hb
  obtain ⟨h1, h2⟩ := tree_pieces_ct O (fAst p) hbc (c.dead hf.ok) (hf.toFWords.noIdx 1) pre trail v h hsp hpl h0 hff B
    cores hB hc (some ct) (fun c' e => by cases e; exact hnd) u r hr.run hr.defined
    (fun ps _ ht => ctChunks_covers hcov ht ps [] SA.init rfl Is.init) hub
    (fun xs ys e hx hy hb => hf.cutsOK hb (htorn xs ys e hx hy))
  refine ⟨?_, h1⟩
  unfold parallelRunOpt
  rw [hbq]
  exact parallelPiecesOpt_eq _ _ _ _ hr.run h2

/-! ### Example -/

/-- A test for the undefined behaviour excluded by `PrunedRun`. -/
def prunedDefinedB (O : NumOps) (d : QDfa) (ctx : QCtx) (ct : CTable) (B cores : Nat) (u : Nat → Nat → UState) (file : Str) : Bool :=
  (List.range ((pieces B file (file.length + 1) 0).length + 1)).all fun n =>
    match parallelPieces O d ctx (some ct) u cores 0 none ((pieces B file (file.length + 1) 0).take n) with
    | some (some r) => !r.k.bad
    | _ => true

theorem prunedRun_of {O : NumOps} {d : QDfa} {ctx : QCtx} {ct : CTable} {B cores : Nat} {u : Nat → Nat → UState} {file : Str} {r : ParallelCtx}
    (hr : parallelPieces O d ctx (some ct) u cores 0 none (pieces B file (file.length + 1) 0) = some (some r))
    (h : prunedDefinedB O d ctx ct B cores u file = true) : PrunedRun O d ctx ct B cores u file r := by
  refine ⟨hr, fun qs z hq hz => ?_⟩
  unfold prunedDefinedB at h
  have hl := hq.length_le
  have := List.all_eq_true.1 h qs.length (List.mem_range.2 (by omega))
  rw [← List.prefix_iff_eq_take.1 hq, hz] at this
  simpa using this

/-- The hypotheses of `c51_opt_paths_partial` on the table and the run hold for `$.a[*].b` on `exLong`, loaded in two pieces for two
threads, with the table learned from the document; the others are shown in Props/ParallelPieces.lean. -/
example : ∃ q r, buildQuery (astOf exParPath) = some q ∧
    (∀ k ks, (collectConstraints (fun _ => []) q.1 ([] ++ exLong.render ++ [])).lookup k = some ks → ks.Nodup) ∧
    Covers (collectConstraints (fun _ => []) q.1 ([] ++ exLong.render ++ [])) q.1 ([] ++ exLong.render ++ []) ∧
    PrunedRun intOps q.1 q.2 (collectConstraints (fun _ => []) q.1 ([] ++ exLong.render ++ [])) 40 2 (fun _ _ => .other)
      ([] ++ exLong.render ++ []) r ∧
    r.pf.output = ["1".toList, "2".toList, "3".toList, "4".toList] := by
  have h1 : (buildQuery (astOf exParPath)).map (fun q => (parallelPieces intOps q.1 q.2
      (some (collectConstraints (fun _ => []) q.1 ([] ++ exLong.render ++ []))) (fun _ _ => .other) 2 0 none
      (pieces 40 ([] ++ exLong.render ++ []) (([] ++ exLong.render ++ []).length + 1) 0)).map (·.map (·.pf.output))) =
      some (some (some ["1".toList, "2".toList, "3".toList, "4".toList])) := by decide +kernel
  have h2 : (buildQuery (astOf exParPath)).map (fun q => prunedDefinedB intOps q.1 q.2
      (collectConstraints (fun _ => []) q.1 ([] ++ exLong.render ++ [])) 40 2 (fun _ _ => .other) ([] ++ exLong.render ++ [])) =
      some true := by decide +kernel
  cases hq : buildQuery (astOf exParPath) with
  | none => rw [hq] at h2; cases h2
  | some q =>
    rw [hq] at h1 h2
    simp only [Option.map_some, Option.some.injEq] at h1 h2
    obtain ⟨z, hz, e⟩ := Option.map_eq_some_iff.1 h1
    obtain ⟨r, rfl, e⟩ := Option.map_eq_some_iff.1 e
    exact ⟨q, r, rfl, learned_nodup _ _ _, covers_learned _ _ _, prunedRun_of hz h2, Option.some.inj e⟩

end JPS
