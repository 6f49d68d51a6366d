import Verif.Combine
/-!
# The tuple list between the pieces of a parallel run

`initParallelAutomata` (parallel_automata_execution.h:44-49) does not write `finish_flag`.  After a piece
`destroyParallelAutomata` (parallel_automata_execution.h:51-70, called at path_processor.h:294) gives worker 0 a new list only if
the flag happens to be `INPROGRESS`, that is 0.  Otherwise the list is kept: with `FINISH`, `destroyWorkerAutomaton` does nothing
for worker 0 (worker_automaton.h:60-66).  `Verif/Combine.lean` is the case of 0.  The functions here have the content `g` of the flag
as a parameter.
-/

set_option autoImplicit false

namespace JPS

/-- Worker 0 on its chunk, as `worker0`, with the list that `destroyParallelAutomata` left,
parallel_automata_execution.h:51-70. -/
def worker0G (g : Int) (d : QDfa) (ct : Option CTable) (u : UState) (old : Option K) (chunk : Str) : W :=
  match old with
  | none => runWorker d ct u 0 chunk
  | some k =>
    (W.run ⟨d, true, chunk, ct, none⟩ (W.resume { k.q with tl := if g = 0 then [] else k.q.tl } k.elt k.ss u) (lexAll chunk)).finish.orUb
      (contentUb chunk)

/-- `executeParallelAutomata`, parallel_automata_execution.h:363-397, as `executeParallel`. -/
def executeParallelG (g : Int) (d : QDfa) (ct : Option CTable) (u : Nat → UState) (old : Option K) : List Str → Option K
  | [] => none
  | c :: cs =>
    some ((combineLoop d (K.ofW (worker0G g d ct (u 0) old c)) c (workersFrom d ct u 1 cs)).orUb
      (decide (cs.length ≥ MAX_THREAD)))

/-- `parallelPartialRun`, path_processor.h:266-297, as `parallelPartialRun`. -/
def parallelPartialRunG (g : Int) (O : NumOps) (d : QDfa) (ctx : QCtx) (ct : Option CTable) (u : Nat → UState) (cores : Nat)
    (c : Option ParallelCtx) (s : Str) : Option ParallelCtx :=
  match partition cores s with
  | none => none
  | some chunks =>
    if chunks.any Option.isNone then none
    else
      match executeParallelG g d ct u (c.map (·.k)) (chunks.filterMap id) with
      | none => none
      | some k =>
        let pf := match c with
          | some c => c.pf
          | none => PF.init ctx
        some ⟨k, generate O ctx pf k.tuples⟩

/-- `parallelRun`, path_processor.h:299-315, as `parallelPieces`. -/
def parallelPiecesG (g : Int) (O : NumOps) (d : QDfa) (ctx : QCtx) (ct : Option CTable) (u : Nat → Nat → UState) (cores : Nat) :
    Nat → Option ParallelCtx → List Str → Option (Option ParallelCtx)
  | _, c, [] => some c
  | n, c, p :: ps =>
    match parallelPartialRunG g O d ctx ct (u n) cores c p with
    | none => none
    | some c => parallelPiecesG g O d ctx ct u cores (n + 1) (some c) ps

/-- `createPathProcessor` on a parsed path and `parallelRun`, path_processor.h:156-165, 299-315, with the content `g` of
`ci.pa.finish_flag`. -/
def parallelRunG (g : Int) (O : NumOps) (B : Nat) (cores : Nat) (u : Nat → Nat → UState) (t : Ast) (file : Str) :
    Option (Option ParallelCtx) :=
  (buildQuery t).bind fun q => parallelPiecesG g O q.1 q.2 none u cores 0 none (pieces B file (file.length + 1) 0)

theorem worker0G_zero : worker0G 0 = worker0 := by
  funext d ct u old chunk
  cases old <;> rfl

theorem executeParallelG_zero : executeParallelG 0 = executeParallel := by
  funext d ct u old cs
  cases cs with
  | nil => rfl
  | cons c cs => simp only [executeParallelG, executeParallel, worker0G_zero]

theorem parallelPiecesG_zero (O : NumOps) (d : QDfa) (ctx : QCtx) (ct : Option CTable) (u : Nat → Nat → UState) (cores : Nat) :
    ∀ (ps : List Str) (n : Nat) (c : Option ParallelCtx),
    parallelPiecesG 0 O d ctx ct u cores n c ps = parallelPieces O d ctx ct u cores n c ps
  | [], _, _ => rfl
  | p :: ps, n, c => by
    have e : parallelPartialRunG 0 O d ctx ct (u n) cores c p = parallelPartialRun O d ctx ct (u n) cores c p := by
      unfold parallelPartialRunG parallelPartialRun
      rw [executeParallelG_zero]
      cases partition cores p with
      | none => rfl
      | some chunks =>
        dsimp only
        split
        · rfl
        · cases executeParallel d ct (u n) (c.map fun x : ParallelCtx => x.k) (chunks.filterMap id) <;> rfl
    simp only [parallelPiecesG, parallelPieces, e]
    cases parallelPartialRun O d ctx ct (u n) cores c p with
    | none => rfl
    | some z => exact parallelPiecesG_zero O d ctx ct u cores ps _ _

/-- With 0 in the flag the run is that of `Verif/Combine.lean`. -/
theorem parallelRunG_zero (O : NumOps) (B cores : Nat) (u : Nat → Nat → UState) (t : Ast) (file : Str) :
    parallelRunG 0 O B cores u t file = parallelRun O B cores u t file := by
  unfold parallelRunG parallelRun
  congr 1
  funext q
  exact parallelPiecesG_zero O q.1 q.2 none u cores _ _ _

/-- The flag matters only from the second piece on. -/
theorem parallelPartialRunG_first (g : Int) (O : NumOps) (d : QDfa) (ctx : QCtx) (ct : Option CTable) (u : Nat → UState) (cores : Nat) (s : Str) :
    parallelPartialRunG g O d ctx ct u cores none s = parallelPartialRun O d ctx ct u cores none s := by
  unfold parallelPartialRunG parallelPartialRun
  cases partition cores s with
  | none => rfl
  | some chunks =>
    dsimp only
    split
    · rfl
    · cases chunks.filterMap id <;> rfl

end JPS
