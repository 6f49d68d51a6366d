import Verif.Worker
import Verif.Partition
import Verif.Serial
/-!
# `parallel_automata_execution.h` and the parallel runs of `path_processor.h`

Here `re` only records that the code would reprocess a unit (parallel_automata_execution.h:282-305); the function with
reprocessing is in `Verif/Reprocess.lean`, and the two are proved equal where nothing is reprocessed.  Without a constraint
table that is always so (C41).
-/

set_option autoImplicit false

namespace JPS

/-- Local variables of `combine`, parallel_automata_execution.h:130-145; the tuple list is in `q`. -/
structure K where
  ss : List Sym
  q : QS
  elt : Rng
  ub : Bool
  re : Bool

/-- Record a failure. -/
def K.orUb (k : K) (b : Bool) : K := { k with ub := k.ub || b }

/-- `qs.node[qs_elt.start]`. -/
def K.cur (k : K) : Option Node := k.q.nodes[k.elt.s]?

/-- `qs_elt = queryStacksPop(&qs)`. -/
def K.popQ (k : K) : K :=
  let p := k.q.pop
  { k with q := p.1, elt := p.2 }

/-- `qs.node[qs_elt.start].count++`. -/
def K.incr (k : K) : K := { k with q := k.q.incr k.elt.s }

/-- Text of a container that begins at `b` in the previous chunk and ends with index `i` of the current one,
parallel_automata_execution.h:179-184 and 230-235.  `substring_in_place` drops leading blanks, so the NUL of the
previous chunk may be copied into the middle. -/
def crossText (left right : Str) (b i : Nat) : Str :=
  cText (((ltrim left ++ [NUL]).take left.length).drop b ++ substring right 0 (i + 1))

/-- The copies for `crossText` leave a buffer: the start lies outside the previous chunk (it was found in an earlier
one), or characters behind the end of a chunk are read. -/
def crossUb (left right : Str) (b i : Nat) : Bool :=
  decide (b > left.length) || substringOOB left left.length || substringOOB right (i + 1)

/-- Emission of an object that began in an earlier chunk, parallel_automata_execution.h:172-194; `c` is the current
node. -/
def K.rcbOut (d : QDfa) (left right : Str) (i : Nat) (c : Node) (k : K) : K :=
  match c.ms with
  | some b =>
    if k.ss.length > 0 ∧ d.matchedType c.st c.count = .output then
      K.orUb { k with q := (k.q.addText k.elt.s c.st (crossText left right b i)).setMs k.elt.s none }
        (crossUb left right b i)
    else k
  | none => k

/-- The stacks after an unmatched `}`, parallel_automata_execution.h:195-215. -/
def K.rcbEnd (d : QDfa) (c : Node) (k : K) : K :=
  if k.ss.length = 1 then { k with ss := pop k.ss }
  else if k.ss.length > 1 then
    if secondTop k.ss = some .ky then
      let k := k.popQ
      { k with ss := pop (pop k.ss) }
    else if secondTop k.ss = some .lb then
      let k := K.incr { k with ss := pop k.ss }
      if d.matchedType c.st c.count = .predicate then { k with q := k.q.addText k.elt.s c.st ['}'] } else k
    else k
  else k

/-- An unmatched `}`, parallel_automata_execution.h:169-216. -/
def K.rcb (d : QDfa) (left right : Str) (i : Nat) (k : K) : K :=
  match k.cur with
  | none => k.orUb true
  | some c => (k.rcbOut d left right i c).rcbEnd d c

/-- Emission of an array that began in an earlier chunk, parallel_automata_execution.h:220-245.  The tuple is added for
the current node instead of the array's, whose `matched_start` stays; the buffer (233) is one byte too short, which counts
as a failure. -/
def K.rbOut (d : QDfa) (left right : Str) (i : Nat) (k : K) : K :=
  if k.ss.length > 0 then
    match k.q.items with
    | [] => k.orUb true
    | r :: _ =>
      match k.q.nodes[r.s]? with
      | none => k.orUb true
      | some c =>
        match c.ms with
        | some b =>
          if d.matchedType c.st c.count = .output then
            K.orUb { k with q := (k.q.addText k.elt.s c.st (crossText left right b i)).setMs k.elt.s none } true
          else k
        | none => k
  else k

/-- The stacks after an unmatched `]`, parallel_automata_execution.h:246-261. -/
def K.rbEnd (k : K) : K :=
  if k.ss.length = 1 then
    let k := k.popQ
    { k with ss := pop k.ss }
  else if k.ss.length > 1 then
    if secondTop k.ss = some .ky then
      let k := K.popQ { k with q := k.q.pop.1 }
      { k with ss := pop (pop k.ss) }
    else if secondTop k.ss = some .lb then
      let k := k.popQ
      K.incr { k with ss := pop k.ss }
    else k
  else k

/-- An unmatched `]`, parallel_automata_execution.h:217-262. -/
def K.rb (d : QDfa) (left right : Str) (i : Nat) (k : K) : K := (k.rbOut d left right i).rbEnd

/-- One unmatched symbol, parallel_automata_execution.h:163-268; `PRI` has no case. -/
def K.sym (d : QDfa) (left right : Str) (k : K) (s : USym × Nat) : K :=
  match s.1 with
  | .rcb => k.rcb d left right s.2
  | .rb => k.rb d left right s.2
  | .object | .array =>
    let k := k.popQ
    { k with ss := pop k.ss }
  | .pri => k

/-- The tuples met by following `next_index` from index `i`, parallel_automata_execution.h:308-311.  The links lead
forward; `none` if they do not end within the list. -/
def chainFrom (tl : List MTuple) : Nat → Option Nat → Option (List MTuple)
  | _, none => some []
  | 0, some _ => none
  | f + 1, some i =>
    match tl[i]? with
    | none => none
    | some t => (chainFrom tl f t.next).map (t :: ·)

/-- Append a tuple of the current chunk to the final list, parallel_automata_execution.h:337-343. -/
def K.addTuple (right : Str) (k : K) (t : MTuple) : K :=
  match t.span with
  | none =>
    K.orUb { k with q := { k.q with tl := k.q.tl ++ [MTuple.ofText t.st (t.text.getD [])] } }
      (decide (t.text = none) || decide (strcopyBytes (t.text.getD []).length > MAX_TEXT) ||
        decide (k.q.tl.length ≥ MAX_TUPLE_LIST))
  | some (b, e) =>
    K.orUb { k with q := { k.q with tl := k.q.tl ++ [MTuple.ofText t.st (substring right b e)] } }
      (substringOOB right e || decide (e - b + 1 > MAX_TEXT) ||
        decide (strcopyBytes (substring right b e).length > MAX_TEXT) || decide (k.q.tl.length ≥ MAX_TUPLE_LIST))

/-- `qs.node[qs_elt.start].query_state = 0` if the count has reached the upper bound,
parallel_automata_execution.h:323 and 327. -/
def K.expire (d : QDfa) (st : Nat) (k : K) : K :=
  match k.cur with
  | none => k.orUb true
  | some c =>
    if (c.count : Int) ≥ d.upper st then { k with q := { k.q with nodes := k.q.nodes.set k.elt.s { c with st := 0 } } }
    else k

/-- One tuple of the chain, parallel_automata_execution.h:308-345. -/
def K.collect (d : QDfa) (right : Str) (k : K) (t : MTuple) : K :=
  match k.cur with
  | none => k.orUb true
  | some c =>
    if c.st = 0 then k
    else if d.lower c.st = 0 ∧ d.upper c.st = 0 then k.addTuple right t
    else
      let k := k.orUb (decide (t.text = none))
      if t.text = some ['}'] ∨ t.text = some [']'] then k.incr.expire d c.st
      else if d.inRange c.st c.count = false then k.expire d c.st
      else
        let k := if d.matchedType c.st c.count = .output then k.incr else k
        k.addTuple right t

/-- One unit, parallel_automata_execution.h:154-346: the unmatched symbols, then the tuples of the root whose state is
the current one. -/
def K.unit (d : QDfa) (left right : Str) (tl : List MTuple) (k : K) (u : PUnit) : K :=
  let k := u.syms.foldl (K.sym d left right) k
  match k.cur with
  | none => k.orUb true
  | some c =>
    match u.roots.find? fun r => r.1 == c.st with
    | none => { k with re := k.re || (decide (u.roots ≠ []) && decide (u.state ≠ .unmatched)) }
    | some (_, .junk) => k.orUb true
    | some (_, .empty) => k
    | some (_, .chain f _) =>
      match chainFrom tl tl.length (some f) with
      | none => k.orUb true
      | some ts => ts.foldl (K.collect d right) k

/-- The stacks of a worker put on top of the combined ones, parallel_automata_execution.h:348-352. -/
def K.merge (k : K) (w : W) : K :=
  let p := k.q.combine k.elt w.q w.elt
  { k with ss := combineSyntaxStack k.ss w.ss, q := p.1, elt := p.2 }

/-- One iteration of the outer loop of `combine`, parallel_automata_execution.h:147-353, for the chunk `right` after
the chunk `left`. -/
def K.chunk (d : QDfa) (left right : Str) (k : K) (w : W) : K :=
  ((w.units.foldl (K.unit d left right w.q.tl) k).merge w).orUb (w.ub || w.q.ub)

/-- The state of worker 0 with which `combine` starts, parallel_automata_execution.h:133-142. -/
def K.ofW (w : W) : K := ⟨w.ss, w.q, w.elt, w.ub || w.q.ub, false⟩

/-- The loop of `combine`, parallel_automata_execution.h:147-353. -/
def combineLoop (d : QDfa) (k : K) : Str → List (Str × W) → K
  | _, [] => k
  | left, (right, w) :: r => combineLoop d (k.chunk d left right w) right r

/-- The workers of a piece after they have finished, parallel_automata_execution.h:369-385: worker 0 is given, the
others start afresh.  `u` are the indeterminate unit states by thread. -/
def workersFrom (d : QDfa) (ct : Option CTable) (u : Nat → UState) (i : Nat) : List Str → List (Str × W)
  | [] => []
  | c :: cs => (c, runWorker d ct (u i) i c) :: workersFrom d ct u (i + 1) cs

/-- Worker 0 on its chunk: the first time afresh, later from the state the last combination left,
parallel_automata_execution.h:374-376 and worker_automaton.c:130-143.  Its tuple list is new
(parallel_automata_execution.h:62). -/
def worker0 (d : QDfa) (ct : Option CTable) (u : UState) (old : Option K) (chunk : Str) : W :=
  match old with
  | none => runWorker d ct u 0 chunk
  | some k =>
    (W.run ⟨d, true, chunk, ct, none⟩ (W.resume { k.q with tl := [] } k.elt k.ss u) (lexAll chunk)).finish.orUb
      (contentUb chunk)

/-- `MAX_THREAD`, parallel_automata_execution.h:21. -/
def MAX_THREAD : Nat := 100

/-- `executeParallelAutomata`, parallel_automata_execution.h:363-397.  That the threads run at the same time makes no
difference: see `Verif/Props/Schedule.lean`. -/
def executeParallel (d : QDfa) (ct : Option CTable) (u : Nat → UState) (old : Option K) : List Str → Option K
  | [] => none
  | c :: cs =>
    some ((combineLoop d (K.ofW (worker0 d ct (u 0) old c)) c (workersFrom d ct u 1 cs)).orUb
      (decide (cs.length ≥ MAX_THREAD)))

/-- `StreamingContext` as far as the parallel run uses it, path_processor.h:173-179. -/
structure ParallelCtx where
  k : K
  pf : PF

/-- The tuples of the final list as the filter reads them. -/
def K.tuples (k : K) : List Tuple := k.q.tl.map fun t => ⟨t.st, t.text.getD []⟩

/-- `parallelPartialRun` and `parallelPartialRunOpt`, path_processor.h:266-297 and 318-349, as far as values are
concerned.  `none`: undefined behaviour (the chunks cannot be made, or one of them is NULL). -/
def parallelPartialRun (O : NumOps) (d : QDfa) (ctx : QCtx) (ct : Option CTable) (u : Nat → UState) (cores : Nat)
    (c : Option ParallelCtx) (s : Str) : Option ParallelCtx :=
  match partition cores s with
  | none => none
  | some chunks =>
    if chunks.any Option.isNone then none
    else
      match executeParallel d ct u (c.map (·.k)) (chunks.filterMap id) with
      | none => none
      | some k =>
        let pf := match c with
          | some c => c.pf
          | none => PF.init ctx
        some ⟨k, generate O ctx pf k.tuples⟩

/-- `parallelRun` and `parallelRunOpt`, path_processor.h:299-315 and 351-367, on the pieces of a file; `u` by piece and
thread.  `none`: undefined behaviour; `some none`: no piece. -/
def parallelPieces (O : NumOps) (d : QDfa) (ctx : QCtx) (ct : Option CTable) (u : Nat → Nat → UState) (cores : Nat) :
    Nat → Option ParallelCtx → List Str → Option (Option ParallelCtx)
  | _, c, [] => some c
  | n, c, p :: ps =>
    match parallelPartialRun O d ctx ct (u n) cores c p with
    | none => none
    | some c => parallelPieces O d ctx ct u cores (n + 1) (some c) ps

/-- `createPathProcessor` on a parsed path and `parallelRun`, path_processor.h:156-165, 299-315. -/
def parallelRun (O : NumOps) (B : Nat) (cores : Nat) (u : Nat → Nat → UState) (t : Ast) (file : Str) :
    Option (Option ParallelCtx) :=
  (buildQuery t).bind fun q => parallelPieces O q.1 q.2 none u cores 0 none (pieces B file (file.length + 1) 0)

end JPS
