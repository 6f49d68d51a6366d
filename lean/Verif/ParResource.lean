import Verif.Carry
/-!
# `path_processor.h`, `parallel_automata_execution.h`, `worker_automaton.h`: the storage of a parallel run

`Verif/Carry.lean` follows the values of a parallel run.  Here the tuple lists, the worker automata, the texts (input pieces and
chunks) and the arrays of the predicate filter are objects in storage that can be released, pointers to them are copied with the
structures that contain them, and the fields that no function writes keep whatever was in them.  Not followed: the texts of
single tuples and conditions, the `stream` array of `PartitionInfo`, the output, and the automata of the query.
-/

set_option autoImplicit false

namespace JPS

/-- Objects of one kind obtained with `malloc`, in order; `none`: released (tuple_list.h:31-40, worker_automaton.h:70-91,
path_processor.h:58, 108, 141, 239, predicate.h:80). -/
abbrev Heap (α : Type) := List (Option α)

/-- The object at an address; `none` if it is released or was never obtained. -/
def Heap.read {α : Type} (h : Heap α) (p : Nat) : Option α := (h[p]?).join

/-- Change the object at an address (an assignment through a pointer such as parallel_automata_execution.h:62). -/
def Heap.write {α : Type} (h : Heap α) (p : Nat) (a : α) : Heap α := List.set h p (some a)

/-- `malloc`, tuple_list.h:32, worker_automaton.h:71. -/
def Heap.alloc {α : Type} (h : Heap α) (a : α) : Heap α := h ++ [some a]

/-- `free`, tuple_list.h:39, worker_automaton.h:88; releasing an object twice is undefined. -/
def Heap.free {α : Type} (h : Heap α) (p : Nat) : Option (Heap α) := (h.read p).map fun _ => List.set h p none

/-- What a worker automaton contains besides its identifier and its list: nothing yet; the state after its thread has finished
(worker_automaton.c:584-606); or what `combine` has stored in worker 0 (parallel_automata_execution.h:354-356). -/
inductive Body where
  | fresh
  | ran (w : W)
  | merged (k : K)

/-- `WorkerAutomaton`, worker_automaton.h:26-48: identifier, pointer to the list, and the rest. -/
structure WObj where
  id : Nat
  tl : Nat
  body : Body

/-- Everything that was obtained with `malloc`. -/
structure Store where
  lists : Heap (List MTuple)
  workers : Heap WObj
  texts : Heap Str
  filters : Heap Unit

/-- `ParallelAutomata`, parallel_automata_execution.h:35-42: the pointers (`none`: NULL) and `finish_flag`. -/
structure PAR where
  tl : Option Nat
  major : Option Nat
  finish : Int

/-- `initParallelAutomata`, parallel_automata_execution.h:44-49: `finish_flag` is not written and keeps `g`. -/
def PAR.init (g : Int) : PAR := ⟨none, none, g⟩

/-- `createWorkerAutomaton`, worker_automaton.h:51-81. -/
def createWorker (m : Store) (id : Nat) : Store × Nat :=
  ({ m with lists := m.lists.alloc [], workers := m.workers.alloc ⟨id, m.lists.length, .fresh⟩ }, m.workers.length)

/-- `destroyWorkerAutomaton`, worker_automaton.h:61-67. -/
def destroyWorker (m : Store) (p : Nat) : Option Store :=
  match m.workers.read p with
  | none => none
  | some o => if 0 < o.id then (m.lists.free o.tl).map fun l => { m with lists := l } else some m

/-- `freeWorkerAutomaton`, worker_automaton.h:83-90. -/
def freeWorker (m : Store) (p : Nat) : Option Store :=
  match destroyWorker m p with
  | none => none
  | some m => (m.workers.free p).map fun w => { m with workers := w }

/-- `destroyParallelAutomata`, parallel_automata_execution.h:51-70 (`INPROGRESS` is 0, `FINISH` is 1): the storage afterwards.
The structure itself is a local copy that is not used any more (path_processor.h:294). -/
def PAR.destroy (m : Store) (a : PAR) : Option Store :=
  match (match a.tl with
    | some p => if a.finish = 0 then (m.lists.free p).map fun l => { m with lists := l } else some m
    | none => some m : Option Store) with
  | none => none
  | some m =>
    match a.major with
    | none => some m
    | some p =>
      if a.finish = 0 then
        (m.workers.read p).map fun o =>
          { m with lists := m.lists.alloc [], workers := m.workers.write p { o with tl := m.lists.length } }
      else if a.finish = 1 then destroyWorker m p
      else some m

/-- `executeWorkerAutomaton`, worker_automaton.c:115-609, by the contents of the worker and of its list.  A worker runs once in a
piece, so that `ran` is not met. -/
def Body.run (d : QDfa) (ct : Option CTable) (u : UState) (id : Nat) (chunk : Str) (l : List MTuple) : Body → Option W
  | .fresh =>
    let w := W.init (startStates d id) u
    some ((W.run ⟨d, id == 0, chunk, ct, some (startStates d id)⟩ { w with q := { w.q with tl := l } } (lexAll chunk)).finish.orUb
      (contentUb chunk))
  | .merged k =>
    some ((W.run ⟨d, true, chunk, ct, none⟩ (W.resume { k.q with tl := l } k.elt k.ss u) (lexAll chunk)).finish.orUb
      (contentUb chunk))
  | .ran _ => none

/-- A thread, parallel_automata_execution.h:72-86: it reads its worker, the list of the worker and the chunk, and stores the state
in the worker and the tuples in the list. -/
def threadS (d : QDfa) (ct : Option CTable) (u : UState) (m : Store) (p c : Nat) : Option Store :=
  match m.workers.read p with
  | none => none
  | some o =>
    match m.lists.read o.tl, m.texts.read c with
    | some l, some s =>
      (o.body.run d ct u o.id s l).map fun w =>
        { m with
          lists := m.lists.write o.tl w.q.tl
          workers := m.workers.write p { o with body := .ran { w with q := { w.q with tl := [] } } } }
    | _, _ => none

/-- Threads 1, 2, ... of `executeParallelAutomata`, parallel_automata_execution.h:369-385: they are created one after the other; that
they run at the same time makes no difference because each touches only its own objects.  The result lists chunk and worker. -/
def threadsS (d : QDfa) (ct : Option CTable) (u : Nat → UState) : Nat → Store → List Nat → Option (Store × List (Nat × Nat))
  | _, m, [] => some (m, [])
  | i, m, c :: cs =>
    let (m, p) := createWorker m i
    match threadS d ct (u i) m p c with
    | none => none
    | some m => (threadsS d ct u (i + 1) m cs).map fun r => (r.1, (c, p) :: r.2)

/-- What `combine` reads of a thread, parallel_automata_execution.h:149-151 and 305, 323, 341: worker, list, chunk. -/
def readThread (m : Store) (t : Nat × Nat) : Option (Str × W) :=
  match m.workers.read t.2 with
  | none => none
  | some o =>
    match o.body, m.lists.read o.tl, m.texts.read t.1 with
    | .ran w, some l, some s => some (s, { w with q := { w.q with tl := l } })
    | _, _, _ => none

/-- `readThread` for a list of threads, parallel_automata_execution.h:147. -/
def readThreads (m : Store) : List (Nat × Nat) → Option (List (Str × W))
  | [] => some []
  | t :: ts =>
    match readThread m t, readThreads m ts with
    | some x, some xs => some (x :: xs)
    | _, _ => none

/-- What `combine` makes of worker 0 and of the other chunks and workers, parallel_automata_execution.h:147-353: `combineLoop`
(`Verif/Combine.lean`), or with reprocessing what `K.chunkR` does chunk by chunk (`Verif/Reprocess.lean`; the text it copies is
released at once, parallel_automata_execution.h:298). -/
abbrev Merge := K → Str → List (Str × W) → K

/-- `combine`, parallel_automata_execution.h:129-360: the objects of the threads are read, tuples are added to the list of worker
0, and the stacks are stored in worker 0.  `n`: the number of the other threads, for the bounds of `ti`.  The result: storage and the pointer
that is returned. -/
def combineS (mg : Merge) (n : Nat) (m : Store) (t0 : Nat × Nat) (ts : List (Nat × Nat)) : Option (Store × Nat × K) :=
  match readThread m t0, readThreads m ts, m.workers.read t0.2 with
  | some (c, w), some xs, some o =>
    let k := (mg (K.ofW w) c xs).orUb (decide (n ≥ MAX_THREAD))
    some ({ m with
      lists := m.lists.write o.tl k.q.tl
      workers := m.workers.write t0.2 { o with body := .merged { k with q := { k.q with tl := [] } } } }, o.tl, k)
  | _, _, _ => none

/-- parallel_automata_execution.h:393-396. -/
def freeWorkersS : Store → List (Nat × Nat) → Option Store
  | m, [] => some m
  | m, t :: ts =>
    match freeWorker m t.2 with
    | none => none
    | some m => freeWorkersS m ts

/-- `executeParallelAutomata`, parallel_automata_execution.h:363-397, on the addresses of the chunks.  `k` is what the stacks of
`ci->pa` and worker 0 contain (only worker 0 is read later). -/
def executeParallelS (mg : Merge) (d : QDfa) (ct : Option CTable) (u : Nat → UState) (m : Store) (a : PAR) :
    List Nat → Option (Store × PAR × K)
  | [] => none
  | c :: cs =>
    let (m, p) := match a.major with                                          -- 374-376
      | some p => (m, p)
      | none => createWorker m 0
    match threadS d ct (u 0) m p c with
    | none => none
    | some m =>
      match threadsS d ct u 1 m cs with
      | none => none
      | some (m, ts) =>
        match combineS mg cs.length m (c, p) ts with                     -- 387
        | none => none
        | some (m, tl, k) =>
          (freeWorkersS m ts).map fun m => (m, { a with tl := some tl, major := some p }, k)

/-- The chunks of a piece, path_processor.h:108, 141: each is an object of its own. -/
def allocTexts (m : Store) : List Str → Store × List Nat
  | [] => (m, [])
  | s :: ss =>
    let r := allocTexts { m with texts := m.texts.alloc s } ss
    (r.1, m.texts.length :: r.2)

/-- `freeInputChunks`, file_partition.h:15-24. -/
def freeTexts : Store → List Nat → Option Store
  | m, [] => some m
  | m, p :: ps =>
    match m.texts.free p with
    | none => none
    | some t => freeTexts { m with texts := t } ps

/-- `StreamingContext` after a piece, path_processor.h:173-179: `ci->pa`, the arrays of `ci->pf`, and the contents of the filter. -/
structure ParRes where
  pa : PAR
  filter : Nat
  pf : PF
  k : K

/-- How a run goes wrong: released or foreign storage is touched; or the chunks cannot be made (path_processor.h:93-149: no thread,
reading outside the input, or a chunk that is NULL). -/
inductive Fault where
  | storage
  | chunks
deriving DecidableEq, Repr

/-- An `Option` whose `none` is touching released storage (tuple_list.h:36-40, worker_automaton.h:83-90). -/
def stored {α : Type} : Option α → Except Fault α
  | some a => .ok a
  | none => .error .storage

/-- `initPredicateFilter`, predicate.h:65-95, as far as storage is concerned: the arrays of conditions as one object. -/
def createFilter (m : Store) : Store × Nat := ({ m with filters := m.filters.alloc () }, m.filters.length)

/-- `pa` at the beginning of a piece, path_processor.h:275-277: copied from the context, or initialised. -/
def paStart (g : Int) : Option ParRes → PAR
  | some c => c.pa
  | none => PAR.init g

/-- `parallelPartialRun`, path_processor.h:266-297 (and `parallelPartialRunOpt`, 318-349, with a table), on the address of the
piece.  `g` is what is in `pa.finish_flag` before line 277. -/
def parallelPartialRunS (mg : Merge) (g : Int) (O : NumOps) (d : QDfa) (ctx : QCtx) (ct : Option CTable) (u : Nat → UState) (cores : Nat)
    (m : Store) (c : Option ParRes) (s : Nat) : Except Fault (Store × ParRes) := do
  let text ← stored (m.texts.read s)
  match partition cores text with                                             -- 268
  | none => .error .chunks
  | some chunks =>
    if chunks.any Option.isNone then .error .chunks
    else
      let (m, cs) := allocTexts m (chunks.filterMap id)
      match executeParallelS mg d ct u m (paStart g c) cs with                -- 280
      | none => .error .storage
      | some (m, a, k) =>
        match a.tl.bind m.lists.read with                                     -- predicate.c:10
        | none => .error .storage
        | some l =>
          let (m, f, pf) := match c with
            | some c => (m, c.filter, c.pf)                                   -- 287
            | none => ((createFilter m).1, (createFilter m).2, PF.init ctx)   -- 288
          match m.filters.read f with                                         -- 289
          | none => .error .storage
          | some _ =>
            match (freeTexts m cs).bind fun m => a.destroy m with             -- 293, 294
            | none => .error .storage
            | some m => .ok (m, ⟨a, f, generate O ctx pf (l.map fun t => ⟨t.st, t.text.getD []⟩), k⟩)   -- 283, 290

/-- The loop of `parallelRun`, path_processor.h:306-312: a piece is loaded, processed and released. -/
def parallelPiecesS (mg : Merge) (g : Int) (O : NumOps) (d : QDfa) (ctx : QCtx) (ct : Option CTable) (u : Nat → Nat → UState) (cores : Nat) :
    Nat → Store → Option ParRes → List Str → Except Fault (Store × Option ParRes)
  | _, m, c, [] => .ok (m, c)
  | n, m, c, p :: ps => do
    let r ← parallelPartialRunS mg g O d ctx ct (u n) cores { m with texts := m.texts.alloc p } c m.texts.length
    let t ← stored (r.1.texts.free m.texts.length)                            -- 311
    parallelPiecesS mg g O d ctx ct u cores (n + 1) { r.1 with texts := t } (some r.2) ps

/-- What is in the fields of `StreamingContext ci` and of `pa` that no function writes: `finish_flag`; whether
`ci.pa.major_automaton` is NULL; whether all pointers in `ci.pf` are NULL. -/
structure PGarbage where
  finish : Int
  majorNull : Bool
  filterNull : Bool

/-- `destroyStreamingContext`, path_processor.h:187-194.  Without a piece neither `ci->pa` nor `ci->pf` was ever written, and the
pointers in them are followed unless they are NULL.  `ci->sa` is never written in a parallel run; with `FINISH` its list is only
compared with NULL (streaming_automaton.h:49-60). -/
def contextDestroyS (g : PGarbage) (m : Store) : Option ParRes → Option Store
  | none => if g.majorNull && g.filterNull then some m else none
  | some c =>
    match PAR.destroy m { c.pa with finish := 1 } with
    | none => none
    | some m => (m.filters.free c.filter).map fun f => { m with filters := f }

/-- `parallelRun` (and `parallelRunOpt`), path_processor.h:299-315 and 351-367, on the pieces of a file: what is still allocated
at the end, and the context. -/
def parallelRunS (mg : Merge) (g : PGarbage) (O : NumOps) (d : QDfa) (ctx : QCtx) (ct : Option CTable) (u : Nat → Nat → UState) (cores : Nat)
    (ps : List Str) : Except Fault (Store × Option ParRes) := do
  let r ← parallelPiecesS mg g.finish O d ctx ct u cores 0 ⟨[], [], [], []⟩ none ps
  let m ← stored (contextDestroyS g r.1 r.2)
  .ok (m, r.2)

/-- `createPathProcessor` on a parsed path and `parallelRun`, path_processor.h:156-165, 299-315, on a file.  Outer `none`: the query
automaton is not built. -/
def parallelFileS (g : PGarbage) (O : NumOps) (B cores : Nat) (u : Nat → Nat → UState) (t : Ast) (file : Str) :
    Option (Except Fault (Store × Option ParRes)) :=
  (buildQuery t).map fun q =>
    parallelRunS (combineLoop q.1) g O q.1 q.2 none u cores (pieces B file (file.length + 1) 0)

end JPS
