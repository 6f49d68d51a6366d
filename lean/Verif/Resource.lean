import Verif.Serial
/-!
# `path_processor.h`, `streaming_automaton.h`, `tuple_list.h`: the storage of a serial run

`Verif/Serial.lean` follows the values of a serial run and takes the tuple list of each piece to be a new one.  Here the tuple
lists are objects in storage that can be released, pointers to them are copied with the structures that contain them, and the
fields that no function writes keep whatever was in them.  The result `none` means that the program touches released storage
or uses a pointer that was never written.
-/

set_option autoImplicit false

namespace JPS

/-- The tuple lists that were allocated, `malloc` in tuple_list.h:31; `none`: released. -/
structure Mem where
  blocks : List (Option (List Tuple))

/-- Content of the list at an address; `none` if it is released or was never allocated. -/
def Mem.read (m : Mem) (p : Nat) : Option (List Tuple) := (m.blocks[p]?).join

/-- Change the content of a list. -/
def Mem.write (m : Mem) (p : Nat) (l : List Tuple) : Mem := ⟨m.blocks.set p (some l)⟩

/-- `createTupleList`, tuple_list.h:29-34. -/
def Mem.alloc (m : Mem) : Mem × Nat := (⟨m.blocks ++ [some []]⟩, m.blocks.length)

/-- `freeTupleList`, tuple_list.h:36-39; releasing a list twice is undefined. -/
def Mem.free (m : Mem) (p : Nat) : Option Mem := (m.read p).map fun _ => ⟨m.blocks.set p none⟩

/-- `StreamingAutomaton`, streaming_automaton.h:15-31: the fields of `SA` except the list, the pointer to the list (`none`:
NULL), and `finish_flag`. -/
structure SAR where
  sa : SA
  tl : Option Nat
  finish : Int

/-- `initStreamingAutomaton`, streaming_automaton.h:34-47: `finish_flag` is not written and keeps `g`. -/
def SAR.init (g : Int) (m : Mem) : Mem × SAR := (m.alloc.1, ⟨SA.init, some m.alloc.2, g⟩)

/-- `destroyStreamingAutomaton`, streaming_automaton.h:49-60 (`INPROGRESS` is 0). -/
def SAR.destroy (m : Mem) (a : SAR) : Option (Mem × SAR) :=
  match (match a.tl with
    | some p => if a.finish = 0 then (m.free p).map fun m => (m, { a with tl := none }) else some (m, a)
    | none => some (m, a) : Option (Mem × SAR)) with
  | none => none
  | some (m, a) => some (if a.finish = 0 then (m.alloc.1, { a with tl := some m.alloc.2 }) else (m, a))

/-- `executeAutomaton`, streaming_automaton.c:131-325: the list is touched only to add a tuple (tuple_list.h:44). -/
def SAR.exec (d : QDfa) (s : Str) (m : Mem) (a : SAR) : Option (Mem × SAR) :=
  match a.tl.bind fun p => (m.read p).map fun l => (p, l) with
  | some (p, l) =>
    let b := execAutomaton d s { a.sa with tl := l }
    some (m.write p b.tl, { a with sa := { b with tl := [] } })
  | none =>
    let b := execAutomaton d s { a.sa with tl := [] }
    if b.tl = [] then some (m, { a with sa := b }) else none

/-- `StreamingContext` after a piece, path_processor.h:173-179. -/
structure SerialRes where
  sa : SAR
  pf : PF

/-- `serialPartialRun`, path_processor.h:197-225.  `g` is what is in `streaming_automaton.finish_flag` before line 206.
`generateFinalOutput` reads the length of the list first (predicate.c:10). -/
def serialPartialRunR (O : NumOps) (d : QDfa) (ctx : QCtx) (g : Int) (m : Mem) (c : Option SerialRes) (s : Str) :
    Option (Mem × SerialRes) :=
  let (m, sa) := match c with
    | some c => (m, c.sa)                                                 -- 205
    | none => SAR.init g m                                                -- 206
  match sa.exec d s m with                                                -- 209
  | none => none
  | some (m, sa) =>
    match sa.tl.bind m.read with
    | none => none
    | some l =>
      let pf := match c with
        | some c => c.pf                                                  -- 214
        | none => PF.init ctx                                             -- 215
      match sa.destroy m with                                             -- 220
      | none => none
      | some (m, _) => some (m, ⟨sa, generate O ctx pf l⟩)                -- 210, 216, 217

/-- What is in the fields of `StreamingContext ci` and of `streaming_automaton` that no function writes: `finish_flag`; whether
`ci.pa.major_automaton` is NULL; whether all pointers in `ci.pf` are NULL. -/
structure Garbage where
  finish : Int
  majorNull : Bool
  filterNull : Bool

/-- The loop of `serialRun`, path_processor.h:234-240. -/
def serialLoopR (O : NumOps) (d : QDfa) (ctx : QCtx) (g : Int) : Mem → Option SerialRes → List Str → Option (Mem × Option SerialRes)
  | m, c, [] => some (m, c)
  | m, c, p :: ps =>
    match serialPartialRunR O d ctx g m c p with
    | none => none
    | some (m, r) => serialLoopR O d ctx g m (some r) ps

/-- `destroyStreamingContext`, path_processor.h:187-194.  A serial run never writes `ci->pa`; `destroyParallelAutomata`
(parallel_automata_execution.h:51-70) follows `major_automaton` unless it is NULL.  With `FINISH` the automaton keeps its list.
Without a piece `ci->pf` was never written. -/
def contextDestroyed (g : Garbage) (c : Option SerialRes) : Bool := g.majorNull && (c.isSome || g.filterNull)

/-- `serialRun`, path_processor.h:227-243, on the pieces of a file: `none`, or what the output contains (`some none`: NULL). -/
def serialRunR (O : NumOps) (d : QDfa) (ctx : QCtx) (g : Garbage) (ps : List Str) : Option (Option PF) :=
  match serialLoopR O d ctx g.finish ⟨[]⟩ none ps with
  | none => none
  | some (_, c) => if contextDestroyed g c then some (c.map (·.pf)) else none

/-- `collectDataConstraints`, path_processor.h:245-262, as far as the tuple list is concerned: whether it runs without touching
released storage. -/
def collectR (d : QDfa) (g : Int) (s : Str) : Bool :=
  let (m, sa) := SAR.init g ⟨[]⟩
  match sa.exec d s m with
  | none => false
  | some (m, sa) => (sa.destroy m).isSome

end JPS
