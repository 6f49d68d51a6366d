import Verif.Predicate
import Verif.Lexer
import Verif.Load
/-!
# `path_processor.h`: the serial run
-/

namespace JPS

/-- `StreamingContext` as far as the serial run uses it, path_processor.h:173-179: the automaton
and the filter carried from piece to piece (`none`: `NOCONTEXT`). -/
structure SerialCtx where
  sa : SA
  pf : PF

/-- `serialPartialRun`, path_processor.h:197-225, on one piece, as far as values are concerned.
The tuple list of a carried context is taken to be a new empty list, as line 58 of
streaming_automaton.h intends; what happens to the list itself is the subject of
`Verif/Resource.lean`. -/
def serialPartialRun (O : NumOps) (d : QDfa) (ctx : QCtx) (c : Option SerialCtx) (s : Str) : SerialCtx :=
  let sa0 := match c with
    | some c => { c.sa with tl := [] }
    | none => SA.init
  let sa := execAutomaton d s sa0
  let pf := match c with
    | some c => c.pf
    | none => PF.init ctx
  ⟨sa, generate O ctx pf sa.tl⟩

/-- `serialRun`, path_processor.h:227-243, on the pieces of a file.  `none`: no piece was loaded and
NULL is returned. -/
def serialPieces (O : NumOps) (d : QDfa) (ctx : QCtx) (ps : List Str) : Option SerialCtx :=
  ps.foldl (fun c s => some (serialPartialRun O d ctx c s)) none

/-- `createPathProcessor` on a parsed path and `serialRun`, path_processor.h:156-165, 227-243. -/
def serialRun (O : NumOps) (B : Nat) (t : Ast) (file : Str) : Option SerialCtx :=
  (buildQuery t).bind fun q => serialPieces O q.1 q.2 (pieces B file (file.length + 1) 0)

end JPS
