import Verif.Eval
import Verif.QueryBuilder
import Verif.Stream
/-!
# `predicate.h`, `predicate.c`, `output.h`: predicate filtering
-/

namespace JPS

/-- `MAX_PREDICATE_STATE`, predicate.h:9. -/
def MAX_PREDICATE_STATE : Nat := 100
/-- `MAX_STACK_ELEMENT`, predicate.h:10. -/
def MAX_STACK_ELEMENT : Nat := 100
/-- `MAX_OUTPUT`, output.h:6. -/
def MAX_OUTPUT : Nat := 800000
/-- `MAX_STRING`, output.h:7. -/
def MAX_STRING : Nat := 1000

/-- `PredicateFilter`, predicate.h:25-38, without the tuple list and the context.  `stack` has the
top first; an entry is (`predicate_state`, `output_buffer_pointer`).  `ub`: the C code leaves
its arrays, follows NULL or uses an indeterminate value. -/
structure PF where
  conds : Nat → Option Conds
  stack : List (Nat × Nat)
  buffer : List Str
  output : List Str
  ub : Bool

/-- `node->string`: only variables carry a string among the nodes that occur. -/
def Ast.str? : Ast → Option Str
  | .var s => some s
  | _ => none

/-- The name of one condition, predicate.h:84-87; `none` if the lookup is undefined. -/
def condName (ctx : QCtx) (cs : Option Nat) : Option Str :=
  (cs.bind ctx.subtrees).bind Ast.str?

/-- `initPredicateFilter`, predicate.h:66-95. -/
def PF.init (ctx : QCtx) : PF :=
  { conds := fun s =>
      if s ∈ ctx.predStates then
        some ((ctx.mapping s).filterMap fun c => (condName ctx c).map fun n => (n, none))
      else none
    stack := []
    buffer := []
    output := []
    ub := ctx.predStates.any (fun s => decide (s ≥ MAX_PREDICATE_STATE)) ||
      ctx.predStates.any (fun s => (ctx.mapping s).any fun c => (condName ctx c).isNone) }

/-- `addOutputElement` to the final output, output.h:48-52. -/
def PF.addOutput (p : PF) (t : Str) : PF :=
  { p with output := p.output ++ [t]
           ub := p.ub || decide (p.output.length ≥ MAX_OUTPUT) ||
             decide (strcopyBytes t.length > MAX_STRING) }

/-- `addOutputElement` to the buffer. -/
def PF.addBuffer (p : PF) (t : Str) : PF :=
  { p with buffer := p.buffer ++ [t]
           ub := p.ub || decide (p.buffer.length ≥ MAX_OUTPUT) ||
             decide (strcopyBytes t.length > MAX_STRING) }

/-- Replace the conditions of one state. -/
def setConds (f : Nat → Option Conds) (s : Nat) (cs : Conds) : Nat → Option Conds :=
  fun x => if x = s then some cs else f x

/-- `pc[index].text = allocate_and_copy(text)` for the first condition with the given name,
predicate.c:84-95. -/
def Conds.set (name text : Str) : Conds → Conds
  | [] => []
  | (n, t) :: r => if n = name then (n, some text) :: r else (n, t) :: Conds.set name text r

/-- The start of an element, predicate.c:38-44. -/
def pfOpen (t : Tuple) (p : PF) : PF :=
  { p with stack := (t.st, p.buffer.length) :: p.stack
           ub := p.ub || decide (p.stack.length ≥ MAX_STACK_ELEMENT) }

/-- Outcome of the predicate on top of the stack, predicate.c:48-53. -/
def pfVerdict (O : NumOps) (ctx : QCtx) (p : PF) (s : Nat) : Option Bool :=
  match p.conds s, ctx.subtrees s with
  | some cs, some e => evaluate O e cs
  | _, _ => none

/-- Lines 57-71 of predicate.c: release, keep or drop the candidates from `fi` on. -/
def pfRelease (v : Bool) (fi : Nat) (last : Bool) (p : PF) : PF :=
  if v then
    if last then { (p.buffer.drop fi).foldl PF.addOutput p with buffer := p.buffer.take fi } else p
  else { p with buffer := p.buffer.take fi }

/-- The end of an element, predicate.c:46-75. -/
def pfClose (O : NumOps) (ctx : QCtx) (p : PF) : PF :=
  match p.stack with
  | [] => { p with ub := true }
  | (s, fi) :: rest =>
    match pfVerdict O ctx p s with
    | none => { p with ub := true }
    | some v =>
      let q := pfRelease v fi rest.isEmpty p
      { q with conds := setConds q.conds s (((q.conds s).getD []).clear), stack := rest }

/-- Any other tuple, predicate.c:76-100.  `node->string` is read only if the condition list is not
empty. -/
def pfOther (ctx : QCtx) (t : Tuple) (p : PF) : PF :=
  match p.stack with
  | [] => p
  | (s, _) :: _ =>
    match ctx.subtrees t.st with
    | none => p.addBuffer t.text
    | some node =>
      match p.conds s with
      | none => { p with ub := true }
      | some [] => p.addBuffer t.text
      | some pc =>
        match node.str? with
        | none => { p with ub := true }
        | some n =>
          if pc.any (fun c => c.1 == n) then { p with conds := setConds p.conds s (pc.set n t.text) }
          else p.addBuffer t.text

/-- One iteration of the loop of `generateFinalOutput`, predicate.c:32-101. -/
def pfStep (O : NumOps) (ctx : QCtx) (p : PF) (t : Tuple) : PF :=
  if t.text = ['{'] then pfOpen t p
  else if t.text = ['}'] then pfClose O ctx p
  else pfOther ctx t p

/-- `generateFinalOutput`, predicate.c:4-106.  The first loop (12-14) looks for a predicate state. -/
def generate (O : NumOps) (ctx : QCtx) (p : PF) (ts : List Tuple) : PF :=
  if (List.range MAX_PREDICATE_STATE).all (fun s => (p.conds s).isNone) then
    ts.foldl (fun p t => p.addOutput t.text) p
  else ts.foldl (pfStep O ctx) p

end JPS
