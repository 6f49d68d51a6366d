import Verif.Util
import Verif.Stack
import Verif.Dfa
/-!
# `streaming_automaton.c`

The automaton consumes tokens; the bracket tokens carry the value of
`lexer.next_start - lexer.begin_stream` after the token, the only lexer position the
automaton looks at.
-/

namespace JPS

/-- Tokens as seen by the automaton (lexing.h:7-16, 61-64). -/
inductive Tok where
  | lcb (pos : Nat) | rcb (pos : Nat) | lb (pos : Nat) | rb (pos : Nat)
  | com
  | ky (k : Str)
  | pri (t : Str)
deriving DecidableEq, Repr

/-- The part of `Tuple` that the serial run uses, tuple_list.h:9-17. -/
structure Tuple where
  st : Nat
  text : Str
deriving DecidableEq, Repr

/-- `MAX_TUPLE_LIST`, tuple_list.h:6. -/
def MAX_TUPLE_LIST : Nat := 5000000
/-- `MAX_TEXT`, tuple_list.h:7. -/
def MAX_TEXT : Nat := 1000

/-- The run-time part of `StreamingAutomaton`, streaming_automaton.h:15-31, with the
current `QueryStackElement` unpacked as in executeAutomaton (streaming_automaton.c:138-142).
`ub` is set when the C code leaves its buffers or reads an indeterminate value. -/
structure SA where
  elt : Elt
  ss : List Sym
  qs : List Elt
  tl : List Tuple
  ub : Bool
deriving DecidableEq, Repr

/-- `initStreamingAutomaton`, streaming_automaton.h:34-47. -/
def SA.init : SA := { elt := ⟨1, 0, none⟩, ss := [], qs := [], tl := [], ub := false }

/-- `addTuple`, tuple_list.h:42-49.  Undefined when the text with the two NULs written by
`strcopy` exceeds `MAX_TEXT`, or the list is full. -/
def SA.addTuple (a : SA) (s : Nat) (t : Str) : SA :=
  { a with
    tl := a.tl ++ [⟨s, t⟩]
    ub := a.ub || decide (strcopyBytes t.length > MAX_TEXT)
            || decide (a.tl.length ≥ MAX_TUPLE_LIST) }

/-- `*qs_elt = queryStackPop(qs)`, stack.h:70-85.  Popping an empty stack yields state
`INVALID` (-1) with an indeterminate `matched_start`; the next use of that state indexes
the automaton's arrays at -1.  The model reports this already at the pop. -/
def SA.popQ (a : SA) : SA :=
  match a.qs with
  | e :: qs => { a with elt := e, qs := qs }
  | [] => { a with ub := true }

/-- State after entering an array or a key from element `e`: streaming_automaton.c:68-80
and 109-122. -/
def QDfa.enter (d : QDfa) (e : Elt) (k : Option Str) : Elt :=
  { st := if d.inRange e.st e.count then d.nextByStr e.st k else 0, count := 0, ms := none }

/-- Emission of a matched container when its closing bracket is read: the common part of
streaming_automaton.c:187-193 and 250-256, for the element `e` (current element for `}`,
top of the query stack for `]`).  Undefined as well when the recorded start lies behind the end
(it was recorded in an earlier piece): utility.c:33 then allocates `end - begin + 1 ≤ 0` bytes, and
line 38 writes one. -/
def SA.closeOutput (d : QDfa) (s : Str) (pos : Nat) (e : Elt) (a : SA) : SA :=
  match e.ms with
  | some b =>
    if d.matchedType e.st e.count = .output then
      let a := a.addTuple e.st (substring s b pos)
      { a with ub := a.ub || substringOOB s pos || decide (b > pos) }
    else a
  | none => a

/-- `case LCB`, streaming_automaton.c:167-184. -/
def stepLcb (d : QDfa) (pos : Nat) (a : SA) : SA :=
  let a := { a with ss := push a.ss .lcb }                                -- obj_s, 40-43
  match d.matchedType a.elt.st a.elt.count with
  | .output => { a with elt := { a.elt with ms := some (pos - 1) } }
  | .predicate => a.addTuple a.elt.st ['{']
  | .condition => a.addTuple a.elt.st []
  | .none => a

/-- Lines 187-193 of `case RCB`, including `qs_elt->matched_start = INVALID`. -/
def rcbOutput (d : QDfa) (s : Str) (pos : Nat) (a : SA) : SA :=
  let a' := a.closeOutput d s pos a.elt
  if a.elt.ms ≠ none ∧ d.matchedType a.elt.st a.elt.count = .output then
    { a' with elt := { a'.elt with ms := none } }
  else a'

/-- `case RCB`, streaming_automaton.c:185-218. -/
def stepRcb (d : QDfa) (s : Str) (pos : Nat) (a : SA) : SA :=
  let a := rcbOutput d s pos a
  if a.ss.length = 1 then { a with ss := pop a.ss }                       -- obj_e, 45-48
  else if a.ss.length > 1 then
    if secondTop a.ss = some .ky then                                     -- val_obj_e, 50-55
      let a := a.popQ
      { a with ss := pop (pop a.ss) }
    else if secondTop a.ss = some .lb then                                -- elt_obj_e, 57-60
      let a := { a with ss := pop a.ss, elt := { a.elt with count := a.elt.count + 1 } }
      if d.matchedType a.elt.st a.elt.count = .predicate then a.addTuple a.elt.st ['}'] else a
    else a
  else a

/-- `case LB`, streaming_automaton.c:219-244 (constraint collection is in
`Verif/Constraint.lean`). -/
def stepLb (d : QDfa) (pos : Nat) (a : SA) : SA :=
  let a := match d.matchedType a.elt.st a.elt.count with
    | .output => { a with elt := { a.elt with ms := some (pos - 1) } }
    | .condition => a.addTuple a.elt.st []
    | _ => a
  -- ary_s, 62-81
  { a with ss := push a.ss .lb, qs := push a.qs a.elt, elt := d.enter a.elt none }

/-- `case RB`, streaming_automaton.c:245-278.  `top_qs_elt` is a local copy (248), so the
assignment in line 254 has no lasting effect.  `queryStackTop` of an empty stack has
`matched_start == INVALID`. -/
def stepRb (d : QDfa) (s : Str) (pos : Nat) (a : SA) : SA :=
  if a.ss.length ≥ 1 then
    let a := match top a.qs with
      | some e => a.closeOutput d s pos e
      | none => a
    if a.ss.length = 1 then                                               -- ary_e, 83-87
      let a := a.popQ
      { a with ss := pop a.ss }
    else if secondTop a.ss = some .ky then                                -- val_ary_e, 89-95
      let a := { a with qs := pop a.qs }.popQ
      { a with ss := pop (pop a.ss) }
    else if secondTop a.ss = some .lb then                                -- elt_ary_e, 97-101
      let a := a.popQ
      { a with ss := pop a.ss, elt := { a.elt with count := a.elt.count + 1 } }
    else a
  else a

/-- `case KY` with `key`, streaming_automaton.c:281-295 and 103-123. -/
def stepKy (d : QDfa) (k : Str) (a : SA) : SA :=
  { a with ss := push a.ss .ky, qs := push a.qs a.elt, elt := d.enter a.elt (some k) }

/-- `case PRI`, streaming_automaton.c:296-319 with `val_pmt` (125-129). -/
def stepPri (d : QDfa) (t : Str) (a : SA) : SA :=
  if a.ss.length ≥ 1 then
    let a := match d.matchedType a.elt.st a.elt.count with
      | .output => a.addTuple a.elt.st t
      | .condition => a.addTuple a.elt.st t
      | _ => a
    if top a.ss = some .ky then
      let a := a.popQ
      { a with ss := pop a.ss }
    else if top a.ss = some .lb then
      { a with elt := { a.elt with count := a.elt.count + 1 } }
    else a
  else a

/-- One iteration of the loop of `executeAutomaton`, streaming_automaton.c:163-323;
`s` is `lexer.begin_stream`. -/
def step (d : QDfa) (s : Str) (a : SA) : Tok → SA
  | .lcb p => stepLcb d p a
  | .rcb p => stepRcb d s p a
  | .lb p => stepLb d p a
  | .rb p => stepRb d s p a
  | .com => a                                                             -- 279-280
  | .ky k => stepKy d k a
  | .pri t => stepPri d t a

/-- `executeAutomaton` on a token sequence (the loop 163-323). -/
def runToks (d : QDfa) (s : Str) (a : SA) (ts : List Tok) : SA := ts.foldl (step d s) a

end JPS
