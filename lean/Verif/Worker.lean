import Verif.MultiStack
import Verif.Constraint
import Verif.Lexer
/-!
# `worker_automaton.h`, `worker_automaton.c` and `unit.h`

One worker on the tokens of its chunk.  `unit.start` and `unit.end` are only used for reprocessing a unit
and are computed separately in `Verif/Reprocess.lean`.
-/

set_option autoImplicit false

namespace JPS

/-- Symbols recorded as unmatched, worker_automaton.c:253, 282, 431, 487, 558. -/
inductive USym where
  | rcb | rb | object | array | pri
deriving DecidableEq, Repr

/-- `unit_state`, unit.h:10-11; `other` is any other value: `initUnit` does not write the field. -/
inductive UState where
  | unmatched | matched | other
deriving DecidableEq, Repr

/-- `Unit`, unit.h:23-43.  `syms` are the unmatched symbols with their index, `roots` states and tuple
pointers of `root_node`. -/
structure PUnit where
  syms : List (USym × Nat)
  roots : List (Nat × Head)
  state : UState
  pruned : Bool

/-- `MAX_STATE`, unit.h:8. -/
def MAX_STATE : Nat := 100
/-- `MAX_UNMATCHED_SYMBOL`, unit.h:9. -/
def MAX_UNMATCHED_SYMBOL : Nat := 100
/-- `MAX_UNIT`, unit.h:14. -/
def MAX_UNIT : Nat := 100

/-- `initUnit`, unit.h:50-58: the state stays. -/
def PUnit.init (s : UState) : PUnit := ⟨[], [], s, false⟩

/-- Local variables of `executeWorkerAutomaton`, worker_automaton.c:117-176. -/
structure W where
  q : QS
  elt : Rng
  ss : List Sym
  shadow : List Sym
  unit : PUnit
  units : List PUnit
  ub : Bool

/-- What does not change during a run: `id == 0`; the chunk; the constraint table; the states used for a
reset (`none`: `query_state`, `num_query_state` not written because the run continues an earlier one). -/
structure WEnv where
  d : QDfa
  id0 : Bool
  s : Str
  ct : Option CTable
  starts : Option (List Nat)

/-- Result of `getMatchedType`, dfa.h:30-32 and worker_automaton.c:3-4. -/
inductive WAcc where
  | none | output | condition | predicate | incomplete | unselected
deriving DecidableEq, Repr

/-- An accept type as a result of `getMatchedType`. -/
def Acc.toW : Acc → WAcc
  | .none => .none
  | .output => .output
  | .condition => .condition
  | .predicate => .predicate

/-- `getMatchedType`, worker_automaton.c:12-45.  Reading an indeterminate `root_range` is reported where the
node is used. -/
def Node.matched (d : QDfa) (n : Node) : WAcc :=
  if d.accept n.st = .output then
    if n.roots = some [] then
      if d.lower n.st = 0 ∧ d.upper n.st = 0 then .output
      else if (n.count : Int) < d.upper n.st then .unselected
      else .none
    else if d.inRange n.st n.count then .output else .none
  else if n.roots = some [] then
    if d.lower n.st = 0 ∧ d.upper n.st = 0 then (d.accept n.st).toW
    else if (n.count : Int) < d.upper n.st then .incomplete
    else .none
  else (d.accept n.st).toW

/-- `matched_type==DFA_OUTPUT_CANDIDATE || (wa->id>0 && matched_type==DFA_UNSELECTED_CANDIDATE)`. -/
def WEnv.selects (E : WEnv) (m : WAcc) : Bool := m == .output || (!E.id0 && m == .unselected)

/-- Record a failure. -/
def W.orUb (w : W) (b : Bool) : W := { w with ub := w.ub || b }

/-- The loops `while(start_index<=end_index)` over a range; `f` gets the index and the node as it is when its
turn comes. -/
def W.each (r : Rng) (f : Nat → Node → QS → QS) (w : W) : W :=
  { w with q := r.list.foldl (fun q i => match q.nodes[i]? with
      | some n => (f i n q).orUb (decide (n.roots = none))
      | none => { q with ub := true }) w.q }

/-- `addUnmatchedSymbol`, unit.h:98-103. -/
def W.addSym (w : W) (x : USym) (i : Nat) : W :=
  { w with
    unit := { w.unit with syms := w.unit.syms ++ [(x, i)], state := .unmatched }
    ub := w.ub || decide (w.unit.syms.length ≥ MAX_UNMATCHED_SYMBOL) }

/-- The states and tuple pointers of the nodes at the given indices. -/
def QS.copyRoots (q : QS) (is : List Nat) : List (Nat × Head) :=
  is.filterMap fun i => (q.nodes[i]?).map fun n => (n.st, q.heads i)

/-- Close the unit if it has content and reset the automaton, worker_automaton.c:241-252 (the same lines
269-280, 418-429, 475-486, 545-556). -/
def W.closeUnit (E : WEnv) (w : W) : W :=
  if w.unit.state = .matched then
    let roots := w.q.copyRoots (List.range w.q.nodes.length)
    let u := { w.unit with roots := roots }
    let ub := w.ub || decide (roots.length > MAX_STATE) || decide (w.units.length ≥ MAX_UNIT)
    match E.starts with
    | some st =>
      let p := w.q.start st
      ⟨p.1, p.2, [], [], .init w.unit.state, w.units ++ [u], ub⟩
    | none => { w with units := w.units ++ [u], ub := true }
  else w

/-- Content begins: worker_automaton.c:185-189, 340-344, 495-499, 563-564. -/
def W.mark (w : W) : W := { w with unit := { w.unit with state := .matched } }

/-- Type of a token, `none` for `END`. -/
inductive TT where
  | lcb | rcb | lb | rb | com | ky | pri
deriving DecidableEq, Repr

/-- Type of a token. -/
def Tok.tt : Tok → TT
  | .lcb _ => .lcb
  | .rcb _ => .rcb
  | .lb _ => .lb
  | .rb _ => .rb
  | .com => .com
  | .ky _ => .ky
  | .pri _ => .pri

/-- `syntaxStackInference` as called for `RCB` and `RB` with one symbol on the stack (worker_automaton.c:263,
411; lines 54-60 and 81-87) and for `PRI` (541; lines 106-112): the symbol pushed on the shadow stack.  `rest`
are the tokens after the current one: the copied lexer reads the same text.  (The cases for an empty stack,
61-77 and 88-104, are never reached.) -/
def infer (x : TT) (rest : List Tok) : Option Sym :=
  let first := (rest[0]?).map Tok.tt
  let second := (rest[1]?).map Tok.tt
  if first = some .rcb ∨ (first = some .com ∧ second = some .ky) then some .ky
  else
    match x with
    | .rcb => if first = some .lcb ∨ first = none then none else some .lb
    | .rb => if first = some .lb ∨ first = none then none else some .lb
    | _ => some .lb

/-- The shadow stack after an inference that is only made when it is empty. -/
def W.inferred (w : W) (x : TT) (rest : List Tok) : W :=
  if w.shadow = [] then
    { w with shadow := match infer x rest with
        | some y => [y]
        | none => [] }
  else w

/-- The text in `lexer.content` after the two calls of `nextToken` in `syntaxStackInference`: the copied lexer
writes to the same buffer (lexing.h:28), which `token.content` points to (lexing.c:141, 154, 191). -/
def clobber (t : Str) (rest : List Tok) : Str :=
  (rest.take 2).foldl (fun t x => match x with
    | .ky k => k
    | .pri p => p
    | _ => t) t

/-- Emission of matched containers at a closing bracket for the nodes of a range, worker_automaton.c:217-237
and 379-404 (`arr`: the case `]`, which also has lines 398-401).  A start recorded in an
earlier text (a piece before, or a unit being reprocessed) may lie behind the end; `substring` then allocates too little
(utility.c:33). -/
def W.closeOut (E : WEnv) (arr : Bool) (pos : Nat) (r : Rng) (w : W) : W :=
  w.each r fun i n q =>
    match n.ms with
    | some b =>
      if E.selects (n.matched E.d) then
        ((if E.id0 then (q.addText i n.st (substring E.s b pos)).orUb (substringOOB E.s pos || decide (b > pos))
          else q.addSpan i n.st b pos).setMs i none)
      else if arr && n.matched E.d == .incomplete then q.addText i n.st [']']
      else q
    | none => q

/-- `*qs_elt = queryStacksPop(qs)`. -/
def W.popQ (w : W) : W :=
  let p := w.q.pop
  { w with q := p.1, elt := p.2 }

/-- `case LCB`, worker_automaton.c:183-212. -/
def W.lcb (E : WEnv) (pos : Nat) (w : W) : W :=
  let w := w.mark
  let w := { w with ss := push w.ss .lcb }
  w.each w.elt fun i n q =>
    if E.selects (n.matched E.d) then q.setMs i (some (pos - 1))
    else if n.matched E.d = .predicate then q.addText i n.st ['{']
    else if n.matched E.d = .condition then q.addText i n.st []
    else q

/-- The end of an object in an array, worker_automaton.c:289-305 (`root`: the array began in an earlier chunk)
and 320-333. -/
def W.elemEnd (E : WEnv) (root : Bool) (w : W) : W :=
  w.each w.elt fun i n q =>
    let q := q.incr i
    if n.matched E.d = .predicate then q.addText i n.st ['}']
    else if root && n.matched E.d == .incomplete then q.addText i n.st ['}']
    else q

/-- `case RCB`, worker_automaton.c:213-337. -/
def W.rcb (E : WEnv) (pos : Nat) (rest : List Tok) (w : W) : W :=
  if w.ss.length = 0 then (w.closeUnit E).addSym .rcb (pos - 1)
  else
    let w := w.closeOut E false pos w.elt
    if w.ss.length = 1 then
      let w := w.inferred .rcb rest
      if w.shadow = [] then { w with ss := pop w.ss }
      else if top w.shadow = some .ky then (w.closeUnit E).addSym .object 0
      else if top w.shadow = some .lb then { w with ss := pop w.ss }.elemEnd E true
      else w
    else if secondTop w.ss = some .ky then
      let w := w.popQ
      { w with ss := pop (pop w.ss) }
    else if secondTop w.ss = some .lb then { w with ss := pop w.ss }.elemEnd E false
    else w

/-- `strcopy(token.content, ci.token_name)`, worker_automaton.c:505, overruns `token_name` (constraint.h:13). -/
def longKey : CKey → Bool
  | some k => decide (strcopyBytes k.length > MAX_KEY_TEXT)
  | none => false

/-- Pruning by the constraint table, worker_automaton.c:346-356 and 501-512 (the latter only with an empty
query stack).  The node array is cut back here without looking at the query stack; the first entry on the query
stack of a unit is pushed right after a pruning, so the query stack is empty.  The key is copied to a buffer first
(line 505), which it overruns if it is too long. -/
def W.pruned (E : WEnv) (k : CKey) (w : W) : W :=
  match E.ct with
  | none => w
  | some ct =>
    if E.id0 = false ∧ w.unit.pruned = false ∧ (k = none ∨ w.q.items = []) then
      let w := match ct.lookup k with
        | some ks =>
          let p := w.q.prune ks
          { w with q := p.1, elt := p.2 }
        | none => w
      { w with unit := { w.unit with pruned := true }, ub := w.ub || longKey k }
    else w

/-- `case LB`, worker_automaton.c:338-375. -/
def W.lb (E : WEnv) (pos : Nat) (w : W) : W :=
  let w := w.mark.pruned E none
  let w := w.each w.elt fun i n q =>
    if E.selects (n.matched E.d) then q.setMs i (some (pos - 1))
    else if n.matched E.d = .condition then q.addText i n.st []
    else q
  let p := w.q.push E.d w.elt none
  { w with ss := push w.ss .lb, q := p.1, elt := p.2 }

/-- `count++` for all current nodes, worker_automaton.c:438-445 and 461-468. -/
def W.incrAll (w : W) : W := w.each w.elt fun i _ q => q.incr i

/-- Emission for the level below the current one, worker_automaton.c:379-404. -/
def W.rbOut (E : WEnv) (pos : Nat) (w : W) : W :=
  match w.q.items with
  | r :: _ => w.closeOut E true pos r
  | [] => w.orUb true

/-- The rest of `case RB` with a nonempty syntax stack, worker_automaton.c:405-471. -/
def W.rbEnd (E : WEnv) (rest : List Tok) (w : W) : W :=
  if w.ss.length = 1 then
    let w := w.inferred .rb rest
    if w.shadow = [] then
      let w := w.popQ
      { w with ss := pop w.ss }
    else if top w.shadow = some .ky then (w.closeUnit E).addSym .array 0
    else if top w.shadow = some .lb then
      let w := w.popQ
      { w with ss := pop w.ss }.incrAll
    else w
  else if secondTop w.ss = some .ky then
    let w := W.popQ { w with q := w.q.pop.1 }
    { w with ss := pop (pop w.ss) }
  else if secondTop w.ss = some .lb then
    let w := w.popQ
    { w with ss := pop w.ss }.incrAll
  else w

/-- `case RB`, worker_automaton.c:376-491. -/
def W.rb (E : WEnv) (pos : Nat) (rest : List Tok) (w : W) : W :=
  if w.ss.length = 0 then (w.closeUnit E).addSym .rb (pos - 1)
  else (w.rbOut E pos).rbEnd E rest

/-- `case KY`, worker_automaton.c:494-514. -/
def W.ky (E : WEnv) (k : Str) (w : W) : W :=
  let w := w.mark.pruned E (some k)
  let p := w.q.push E.d w.elt (some k)
  { w with ss := push w.ss .ky, q := p.1, elt := p.2 }

/-- Emission of a primitive for all current nodes, worker_automaton.c:518-530 and 565-576; `inc`: the element
index is increased. -/
def W.priOut (E : WEnv) (t : Str) (inc : Bool) (w : W) : W :=
  w.each w.elt fun i n q =>
    let q := if E.selects (n.matched E.d) || n.matched E.d == .condition then q.addText i n.st t else q
    if inc then q.incr i else q

/-- `case PRI`, worker_automaton.c:515-579. -/
def W.pri (E : WEnv) (t : Str) (rest : List Tok) (w : W) : W :=
  if w.ss.length ≥ 1 then
    let w := w.priOut E t (decide (top w.ss = some .lb))
    if top w.ss = some .ky then
      let w := w.popQ
      { w with ss := pop w.ss }
    else w
  else
    let t := if w.shadow = [] then clobber t rest else t
    let w := w.inferred .pri rest
    if top w.shadow = some .ky then (w.closeUnit E).addSym .pri 0
    else if top w.shadow = some .lb then w.mark.priOut E t true
    else w

/-- One iteration of the loop, worker_automaton.c:179-583; `rest` are the tokens after `t`. -/
def W.step (E : WEnv) (w : W) (t : Tok) (rest : List Tok) : W :=
  match t with
  | .lcb p => w.lcb E p
  | .rcb p => w.rcb E p rest
  | .lb p => w.lb E p
  | .rb p => w.rb E p rest
  | .com => w
  | .ky k => w.ky E k
  | .pri x => w.pri E x rest

/-- The loop of `executeWorkerAutomaton`, worker_automaton.c:179-583. -/
def W.run (E : WEnv) : W → List Tok → W
  | w, [] => w
  | w, t :: ts => W.run E (w.step E t ts) ts

/-- What is stored after the loop, worker_automaton.c:584-606. -/
def W.finish (w : W) : W :=
  let r0 := ((w.elt :: w.q.items).getLast?).getD w.elt
  let roots := if w.q.nodes = [] then [] else w.q.copyRoots r0.list
  { w with
    unit := { w.unit with roots := roots }
    units := w.units ++ [{ w.unit with roots := roots }]
    ub := w.ub || decide (roots.length > MAX_STATE) || decide (w.units.length ≥ MAX_UNIT) }

/-- A token text overruns `lexer->content`, lexing.h:40. -/
def contentUb (s : Str) : Bool := (lexAll s).any fun t => match t with
  | .ky k => decide (strcopyBytes k.length > MAX_SIZE_PRIMITIVE)
  | .pri p => decide (strcopyBytes p.length > MAX_SIZE_PRIMITIVE)
  | _ => false

/-- A worker that goes on from where the combination of an earlier piece left it, worker_automaton.c:130-135; only
worker 0 of a later piece does. -/
def W.resume (q : QS) (elt : Rng) (ss : List Sym) (u : UState) : W := ⟨q, elt, ss, [], .init u, [], false⟩

/-- A worker that starts afresh, worker_automaton.c:136-176: thread 0 in state 1, the others in every state of
the automaton.  `u` is the indeterminate `unit.unit_state`. -/
def W.init (starts : List Nat) (u : UState) : W :=
  let p := QS.blank.start starts
  ⟨p.1, p.2, [], [], .init u, [], decide (starts.length > MAX_STATE)⟩

/-- States a worker starts from, worker_automaton.c:136-152. -/
def startStates (d : QDfa) (i : Nat) : List Nat := if i = 0 then [1] else List.range d.statesNum

/-- `executeWorkerAutomaton` of thread `i` on its chunk, worker_automaton.c:115-609. -/
def runWorker (d : QDfa) (ct : Option CTable) (u : UState) (i : Nat) (chunk : Str) : W :=
  (W.run ⟨d, i == 0, chunk, ct, some (startStates d i)⟩ (W.init (startStates d i) u) (lexAll chunk)).finish.orUb
    (contentUb chunk)

end JPS
