import Verif.Stream
/-!
# `constraint.h` and the constraint collection of `streaming_automaton.c`
-/

set_option autoImplicit false

namespace JPS

/-- `ConstraintInfo`, constraint.h:12-17.  `type` is `KY` or `LB`. -/
structure CInfo where
  name : Str
  type : Sym
  states : List Nat
deriving DecidableEq, Repr

/-- `ConstraintTable`, constraint.h:19-22; `ub` is set when an index leaves its array or a name
overruns `token_name`. -/
structure CTable where
  info : List CInfo
  ub : Bool
deriving DecidableEq, Repr

/-- `MAX_KEY_TEXT`, constraint.h:7. -/
def MAX_KEY_TEXT : Nat := 100
/-- `MAX_CONSTRAINT`, constraint.h:8. -/
def MAX_CONSTRAINT : Nat := 1000
/-- `MAX_STATES`, constraint.h:9. -/
def MAX_STATES : Nat := 100

/-- `createConstraintTable`, constraint.h:24-34. -/
def CTable.empty : CTable := ⟨[], false⟩

/-- What is looked up: a key with its name, or (for `none`) the start of an array. -/
abbrev CKey := Option Str

/-- The test of the search loops, constraint.h:47 and 93 (`strcmp` of the names, whatever the type of the
entry), 67 and 106 (`type==3`, `type==LB`). -/
def CInfo.hits (k : CKey) (i : CInfo) : Bool :=
  match k with
  | some k => decide (k = i.name)
  | none => decide (i.type = .lb)

/-- `updateStateInfo`, constraint.h:36-81: the states of the first entry found; `none` for
`num_state == INVALID`. -/
def CTable.lookup (ct : CTable) (k : CKey) : Option (List Nat) := (ct.info.find? (CInfo.hits k)).map CInfo.states

/-- The state added to the entry found, constraint.h:116-128. -/
def CInfo.addState (i : CInfo) (s : Nat) : CInfo :=
  if s ∈ i.states then i else { i with states := i.states ++ [s] }

/-- Search for the entry and change it, or report that there is none: constraint.h:88-129. -/
def addIn (k : CKey) (s : Nat) : List CInfo → Option (List CInfo)
  | [] => none
  | i :: is => if i.hits k then some (i.addState s :: is) else (addIn k s is).map (i :: ·)

/-- The name in a new entry: `strcopy(name, token_name)` for a key (constraint.h:133); for an array the
bytes that `malloc` delivered, here `g` by entry index. -/
def newName (g : Nat → Str) (n : Nat) : CKey → Str
  | some k => k
  | none => g n

/-- `addConstraintInfo`, constraint.h:84-138. -/
def CTable.add (g : Nat → Str) (ct : CTable) (s : Nat) (k : CKey) : CTable :=
  match addIn k s ct.info with
  | some is => ⟨is, ct.ub || is.any fun i => decide (i.states.length > MAX_STATES)⟩
  | none =>
    ⟨ct.info ++ [⟨newName g ct.info.length k, if k.isSome then .ky else .lb, [s]⟩],
      ct.ub || decide (ct.info.length ≥ MAX_CONSTRAINT) ||
        (match k with | some k => decide (strcopyBytes k.length > MAX_KEY_TEXT) | none => false)⟩

/-- What `executeAutomaton` records for a token when `data_constraint_flag==OPEN`,
streaming_automaton.c:231-242 and 282-293. -/
def records (d : QDfa) (a : SA) : Tok → List (Nat × CKey)
  | .lb _ => (a.elt.st, none) :: if d.inRange a.elt.st a.elt.count then [] else [(0, none)]
  | .ky k => (a.elt.st, some k) :: if d.inRange a.elt.st a.elt.count then [] else [(0, some k)]
  | _ => []

/-- All recordings of a run over tokens. -/
def recordsOf (d : QDfa) (s : Str) : SA → List Tok → List (Nat × CKey)
  | _, [] => []
  | a, t :: ts => records d a t ++ recordsOf d s (step d s a t) ts

/-- A sequence of recordings. -/
def CTable.addAll (g : Nat → Str) (ct : CTable) (h : List (Nat × CKey)) : CTable :=
  h.foldl (fun ct r => ct.add g r.1 r.2) ct

/-- `executeAutomaton` with `OPEN`, streaming_automaton.c:132-330: the automaton state and the table.  The
recording happens before the rule changes the current element. -/
def runCollect (g : Nat → Str) (d : QDfa) (s : Str) : SA × CTable → List Tok → SA × CTable :=
  List.foldl fun p t => (step d s p.1 t, p.2.addAll g (records d p.1 t))

theorem runCollect_eq (g : Nat → Str) (d : QDfa) (s : Str) : ∀ (ts : List Tok) (a : SA) (ct : CTable),
    runCollect g d s (a, ct) ts = (runToks d s a ts, ct.addAll g (recordsOf d s a ts))
  | [], _, _ => rfl
  | t :: ts, a, ct => by
    have := runCollect_eq g d s ts (step d s a t) (ct.addAll g (records d a t))
    simp only [runCollect, List.foldl_cons] at this ⊢
    rw [this]
    simp only [runToks, List.foldl_cons, recordsOf, CTable.addAll, List.foldl_append]

theorem recordsOf_append (d : QDfa) (s : Str) : ∀ (ts us : List Tok) (a : SA),
    recordsOf d s a (ts ++ us) = recordsOf d s a ts ++ recordsOf d s (runToks d s a ts) us
  | [], _, _ => rfl
  | t :: ts, us, a => by
    simp only [List.cons_append, recordsOf, recordsOf_append d s ts us, List.append_assoc, runToks,
      List.foldl_cons]

end JPS
