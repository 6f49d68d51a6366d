/-!
# `dfa.h`: the query automaton as a table
-/

namespace JPS

/-- Key texts and other C strings. -/
abbrev Str := List Char

/-- Accept types, dfa.h:30-32 (`0` is "no match"). -/
inductive Acc where
  | none | output | condition | predicate
deriving DecidableEq, Repr

/-- `JSONQueryDFA`, dfa.h:19-26.  The C arrays are modelled by functions on their index;
`statesNum` and `inputsNum` are the allocated dimensions, and safety theorems show
that reachable accesses stay inside them. `stop_state` is only used while building. -/
structure QDfa where
  statesNum : Nat
  inputsNum : Nat
  table : Nat → Nat → Nat
  stop : Nat → Nat
  accept : Nat → Acc
  lower : Nat → Int
  upper : Nat → Int
  names : Nat → Str

/-- The search loop of `dfaNextStateByStr`, dfa.h:101-106: first column
`c, c+1, ..., c+n-1` with a nonzero entry and the given name. -/
def QDfa.findCol (d : QDfa) (s : Nat) (k : Str) : Nat → Nat → Option Nat
  | _, 0 => none
  | c, n + 1 =>
    if d.table s c ≠ 0 ∧ d.names c = k then some c else d.findCol s k (c + 1) n

/-- `dfaNextStateByStr`, dfa.h:97-110; the argument `none` is `DFA_ARRAY` (NULL). -/
def QDfa.nextByStr (d : QDfa) (s : Nat) : Option Str → Nat
  | none => d.table s 2
  | some k =>
    match d.findCol s k 3 (d.inputsNum - 3) with
    | some c => d.table s c
    | none => d.table s 1

/-- The index test shared by `getMatchedType`, `ary_s` and `key`,
streaming_automaton.c:25, 74, 115:
`(lower==0&&upper==0)||(counter>=lower && counter<upper)`. -/
def QDfa.inRange (d : QDfa) (s : Nat) (count : Nat) : Bool :=
  (d.lower s == 0 && d.upper s == 0) ||
    (decide ((count : Int) ≥ d.lower s) && decide ((count : Int) < d.upper s))

/-- `getMatchedType`, streaming_automaton.c:14-31. -/
def QDfa.matchedType (d : QDfa) (s : Nat) (count : Nat) : Acc :=
  match d.accept s with
  | .output => if d.inRange s count then .output else .none
  | m => m

end JPS
