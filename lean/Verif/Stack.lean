/-!
# `stack.h`

Both stacks are arrays of `MAX_STACK` entries with a top index; they are modelled by
lists whose head is the top entry.
-/

namespace JPS

/-- `MAX_STACK`, stack.h:6. -/
def MAX_STACK : Nat := 100

/-- Symbols pushed on the syntax stack: `LCB`, `LB`, `KY` (lexing.h:7,9,12); no other
token code is ever pushed (streaming_automaton.c:42,64,105). -/
inductive Sym where
  | lcb | lb | ky
deriving DecidableEq, Repr

/-- `QueryStackElement`, stack.h:9-13.  `ms = none` models `matched_start == INVALID`. -/
structure Elt where
  st : Nat
  count : Nat
  ms : Option Nat
deriving DecidableEq, Repr

/-- `syntaxStackPush` / `queryStackPush`, stack.h:37-53: a push on a full stack is
silently ignored. -/
def push {α : Type} (s : List α) (x : α) : List α :=
  if s.length < MAX_STACK then x :: s else s

/-- Value returned by `syntaxStackPop`, `syntaxStackTop` and `queryStackTop`,
stack.h:55-67, 88-95, 108-119; `none` is the `INVALID` entry of an empty stack. -/
def top {α : Type} (s : List α) : Option α := s.head?

/-- Remaining stack after `syntaxStackPop` / `queryStackPop`, stack.h:55-85 (popping an
empty stack leaves it empty). -/
def pop {α : Type} (s : List α) : List α := s.tail

/-- `syntaxStackSecondTop` / `queryStackSecondTop`, stack.h:98-105, 128-139. -/
def secondTop {α : Type} (s : List α) : Option α := s.tail.head?

/-- `combineSyntaxStack`, stack.h:148-155: pushes the entries of the source stack from
bottom to top. -/
def combineSyntaxStack {α : Type} (dst src : List α) : List α :=
  src.reverse.foldl push dst

end JPS
