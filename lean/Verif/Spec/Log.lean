/-!
# Specification: a log of recordings

Independent of the model: a history is a list of (value, key) pairs.
-/

set_option autoImplicit false

namespace Spec

variable {α κ : Type} [DecidableEq α] [DecidableEq κ]

/-- The values of a list, each once, in the order of their first occurrence. -/
def firsts : List α → List α
  | [] => []
  | x :: xs => x :: (firsts xs).filter fun y => decide (y ≠ x)

/-- The values recorded for a key. -/
def recordedFor (h : List (α × κ)) (k : κ) : List α :=
  (h.filter fun r => decide (r.2 = k)).map Prod.fst

/-- The distinct values recorded for a key, in the order of first recording; `none` if there are none. -/
def logOf (h : List (α × κ)) (k : κ) : Option (List α) :=
  match recordedFor h k with
  | [] => none
  | l => some (firsts l)

/-- The keys of a history, each once. -/
def keysOf (h : List (α × κ)) : List κ := firsts (h.map Prod.snd)

end Spec
