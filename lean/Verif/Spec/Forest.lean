/-!
# Specification: nested filtered elements

This file does not mention the model.  A forest describes what a filter sees: candidates (results),
recorded property texts, and filtered elements that contain such items.
-/

set_option autoImplicit false

namespace Spec

/-- A sequence of items. -/
inductive Forest where
  | nil
  /-- a result -/
  | cand (st : Nat) (text : List Char) (rest : Forest)
  /-- a property tested by the enclosing element's predicate -/
  | cond (st : Nat) (name text : List Char) (rest : Forest)
  /-- an element filtered by the predicate with number `s` -/
  | elem (s : Nat) (inner rest : Forest)

/-- The text recorded for a property directly in a sequence (the last one). -/
def Forest.recorded : Forest → List Char → Option (List Char)
  | .nil, _ => none
  | .cand _ _ rest, n => rest.recorded n
  | .cond _ m t rest, n => (rest.recorded n).orElse fun _ => if m = n then some t else none
  | .elem _ _ rest, n => rest.recorded n

/-- The results released: those all of whose enclosing elements satisfy their predicates.
`holds s r` is the verdict of predicate `s` on an element with the recorded properties `r`. -/
def Forest.released (holds : Nat → (List Char → Option (List Char)) → Bool) : Forest → List (List Char)
  | .nil => []
  | .cand _ t rest => t :: rest.released holds
  | .cond _ _ _ rest => rest.released holds
  | .elem s inner rest =>
    (if holds s inner.recorded then inner.released holds else []) ++ rest.released holds

/-- The results of a whole forest: what lies outside all elements is ignored. -/
def Forest.output (holds : Nat → (List Char → Option (List Char)) → Bool) : Forest → List (List Char)
  | .nil => []
  | .cand _ _ rest => rest.output holds
  | .cond _ _ _ rest => rest.output holds
  | .elem s inner rest =>
    (if holds s inner.recorded then inner.released holds else []) ++ rest.output holds

/-- Predicates of the elements anywhere in a forest. -/
def Forest.preds : Forest → List Nat
  | .nil => []
  | .cand _ _ rest => rest.preds
  | .cond _ _ _ rest => rest.preds
  | .elem s inner rest => s :: inner.preds ++ rest.preds

/-- No element lies inside another element with the same predicate. -/
def Forest.unnested : Forest → Bool
  | .nil => true
  | .cand _ _ rest => rest.unnested
  | .cond _ _ _ rest => rest.unnested
  | .elem s inner rest => !inner.preds.contains s && inner.unnested && rest.unnested

/-- Only elements at the top. -/
def Forest.elemsOnly : Forest → Bool
  | .nil => true
  | .cand _ _ _ => false
  | .cond _ _ _ _ => false
  | .elem _ _ rest => rest.elemsOnly

end Spec
