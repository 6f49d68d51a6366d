import Verif.RegexTree
/-!
# Specification: the language of a regular expression

Only the shape of the expressions is taken from the model.
-/

set_option autoImplicit false

namespace Spec
open JPS

/-- Any number of words of a language one after the other. -/
inductive Star (L : List Nat → Prop) : List Nat → Prop
  | nil : Star L []
  | app {u v : List Nat} : L u → Star L v → Star L (u ++ v)

/-- The language of an expression with an operator. -/
def withOpt (o : ROpt) (L : List Nat → Prop) (w : List Nat) : Prop :=
  match o with
  | .none => L w
  | .optional => w = [] ∨ L w
  | .star => Star L w
  | .plus => ∃ u v, w = u ++ v ∧ L u ∧ Star L v

mutual
/-- The words of an expression whose letters accept the characters given by `edge`. -/
def reLang {α : Type} (edge : α → Nat → Bool) : RTree α → List Nat → Prop
  | .leaf a o g => withOpt o fun w => ∃ x, w = [x] ∧ edge a x = true
  | .node or o items g => withOpt o fun w => if or then orLang edge items w else andLang edge items w
/-- The words of one of the items. -/
def orLang {α : Type} (edge : α → Nat → Bool) : RList α → List Nat → Prop
  | .nil => fun _ => False
  | .cons t r => fun w => reLang edge t w ∨ orLang edge r w
/-- The words of the items one after the other. -/
def andLang {α : Type} (edge : α → Nat → Bool) : RList α → List Nat → Prop
  | .nil => fun w => w = []
  | .cons t r => fun w => ∃ u v, w = u ++ v ∧ reLang edge t u ∧ andLang edge r v
end

mutual
/-- No item of a sequence inside the expression is marked as non-greedy. -/
def noMarks {α : Type} : RTree α → Prop
  | .leaf _ _ _ => True
  | .node or _ items _ => itemsNoMarks or items
/-- No item is marked, unless they are alternatives, and no item inside them. -/
def itemsNoMarks {α : Type} (or : Bool) : RList α → Prop
  | .nil => True
  | .cons t r => (or = false → t.marked = false) ∧ noMarks t ∧ itemsNoMarks or r
end

/-- Marks are allowed on the items themselves, but not inside them. -/
def innerNoMarks {α : Type} : RList α → Prop
  | .nil => True
  | .cons t r => noMarks t ∧ innerNoMarks r

/-- One of the items is marked. -/
def someMark {α : Type} : RList α → Prop
  | .nil => False
  | .cons t r => t.marked = true ∨ someMark r

/-- The shortest words of a language: no shorter beginning (except nothing) belongs to it. -/
def Shortest (L : List Nat → Prop) (w : List Nat) : Prop :=
  L w ∧ ∀ u v, w = u ++ v → u ≠ [] → v ≠ [] → ¬ L u

end Spec
