import Verif.Spec.FilterPath
/-!
# Specification: paths with filters and slices

This file does not mention the model.  Paths consist of `.name`, `[*]`, `[a:b]` and filters `[?(e)]`.
-/

set_option autoImplicit false

namespace Spec

/-- Steps of a path with filters and slices. -/
inductive SStep (L : Type) where
  /-- `.name` -/
  | prop (k : List Char)
  /-- `[*]` -/
  | all
  /-- `[a:b]`; a missing bound is `none` -/
  | slice (a b : Option Int)
  /-- `[?(e)]` -/
  | filter (e : Expr L)

/-- The index `i` lies in `[a:b]`. -/
def inBounds (a b : Option Int) (i : Nat) : Bool :=
  (match a with | none => true | some x => decide (x ≤ i)) && (match b with | none => true | some x => decide ((i : Int) < x))

variable {N L : Type}

/-- The step chooses an index. -/
def SStep.takes : SStep L → Nat → Bool
  | .slice a b, i => inBounds a b i
  | _, _ => true

/-- An array step chooses the element `v` with index `i`. -/
def SStep.keeps (A : Arith N L) (num : List Char → N) : SStep L → Nat → J → Bool
  | .prop _, _, _ => false
  | .all, _, _ => true
  | .slice a b, i, _ => inBounds a b i
  | .filter e, _, v => e.holds A num v

mutual
/-- The values a path selects below a value, in document order. -/
def J.choose (A : Arith N L) (num : List Char → N) : J → List (SStep L) → List J
  | v, [] => [v]
  | .obj _ ms, .prop k :: p => ms.choose A num k p
  | .arr _ es, s :: p => es.choose A num s 0 p
  | _, _ :: _ => []
/-- Selection below the elements of an array that the step `s` chooses; `i` is the index of the first one. -/
def Elems.choose (A : Arith N L) (num : List Char → N) : Elems → SStep L → Nat → List (SStep L) → List J
  | .nil, _, _, _ => []
  | .cons _ v _ rest, s, i, p => (if s.keeps A num i v then v.choose A num p else []) ++ rest.choose A num s (i + 1) p
/-- Selection below the members with a name. -/
def Members.choose (A : Arith N L) (num : List Char → N) : Members → List Char → List (SStep L) → List J
  | .nil, _, _ => []
  | .cons _ m _ _ v _ rest, k, p => (if m = k then v.choose A num p else []) ++ rest.choose A num k p
end

mutual
/-- Every filter expression is defined on every object it meets.  Elements outside the slices are not met;
elements that fail a filter are. -/
def J.settled (A : Arith N L) (num : List Char → N) : J → List (SStep L) → Bool
  | _, [] => true
  | .obj _ ms, .prop k :: p => ms.settled A num k p
  | .arr _ _, .prop _ :: _ => true
  | .arr _ es, s :: p => es.settled A num s 0 p
  | _, _ :: _ => true
def Elems.settled (A : Arith N L) (num : List Char → N) : Elems → SStep L → Nat → List (SStep L) → Bool
  | .nil, _, _, _ => true
  | .cons _ v _ rest, s, i, p =>
    (!s.takes i || (match s, v with
      | .filter e, .obj w ms => e.judges A num (.obj w ms)
      | _, _ => true) && v.settled A num p) && rest.settled A num s (i + 1) p
def Members.settled (A : Arith N L) (num : List Char → N) : Members → List Char → List (SStep L) → Bool
  | .nil, _, _ => true
  | .cons _ m _ _ v _ rest, k, p => (m != k || v.settled A num p) && rest.settled A num k p
end

/-- The step with its bounds forgotten. -/
def SStep.whole : SStep L → QStep L
  | .prop k => .prop k
  | .all => .all
  | .slice _ _ => .all
  | .filter e => .filter e

/-- The path with every slice replaced by `[*]`. -/
def wholes (p : List (SStep L)) : List (QStep L) := p.map SStep.whole

/-- The path with every filter replaced by `[*]`. -/
def unfilteredS : List (SStep L) → List (SStep L)
  | [] => []
  | .filter _ :: p => .all :: unfilteredS p
  | s :: p => s :: unfilteredS p

end Spec
