import Verif.Spec.Json
/-!
# Specification: where keys and arrays begin

Independent of the model.
-/

set_option autoImplicit false

namespace Spec

mutual
/-- Where keys and arrays begin in a value: each key with the location of its object, each array (`none`) with its location, in the order
of the text. -/
def J.starts (loc : Loc) : J → List (Loc × Option (List Char))
  | .lit _ => []
  | .str _ => []
  | .arr _ es => (loc, none) :: es.starts loc 0
  | .obj _ ms => ms.starts loc
def Elems.starts (loc : Loc) (i : Nat) : Elems → List (Loc × Option (List Char))
  | .nil => []
  | .cons _ v _ rest => v.starts (loc ++ [.elem i]) ++ rest.starts loc (i + 1)
def Members.starts (loc : Loc) : Members → List (Loc × Option (List Char))
  | .nil => []
  | .cons _ k _ _ v _ rest => (loc, some k) :: (v.starts (loc ++ [.key k]) ++ rest.starts loc)
end

/-- A location without the indices of elements. -/
def shape (l : Loc) : List (Option (List Char)) :=
  l.map fun
    | .key k => some k
    | .elem _ => none

/-- Every key and every array of `w` occurs in `v` too, at a location that differs at most in the indices of elements. -/
def SameShape (v w : J) : Prop := ∀ x ∈ w.starts [], ∃ y ∈ v.starts [], y.2 = x.2 ∧ shape y.1 = shape x.1

/-- The same for the keys and arrays that occur in `v` at all; `w` may have other keys. -/
def KnownShape (v w : J) : Prop := ∀ x ∈ w.starts [], (∃ y ∈ v.starts [], y.2 = x.2) → ∃ y ∈ v.starts [], y.2 = x.2 ∧ shape y.1 = shape x.1

/-- Every key and every array of `w` occurs in `v` at the same location. -/
def SamePlaces (v w : J) : Prop := ∀ x ∈ w.starts [], x ∈ v.starts []

end Spec
