import Verif.Spec.Json
/-!
# Nesting of a document
-/

set_option autoImplicit false

namespace Spec

mutual
/-- Number of containers around the most deeply nested place of a value, the value included.  (Specification; not in /repo.) -/
def J.nest : J → Nat
  | .lit _ => 0
  | .str _ => 0
  | .arr _ es => es.nest + 1
  | .obj _ ms => ms.nest + 1
/-- The same for the elements of an array. -/
def Elems.nest : Elems → Nat
  | .nil => 0
  | .cons _ v _ rest => max v.nest rest.nest
/-- The same for the members of an object. -/
def Members.nest : Members → Nat
  | .nil => 0
  | .cons _ _ _ _ v _ rest => max v.nest rest.nest
end

mutual
/-- Number of brackets, commas, keys and scalars of a value.  (Specification; not in /repo.) -/
def J.tokenCount : J → Nat
  | .lit _ => 1
  | .str _ => 1
  | .arr _ es => es.tokenCount + 2
  | .obj _ ms => ms.tokenCount + 2
/-- The same for the elements of an array, with the commas between them. -/
def Elems.tokenCount : Elems → Nat
  | .nil => 0
  | .cons _ v _ .nil => v.tokenCount
  | .cons _ v _ rest => v.tokenCount + 1 + rest.tokenCount
/-- The same for the members of an object, with the commas between them. -/
def Members.tokenCount : Members → Nat
  | .nil => 0
  | .cons _ _ _ _ v _ .nil => v.tokenCount + 1
  | .cons _ _ _ _ v _ rest => v.tokenCount + 2 + rest.tokenCount
end

end Spec
