import Verif.Spec.Json
/-!
# Specification: the keys and arrays of a document

Independent of the model.
-/

set_option autoImplicit false

namespace Spec

mutual
/-- The keys of all objects of a value, in the order of the text. -/
def J.keyNames : J → List (List Char)
  | .lit _ => []
  | .str _ => []
  | .arr _ es => es.keyNames
  | .obj _ ms => ms.keyNames
def Elems.keyNames : Elems → List (List Char)
  | .nil => []
  | .cons _ v _ rest => v.keyNames ++ rest.keyNames
def Members.keyNames : Members → List (List Char)
  | .nil => []
  | .cons _ k _ _ v _ rest => k :: (v.keyNames ++ rest.keyNames)
end

mutual
/-- The value is or contains an array. -/
def J.hasArray : J → Bool
  | .lit _ => false
  | .str _ => false
  | .arr _ _ => true
  | .obj _ ms => ms.hasArray
def Members.hasArray : Members → Bool
  | .nil => false
  | .cons _ _ _ _ v _ rest => v.hasArray || rest.hasArray
end

end Spec
