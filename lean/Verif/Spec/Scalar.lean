import Verif.Spec.Json
import Verif.Spec.Expr
/-!
# Specification: values of scalars in filter expressions

This file does not mention the model.
-/

set_option autoImplicit false

namespace Spec

/-- Value of a scalar; `num` gives the value of a number literal.  Arrays and objects have none here. -/
def J.scalar {N : Type} (num : List Char → N) : J → Option (SV N)
  | .str r => some (.str r)
  | .lit t =>
    if t = ['t', 'r', 'u', 'e'] then some (.bool true)
    else if t = ['f', 'a', 'l', 's', 'e'] then some (.bool false)
    else if t = ['n', 'u', 'l', 'l'] then some .null
    else match t with
      | [] => none
      | c :: r => if c = '-' ∨ ('0' ≤ c ∧ c ≤ '9') then some (.num (num (c :: r))) else none
  | _ => none

/-- A number literal with a sign. -/
def J.negative : J → Bool
  | .lit ('-' :: _) => true
  | _ => false

end Spec
