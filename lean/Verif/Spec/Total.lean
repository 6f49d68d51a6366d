import Verif.Spec.FilterPath
/-!
# Specification: filter expressions that have a value on every element

This file does not mention the model.
-/

set_option autoImplicit false

namespace Spec

variable {N L : Type}

/-- The operators defined on all values. -/
def BOp.isLogical : BOp → Bool
  | .or | .and | .eq | .ne => true
  | _ => false

/-- The operators whose result is a number. -/
def BOp.isArith : BOp → Bool
  | .add | .sub | .mul | .div | .mod => true
  | _ => false

/-- The number of an expression made of number literals and arithmetic (`none`: another expression, or a remainder that is not
defined). -/
def Expr.const (A : Arith N L) : Expr L → Option N
  | .num l => some (A.lit l)
  | .bin o a b =>
    match a.const A, b.const A with
    | some x, some y =>
      match o with
      | .add => some (A.add x y)
      | .sub => some (A.sub x y)
      | .mul => some (A.mul x y)
      | .div => some (A.div x y)
      | .mod => A.mod x y
      | _ => none
    | _, _ => none
  | _ => none

/-- Orderings and arithmetic occur between constant numbers only, and no remainder there is undefined. -/
def Expr.total (A : Arith N L) : Expr L → Bool
  | .prop _ => true
  | .str _ => true
  | .num _ => true
  | .not e => e.total A
  | .bin o a b =>
    if o.isLogical then a.total A && b.total A
    else (a.const A).isSome && (b.const A).isSome && (!o.isArith || (Expr.const A (.bin o a b)).isSome)

/-- The filters of a path are such expressions. -/
def totalPath (A : Arith N L) (p : List (QStep L)) : Bool :=
  p.all fun s => match s with
    | .filter e => e.total A
    | _ => true

mutual
/-- The document has no negative numbers. -/
def J.unsigned : J → Bool
  | .lit t => !(J.lit t).negative
  | .str _ => true
  | .arr _ es => es.unsigned
  | .obj _ ms => ms.unsigned
def Elems.unsigned : Elems → Bool
  | .nil => true
  | .cons _ v _ rest => v.unsigned && rest.unsigned
def Members.unsigned : Members → Bool
  | .nil => true
  | .cons _ _ _ _ v _ rest => v.unsigned && rest.unsigned
end

end Spec
