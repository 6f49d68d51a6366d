/-!
# Specification: filter expressions

This file does not mention the model.  `N` is the type of numbers with its operations; expressions
are evaluated over an environment that gives the value of each property path of the tested element.
-/

set_option autoImplicit false

namespace Spec

/-- The value a property path has in the tested element. -/
inductive SV (N : Type) where
  | missing
  | null
  | bool (b : Bool)
  | num (n : N)
  | str (s : List Char)

/-- Binary operators of filter expressions. -/
inductive BOp where
  | or | and | eq | ne | lt | gt | le | ge | add | sub | mul | div | mod
deriving DecidableEq, Repr

/-- Filter expressions; `prop p` is `@.p₁.p₂…`, `num` carries a number literal. -/
inductive Expr (L : Type) where
  | prop (p : List (List Char))
  | str (s : List Char)
  | num (l : L)
  | not (e : Expr L)
  | bin (o : BOp) (a b : Expr L)

/-- Operations on numbers; `blank` is the number that a missing or null value stands for in orderings and arithmetic (`none`: such an
operation is undefined). -/
structure Arith (N L : Type) where
  blank : Option N
  lit : L → N
  isZero : N → Bool
  eq : N → N → Bool
  lt : N → N → Bool
  le : N → N → Bool
  add : N → N → N
  sub : N → N → N
  mul : N → N → N
  div : N → N → N
  mod : N → N → Option N

variable {N L : Type}

/-- Truth value: missing and null are false, zero is false, every string is true. -/
def SV.truth (A : Arith N L) : SV N → Bool
  | .missing => false
  | .null => false
  | .bool b => b
  | .num n => !A.isZero n
  | .str _ => true

/-- Equality: values of the same type are compared by value; a missing property equals only null and
missing properties. -/
def SV.equal (A : Arith N L) : SV N → SV N → Bool
  | .bool a, .bool b => a == b
  | .num a, .num b => A.eq a b
  | .str a, .str b => a == b
  | .missing, .missing => true
  | .missing, .null => true
  | .null, .missing => true
  | .null, .null => true
  | _, _ => false

/-- The number a value stands for in orderings and arithmetic. -/
def SV.number (A : Arith N L) : SV N → Option N
  | .num n => some n
  | .missing => A.blank
  | .null => A.blank
  | _ => none

/-- An operation on numbers. -/
def withNumbers (A : Arith N L) (a b : SV N) (f : N → N → Option (SV N)) : Option (SV N) :=
  match a.number A, b.number A with
  | some x, some y => f x y
  | _, _ => none

/-- Operators.  Ordering and arithmetic are defined on numbers only. -/
def BOp.apply (A : Arith N L) : BOp → SV N → SV N → Option (SV N)
  | .or, a, b => some (.bool (a.truth A || b.truth A))
  | .and, a, b => some (.bool (a.truth A && b.truth A))
  | .eq, a, b => some (.bool (a.equal A b))
  | .ne, a, b => some (.bool (!a.equal A b))
  | .lt, a, b => withNumbers A a b fun x y => some (.bool (A.lt x y))
  | .gt, a, b => withNumbers A a b fun x y => some (.bool (A.lt y x))
  | .le, a, b => withNumbers A a b fun x y => some (.bool (A.le x y))
  | .ge, a, b => withNumbers A a b fun x y => some (.bool (A.le y x))
  | .add, a, b => withNumbers A a b fun x y => some (.num (A.add x y))
  | .sub, a, b => withNumbers A a b fun x y => some (.num (A.sub x y))
  | .mul, a, b => withNumbers A a b fun x y => some (.num (A.mul x y))
  | .div, a, b => withNumbers A a b fun x y => some (.num (A.div x y))
  | .mod, a, b => withNumbers A a b fun x y => (A.mod x y).map .num

/-- Value of an expression. -/
def Expr.eval (A : Arith N L) (env : List (List Char) → SV N) : Expr L → Option (SV N)
  | .prop p => some (env p)
  | .str s => some (.str s)
  | .num l => some (.num (A.lit l))
  | .not e => (e.eval A env).map fun v => .bool (!v.truth A)
  | .bin o a b =>
    match a.eval A env, b.eval A env with
    | some x, some y => o.apply A x y
    | _, _ => none

/-- The same numbers, but missing and null values stand for none. -/
def Arith.strict (A : Arith N L) : Arith N L := { A with blank := none }

/-- Boolean expressions over comparisons for equality and bare properties: the fragment in which every
expression has a value. -/
def Expr.logical : Expr L → Bool
  | .prop _ => true
  | .str _ => true
  | .num _ => true
  | .not e => e.logical
  | .bin o a b => (o == .or || o == .and || o == .eq || o == .ne) && a.logical && b.logical

/-- The property paths an expression mentions. -/
def Expr.props : Expr L → List (List (List Char))
  | .prop p => [p]
  | .not e => e.props
  | .bin _ a b => a.props ++ b.props
  | _ => []

end Spec
