import Verif.Ast
/-!
# `JSONPathParser/jsonpath_evaluator.h`: evaluation of filter expressions
-/

namespace JPS

/-- The C `double` operations used by the evaluator.  Theorems quantify over all
implementations, so nothing depends on floating point.  `atof` is only applied to texts that
start with a digit; `mod` is `(long long)a % (long long)b`, undefined for some arguments. -/
structure NumOps where
  N : Type
  atof : Str → N
  ofNum : Num → N
  zero : N
  eq : N → N → Bool
  lt : N → N → Bool
  le : N → N → Bool
  add : N → N → N
  sub : N → N → N
  mul : N → N → N
  div : N → N → N
  mod : N → N → Option N

/-- Integers as numbers, for concrete examples. -/
def intOps : NumOps where
  N := Int
  atof s := ((s.takeWhile (fun c => decide ('0' ≤ c) && decide (c ≤ '9'))).foldl
    (fun n c => 10 * n + (c.toNat - '0'.toNat)) 0 : Nat)
  ofNum n := n.toInt
  zero := 0
  eq a b := a == b
  lt a b := decide (a < b)
  le a b := decide (a ≤ b)
  add := (· + ·)
  sub := (· - ·)
  mul := (· * ·)
  div := Int.tdiv
  mod a b := if b = 0 then none else some (Int.tmod a b)

/-- `JSONPathValue`, jsonpath_evaluator.h:21-28. -/
inductive Value (O : NumOps) where
  | null
  | num (n : O.N)
  | str (s : Str)
  | bool (b : Bool)

/-- `computeTypeCast`, jsonpath_evaluator.h:52-58 (the resulting `boolean`). -/
def Value.truth {O : NumOps} : Value O → Bool
  | .null => false
  | .num n => !O.eq n O.zero
  | .str _ => true
  | .bool b => b

/-- Reading the member `number` of the union.  A null value is created by `{jvt_null}` (48, 160),
which zeroes the union; for strings and booleans the bytes of a pointer or of a `bool` with
indeterminate neighbours are read (`none`). -/
def Value.asNum {O : NumOps} : Value O → Option O.N
  | .null => some O.zero
  | .num n => some n
  | .str _ => none
  | .bool _ => none

/-- `case jot_equal` of `computeBinaryOperator`, jsonpath_evaluator.h:101-114. -/
def Value.equal {O : NumOps} : Value O → Value O → Bool
  | .bool a, .bool b => a == b
  | .num a, .num b => O.eq a b
  | .str a, .str b => a == b
  | .null, .null => true
  | _, _ => false

/-- An operation on the `number` members. -/
def onNums {O : NumOps} {α : Type} (f : O.N → O.N → Option α) (a b : Value O) : Option α :=
  match a.asNum, b.asNum with
  | some x, some y => f x y
  | _, _ => none

/-- `computeBinaryOperator`, jsonpath_evaluator.h:84-157; `none`: the result is indeterminate. -/
def binary {O : NumOps} (o : Op) (a b : Value O) : Option (Value O) :=
  match o with
  | .or => some (.bool (a.truth || b.truth))
  | .and => some (.bool (a.truth && b.truth))
  | .equal => some (.bool (a.equal b))
  | .neq => some (.bool (!a.equal b))
  | .less => onNums (fun x y => some (.bool (O.lt x y))) a b
  | .greater => onNums (fun x y => some (.bool (O.lt y x))) a b
  | .leq => onNums (fun x y => some (.bool (O.le x y))) a b
  | .geq => onNums (fun x y => some (.bool (O.le y x))) a b
  | .add => onNums (fun x y => some (.num (O.add x y))) a b
  | .minus => onNums (fun x y => some (.num (O.sub x y))) a b
  | .multiply => onNums (fun x y => some (.num (O.mul x y))) a b
  | .div => onNums (fun x y => some (.num (O.div x y))) a b
  | .mod => onNums (fun x y => (O.mod x y).map .num) a b

/-- `stringToValue`, jsonpath_evaluator.h:159-191 (`none` is NULL).  A text consisting of one quote,
which the tokenizer never produces, would make `strncpy` run away (180-182). -/
def stringToValue (O : NumOps) : Option Str → Value O
  | none => .null
  | some t =>
    if t = "true".toList then .bool true
    else if t = "false".toList then .bool false
    else if t = "null".toList then .null
    else match t with
      | [] => .bool true
      | c :: r =>
        if c = '"' then .str r.dropLast
        else if '0' ≤ c ∧ c ≤ '9' then .num (O.atof (c :: r))
        else .null

/-- `PredicateCondition`, jsonpath_evaluator.h:11-14: name and text. -/
abbrev Conds := List (Str × Option Str)

/-- `createTableFromConditions` and `findValueInTable`, jsonpath_evaluator.h:193-203, 39-50. -/
def Conds.value (O : NumOps) (cs : Conds) (name : Str) : Value O :=
  match cs.find? (fun c => c.1 == name) with
  | some c => stringToValue O c.2
  | none => .null

/-- `calculateExpression`, jsonpath_evaluator.h:214-244, with `table` as a function. -/
def calculate (O : NumOps) (table : Str → Value O) : Ast → Option (Value O)
  | .bin o l r =>
    match calculate O table l, calculate O table r with
    | some a, some b => binary o a b
    | _, _ => none
  | .not l => (calculate O table l).map fun v => .bool (!v.truth)   -- computeUnaryOperator, 61-75
  | .var s => some (table s)
  | .string s => some (.str s)
  | .number n => some (.num (O.ofNum n))
  | _ => some .null

/-- `evaluateExpression`, jsonpath_evaluator.h:252-256. -/
def evaluate (O : NumOps) (e : Ast) (cs : Conds) : Option Bool :=
  (calculate O (cs.value O) e).map Value.truth

/-- `clearPredicateCondtion`, jsonpath_evaluator.h:205-212. -/
def Conds.clear (cs : Conds) : Conds := cs.map fun c => (c.1, none)

end JPS
