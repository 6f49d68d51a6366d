import Verif.Dfa
/-!
# `JSONPathParser/jsonpath_model.h`: syntax trees of JSONPath expressions
-/

namespace JPS

/-- Number literal: sign, digits and digits after the point (scanner_j.l:25, 87; the sign is
added by the grammar, parser_j.y:101-103). -/
structure Num where
  neg : Bool
  int : Nat
  frac : List Char
deriving DecidableEq, Repr

/-- Conversion `double` to `int` (truncation), dfa_builder.cpp:240-243.  Undefined in C outside
the range of `int`; the model gives the mathematical value. -/
def Num.toInt (n : Num) : Int := if n.neg then -(n.int : Int) else (n.int : Int)

/-- `JSONPathOperatorType`, jsonpath_model.h:18-23, the binary operators. -/
inductive Op where
  | or | and | equal | less | greater | neq | leq | geq | add | minus | multiply | div | mod
deriving DecidableEq, Repr

/-- `ASTNode`, jsonpath_model.h:25-34, with one constructor per shape built by the grammar. -/
inductive Ast where
  | root
  | concat (l r : Ast)
  | parentConcat (l r : Ast)
  | id (s : Str)
  | wildcard
  | predicate (l r : Ast)
  | range (a b : Option Num)
  | number (n : Num)
  | string (s : Str)
  | var (s : Str)
  | ref
  | script (l : Ast)
  | filter (l : Ast)
  | not (l : Ast)
  | bin (o : Op) (l r : Ast)
deriving DecidableEq, Repr

/-- `evaluatorModifyReference`, jsonpath_evaluator.h:260-302, as a function from a subtree to
the subtree that replaces it (`NULL` means "unchanged").  The C code writes to the freed node
(line 297, after 296) when it extends a reference; the model gives the intended result.
A wildcard has no string: `strlen(node->right->string)` is undefined there and the model
leaves the node alone. -/
def modRef : Ast → Ast
  | .concat l r =>
    match modRef l, modRef r with
    | .ref, .id s => .var s
    | .var v, .id s => .var (v ++ '.' :: s)
    | l, r => .concat l r
  | .parentConcat l r => .parentConcat (modRef l) (modRef r)
  | .predicate l r => .predicate (modRef l) (modRef r)
  | .script l => .script (modRef l)
  | .filter l => .filter (modRef l)
  | .not l => .not (modRef l)
  | .bin o l r => .bin o (modRef l) (modRef r)
  | t => t

/-- Whether `evaluatorModifyReference` reads or writes a released node or follows a NULL string:
extending a variable writes to and returns `node->left` after `free(node)`
(jsonpath_evaluator.h:296-298), and a right side without string is passed to `strlen` (278, 289). -/
def modRefUb : Ast → Bool
  | .concat l r => modRefUb l || modRefUb r ||
    (match modRef l, modRef r with
      | .ref, .id _ => false
      | .ref, .var _ => false
      | .ref, .string _ => false
      | .ref, _ => true
      | .var _, _ => true
      | _, _ => false)
  | .parentConcat l r => modRefUb l || modRefUb r
  | .predicate l r => modRefUb l || modRefUb r
  | .script l => modRefUb l
  | .filter l => modRefUb l
  | .not l => modRefUb l
  | .bin _ l r => modRefUb l || modRefUb r
  | _ => false

end JPS
