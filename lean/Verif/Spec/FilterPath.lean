import Verif.Spec.Scalar
import Verif.Spec.Path
/-!
# Specification: paths with filters

This file does not mention the model.  Paths consist of `.name`, `[*]` and filters `[?(e)]`; their
meaning is given by recursion on the value.
-/

set_option autoImplicit false

namespace Spec

/-- Steps of a path with filters. -/
inductive QStep (L : Type) where
  /-- `.name` -/
  | prop (k : List Char)
  /-- `[*]` -/
  | all
  /-- `[?(e)]` -/
  | filter (e : Expr L)

/-- The step without its test. -/
def sk {L : Type} : QStep L → Step
  | .prop k => .prop k
  | .all => .all
  | .filter _ => .all

mutual
/-- The value of `@.c₁.c₂…` in a value: of several members with the same name the last one that has the
remaining properties counts. -/
def J.lookup : J → List (List Char) → Option J
  | v, [] => some v
  | .obj _ ms, k :: c => ms.lookup k c
  | _, _ :: _ => none
def Members.lookup : Members → List Char → List (List Char) → Option J
  | .nil, _, _ => none
  | .cons _ m _ _ v _ rest, k, c => (rest.lookup k c).orElse fun _ => if m = k then v.lookup c else none
end

variable {N L : Type}

/-- The value of a property of the element `v` in a filter: missing, that of a scalar, or true for an
array or object.  Literals other than numbers and constants count as null. -/
def J.property (num : List Char → N) (v : J) (c : List (List Char)) : SV N :=
  match v.lookup c with
  | none => .missing
  | some x => if x.isContainer then .bool true else (x.scalar num).getD .null

/-- Value of a filter expression on an element (`none`: not defined, e.g. an ordering of strings). -/
def Expr.on (A : Arith N L) (num : List Char → N) (e : Expr L) (v : J) : Option (SV N) :=
  e.eval A (v.property num)

/-- None of the properties an expression tests is a negative number. -/
def Expr.unsigned (e : Expr L) (v : J) : Bool :=
  e.props.all fun c => match v.lookup c with
    | none => true
    | some x => !x.negative

/-- An expression is defined on an element and tests no negative number in it. -/
def Expr.judges (A : Arith N L) (num : List Char → N) (e : Expr L) (v : J) : Bool := (e.on A num v).isSome && e.unsigned v

/-- An element satisfies a filter expression. -/
def Expr.holds (A : Arith N L) (num : List Char → N) (e : Expr L) (v : J) : Bool :=
  match e.on A num v with
  | some x => x.truth A
  | none => false

/-- An element passes an optional test. -/
def passes (A : Arith N L) (num : List Char → N) : Option (Expr L) → J → Bool
  | none, _ => true
  | some e, v => e.holds A num v

mutual
/-- The values a path selects below a value, in document order. -/
def J.select (A : Arith N L) (num : List Char → N) : J → List (QStep L) → List J
  | v, [] => [v]
  | .obj _ ms, .prop k :: p => ms.select A num k p
  | .arr _ es, .all :: p => es.select A num none p
  | .arr _ es, .filter e :: p => es.select A num (some e) p
  | _, _ :: _ => []
/-- Selection below the elements of an array that pass a test. -/
def Elems.select (A : Arith N L) (num : List Char → N) : Elems → Option (Expr L) → List (QStep L) → List J
  | .nil, _, _ => []
  | .cons _ v _ rest, t, p => (if passes A num t v then v.select A num p else []) ++ rest.select A num t p
/-- Selection below the members with a name. -/
def Members.select (A : Arith N L) (num : List Char → N) : Members → List Char → List (QStep L) → List J
  | .nil, _, _ => []
  | .cons _ m _ _ v _ rest, k, p => (if m = k then v.select A num p else []) ++ rest.select A num k p
end

mutual
/-- Every filter expression is defined on every object it meets and tests no negative number there, whether or not that object lies in an
element that satisfies the filters further out. -/
def J.decided (A : Arith N L) (num : List Char → N) : J → List (QStep L) → Bool
  | _, [] => true
  | .obj _ ms, .prop k :: p => ms.decided A num k p
  | .arr _ es, .all :: p => es.decided A num none p
  | .arr _ es, .filter e :: p => es.decided A num (some e) p
  | _, _ :: _ => true
def Elems.decided (A : Arith N L) (num : List Char → N) : Elems → Option (Expr L) → List (QStep L) → Bool
  | .nil, _, _ => true
  | .cons _ v _ rest, t, p =>
    (match t, v with
      | some e, .obj w ms => e.judges A num (.obj w ms)
      | _, _ => true) && v.decided A num p && rest.decided A num t p
def Members.decided (A : Arith N L) (num : List Char → N) : Members → List Char → List (QStep L) → Bool
  | .nil, _, _ => true
  | .cons _ m _ _ v _ rest, k, p => (m != k || v.decided A num p) && rest.decided A num k p
end

/-- Every filter is followed by a name. -/
def namedAfterFilter : List (QStep L) → Bool
  | [] => true
  | .filter _ :: .prop k :: p => namedAfterFilter (.prop k :: p)
  | .filter _ :: _ => false
  | _ :: p => namedAfterFilter p

/-- The names of a path that consists of names only. -/
def propsOnly : List (QStep L) → Option (List (List Char))
  | [] => some []
  | .prop k :: p => (propsOnly p).map (k :: ·)
  | _ => none

/-- The path returns the very property its last filter tests. -/
def returnsTested : List (QStep L) → Bool
  | [] => false
  | .filter e :: p =>
    (match propsOnly p with
      | some c => e.props.contains c
      | none => false) || returnsTested p
  | _ :: p => returnsTested p

/-- There is a filter. -/
def hasFilter : List (QStep L) → Bool
  | [] => false
  | .filter _ :: _ => true
  | _ :: p => hasFilter p

/-- The names in a path and in its filters, in order. -/
def pathNames : List (QStep L) → List (List Char)
  | [] => []
  | .prop k :: p => k :: pathNames p
  | .all :: p => pathNames p
  | .filter e :: p => e.props.flatten ++ pathNames p

/-- Every tested property has a name. -/
def refsNamed : List (QStep L) → Bool
  | [] => true
  | .filter e :: p => e.props.all (fun c => !c.isEmpty) && refsNamed p
  | _ :: p => refsNamed p

/-- The nodes below the root of the tree of the steps of a path and of the properties its filters test, each given by the steps that lead
to it; `u` leads to the root. -/
def stepTree (u : List Step) : List (QStep L) → List (List Step)
  | [] => []
  | .prop k :: p => (u ++ [.prop k]) :: stepTree (u ++ [.prop k]) p
  | .all :: p => (u ++ [.all]) :: stepTree (u ++ [.all]) p
  | .filter e :: p => (u ++ [.all]) :: ((e.props.flatMap fun q => (List.range q.length).map fun n => u ++ [.all] ++ (q.take (n + 1)).map .prop) ++
      stepTree (u ++ [.all]) p)

/-- Each once. -/
def different : List (List Step) → List (List Step)
  | [] => []
  | w :: ws => if w ∈ ws then different ws else w :: different ws

/-- The number of nodes of the tree, nodes reached in two ways counted twice. -/
def treeSize : List (QStep L) → Nat
  | [] => 0
  | .filter e :: p => 1 + (e.props.map List.length).sum + treeSize p
  | _ :: p => 1 + treeSize p

/-- The path with every filter replaced by `[*]`. -/
def unfiltered : List (QStep L) → List (QStep L)
  | [] => []
  | .filter _ :: p => .all :: unfiltered p
  | s :: p => s :: unfiltered p

/-- What remains of property paths below a member named `k`. -/
def below (k : List Char) (ps : List (List (List Char))) : List (List (List Char)) :=
  ps.filterMap fun
    | [] => none
    | k' :: q => if k' = k then some q else none

mutual
/-- The texts of the properties `ps` inside a value, in document order: scalars as they are written, an array
or object as an empty text where it opens. -/
def J.shown (ps : List (List (List Char))) : J → List (List Char)
  | .lit t => if [] ∈ ps then [t] else []
  | .str r => if [] ∈ ps then ['"' :: r ++ ['"']] else []
  | .arr _ _ => if [] ∈ ps then [[]] else []
  | .obj _ ms => (if [] ∈ ps then [[]] else []) ++ ms.shown ps
def Members.shown (ps : List (List (List Char))) : Members → List (List Char)
  | .nil => []
  | .cons _ k _ _ v _ rest => v.shown (below k ps) ++ rest.shown ps
end

end Spec
