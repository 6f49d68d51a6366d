import Verif.Worklist
import Verif.Regex
import Verif.EquivClass
/-!
# General regular expressions: `Lexer/regex_model.cpp` and `Lexer/regex_builder.cpp`

`Regex.lean` models the flat lists created for JSONPath.  Here the expressions are arbitrary trees
of lists with and without `enableOr` and of letters, each with any of the four operators.  A
`RegexRef` (regex_model.hpp:262-301) treats its own copy of the expression it names like a list
with one element (regex_model.cpp:67-71, 97-101, 135-138) and is modelled as such a list.  The
copy has no `nongreedy` marks, since the copy constructor takes over `opt` only
(regex_model.hpp:34).  A letter is identified by its number from left to right instead of its
address.
-/

set_option autoImplicit false

namespace JPS

/-- `RegexExternOpt`, regex_model.hpp:38-43. -/
inductive ROpt where
  | none | optional | star | plus
deriving DecidableEq, Repr

/-- The test of `RegexItem::BuildNullable`, regex_model.cpp:63. -/
def ROpt.skips : ROpt → Bool
  | .optional | .star => true
  | _ => false

/-- The test of `RegexItem::BuildFollow`, regex_model.cpp:129. -/
def ROpt.loops : ROpt → Bool
  | .star | .plus => true
  | _ => false

mutual
/-- A `RegexItem`, regex_model.hpp:31-87: a letter (`RegexChar`, `RegexSet`) or a `RegexList`
(93-152) with `enableOr`, each with its mark `nongreedy` (82). -/
inductive RTree (α : Type) where
  | leaf (a : α) (opt : ROpt) (nongreedy : Bool := false)
  | node (or : Bool) (opt : ROpt) (items : RList α) (nongreedy : Bool := false)
/-- The items of a `RegexList`, regex_model.hpp:111. -/
inductive RList (α : Type) where
  | nil
  | cons (t : RTree α) (r : RList α)
end

section
variable {α : Type}

mutual
/-- The letters of an expression from left to right, as visited by `traverses_model`,
ecset_converter.cpp:62-83 and set_converter.cpp:42-63. -/
def RTree.letters : RTree α → List α
  | .leaf a _ _ => [a]
  | .node _ _ items _ => items.letters
/-- The letters of a list of items. -/
def RList.letters : RList α → List α
  | .nil => []
  | .cons t r => t.letters ++ r.letters
end

/-- Number of letters of an expression (see the numbering above). -/
def RTree.size (t : RTree α) : Nat := t.letters.length
/-- Number of letters of a list of items. -/
def RList.size (r : RList α) : Nat := r.letters.length

mutual
/-- `BuildNullable`, regex_model.cpp:62-65 and 73-90. -/
def RTree.nullable : RTree α → Bool
  | .leaf _ o _ => o.skips
  | .node or o items g => o.skips || (if or then items.anyNullable else items.allNullable)
/-- The loop at regex_model.cpp:80-82. -/
def RList.anyNullable : RList α → Bool
  | .nil => false
  | .cons t r => t.nullable || r.anyNullable
/-- The loop at regex_model.cpp:85-87. -/
def RList.allNullable : RList α → Bool
  | .nil => true
  | .cons t r => t.nullable && r.allNullable
end

mutual
/-- `firstpos`, `BuildFirstAndLast`, regex_model.cpp:92-95 and 103-119, when the letters are
numbered from `i` on. -/
def RTree.first (i : Nat) : RTree α → List Nat
  | .leaf _ _ _ => [i]
  | .node or _ items _ => if or then items.firstOr i else items.firstAnd i
/-- The loop at regex_model.cpp:108-111 for `firstpos`. -/
def RList.firstOr (i : Nat) : RList α → List Nat
  | .nil => []
  | .cons t r => t.first i ++ r.firstOr (i + t.size)
/-- The loop at regex_model.cpp:115-119; also the inner loop of `BuildFollow`, 148-155. -/
def RList.firstAnd (i : Nat) : RList α → List Nat
  | .nil => []
  | .cons t r => t.first i ++ (if t.nullable then r.firstAnd (i + t.size) else [])
end

mutual
/-- `lastpos`, `BuildFirstAndLast`, regex_model.cpp:92-95 and 103-126. -/
def RTree.last (i : Nat) : RTree α → List Nat
  | .leaf _ _ _ => [i]
  | .node or _ items _ => if or then items.lastOr i else items.lastAnd i
/-- The loop at regex_model.cpp:108-113 for `lastpos`. -/
def RList.lastOr (i : Nat) : RList α → List Nat
  | .nil => []
  | .cons t r => t.last i ++ r.lastOr (i + t.size)
/-- The loop at regex_model.cpp:120-124, which starts at the end: an item is reached if all items
after it are nullable. -/
def RList.lastAnd (i : Nat) : RList α → List Nat
  | .nil => []
  | .cons t r => r.lastAnd (i + t.size) ++ (if r.allNullable then t.last i else [])
end

/-- Two nested loops that insert `ys` into the `followpos` of each of `xs`,
regex_model.cpp:130-132 and 150-153. -/
def pairs (xs ys : List Nat) : List (Nat × Nat) := xs.flatMap fun x => ys.map fun y => (x, y)

/-- The loops of `RegexList::BuildFollow` over successive items, regex_model.cpp:147-155. -/
def RList.seq (i : Nat) : RList α → List (Nat × Nat)
  | .nil => []
  | .cons t r => pairs (t.last i) (r.firstAnd (i + t.size)) ++ r.seq (i + t.size)

mutual
/-- All `followpos` as pairs, `BuildFollow`, regex_model.cpp:128-155. -/
def RTree.follow (i : Nat) : RTree α → List (Nat × Nat)
  | .leaf _ o _ => if o.loops then [(i, i)] else []
  | .node or o items g =>
    items.follow i ++ (if o.loops then
        (if or then pairs (items.lastOr i) (items.firstOr i)
         else pairs (items.lastAnd i) (items.firstAnd i)) else []) ++
      (if or then [] else items.seq i)
/-- The loop at regex_model.cpp:141-142. -/
def RList.follow (i : Nat) : RList α → List (Nat × Nat)
  | .nil => []
  | .cons t r => t.follow i ++ r.follow (i + t.size)
end

/-- The field `nongreedy`, regex_model.hpp:48-49 and 82. -/
def RTree.marked : RTree α → Bool
  | .leaf _ _ g => g
  | .node _ _ _ g => g

/-- Whether the loop at regex_model.cpp:147-164 meets an item with `nongreedy`, 158. -/
def RList.anyMarked : RList α → Bool
  | .nil => false
  | .cons t r => t.marked || r.anyMarked

mutual
/-- The letters with `keepout` after `BuildFollow`, regex_model.cpp:157-162: the last positions of
every list without `enableOr` that has an item with `nongreedy`. -/
def RTree.keep (i : Nat) : RTree α → List Nat
  | .leaf _ _ _ => []
  | .node or _ items _ =>
    items.keep i ++ (if or then [] else if items.anyMarked then items.lastAnd i else [])
/-- The loop at regex_model.cpp:141-142. -/
def RList.keep (i : Nat) : RList α → List Nat
  | .nil => []
  | .cons t r => t.keep i ++ r.keep (i + t.size)
end

mutual
/-- `deepCopy`, regex_model.hpp:34, 97-99, 107, 171-174 and 215-223: the copy constructor of
`RegexItem` takes over `opt` but not `nongreedy`. -/
def RTree.copy : RTree α → RTree α
  | .leaf a o _ => .leaf a o false
  | .node or o items _ => .node or o items.copy false
/-- The loop at regex_model.hpp:98. -/
def RList.copy : RList α → RList α
  | .nil => .nil
  | .cons t r => .cons t.copy r.copy
end

end

mutual
/-- The passes over all letters that replace each of them, `traverses_model`,
ecset_converter.cpp:62-83 and set_converter.cpp:42-63 (`none`: undefined behaviour). -/
def RTree.mapM {α β : Type} (f : α → Option β) : RTree α → Option (RTree β)
  | .leaf a o g => (f a).map fun b => .leaf b o g
  | .node or o items g => (items.mapM f).map fun r => .node or o r g
/-- The loop over the items of a list, ecset_converter.cpp:67-69 and set_converter.cpp:47-49. -/
def RList.mapM {α β : Type} (f : α → Option β) : RList α → Option (RList β)
  | .nil => some .nil
  | .cons t r => (t.mapM f).bind fun t' => (r.mapM f).map fun r' => .cons t' r'
end

/-- The sets computed for an expression, ready for `CreateDFA`: the letters (as the lists of
characters or classes they accept), `firstpos`, `lastpos`, `followpos` and the letters with
`keepout`. -/
structure PosAut where
  edges : List (List Nat)
  first : List Nat
  last : List Nat
  follow : List (Nat × Nat)
  keep : List Nat
deriving Repr, DecidableEq

/-- `BuildAll`, regex_model.cpp:49-53. -/
def RTree.build (t : RTree (List Nat)) : PosAut :=
  ⟨t.letters, t.first 0, t.last 0, t.follow 0, t.keep 0⟩

/-- `isEdge` of the letter number `p`, regex_model.hpp:175 and 230-232. -/
def PosAut.edge (A : PosAut) (p a : Nat) : Bool :=
  match A.edges[p]? with
  | some cs => cs.contains a
  | none => false

/-- `followpos` of a letter; the local item `ch` of `CreateDFA`, regex_builder.cpp:40-41, has the
number after the last letter. -/
def PosAut.succs (A : PosAut) (p : Nat) : List Nat :=
  if p = A.edges.length then A.first else (A.follow.filter (·.1 == p)).map (·.2)

/-- `GetNextSet`, regex_builder.cpp:80-90, as an increasing list. -/
def PosAut.nextSet (A : PosAut) (S : List Nat) (a : Nat) : List Nat :=
  (List.range A.edges.length).filter fun f => A.edge f a && S.any fun p => (A.succs p).contains f

/-- `find_keepout`, regex_builder.cpp:26-33. -/
def PosAut.stuck (A : PosAut) (S : List Nat) : Bool := S.any A.keep.contains

/-- The row of a set: the test `nextset.size() != 0`, regex_builder.cpp:57, and none at all for a
set with `keepout`, 48-49; its row in the table is zero, since the table was enlarged when the set
was found (dfa_simple.cpp:11-13). -/
def PosAut.next (A : PosAut) (S : List Nat) (a : Nat) : Option (List Nat) :=
  if A.stuck S then none
  else if A.nextSet S a = [] then none else some (A.nextSet S a)

/-- `isTerminator` of a set: regex_builder.cpp:86 with `addTerminator`, regex_model.cpp:55-60. -/
def PosAut.term (A : PosAut) (S : List Nat) : Bool := S.any A.last.contains

/-- `RegexBuilder::CreateDFA`, regex_builder.cpp:35-78, for an expression whose sets have been
built; `m` is `input_max`. -/
def PosAut.dfa (A : PosAut) (m : Nat) : SDfa :=
  let r := wlLoop A.next m (2 ^ A.edges.length + 2) 0 [[A.edges.length]] []
  { rows := r.2
    stops := r.1.map fun S => if A.term S then 1 else 0 }

/-- `SetConverter` on a letter, set_converter.cpp:57-61: a `RegexSet` gets its characters, a
`RegexChar` is left alone. -/
def setLetter (lf : Bool) : Letter → Option (List Nat)
  | .chr c => some [c]
  | .set text => setConvert lf text

/-- `ECSetConverter::Execute`, ecset_converter.cpp:46-60, on the rules of a model: the classes of
characters and the rules over the classes. -/
def ecExecute (lf : Bool) (ts : List (RTree Letter)) : Option (EClass × List (RTree (List Nat))) :=
  (ecClasses lf (ts.flatMap RTree.letters)).bind fun e =>
    (ts.mapM (RTree.mapM (Letter.convert lf e))).map fun ts' => (e, ts')

end JPS
