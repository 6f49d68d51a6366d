import Verif.Spec.Syntax
/-!
# Specification: lists in brackets

`[i, "k", …]` lists indices and names, `[(e)]` computes an index.  This file does not mention the model.
-/

set_option autoImplicit false

namespace Spec

/-- An entry of a list in brackets. -/
inductive Entry where
  | index (i : Int)
  | key (k : List Char)
deriving DecidableEq, Repr

/-- Steps of a path with lists and scripts. -/
inductive LStep (L : Type) where
  | step (s : FStep L)
  /-- `[x, xs]` -/
  | list (x : Entry) (xs : List Entry)
  /-- `[(e)]` -/
  | script (e : Expr L)

/-- Words of an entry. -/
def Entry.words : Entry → List Word
  | .index i => intWords i
  | .key k => [['"'] ++ k ++ ['"']]

/-- Entries that can be written. -/
def Entry.Writable : Entry → Prop
  | .index _ => True
  | .key k => Quotable k

/-- Words of a step. -/
def LStep.words {L : Type} (lit : L → List Word) : LStep L → List Word
  | .step s => s.words lit
  | .list x xs => [['[']] ++ (x.words ++ xs.flatMap fun y => [','] :: y.words) ++ [[']']]
  | .script e => [['['], ['(']] ++ e.words lit ++ [[')'], [']']]

/-- Steps that can be written. -/
def LStep.Writable {L : Type} (lit : L → Prop) : LStep L → Prop
  | .step s => s.Writable lit
  | .list x xs => x.Writable ∧ ∀ y ∈ xs, y.Writable
  | .script e => e.Writable lit

/-- Only the steps that are neither lists nor scripts. -/
def dropLists {L : Type} (p : List (LStep L)) : List (FStep L) := p.filterMap fun
  | .step s => some s
  | _ => none

/-- The step an entry of a list means: the element at an index (from the front), the member of a name. -/
def Entry.meaning : Entry → Step
  | .index i => .slice (some i) (some (i + 1))
  | .key k => .prop k

/-- The paths without lists a path stands for: one entry is taken of each list.  `none`: a script or a filter. -/
def readings {L : Type} : List (LStep L) → Option (List (List Step))
  | [] => some [[]]
  | .step (.plain s) :: p => (readings p).map fun l => l.map (s :: ·)
  | .list x xs :: p => (readings p).map fun l => (x :: xs).flatMap fun y => l.map (y.meaning :: ·)
  | _ :: _ => none

end Spec
