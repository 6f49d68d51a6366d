import Verif.Spec.Json
/-!
# Specification: meaning of JSONPath expressions

Steps of a path and when a location matches a path.  This file does not mention the model.
-/

namespace Spec

/-- Steps without filters. -/
inductive Step where
  /-- `.*` -/
  | dotAll
  /-- `..*` -/
  | descAll
  /-- `.name` -/
  | prop (k : List Char)
  /-- `..name` -/
  | descProp (k : List Char)
  /-- `[*]` -/
  | all
  /-- `[a:b]`; a missing bound is `none` -/
  | slice (a b : Option Int)
deriving DecidableEq, Repr

/-- `i` lies in the slice `[a:b]`. -/
def inSlice (a b : Option Int) (i : Nat) : Prop :=
  (∀ x, a = some x → x ≤ i) ∧ (∀ x, b = some x → (i : Int) < x)

/-- A location matches a path. -/
inductive Matches : List Step → Loc → Prop
  | nil : Matches [] []
  | dotAll {p l} (x : Label) : Matches p l → Matches (.dotAll :: p) (x :: l)
  /-- `..*` consumes one or more labels -/
  | descAll {p l} (x : Label) : Matches p l → Matches (.descAll :: p) (x :: l)
  | descAllMore {p l} (x : Label) : Matches (.descAll :: p) l → Matches (.descAll :: p) (x :: l)
  | prop {p l} (k) : Matches p l → Matches (.prop k :: p) (.key k :: l)
  /-- `..k` consumes any number of labels and then the key `k` -/
  | descProp {p l} (k) : Matches p l → Matches (.descProp k :: p) (.key k :: l)
  | descPropMore {p l k} (x : Label) : Matches (.descProp k :: p) l → Matches (.descProp k :: p) (x :: l)
  | all {p l} (i : Nat) : Matches p l → Matches (.all :: p) (.elem i :: l)
  | slice {p l} (a b) (i : Nat) : inSlice a b i → Matches p l → Matches (.slice a b :: p) (.elem i :: l)

/-- The path chooses elements of a value at this location by their index. -/
def SlicedAt (p : List Step) (l : Loc) : Prop := ∃ q a b r, p = q ++ .slice a b :: r ∧ Matches q l

/-- Name of a step. -/
def stepName : Step → Option (List Char)
  | .prop k => some k
  | .descProp k => some k
  | _ => none

/-- Every element once. -/
def distinct : List (List Char) → List (List Char)
  | [] => []
  | k :: r => if k ∈ r then distinct r else k :: distinct r

/-- The path has at most 253 different names. -/
def fewNames (p : List Step) : Prop := (distinct (p.filterMap stepName)).length ≤ 253

instance (p : List Step) : Decidable (fewNames p) := inferInstanceAs (Decidable (_ ≤ 253))

end Spec
