import Verif.Spec.Path
/-!
# Specification: what slices select below descendant steps in the program

Not the meaning of a path (that is `Matches`), but a description of what the program selects, in terms of `Matches`.
This file does not mention the model.
-/

set_option autoImplicit false

namespace Spec

/-- A slice without its bounds. -/
def Step.anyElem : Step → Step
  | .slice _ _ => .all
  | s => s

/-- `q` is a beginning of `p` that ends in a slice, or `p` itself. -/
def Rule (p q : List Step) : Prop := (∃ r, p = q ++ r) ∧ (q = p ∨ ∃ q' a b, q = q' ++ [.slice a b])

/-- `q` is the longest of these that leads to `l` if bounds are ignored. -/
def InForce (p q : List Step) (l : Loc) : Prop :=
  Rule p q ∧ Matches (q.map Step.anyElem) l ∧ ∀ q', Rule p q' → Matches (q'.map Step.anyElem) l → q'.length ≤ q.length

/-- What the program selects: the path without bounds leads to the location, and every element on the way, and the last one, lies in
the slice of the rule in force there, if that rule ends in a slice. -/
def Chosen (p : List Step) (l : Loc) : Prop :=
  Matches (p.map Step.anyElem) l ∧
    ∀ l1 i l2, l = l1 ++ .elem i :: l2 → ∀ q a b, InForce p (q ++ [.slice a b]) (l1 ++ [.elem i]) → inSlice a b i

open Classical in
/-- The values at these locations, in document order. -/
noncomputable def chosen (p : List Step) (v : J) : List J := ((v.parts []).filter fun x => decide (Chosen p x.1)).map (·.2)

/-- On the way to any part of the document, the steps before a slice lead to one value only: no array whose elements the slice counts
lies in another one. -/
def Flat (p : List Step) (v : J) : Prop := ∀ q a b r, p = q ++ .slice a b :: r → ∀ x ∈ v.parts [], ∀ l l', l <+: x.1 → l' <+: x.1 →
  Matches (q.map Step.anyElem) l → Matches (q.map Step.anyElem) l' → l = l'

/-- No member named `k` lies in the value of another member named `k`. -/
def once (k : List Char) (v : J) : Bool := (v.parts []).all fun x => x.1.count (.key k) ≤ 1

end Spec
