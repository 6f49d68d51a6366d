/-!
# Specification: the part of a list that lies in a slice

This file does not mention the model.
-/

set_option autoImplicit false

namespace Spec

/-- What the elements with index `lo ≤ i < up` contribute; `gs` are the contributions of the elements, the first of
which has index `n`. -/
def inSliceOf {α : Type} (lo up : Int) (n : Nat) (gs : List (List α)) : List α :=
  ((gs.zipIdx n).filter fun x => decide (lo ≤ (x.2 : Int)) && decide ((x.2 : Int) < up)).flatMap (·.1)

end Spec
