import Verif.Spec.Path
/-!
# Parts selected by a path that do not lie in each other
-/

set_option autoImplicit false

namespace Spec

/-- No part of `v` that the path selects lies in another part that the path selects. -/
def Apart (B : List Step) (v : J) : Prop :=
  ∀ x ∈ v.parts [], Matches B x.1 → ∀ y ∈ x.2.parts x.1, ¬ Matches B y.1

end Spec
