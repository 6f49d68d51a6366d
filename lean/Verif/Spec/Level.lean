
/-!
# How far a token sequence climbs down
-/

set_option autoImplicit false

namespace Spec

/-- The least depth met along a sequence of tokens, before the first, between them and after the last. -/
def lowest {σ τ : Type} (step : List σ → τ → List σ) : List σ → List τ → Nat
  | ss, [] => ss.length
  | ss, t :: ts => min ss.length (lowest step (step ss t) ts)

/-- What `n` bottom entries of a stack are. -/
def bottom {σ : Type} (n : Nat) (ss : List σ) : List σ := ss.drop (ss.length - n)

end Spec
