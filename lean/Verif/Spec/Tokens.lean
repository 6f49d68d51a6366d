import Verif.Spec.Text
/-!
# Specification: the tokens of a document

This file does not mention the model.
-/

namespace Spec

/-- Tokens of a JSON text. -/
inductive T where
  | lcb | rcb | lb | rb | com
  | key (k : List Char)
  /-- a number, string, `true`, `false` or `null` -/
  | scalar (v : J)

mutual
/-- The tokens of a value in text order. -/
def J.tokens : J → List T
  | .lit t => [.scalar (.lit t)]
  | .str r => [.scalar (.str r)]
  | .arr _ es => .lb :: es.tokens ++ [.rb]
  | .obj _ ms => .lcb :: ms.tokens ++ [.rcb]
def Elems.tokens : Elems → List T
  | .nil => []
  | .cons _ v _ rest => v.tokens ++ rest.sep .com rest.tokens
def Members.tokens : Members → List T
  | .nil => []
  | .cons _ k _ _ v _ rest => .key k :: v.tokens ++ rest.sep .com rest.tokens
end

mutual
/-- The scalars of a value in text order. -/
def J.scalars : J → List J
  | .lit t => [.lit t]
  | .str r => [.str r]
  | .arr _ es => es.scalars
  | .obj _ ms => ms.scalars
def Elems.scalars : Elems → List J
  | .nil => []
  | .cons _ v _ rest => v.scalars ++ rest.scalars
def Members.scalars : Members → List J
  | .nil => []
  | .cons _ _ _ _ v _ rest => v.scalars ++ rest.scalars
end

/-- Number of backslashes directly before the end of a text. -/
def trailing (r : List Char) : Nat := (r.reverse.takeWhile (· == '\\')).length

/-- Position `i` of the text after an opening quote is a quote preceded by an even number of
backslashes. -/
def closing (body : List Char) (i : Nat) : Prop :=
  body[i]? = some '"' ∧ trailing (body.take i) % 2 = 0

/-- The string whose text after the opening quote is `body` ends at position `i`. -/
def endsAt (body : List Char) (i : Nat) : Prop := closing body i ∧ ∀ j < i, ¬ closing body j

theorem All2.append {α β : Type} {R : α → β → Prop} : ∀ {a : List α} {b : List β} {a' : List α}
    {b' : List β}, All2 R a b → All2 R a' b' → All2 R (a ++ a') (b ++ b')
  | [], [], _, _, .nil, h => h
  | _ :: _, _ :: _, _, _, .cons h t, h' => .cons h (All2.append t h')

theorem All2.mono {α β : Type} {R S : α → β → Prop} (f : ∀ a b, R a b → S a b) :
    ∀ {a : List α} {b : List β}, All2 R a b → All2 S a b
  | [], [], .nil => .nil
  | _ :: _, _ :: _, .cons h t => .cons (f _ _ h) (All2.mono f t)

theorem All2.eq_map {α β : Type} {f : α → β} : ∀ {a : List α} {b : List β},
    All2 (fun x y => y = f x) a b → b = a.map f
  | [], [], .nil => rfl
  | _ :: _, _ :: _, .cons h t => by rw [h, All2.eq_map t, List.map_cons]

end Spec
