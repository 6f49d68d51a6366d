import Verif.Spec.Json
/-!
# Specification: the text of reported values

The faithful report of a value is its source text `J.render`.  The tokenizer does not achieve
this for every scalar; `Shows` is the weaker guarantee that holds in general, `tidy` is a class
of layouts on which the report is faithful.  This file does not mention the model.
-/

namespace Spec

/-- A literal without its sign. -/
def unsigned : List Char → List Char
  | '-' :: t => t
  | t => t

/-- A report of a value: exact for strings and containers; for a literal its text without
sign, followed by white space that follows it in the source and at most one further character. -/
def Shows (v : J) (text : List Char) : Prop :=
  match v with
  | .lit t => ∃ ws e, text = unsigned t ++ ws ++ e ∧ ws.all isWs = true ∧ e.length ≤ 1
  | v => text = v.render

/-- Two lists are related entry by entry. -/
inductive All2 {α β : Type} (R : α → β → Prop) : List α → List β → Prop
  | nil : All2 R [] []
  | cons {a b as bs} : R a b → All2 R as bs → All2 R (a :: as) (b :: bs)

/-- A literal is reported exactly if it has no sign and is followed by a blank or directly by a
separator or bracket. -/
def tidyPost (v : J) (post : List Char) : Bool :=
  match v with
  | .lit t => t.head? != some '-' && (post.isEmpty || post.head? == some ' ' || post.head? == some '\t')
  | _ => true

/-- In a member the literal must moreover not follow the colon directly, unless it is followed
by a comma directly. -/
def tidyPre (pre2 : List Char) (v : J) (post : List Char) (rest : Members) : Bool :=
  match v with
  | .lit _ => !pre2.isEmpty || (post.isEmpty && (match rest with | .nil => false | .cons .. => true))
  | _ => true

mutual
/-- Layouts on which all scalars are reported exactly. -/
def J.tidy : J → Bool
  | .lit _ => true
  | .str _ => true
  | .arr _ es => es.tidy
  | .obj _ ms => ms.tidy
def Elems.tidy : Elems → Bool
  | .nil => true
  | .cons _ v post rest => tidyPost v post && v.tidy && rest.tidy
def Members.tidy : Members → Bool
  | .nil => true
  | .cons _ _ _ pre2 v post rest =>
    tidyPost v post && tidyPre pre2 v post rest && v.tidy && rest.tidy
end

/-- Length of a scalar with the white space after it. -/
def scalarSize (v : J) (post : List Char) : Nat :=
  match v with
  | .lit t => t.length + post.length
  | .str r => r.length
  | _ => 0

mutual
/-- Keys and scalars have at most `n` characters. -/
def J.short (n : Nat) : J → Bool
  | .lit _ => true
  | .str _ => true
  | .arr _ es => es.short n
  | .obj _ ms => ms.short n
def Elems.short (n : Nat) : Elems → Bool
  | .nil => true
  | .cons _ v post rest => decide (scalarSize v post ≤ n) && v.short n && rest.short n
def Members.short (n : Nat) : Members → Bool
  | .nil => true
  | .cons _ k _ _ v post rest =>
    decide (k.length ≤ n) && decide (scalarSize v post ≤ n) && v.short n && rest.short n
end

mutual
/-- Keys have at most `n` characters. -/
def J.keysWithin (n : Nat) : J → Bool
  | .lit _ => true
  | .str _ => true
  | .arr _ es => es.keysWithin n
  | .obj _ ms => ms.keysWithin n
def Elems.keysWithin (n : Nat) : Elems → Bool
  | .nil => true
  | .cons _ v _ rest => v.keysWithin n && rest.keysWithin n
def Members.keysWithin (n : Nat) : Members → Bool
  | .nil => true
  | .cons _ k _ _ v _ rest => decide (k.length ≤ n) && v.keysWithin n && rest.keysWithin n
end

mutual
/-- Keys have at most `n` characters, literals and strings with their quotes as well. -/
def J.within (n : Nat) : J → Bool
  | .lit t => decide (t.length ≤ n)
  | .str r => decide (r.length + 2 ≤ n)
  | .arr _ es => es.within n
  | .obj _ ms => ms.within n
def Elems.within (n : Nat) : Elems → Bool
  | .nil => true
  | .cons _ v _ rest => v.within n && rest.within n
def Members.within (n : Nat) : Members → Bool
  | .nil => true
  | .cons _ k _ _ v _ rest => decide (k.length ≤ n) && v.within n && rest.within n
end

mutual
/-- Keys and strings with their quotes have at most `n` characters, each literal together with the white space behind it (`m` characters for
the value itself) and one more as well. -/
def J.withinPad (n m : Nat) : J → Bool
  | .lit t => decide (t.length + m + 1 ≤ n)
  | .str r => decide (r.length + 2 ≤ n)
  | .arr _ es => es.withinPad n
  | .obj _ ms => ms.withinPad n
def Elems.withinPad (n : Nat) : Elems → Bool
  | .nil => true
  | .cons _ v post rest => v.withinPad n post.length && rest.withinPad n
def Members.withinPad (n : Nat) : Members → Bool
  | .nil => true
  | .cons _ k _ _ v post rest => decide (k.length ≤ n) && v.withinPad n post.length && rest.withinPad n
end

end Spec
