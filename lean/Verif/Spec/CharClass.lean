/-!
# Specification of the texts of character sets

A character set is written as a list of single characters and ranges, after a `^` for the
complement.  A character is written as itself or after a backslash.
-/

set_option autoImplicit false

namespace Spec

/-- The way a character is written: itself, a backslash and a byte, or `\xHH`. -/
inductive Spell where
  | plain (b : Nat)
  | esc (b : Nat)
  | hex (h l : Nat)
deriving DecidableEq, Repr

/-- The digit with a value below 16, in lower case. -/
def digit (v : Nat) : Nat := if v < 10 then 48 + v else 87 + v

/-- The bytes of a character; the values of the digits are given. -/
def Spell.text : Spell → List Nat
  | .plain b => [b]
  | .esc b => [92, b]
  | .hex h l => [92, 120, digit h, digit l]

/-- The character meant. -/
def Spell.val : Spell → Nat
  | .plain b => b
  | .esc 110 => 10
  | .esc 116 => 9
  | .esc 114 => 13
  | .esc 102 => 12
  | .esc 118 => 11
  | .esc b => b
  | .hex h l => 16 * h + l

/-- Written correctly: an ASCII character that is neither `-` nor a backslash, a backslash and
any ASCII character except `x`, `u`, `U`, or two digits not both zero. -/
def Spell.ok : Spell → Bool
  | .plain b => decide (0 < b) && decide (b < 128) && b != 45 && b != 92
  | .esc b => decide (0 < b) && decide (b < 128) && b != 120 && b != 117 && b != 85
  | .hex h l => decide (h < 16) && decide (l < 16) && decide (0 < h + l)

/-- One part of a character set. -/
inductive CPart where
  | one (c : Spell)
  | range (p q : Spell)
deriving DecidableEq, Repr

/-- The bytes of a part. -/
def CPart.text : CPart → List Nat
  | .one c => c.text
  | .range p q => p.text ++ 45 :: q.text

/-- Does a part contain a character? -/
def CPart.has : CPart → Nat → Bool
  | .one c, x => x == c.val
  | .range p q, x => decide (p.val ≤ x) && decide (x ≤ q.val)

/-- Written correctly, the smaller bound first. -/
def CPart.ok : CPart → Bool
  | .one c => c.ok
  | .range p q => p.ok && q.ok && decide (p.val ≤ q.val)

/-- A character set as it is written. -/
structure CText where
  neg : Bool
  parts : List CPart
deriving DecidableEq, Repr

/-- Its bytes. -/
def CText.text (t : CText) : List Nat :=
  (if t.neg then [94] else []) ++ t.parts.flatMap CPart.text

/-- Is a character in one of the parts? -/
def partsHave (ps : List CPart) (x : Nat) : Bool := ps.any (·.has x)

/-- The characters of the set. -/
def CText.has (t : CText) (x : Nat) : Bool := partsHave t.parts x != t.neg

/-- Written correctly; without complement it does not begin with `^`. -/
def CText.ok (t : CText) : Bool :=
  t.parts.all CPart.ok && (t.neg || (t.text.head? != some 94))

/-- A letter of a regular expression: one character or a character set. -/
inductive CLetter where
  | chr (c : Nat)
  | set (t : CText)
deriving DecidableEq, Repr

/-- The characters a letter stands for. -/
def CLetter.has : CLetter → Nat → Bool
  | .chr c, x => x == c
  | .set t, x => t.has x

end Spec
