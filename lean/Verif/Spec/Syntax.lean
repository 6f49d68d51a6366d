import Verif.Spec.Path
import Verif.Spec.Expr
/-!
# Specification: how paths and filter expressions are written

A path or an expression is written as a sequence of words; the words are put one after the other with
any number of blanks between them, at least one where two words would run together.  This file does
not mention the model.
-/

set_option autoImplicit false

namespace Spec

/-- A word of a path text. -/
abbrev Word := List Char

/-- Characters of names and numbers. -/
def wordChar (c : Char) : Bool := c.isAlphanum || c == '_'

/-- `[A-Za-z_][A-Za-z0-9_]*` -/
def Identifier (s : List Char) : Prop :=
  ∃ c r, s = c :: r ∧ (c.isAlpha || c == '_') = true ∧ ∀ x ∈ r, wordChar x = true

/-- Text that may stand between double quotes: backslashes come with the character they escape. -/
inductive Quotable : List Char → Prop
  | nil : Quotable []
  | char (c r) : c ≠ '"' → c ≠ '\\' → Quotable r → Quotable (c :: r)
  | esc (d r) : d ≠ '\n' → Quotable r → Quotable ('\\' :: d :: r)

/-- The word `w` would run together with a following text. -/
def sticks (w : Word) : List Char → Bool
  | [] => false
  | c :: _ =>
    (wordChar (w.getLastD ' ') && wordChar c)
      || ((w == ['<'] || w == ['>'] || w == ['!']) && c == '=')
      || (w == ['.'] && c == '.')
      || ((w.headD ' ').isDigit && c == '.')

/-- `s` is the sequence of words `ws` with blanks between them. -/
inductive Written : List Word → List Char → Prop
  | nil (b : List Char) : (∀ c ∈ b, c = ' ' ∨ c = '\t') → Written [] b
  | cons (b : List Char) (w : Word) (ws s) : (∀ c ∈ b, c = ' ' ∨ c = '\t') → Written ws s →
      sticks w s = false → Written (w :: ws) (b ++ w ++ s)

/-- Decimal digits of an integer bound. -/
def intWords (i : Int) : List Word :=
  (if i < 0 then [['-']] else []) ++ [Nat.toDigits 10 i.natAbs]

/-- Words of a step. -/
def Step.words : Step → List Word
  | .dotAll => [['.'], ['*']]
  | .descAll => [['.', '.'], ['*']]
  | .prop k => [['.'], k]
  | .descProp k => [['.', '.'], k]
  | .all => [['['], ['*'], [']']]
  | .slice a b => [['[']] ++ (a.map intWords).getD [] ++ [[':']] ++ (b.map intWords).getD [] ++ [[']']]

/-- Steps that can be written: names are identifiers and a slice has a bound. -/
def Step.Writable : Step → Prop
  | .prop k => Identifier k
  | .descProp k => Identifier k
  | .slice a b => a ≠ none ∨ b ≠ none
  | _ => True

/-- Operators as written. -/
def BOp.word : BOp → Word
  | .or => ['|', '|'] | .and => ['&', '&'] | .eq => ['=', '='] | .ne => ['!', '='] | .lt => ['<']
  | .gt => ['>'] | .le => ['<', '='] | .ge => ['>', '='] | .add => ['+'] | .sub => ['-']
  | .mul => ['*'] | .div => ['/'] | .mod => ['%']

/-- Levels of the operators as declared: `||` and `&&` together, then comparisons, then `+ -`, then
`* /`; `%` has no level. -/
def BOp.level : BOp → Option Nat
  | .or => some 1 | .and => some 1
  | .eq => some 2 | .ne => some 2 | .lt => some 2 | .gt => some 2 | .le => some 2 | .ge => some 2
  | .add => some 3 | .sub => some 3
  | .mul => some 4 | .div => some 4
  | .mod => none

variable {L : Type}

/-- Parentheses around a sequence of words. -/
def parens (b : Bool) (ws : List Word) : List Word :=
  if b then [['(']] ++ ws ++ [[')']] else ws

/-- Words of a property path. -/
def refWords (p : List (List Char)) : List Word := [['@']] ++ p.flatMap fun s => [['.'], s]

/-- An expression with every operand of an operator in parentheses. -/
def Expr.fullWords (lit : L → List Word) : Expr L → List Word
  | .prop p => refWords p
  | .str s => [['"'] ++ s ++ ['"']]
  | .num l => lit l
  | .not e => [['!']] ++ parens true (e.fullWords lit)
  | .bin o a b => parens true (a.fullWords lit) ++ [o.word] ++ parens true (b.fullWords lit)

/-- Whether the left operand `e` of the operator `o` needs parentheses: it is an operation of a lower
level, or one of the two has no level. -/
def Expr.needsLeft (o : BOp) : Expr L → Bool
  | .bin o' _ _ => match o'.level, o.level with
    | some x, some y => decide (x < y)
    | _, _ => true
  | .not _ => o.level.isNone
  | _ => false

/-- Whether the right operand `e` of the operator `o` needs parentheses: it is an operation of a lower
or the same level (operators of one level associate to the left), or one of the two has no level. -/
def Expr.needsRight (o : BOp) : Expr L → Bool
  | .bin o' _ _ => match o'.level, o.level with
    | some x, some y => decide (x ≤ y)
    | _, _ => true
  | .not _ => o.level.isNone
  | _ => false

/-- Whether the operand of `!` needs parentheses. -/
def Expr.needsNot : Expr L → Bool
  | .bin _ _ _ => true
  | _ => false

/-- An expression with only the parentheses that the declared levels and left association require. -/
def Expr.words (lit : L → List Word) : Expr L → List Word
  | .prop p => refWords p
  | .str s => [['"'] ++ s ++ ['"']]
  | .num l => lit l
  | .not e => [['!']] ++ parens e.needsNot (e.words lit)
  | .bin o a b =>
    parens (a.needsLeft o) (a.words lit) ++ [o.word] ++ parens (b.needsRight o) (b.words lit)

/-- Expressions that can be written: names are identifiers, strings can be quoted. -/
def Expr.Writable (lit : L → Prop) : Expr L → Prop
  | .prop p => ∀ s ∈ p, Identifier s
  | .str s => Quotable s
  | .num l => lit l
  | .not e => e.Writable lit
  | .bin _ a b => a.Writable lit ∧ b.Writable lit

/-- Steps of a path with filters. -/
inductive FStep (L : Type) where
  | plain (s : Step)
  /-- `[?(e)]` -/
  | filter (e : Expr L)

/-- Words of a step with filters. -/
def FStep.words (lit : L → List Word) : FStep L → List Word
  | .plain s => s.words
  | .filter e => [['['], ['?'], ['(']] ++ e.words lit ++ [[')'], [']']]

/-- Words of a step with filters, operands in parentheses throughout. -/
def FStep.fullWords (lit : L → List Word) : FStep L → List Word
  | .plain s => s.words
  | .filter e => [['['], ['?'], ['(']] ++ e.fullWords lit ++ [[')'], [']']]

/-- Steps that can be written. -/
def FStep.Writable (lit : L → Prop) : FStep L → Prop
  | .plain s => s.Writable
  | .filter e => e.Writable lit

/-- Words of a path. -/
def pathWords (p : List Step) : List Word := [['$']] ++ p.flatMap Step.words

end Spec
