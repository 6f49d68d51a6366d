/-!
# Specification: JSON documents as concrete syntax trees

This file does not mention the model.  A document is a tree that remembers its layout
(the whitespace between tokens), so that "the source text of a value" is simply its
rendering.
-/

namespace Spec

mutual
/-- A JSON value with its layout. -/
inductive J where
  /-- number, `true`, `false`, `null` -/
  | lit (t : List Char)
  /-- string, `r` is the raw text between the quotes -/
  | str (r : List Char)
  /-- array: `w` is whitespace directly after `[` -/
  | arr (w : List Char) (es : Elems)
  /-- object: `w` is whitespace directly after `{` -/
  | obj (w : List Char) (ms : Members)
/-- Elements of an array: `v` followed by whitespace `post`; `pre` is the whitespace before. -/
inductive Elems where
  | nil
  | cons (pre : List Char) (v : J) (post : List Char) (rest : Elems)
/-- Members of an object: `pre "k" mid : pre2 v post`. -/
inductive Members where
  | nil
  | cons (pre : List Char) (k : List Char) (mid pre2 : List Char) (v : J) (post : List Char)
      (rest : Members)
end

/-- A separator and the rest, if there are further elements. -/
def Elems.sep {α : Type} (rest : Elems) (c : α) (r : List α) : List α :=
  match rest with
  | .nil => []
  | .cons _ _ _ _ => c :: r
/-- A separator and the rest, if there are further members. -/
def Members.sep {α : Type} (rest : Members) (c : α) (r : List α) : List α :=
  match rest with
  | .nil => []
  | .cons _ _ _ _ _ _ _ => c :: r

mutual
/-- Source text of a value. -/
def J.render : J → List Char
  | .lit t => t
  | .str r => '"' :: r ++ ['"']
  | .arr w es => '[' :: w ++ es.render ++ [']']
  | .obj w ms => '{' :: w ++ ms.render ++ ['}']
def Elems.render : Elems → List Char
  | .nil => []
  | .cons pre v post rest =>
    pre ++ v.render ++ post ++ rest.sep ',' rest.render
def Members.render : Members → List Char
  | .nil => []
  | .cons pre k mid pre2 v post rest =>
    pre ++ ('"' :: k ++ ['"']) ++ mid ++ (':' :: pre2) ++ v.render ++ post ++
      rest.sep ',' rest.render
end

/-- One step from a value to a direct part of it. -/
inductive Label where
  | key (k : List Char)
  | elem (i : Nat)
deriving DecidableEq, Repr

/-- A location: the labels from the root to a value. -/
abbrev Loc := List Label

mutual
/-- All proper parts of a value with their locations, each listed after its own parts, i.e.
ordered by the position where they end in the text.  `loc` is the location of the value. -/
def J.parts (loc : Loc) : J → List (Loc × J)
  | .lit _ => []
  | .str _ => []
  | .arr _ es => es.parts loc 0
  | .obj _ ms => ms.parts loc
def Elems.parts (loc : Loc) (i : Nat) : Elems → List (Loc × J)
  | .nil => []
  | .cons _ v _ rest =>
    v.parts (loc ++ [.elem i]) ++ [(loc ++ [.elem i], v)] ++ rest.parts loc (i + 1)
def Members.parts (loc : Loc) : Members → List (Loc × J)
  | .nil => []
  | .cons _ k _ _ v _ rest =>
    v.parts (loc ++ [.key k]) ++ [(loc ++ [.key k], v)] ++ rest.parts loc
end

mutual
/-- Number of open brackets and pending keys needed while reading a value: an object needs one
entry for its brace and one for the current key. -/
def J.depth : J → Nat
  | .lit _ => 0
  | .str _ => 0
  | .arr _ es => es.depth + 1
  | .obj _ ms => ms.depth + 1
def Elems.depth : Elems → Nat
  | .nil => 0
  | .cons _ v _ rest => max v.depth rest.depth
def Members.depth : Members → Nat
  | .nil => 0
  | .cons _ _ _ _ v _ rest => max (v.depth + 1) rest.depth
end

/-- Arrays and objects. -/
def J.isContainer : J → Bool
  | .arr _ _ => true
  | .obj _ _ => true
  | _ => false

/-! ### Well-formed documents -/

/-- JSON whitespace. -/
def isWs (c : Char) : Bool := c == ' ' || c == '\t' || c == '\n' || c == '\r'

/-- Letters and digits. -/
def isAlpha (c : Char) : Bool :=
  (decide ('0' ≤ c) && decide (c ≤ '9')) || (decide ('a' ≤ c) && decide (c ≤ 'z')) ||
    (decide ('A' ≤ c) && decide (c ≤ 'Z'))

/-- Characters of numbers, `true`, `false`, `null`. -/
def litChar (c : Char) : Bool := isAlpha c || c == '+' || c == '-' || c == '.'

/-- Literals: a possible minus, then a letter or digit, then literal characters.  All JSON
numbers and `true`, `false`, `null` have this form. -/
def litOk : List Char → Bool
  | '-' :: c :: t => isAlpha c && t.all litChar
  | c :: t => isAlpha c && t.all litChar
  | [] => false

/-- Raw text between the quotes of a string: every quote is escaped and no escape is pending
at the end.  `esc`: the previous character is an unescaped backslash. -/
def rawOk (esc : Bool) : List Char → Bool
  | [] => !esc
  | c :: r => if esc then rawOk false r else if c = '"' then false else rawOk (c == '\\') r

mutual
/-- Well-formed concrete syntax. -/
def J.wf : J → Bool
  | .lit t => litOk t
  | .str r => rawOk false r
  | .arr w es => w.all isWs && es.wf
  | .obj w ms => w.all isWs && ms.wf
def Elems.wf : Elems → Bool
  | .nil => true
  | .cons pre v post rest => pre.all isWs && v.wf && post.all isWs && rest.wf
def Members.wf : Members → Bool
  | .nil => true
  | .cons pre k mid pre2 v post rest =>
    pre.all isWs && rawOk false k && mid.all isWs && pre2.all isWs && v.wf && post.all isWs &&
      rest.wf
end

mutual
/-- No line break between a key and its colon. -/
def J.keysTight : J → Bool
  | .lit _ => true
  | .str _ => true
  | .arr _ es => es.keysTight
  | .obj _ ms => ms.keysTight
def Elems.keysTight : Elems → Bool
  | .nil => true
  | .cons _ v _ rest => v.keysTight && rest.keysTight
def Members.keysTight : Members → Bool
  | .nil => true
  | .cons _ _ mid _ v _ rest =>
    mid.all (fun c => c == ' ' || c == '\t') && v.keysTight && rest.keysTight
end

end Spec
