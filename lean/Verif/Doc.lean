import Verif.Spec.Json
import Verif.Stream
/-!
# Documents and tokens

The tokens a document is expected to produce and the direct (recursive) reading of what
the automaton emits for a value.  `emit` is an intermediate semantics: it is proved equal
to the token machine in `StreamProofs.lean` and related to the specification elsewhere.
-/

namespace JPS
open Spec

/-- The blanks the tokenizer accepts as end of a literal: a literal is ended by one of
`}` `]` `,` space or tab (lexing.c:160-168), so line breaks after it are kept. -/
def litBlank (c : Char) : Bool := c == ' ' || c == '\t'

/-- Text the tokenizer reports for the literal `t` (derived from lexing.c:81-97, 160-193).
`direct`: the literal directly follows the colon of its member, where `current_pointer` lags
one behind `next_start` (lexing.c:139-142) and one more character is copied unless it is a
comma.  `post` is the whitespace after the literal and `c` the character after that.
A leading minus is skipped as an unknown character (90-96). -/
def litObs (direct : Bool) (post : Str) (c : Char) (t : Str) : Str :=
  let nb := post.takeWhile (fun x => !litBlank x)
  match t with
  | '-' :: t => t ++ nb
  | t =>
    let e := (post.drop nb.length).head?.getD c
    if direct && e != ',' then t ++ nb ++ [e] else t ++ nb

/-- The character after an element and its whitespace. -/
def nextE : Elems → Char
  | .nil => ']'
  | .cons _ _ _ _ => ','
/-- The character after a member and its whitespace. -/
def nextM : Members → Char
  | .nil => '}'
  | .cons _ _ _ _ _ _ _ => ','

mutual
/-- Expected tokens of a value that starts at offset `off` of the stream; `obs` gives the
reported text if the value is a literal. -/
def toks (obs : Str → Str) (off : Nat) : J → List Tok
  | .lit t => [.pri (obs t)]
  | .str r => [.pri ('"' :: r ++ ['"'])]
  | .arr w es =>
    .lb (off + 1) :: toksE (off + 1 + w.length) es ++ [.rb (off + (J.arr w es).render.length)]
  | .obj w ms =>
    .lcb (off + 1) :: toksM (off + 1 + w.length) ms ++ [.rcb (off + (J.obj w ms).render.length)]
def toksE (off : Nat) : Elems → List Tok
  | .nil => []
  | .cons pre v post rest =>
    toks (litObs false post (nextE rest)) (off + pre.length) v ++
      rest.sep .com (toksE (off + pre.length + v.render.length + post.length + 1) rest)
def toksM (off : Nat) : Members → List Tok
  | .nil => []
  | .cons pre k mid pre2 v post rest =>
    .ky k :: toks (litObs pre2.isEmpty post (nextM rest))
        (off + pre.length + (k.length + 2) + mid.length + 1 + pre2.length) v ++
      rest.sep .com (toksM (off + pre.length + (k.length + 2) + mid.length + 1 + pre2.length
                + v.render.length + post.length + 1) rest)
end

/-- State entered from `(st, cnt)` by a key or (`none`) an array, see `QDfa.enter`. -/
def QDfa.go (d : QDfa) (st cnt : Nat) (k : Option Str) : Nat :=
  if d.inRange st cnt then d.nextByStr st k else 0

mutual
/-- Tuples emitted for a value met in automaton state `st` with element index `cnt`;
`el` tells whether the value is an array element, `obs` is the reported text of a literal. -/
def emit (d : QDfa) (obs : Str → Str) (el : Bool) (st cnt : Nat) : J → List Tuple
  | .lit t =>
    match d.matchedType st cnt with
    | .output => [⟨st, obs t⟩]
    | .condition => [⟨st, obs t⟩]
    | _ => []
  | .str r =>
    match d.matchedType st cnt with
    | .output => [⟨st, '"' :: r ++ ['"']⟩]
    | .condition => [⟨st, '"' :: r ++ ['"']⟩]
    | _ => []
  | .arr w es =>
    match d.matchedType st cnt with
    | .output => emitE d (d.go st cnt none) 0 es ++ [⟨st, (J.arr w es).render⟩]
    | .condition => ⟨st, []⟩ :: emitE d (d.go st cnt none) 0 es
    | _ => emitE d (d.go st cnt none) 0 es
  | .obj w ms =>
    match d.matchedType st cnt with
    | .output => emitM d st cnt ms ++ [⟨st, (J.obj w ms).render⟩]
    | .condition => ⟨st, []⟩ :: emitM d st cnt ms
    | .predicate => ⟨st, ['{']⟩ :: emitM d st cnt ms ++ (if el then [⟨st, ['}']⟩] else [])
    | .none => emitM d st cnt ms
def emitE (d : QDfa) (st cnt : Nat) : Elems → List Tuple
  | .nil => []
  | .cons _ v post rest =>
    emit d (litObs false post (nextE rest)) true st cnt v ++ emitE d st (cnt + 1) rest
def emitM (d : QDfa) (st cnt : Nat) : Members → List Tuple
  | .nil => []
  | .cons _ k _ pre2 v post rest =>
    emit d (litObs pre2.isEmpty post (nextM rest)) false (d.go st cnt (some k)) 0 v ++
      emitM d st cnt rest
end

end JPS
