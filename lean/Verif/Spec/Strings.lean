import Verif.Spec.Json
/-!
# Specification: where the strings of a document stand

This file does not mention the model.
-/

set_option autoImplicit false

namespace Spec

mutual
/-- The strings (keys and string values) of a value that starts at offset `off`: offset of the
opening quote and raw text. -/
def J.strings (off : Nat) : J → List (Nat × List Char)
  | .lit _ => []
  | .str r => [(off, r)]
  | .arr w es => es.strings (off + 1 + w.length)
  | .obj w ms => ms.strings (off + 1 + w.length)
def Elems.strings (off : Nat) : Elems → List (Nat × List Char)
  | .nil => []
  | .cons pre v post rest =>
    v.strings (off + pre.length) ++
      rest.strings (off + pre.length + v.render.length + post.length + 1)
def Members.strings (off : Nat) : Members → List (Nat × List Char)
  | .nil => []
  | .cons pre k mid pre2 v post rest =>
    (off + pre.length, k) ::
      v.strings (off + pre.length + (k.length + 2) + mid.length + 1 + pre2.length) ++
      rest.strings (off + pre.length + (k.length + 2) + mid.length + 1 + pre2.length
        + v.render.length + post.length + 1)
end

/-- The text ends, trailing white space aside, with `,`, `{` or `[`. -/
def endsOpen (r : List Char) : Bool :=
  match (r.reverse.dropWhile isWs).head? with
  | some c => c == ',' || c == '{' || c == '['
  | none => false

mutual
/-- The raw texts of the strings of a value. -/
def J.raws : J → List (List Char)
  | .lit _ => []
  | .str r => [r]
  | .arr _ es => es.raws
  | .obj _ ms => ms.raws
def Elems.raws : Elems → List (List Char)
  | .nil => []
  | .cons _ v _ rest => v.raws ++ rest.raws
def Members.raws : Members → List (List Char)
  | .nil => []
  | .cons _ k _ _ v _ rest => k :: v.raws ++ rest.raws
end

/-- No key and no string value of the document ends (trailing white space aside) with `,`, `{` or
`[`. -/
def J.plainStrings (v : J) : Bool := v.raws.all fun r => !endsOpen r

end Spec
