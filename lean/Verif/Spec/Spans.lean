import Verif.Spec.Json
/-!
# Specification: where the parts of a document stand

This file does not mention the model.
-/

set_option autoImplicit false

namespace Spec

mutual
/-- The proper parts of a value that starts at offset `off`, with location and offset of their first character. -/
def J.spans (loc : Loc) (off : Nat) : J → List (Loc × J × Nat)
  | .lit _ => []
  | .str _ => []
  | .arr w es => es.spans loc (off + 1 + w.length) 0
  | .obj w ms => ms.spans loc (off + 1 + w.length)
def Elems.spans (loc : Loc) (off : Nat) (i : Nat) : Elems → List (Loc × J × Nat)
  | .nil => []
  | .cons pre v post rest =>
    v.spans (loc ++ [.elem i]) (off + pre.length) ++ [(loc ++ [.elem i], v, off + pre.length)] ++
      rest.spans loc (off + pre.length + v.render.length + post.length + 1) (i + 1)
def Members.spans (loc : Loc) (off : Nat) : Members → List (Loc × J × Nat)
  | .nil => []
  | .cons pre k mid pre2 v post rest =>
    v.spans (loc ++ [.key k]) (off + pre.length + (k.length + 2) + mid.length + 1 + pre2.length) ++
      [(loc ++ [.key k], v, off + pre.length + (k.length + 2) + mid.length + 1 + pre2.length)] ++
      rest.spans loc (off + pre.length + (k.length + 2) + mid.length + 1 + pre2.length
        + v.render.length + post.length + 1)
end

mutual
/-- The spans are the parts. -/
theorem J.spans_parts (loc : Loc) (off : Nat) : ∀ v : J, (v.spans loc off).map (fun x => (x.1, x.2.1)) = v.parts loc
  | .lit _ => rfl
  | .str _ => rfl
  | .arr w es => by rw [J.spans, J.parts]; exact Elems.spans_parts loc _ 0 es
  | .obj w ms => by rw [J.spans, J.parts]; exact Members.spans_parts loc _ ms
theorem Elems.spans_parts (loc : Loc) (off i : Nat) : ∀ es : Elems,
    (es.spans loc off i).map (fun x => (x.1, x.2.1)) = es.parts loc i
  | .nil => rfl
  | .cons pre v post rest => by
    rw [Elems.spans, Elems.parts, List.map_append, List.map_append, J.spans_parts _ _ v, Elems.spans_parts _ _ _ rest]
    rfl
theorem Members.spans_parts (loc : Loc) (off : Nat) : ∀ ms : Members,
    (ms.spans loc off).map (fun x => (x.1, x.2.1)) = ms.parts loc
  | .nil => rfl
  | .cons pre k mid pre2 v post rest => by
    rw [Members.spans, Members.parts, List.map_append, List.map_append, J.spans_parts _ _ v, Members.spans_parts _ _ rest]
    rfl
end

/-- The elements of an array. -/
def Elems.values : Elems → List J
  | .nil => []
  | .cons _ v _ rest => v :: rest.values

/-- The part lies on both sides of offset `k`. -/
def across (x : Loc × J × Nat) (k : Nat) : Prop := x.2.2 < k ∧ k < x.2.2 + x.2.1.render.length

end Spec
