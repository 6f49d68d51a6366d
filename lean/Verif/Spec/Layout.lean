import Verif.Spec.Text
/-!
# Specification: insignificant white space

This file does not mention the model.
-/

namespace Spec

mutual
/-- The document without insignificant white space. -/
def J.strip : J → J
  | .lit t => .lit t
  | .str r => .str r
  | .arr _ es => .arr [] es.strip
  | .obj _ ms => .obj [] ms.strip
def Elems.strip : Elems → Elems
  | .nil => .nil
  | .cons _ v _ rest => .cons [] v.strip [] rest.strip
def Members.strip : Members → Members
  | .nil => .nil
  | .cons _ k _ _ v _ rest => .cons [] k [] [] v.strip [] rest.strip
end

mutual
theorem J.strip_strip : ∀ v : J, v.strip.strip = v.strip
  | .lit _ => rfl
  | .str _ => rfl
  | .arr _ es => by simp [J.strip, Elems.strip_strip es]
  | .obj _ ms => by simp [J.strip, Members.strip_strip ms]
theorem Elems.strip_strip : ∀ es : Elems, es.strip.strip = es.strip
  | .nil => rfl
  | .cons _ v _ rest => by simp [Elems.strip, J.strip_strip v, Elems.strip_strip rest]
theorem Members.strip_strip : ∀ ms : Members, ms.strip.strip = ms.strip
  | .nil => rfl
  | .cons _ k _ _ v _ rest => by simp [Members.strip, J.strip_strip v, Members.strip_strip rest]
end

mutual
/-- The parts of a document do not depend on white space. -/
theorem J.parts_strip (loc : Loc) : ∀ v : J,
    v.strip.parts loc = (v.parts loc).map (fun x => (x.1, x.2.strip))
  | .lit _ => rfl
  | .str _ => rfl
  | .arr _ es => by simp [J.strip, J.parts, Elems.parts_strip loc 0 es]
  | .obj _ ms => by simp [J.strip, J.parts, Members.parts_strip loc ms]
theorem Elems.parts_strip (loc : Loc) (i : Nat) : ∀ es : Elems,
    es.strip.parts loc i = (es.parts loc i).map (fun x => (x.1, x.2.strip))
  | .nil => rfl
  | .cons _ v _ rest => by
    simp [Elems.strip, Elems.parts, J.parts_strip _ v, Elems.parts_strip _ _ rest]
theorem Members.parts_strip (loc : Loc) : ∀ ms : Members,
    ms.strip.parts loc = (ms.parts loc).map (fun x => (x.1, x.2.strip))
  | .nil => rfl
  | .cons _ k _ _ v _ rest => by
    simp [Members.strip, Members.parts, J.parts_strip _ v, Members.parts_strip _ rest]
end

end Spec
