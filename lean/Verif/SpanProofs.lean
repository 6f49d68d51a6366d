import Verif.Spec.Spans
import Verif.PathSerial
/-!
# Sizes and indices of the parts of a document
-/

set_option autoImplicit false

namespace JPS
open Spec

theorem values_lt : ∀ (es : Elems) (j : Nat) (x : J), es.values[j]? = some x → j ≤ es.render.length
  | .nil, _, _, h => by simp [Elems.values] at h
  | .cons pre v post rest, 0, _, _ => Nat.zero_le _
  | .cons pre v post .nil, j + 1, _, h => by simp [Elems.values] at h
  | .cons pre v post (.cons pre' v' post' rest'), j + 1, x, h => by
    have h' : (Elems.cons pre' v' post' rest').values[j]? = some x := by
      rw [Elems.values] at h; simpa using h
    have := values_lt (.cons pre' v' post' rest') j x h'
    rw [Elems.render.eq_2]
    simp only [List.length_append, Elems.sep, List.length_cons]
    omega

mutual
theorem parts_len : ∀ (v : J) (loc : Loc), ∀ x ∈ v.parts loc, x.2.render.length ≤ v.render.length
  | .lit _, _ => by simp [J.parts]
  | .str _, _ => by simp [J.parts]
  | .arr w es, loc => by
    intro x hx
    have := partsE_len es loc 0 x (by simpa [J.parts] using hx)
    simp [J.render]; omega
  | .obj w ms, loc => by
    intro x hx
    have := partsM_len ms loc x (by simpa [J.parts] using hx)
    simp [J.render]; omega
theorem partsE_len : ∀ (es : Elems) (loc : Loc) (i : Nat), ∀ x ∈ es.parts loc i, x.2.render.length ≤ es.render.length
  | .nil, _, _ => by simp [Elems.parts]
  | .cons pre v post rest, loc, i => by
    simp only [Elems.parts, List.mem_append, List.mem_singleton]
    rintro x ((hx | rfl) | hx)
    · have := parts_len v _ x hx
      simp only [Elems.render, List.length_append]; omega
    · simp only [Elems.render, List.length_append]; omega
    · cases rest with
      | nil => simp [Elems.parts] at hx
      | cons pre' v' post' rest' =>
        have := partsE_len (.cons pre' v' post' rest') loc (i + 1) x hx
        rw [Elems.render.eq_2]
        simp only [List.length_append, Elems.sep, List.length_cons]
        omega
theorem partsM_len : ∀ (ms : Members) (loc : Loc), ∀ x ∈ ms.parts loc, x.2.render.length ≤ ms.render.length
  | .nil, _ => by simp [Members.parts]
  | .cons pre k mid pre2 v post rest, loc => by
    simp only [Members.parts, List.mem_append, List.mem_singleton]
    rintro x ((hx | rfl) | hx)
    · have := parts_len v _ x hx
      simp only [Members.render, List.length_append]; omega
    · simp only [Members.render, List.length_append]; omega
    · cases rest with
      | nil => simp [Members.parts] at hx
      | cons pre' k' mid' pre2' v' post' rest' =>
        have := partsM_len (.cons pre' k' mid' pre2' v' post' rest') loc x hx
        rw [Members.render.eq_2]
        simp only [List.length_append, Members.sep, List.length_cons]
        omega
end

theorem spans_part {v : J} {loc : Loc} {off : Nat} {y : Loc × J × Nat} (h : y ∈ v.spans loc off) :
    (y.1, y.2.1) ∈ v.parts loc := by
  rw [← J.spans_parts loc off v]
  exact List.mem_map.2 ⟨y, h, rfl⟩

theorem spans_idx {v : J} {off : Nat} {y : Loc × J × Nat} (h : y ∈ ([], v, off) :: v.spans [] off) :
    idxLt v.render.length y.1 ∧ y.2.1.render.length ≤ v.render.length := by
  rcases List.mem_cons.1 h with rfl | h
  · exact ⟨fun i hi => (by cases hi), Nat.le_refl _⟩
  · have := spans_part h
    exact ⟨parts_idx v.render.length [] (fun i hi => by cases hi) v (Nat.le_refl _) _ this, parts_len v [] _ this⟩

theorem spans_elem_idx {v : J} {off : Nat} {y : Loc × J × Nat} (h : y ∈ ([], v, off) :: v.spans [] off) {w : Str} {es : Elems}
    (he : y.2.1 = .arr w es) {j : Nat} {x : J} (hj : es.values[j]? = some x) : idxLt v.render.length (y.1 ++ [.elem j]) := by
  obtain ⟨h1, h2⟩ := spans_idx h
  have h3 := values_lt es j x hj
  rw [he] at h2
  simp [J.render] at h2
  intro i hi
  rcases List.mem_append.1 hi with hi | hi
  · exact h1 i hi
  · simp only [List.mem_singleton, Label.elem.injEq] at hi
    omega

/-- `z` is the part that directly contains `y`; if `y` is an element, it is an array. -/
structure Parent (z y : Loc × J × Nat) (x : Label) : Prop where
  loc : y.1 = z.1 ++ [x]
  first : z.2.2 < y.2.2
  last : y.2.2 + y.2.1.render.length < z.2.2 + z.2.1.render.length
  arr : ∀ i, x = .elem i → ∃ w es, z.2.1 = .arr w es

mutual
theorem spans_parent : ∀ (v : J) (loc : Loc) (off : Nat), ∀ y ∈ v.spans loc off,
    ∃ z ∈ (loc, v, off) :: v.spans loc off, ∃ x, Parent z y x
  | .lit _, _, _ => by simp [J.spans]
  | .str _, _, _ => by simp [J.spans]
  | .arr w es, loc, off => by
    intro y hy
    rw [J.spans] at hy
    rcases spansE_parent es loc _ 0 y hy with ⟨i, h1, h2, h3⟩ | ⟨z, hz, x, hp⟩
    · refine ⟨_, List.mem_cons_self .., .elem i, h1, ?_, ?_, fun _ _ => ⟨w, es, rfl⟩⟩
      · show off < _; omega
      · simp only [J.render, List.length_append, List.length_cons, List.length_nil]; omega
    · exact ⟨z, List.mem_cons_of_mem _ (by rw [J.spans]; exact hz), x, hp⟩
  | .obj w ms, loc, off => by
    intro y hy
    rw [J.spans] at hy
    rcases spansM_parent ms loc _ y hy with ⟨k, h1, h2, h3⟩ | ⟨z, hz, x, hp⟩
    · refine ⟨_, List.mem_cons_self .., .key k, h1, ?_, ?_, nofun⟩
      · show off < _; omega
      · simp only [J.render, List.length_append, List.length_cons, List.length_nil]; omega
    · exact ⟨z, List.mem_cons_of_mem _ (by rw [J.spans]; exact hz), x, hp⟩
theorem spansE_parent : ∀ (es : Elems) (loc : Loc) (off i : Nat), ∀ y ∈ es.spans loc off i,
    (∃ j, y.1 = loc ++ [.elem j] ∧ off ≤ y.2.2 ∧ y.2.2 + y.2.1.render.length ≤ off + es.render.length) ∨
    ∃ z ∈ es.spans loc off i, ∃ x, Parent z y x
  | .nil, _, _, _ => by simp [Elems.spans]
  | .cons pre v post rest, loc, off, i => by
    simp only [Elems.spans, List.mem_append, List.mem_singleton]
    rintro y ((hy | rfl) | hy)
    · obtain ⟨z, hz, hx⟩ := spans_parent v _ _ y hy
      rcases List.mem_cons.1 hz with rfl | hz
      · exact .inr ⟨_, .inl (.inr rfl), hx⟩
      · exact .inr ⟨z, .inl (.inl hz), hx⟩
    · refine .inl ⟨i, rfl, Nat.le_add_right _ _, ?_⟩
      simp only [Elems.render, List.length_append]; omega
    · rcases spansE_parent rest _ _ _ y hy with ⟨j, h1, h2, h3⟩ | ⟨z, hz, hx⟩
      · refine .inl ⟨j, h1, by omega, ?_⟩
        cases rest with
        | nil => simp [Elems.spans] at hy
        | cons pre' v' post' rest' =>
          rw [Elems.render.eq_2]
          simp only [List.length_append, Elems.sep, List.length_cons]
          omega
      · exact .inr ⟨z, .inr hz, hx⟩
theorem spansM_parent : ∀ (ms : Members) (loc : Loc) (off : Nat), ∀ y ∈ ms.spans loc off,
    (∃ k, y.1 = loc ++ [.key k] ∧ off ≤ y.2.2 ∧ y.2.2 + y.2.1.render.length ≤ off + ms.render.length) ∨
    ∃ z ∈ ms.spans loc off, ∃ x, Parent z y x
  | .nil, _, _ => by simp [Members.spans]
  | .cons pre k mid pre2 v post rest, loc, off => by
    simp only [Members.spans, List.mem_append, List.mem_singleton]
    rintro y ((hy | rfl) | hy)
    · obtain ⟨z, hz, hx⟩ := spans_parent v _ _ y hy
      rcases List.mem_cons.1 hz with rfl | hz
      · exact .inr ⟨_, .inl (.inr rfl), hx⟩
      · exact .inr ⟨z, .inl (.inl hz), hx⟩
    · refine .inl ⟨k, rfl, by simp only; omega, ?_⟩
      simp only [Members.render, List.length_append, List.length_cons, List.length_nil]; omega
    · rcases spansM_parent rest _ _ y hy with ⟨j, h1, h2, h3⟩ | ⟨z, hz, hx⟩
      · refine .inl ⟨j, h1, by omega, ?_⟩
        cases rest with
        | nil => simp [Members.spans] at hy
        | cons pre' k' mid' pre2' v' post' rest' =>
          rw [Members.render.eq_2]
          simp only [List.length_append, Members.sep, List.length_cons, List.length_nil]
          omega
      · exact .inr ⟨z, .inr hz, hx⟩
end

/-- The array that contains an element lying across a cut lies across the cut, too. -/
theorem across_parent {v : J} {off k : Nat} {y : Loc × J × Nat} (hy : y ∈ ([], v, off) :: v.spans [] off) (ha : across y k)
    {l : Loc} {i : Nat} (hl : y.1 = l ++ [.elem i]) :
    ∃ z ∈ ([], v, off) :: v.spans [] off, ∃ w es, z.2.1 = .arr w es ∧ z.1 = l ∧ across z k := by
  rcases List.mem_cons.1 hy with rfl | hy
  · simp at hl
  · obtain ⟨z, hz, x, hp⟩ := spans_parent v [] off y hy
    have := hp.loc
    rw [hl] at this
    obtain ⟨e1, e2⟩ := List.append_inj' this rfl
    obtain ⟨w, es, he⟩ := hp.arr i (by simpa using e2.symm)
    exact ⟨z, hz, w, es, he, e1.symm, by have := hp.first; have := ha.1; omega, by have := hp.last; have := ha.2; omega⟩

end JPS
