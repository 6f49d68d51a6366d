import Verif.TableProofs
import Verif.Spec.Text
/-!
# Parts of a document with the texts the automaton reports
-/

namespace JPS
open Spec

/-- Reported text of a value. -/
def otext (obs : Str → Str) : J → Str
  | .lit t => obs t
  | v => v.render

mutual
/-- The parts of a value with their reported texts. -/
def seen (loc : Loc) : J → List (Loc × J × Str)
  | .lit _ => []
  | .str _ => []
  | .arr _ es => seenE loc 0 es
  | .obj _ ms => seenM loc ms
def seenE (loc : Loc) (i : Nat) : Elems → List (Loc × J × Str)
  | .nil => []
  | .cons _ v post rest =>
    seen (loc ++ [.elem i]) v ++ [(loc ++ [.elem i], v, otext (litObs false post (nextE rest)) v)] ++
      seenE loc (i + 1) rest
def seenM (loc : Loc) : Members → List (Loc × J × Str)
  | .nil => []
  | .cons _ k _ pre2 v post rest =>
    seen (loc ++ [.key k]) v ++ [(loc ++ [.key k], v, otext (litObs pre2.isEmpty post (nextM rest)) v)] ++
      seenM loc rest
end

mutual
theorem seen_parts (loc : Loc) : ∀ v : J, (seen loc v).map (fun x => (x.1, x.2.1)) = v.parts loc
  | .lit _ => rfl
  | .str _ => rfl
  | .arr _ es => by simpa [seen, J.parts] using seenE_parts loc 0 es
  | .obj _ ms => by simpa [seen, J.parts] using seenM_parts loc ms
theorem seenE_parts (loc : Loc) (i : Nat) : ∀ es : Elems,
    (seenE loc i es).map (fun x => (x.1, x.2.1)) = es.parts loc i
  | .nil => rfl
  | .cons pre v post rest => by
    simp [seenE, Elems.parts, seen_parts _ v, seenE_parts _ _ rest]
theorem seenM_parts (loc : Loc) : ∀ ms : Members,
    (seenM loc ms).map (fun x => (x.1, x.2.1)) = ms.parts loc
  | .nil => rfl
  | .cons pre k mid pre2 v post rest => by
    simp [seenM, Members.parts, seen_parts _ v, seenM_parts _ rest]
end

theorem litBlank_isWs {c : Char} (h : isWs c = true) : litBlank c = true ∨ c = '\n' ∨ c = '\r' := by
  simp only [isWs, Bool.or_eq_true, beq_iff_eq] at h
  simp only [litBlank, Bool.or_eq_true, beq_iff_eq]
  rcases h with ((h | h) | h) | h <;> simp [h]

theorem all_takeWhile {α : Type} (p q : α → Bool) (l : List α) (h : l.all q = true) :
    (l.takeWhile p).all q = true := by
  rw [List.all_eq_true] at h ⊢
  intro x hx
  exact h x ((List.takeWhile_sublist p).subset hx)

/-- The general guarantee for literals. -/
theorem otext_shows (direct : Bool) (post : Str) (c : Char) (hp : post.all isWs = true) (v : J) :
    Shows v (otext (litObs direct post c) v) := by
  cases v with
  | lit t =>
    have hws := all_takeWhile (fun x => !litBlank x) isWs post hp
    simp only [otext, Shows]
    by_cases hm : ∃ t', t = '-' :: t'
    · obtain ⟨t', rfl⟩ := hm
      exact ⟨_, [], by simp [litObs, unsigned], hws, by simp⟩
    · have hu : unsigned t = t := by
        unfold unsigned; split
        · exact absurd ⟨_, rfl⟩ hm
        · rfl
      rw [hu]
      unfold litObs
      split
      · exact absurd ⟨_, rfl⟩ hm
      · simp only
        split
        · exact ⟨_, _, rfl, hws, by simp⟩
        · exact ⟨_, [], by simp, hws, by simp⟩
  | str r => rfl
  | arr w es => rfl
  | obj w ms => rfl

mutual
theorem seen_shows (loc : Loc) : ∀ v : J, v.wf = true → ∀ x ∈ seen loc v, Shows x.2.1 x.2.2
  | .lit _, _ => by simp [seen]
  | .str _, _ => by simp [seen]
  | .arr _ es, h => by
    simp only [J.wf, Bool.and_eq_true] at h
    simpa only [seen] using seenE_shows loc 0 es h.2
  | .obj _ ms, h => by
    simp only [J.wf, Bool.and_eq_true] at h
    simpa only [seen] using seenM_shows loc ms h.2
theorem seenE_shows (loc : Loc) (i : Nat) : ∀ es : Elems, es.wf = true →
    ∀ x ∈ seenE loc i es, Shows x.2.1 x.2.2
  | .nil, _ => by simp [seenE]
  | .cons pre v post rest, h => by
    simp only [Elems.wf, Bool.and_eq_true] at h
    obtain ⟨⟨⟨_, hv⟩, hpost⟩, hrest⟩ := h
    intro x hx
    simp only [seenE, List.mem_append, List.mem_singleton] at hx
    rcases hx with (hx | rfl) | hx
    · exact seen_shows _ v hv x hx
    · exact otext_shows _ _ _ hpost v
    · exact seenE_shows _ _ rest hrest x hx
theorem seenM_shows (loc : Loc) : ∀ ms : Members, ms.wf = true →
    ∀ x ∈ seenM loc ms, Shows x.2.1 x.2.2
  | .nil, _ => by simp [seenM]
  | .cons pre k mid pre2 v post rest, h => by
    simp only [Members.wf, Bool.and_eq_true] at h
    obtain ⟨⟨⟨_, hv⟩, hpost⟩, hrest⟩ := h
    intro x hx
    simp only [seenM, List.mem_append, List.mem_singleton] at hx
    rcases hx with (hx | rfl) | hx
    · exact seen_shows _ v hv x hx
    · exact otext_shows _ _ _ hpost v
    · exact seenM_shows _ rest hrest x hx
end

theorem litObs_exact {direct : Bool} {post : Str} {c : Char} {t : Str}
    (h1 : t.head? ≠ some '-')
    (h2 : post = [] ∨ post.head? = some ' ' ∨ post.head? = some '\t')
    (h3 : direct = false ∨ (post = [] ∧ c = ',')) : litObs direct post c t = t := by
  have hnb : post.takeWhile (fun x => !litBlank x) = [] := by
    rcases h2 with rfl | h2
    · rfl
    · cases post with
      | nil => rfl
      | cons x r =>
        rcases h2 with h2 | h2 <;> (simp at h2; subst h2; simp [List.takeWhile, litBlank])
  unfold litObs
  rw [hnb]
  simp only [List.append_nil, List.length_nil, List.drop_zero]
  split
  · simp at h1
  · rw [if_neg]
    rcases h3 with h3 | ⟨rfl, rfl⟩
    · simp [h3]
    · simp

mutual
theorem seen_tidy (loc : Loc) : ∀ v : J, v.tidy = true → ∀ x ∈ seen loc v, x.2.2 = x.2.1.render
  | .lit _, _ => by simp [seen]
  | .str _, _ => by simp [seen]
  | .arr _ es, h => by simpa only [seen] using seenE_tidy loc 0 es h
  | .obj _ ms, h => by simpa only [seen] using seenM_tidy loc ms h
theorem seenE_tidy (loc : Loc) (i : Nat) : ∀ es : Elems, es.tidy = true →
    ∀ x ∈ seenE loc i es, x.2.2 = x.2.1.render
  | .nil, _ => by simp [seenE]
  | .cons pre v post rest, h => by
    simp only [Elems.tidy, Bool.and_eq_true] at h
    obtain ⟨⟨hp, hv⟩, hrest⟩ := h
    intro x hx
    simp only [seenE, List.mem_append, List.mem_singleton] at hx
    rcases hx with (hx | rfl) | hx
    · exact seen_tidy _ v hv x hx
    · cases v with
      | lit t =>
        simp only [tidyPost, Bool.and_eq_true, bne_iff_ne, Bool.or_eq_true, beq_iff_eq,
          List.isEmpty_iff] at hp
        simp only [otext, J.render]
        exact litObs_exact hp.1 (by rcases hp.2 with (h | h) | h <;> simp [h]) (.inl rfl)
      | _ => rfl
    · exact seenE_tidy _ _ rest hrest x hx
theorem seenM_tidy (loc : Loc) : ∀ ms : Members, ms.tidy = true →
    ∀ x ∈ seenM loc ms, x.2.2 = x.2.1.render
  | .nil, _ => by simp [seenM]
  | .cons pre k mid pre2 v post rest, h => by
    simp only [Members.tidy, Bool.and_eq_true] at h
    obtain ⟨⟨⟨hp, hq⟩, hv⟩, hrest⟩ := h
    intro x hx
    simp only [seenM, List.mem_append, List.mem_singleton] at hx
    rcases hx with (hx | rfl) | hx
    · exact seen_tidy _ v hv x hx
    · cases v with
      | lit t =>
        simp only [tidyPost, Bool.and_eq_true, bne_iff_ne, Bool.or_eq_true, beq_iff_eq,
          List.isEmpty_iff] at hp
        simp only [tidyPre, Bool.or_eq_true, Bool.and_eq_true, Bool.not_eq_true', List.isEmpty_iff] at hq
        simp only [otext, J.render]
        refine litObs_exact hp.1 (by rcases hp.2 with (h | h) | h <;> simp [h]) ?_
        rcases hq with hq | ⟨hq1, hq2⟩
        · exact .inl hq
        · refine .inr ⟨hq1, ?_⟩
          cases rest with
          | nil => simp at hq2
          | cons => rfl
      | _ => rfl
    · exact seenM_tidy _ rest hrest x hx
end

/-! ### Emission for automata that only produce results -/

/-- The tuple emitted for a part. -/
def outAt (d : QDfa) (st cnt : Nat) (x : Loc × J × Str) : Option Tuple :=
  if d.matchedType (locState d st cnt x.1).1 (locState d st cnt x.1).2 = .output then
    some ⟨(locState d st cnt x.1).1, x.2.2⟩ else none

/-- Only results or nothing at the given locations. -/
def Plain (d : QDfa) (st cnt : Nat) (ls : List Loc) : Prop :=
  ∀ l ∈ ls, d.matchedType (locState d st cnt l).1 (locState d st cnt l).2 = .output ∨
    d.matchedType (locState d st cnt l).1 (locState d st cnt l).2 = .none

theorem locState_snoc (d : QDfa) (st cnt : Nat) (l : Loc) (x : Label) :
    locState d st cnt (l ++ [x]) =
      (d.go (locState d st cnt l).1 (locState d st cnt l).2 (labelKey x), labelIdx x) := by
  rw [locState_append]; rfl

mutual
theorem emit_seen (d : QDfa) (s0 c0 : Nat) (obs : Str → Str) (el : Bool) (l : Loc) : ∀ (v : J),
    Plain d s0 c0 (((seen l v).map (·.1)) ++ [l]) →
    emit d obs el (locState d s0 c0 l).1 (locState d s0 c0 l).2 v =
      (seen l v ++ [(l, v, otext obs v)]).filterMap (outAt d s0 c0)
  | .lit t, h => by
    have := h l (by simp)
    unfold emit
    rcases this with h | h <;> simp [seen, outAt, h, otext]
  | .str t, h => by
    have := h l (by simp)
    unfold emit
    rcases this with h | h <;> simp [seen, outAt, h, otext, J.render]
  | .arr w es, h => by
    have hl := h l (by simp)
    have he := emitE_seen d s0 c0 l es 0 (fun l' hl' => h l' (by simp only [seen]; exact List.mem_append_left _ hl'))
    unfold emit
    rw [he, List.filterMap_append]
    rcases hl with h | h <;> simp [seen, outAt, h, otext]
  | .obj w ms, h => by
    have hl := h l (by simp)
    have he := emitM_seen d s0 c0 l ms (fun l' hl' => h l' (by simp only [seen]; exact List.mem_append_left _ hl'))
    unfold emit
    rw [he, List.filterMap_append]
    rcases hl with h | h <;> simp [seen, outAt, h, otext]
theorem emitE_seen (d : QDfa) (s0 c0 : Nat) (l : Loc) : ∀ (es : Elems) (i : Nat),
    Plain d s0 c0 ((seenE l i es).map (·.1)) →
    emitE d (d.go (locState d s0 c0 l).1 (locState d s0 c0 l).2 none) i es =
      (seenE l i es).filterMap (outAt d s0 c0)
  | .nil, _, _ => by simp [emitE, seenE]
  | .cons pre v post rest, i, h => by
    have h1 := emit_seen d s0 c0 (litObs false post (nextE rest)) true (l ++ [.elem i]) v
      (fun l' hl' => h l' (by
        simp only [seenE, List.map_append, List.mem_append, List.map_cons, List.map_nil] at hl' ⊢
        exact .inl hl'))
    have h2 := emitE_seen d s0 c0 l rest (i + 1) (fun l' hl' => h l' (by
        simp only [seenE, List.map_append, List.mem_append]; exact .inr hl'))
    rw [locState_snoc] at h1
    simp only [labelKey, labelIdx] at h1
    unfold emitE
    rw [h1, h2, seenE, List.filterMap_append (l := _ ++ _)]
theorem emitM_seen (d : QDfa) (s0 c0 : Nat) (l : Loc) : ∀ (ms : Members),
    Plain d s0 c0 ((seenM l ms).map (·.1)) →
    emitM d (locState d s0 c0 l).1 (locState d s0 c0 l).2 ms =
      (seenM l ms).filterMap (outAt d s0 c0)
  | .nil, _ => by simp [emitM, seenM]
  | .cons pre k mid pre2 v post rest, h => by
    have h1 := emit_seen d s0 c0 (litObs pre2.isEmpty post (nextM rest)) false (l ++ [.key k]) v
      (fun l' hl' => h l' (by
        simp only [seenM, List.map_append, List.mem_append, List.map_cons, List.map_nil] at hl' ⊢
        exact .inl hl'))
    have h2 := emitM_seen d s0 c0 l rest (fun l' hl' => h l' (by
        simp only [seenM, List.map_append, List.mem_append]; exact .inr hl'))
    rw [locState_snoc] at h1
    simp only [labelKey, labelIdx] at h1
    unfold emitM
    rw [h1, h2, seenM, List.filterMap_append (l := _ ++ _)]
end

end JPS
