import Verif.FilterPrefix
import Verif.FilterUb
import Verif.Spec.Below
/-!
# The tuples of filter queries below other steps
-/

set_option autoImplicit false

namespace JPS
open Spec

theorem prefix_snoc {a l : Loc} {x : Label} (h : a <+: l ++ [x]) : a <+: l ∨ a = l ++ [x] := by
  obtain ⟨t, ht⟩ := h
  cases hl : t.reverse with
  | nil =>
    have : t = [] := by simpa using hl
    subst this
    exact .inr (by simpa using ht)
  | cons z t' =>
    have : t = t'.reverse ++ [z] := by rw [← List.reverse_reverse t, hl]; simp
    subst this
    rw [← List.append_assoc] at ht
    exact .inl ⟨t'.reverse, (List.append_inj_left' ht (by simp))⟩

namespace FPre
variable {B : List Step} {Q : List Reg} {c : SCtx}

theorem matched (h : FPre B Q c) {w : List Step} {x : List Nat} (hx : c.letters x) (hs : WordState Q c w (c.run x)) (n : Nat) :
    (tableOf c).matchedType (c.run x) n = FWords.accOf (roleOf Q w) := by
  unfold QDfa.matchedType
  rw [h.accept hs, h.inRange hx n]
  cases roleOf Q w with
  | none => rfl
  | some r => cases r <;> rfl

section
variable (h : FPre B Q c) (hB : ∀ s ∈ B, isSlice s = false) {y : Loc} (hy : Matches B y) {st : List Step → Nat}
  (hst : ∀ m, WordState Q c (locWord m) (c.run ((y ++ m).map c.col)) → st (locWord m) = c.run ((y ++ m).map c.col))
include h hB hy hst

mutual
/-- Inside a part that `B` matches, the automaton emits the tuples of the forest. -/
theorem part_tuples (m : Loc) (r : Res) (ht : Track Q (locWord m) r) (obs : Str → Str) (el : Bool) (cnt : Nat)
    (hel : r.tst.isSome = true → el = true) (hu : ∀ a, a <+: y ++ m → Matches B a → a = y) : ∀ (v : J) (rest : Forest),
    (∀ z ∈ v.parts (y ++ m), ¬ Matches B z.1) →
    forestTuples (forest st r (locWord m) obs v rest) =
      emit (tableOf c) obs el (c.run ((y ++ m).map c.col)) cnt v ++ forestTuples rest
  | .lit t, rest, _ => by
    have hs := h.stands hB hy hu
    have hm := h.matched (c.letters_map (y ++ m)) hs cnt
    rw [ht.role h.nodup] at hm
    unfold forest emit leafForest
    rw [hst m hs]
    cases hr : r.role with
    | none => rw [hr] at hm; rw [hm]; rfl
    | some ro => rw [hr] at hm; rw [hm]; cases ro <;> rfl
  | .str t, rest, _ => by
    have hs := h.stands hB hy hu
    have hm := h.matched (c.letters_map (y ++ m)) hs cnt
    rw [ht.role h.nodup] at hm
    unfold forest emit leafForest
    rw [hst m hs]
    cases hr : r.role with
    | none => rw [hr] at hm; rw [hm]; rfl
    | some ro => rw [hr] at hm; rw [hm]; cases ro <;> rfl
  | .arr a es, rest, hp => by
    have hs := h.stands hB hy hu
    have hm := h.matched (c.letters_map (y ++ m)) hs cnt
    rw [ht.role h.nodup] at hm
    have ih := fun rest => part_tuplesE m r.elem ht.elem hu es 0 0 rest (fun z hz => hp z (by simpa [J.parts] using hz))
    unfold forest emit
    rw [h.goArr (y ++ m) cnt 0, hst m hs]
    cases hr : r.role with
    | none => rw [hr] at hm; rw [hm]; exact ih rest
    | some ro =>
      rw [hr] at hm; rw [hm]
      cases ro with
      | pred e ds => exact ih rest
      | cond q => simp only [forestTuples, FWords.accOf, ih rest, List.cons_append]
      | out => simp only [forestTuples, FWords.accOf, ih _, List.append_assoc, List.cons_append, List.nil_append]
  | .obj a ms, rest, hp => by
    have hs := h.stands hB hy hu
    have hm := h.matched (c.letters_map (y ++ m)) hs cnt
    rw [ht.role h.nodup] at hm
    have ih := fun rest => part_tuplesM m r ht cnt hu ms rest (fun z hz => hp z (by simpa [J.parts] using hz))
    unfold forest emit
    rw [hst m hs]
    cases hr : r.role with
    | none => rw [hr] at hm; rw [hm]; exact ih rest
    | some ro =>
      rw [hr] at hm; rw [hm]
      cases ro with
      | pred e ds =>
        rw [hel (by rw [(Res.role_pred hr).1]; rfl)]
        simp only [forestTuples, FWords.accOf, ih .nil, List.append_nil, if_true, List.cons_append, List.append_assoc,
          List.nil_append]
      | cond q => simp only [forestTuples, FWords.accOf, ih rest, List.cons_append]
      | out => simp only [forestTuples, FWords.accOf, ih _, List.append_assoc, List.cons_append, List.nil_append]
theorem part_tuplesE (m : Loc) (r : Res) (ht : Track Q (locWord m ++ [.all]) r)
    (hu : ∀ a, a <+: y ++ m → Matches B a → a = y) : ∀ (es : Elems) (i cnt : Nat) (rest : Forest),
    (∀ z ∈ es.parts (y ++ m) i, ¬ Matches B z.1) →
    forestTuples (forestE st r (locWord m ++ [.all]) es rest) =
      emitE (tableOf c) (c.run ((y ++ m ++ [Label.elem 0]).map c.col)) cnt es ++ forestTuples rest
  | .nil, _, _, rest, _ => by simp [forestE, emitE]
  | .cons pre v post tail, i, cnt, rest, hp => by
    have e : c.run ((y ++ m ++ [Label.elem 0]).map c.col) = c.run ((y ++ (m ++ [Label.elem i])).map c.col) := by
      simp [SCtx.col]
    have hv : ¬ Matches B (y ++ (m ++ [.elem i])) := by
      have := hp (y ++ m ++ [.elem i], v) (by simp [Elems.parts])
      simpa using this
    have hu' : ∀ a, a <+: y ++ (m ++ [.elem i]) → Matches B a → a = y := by
      intro a ha hma
      rw [← List.append_assoc] at ha
      rcases prefix_snoc ha with ha | ha
      · exact hu a ha hma
      · rw [ha, List.append_assoc] at hma; exact absurd hma hv
    have ih := part_tuplesE m r ht hu tail (i + 1) (cnt + 1) rest (fun z hz => hp z (by simp [Elems.parts, hz]))
    have iv := part_tuples (m ++ [.elem i]) r (by rw [locWord_elem]; exact ht) (litObs false post (nextE tail)) true cnt
      (fun _ => rfl) hu' v (forestE st r (locWord m ++ [.all]) tail rest)
      (fun z hz => hp z (by rw [← List.append_assoc] at hz; exact List.mem_append_left _ (List.mem_append_left _ hz)))
    rw [locWord_elem] at iv
    unfold forestE emitE
    rw [iv, ih, ← e]
    simp only [List.append_assoc]
theorem part_tuplesM (m : Loc) (r : Res) (ht : Track Q (locWord m) r) (cnt : Nat)
    (hu : ∀ a, a <+: y ++ m → Matches B a → a = y) : ∀ (ms : Members) (rest : Forest),
    (∀ z ∈ ms.parts (y ++ m), ¬ Matches B z.1) →
    forestTuples (forestM st r (locWord m) ms rest) =
      emitM (tableOf c) (c.run ((y ++ m).map c.col)) cnt ms ++ forestTuples rest
  | .nil, rest, _ => by simp [forestM, emitM]
  | .cons pre k mid pre2 v post tail, rest, hp => by
    have hv : ¬ Matches B (y ++ (m ++ [.key k])) := by
      have := hp (y ++ m ++ [.key k], v) (by simp [Members.parts])
      simpa using this
    have hu' : ∀ a, a <+: y ++ (m ++ [.key k]) → Matches B a → a = y := by
      intro a ha hma
      rw [← List.append_assoc] at ha
      rcases prefix_snoc ha with ha | ha
      · exact hu a ha hma
      · rw [ha, List.append_assoc] at hma; exact absurd hma hv
    have ih := part_tuplesM m r ht cnt hu tail rest (fun z hz => hp z (by simp [Members.parts, hz]))
    have iv := part_tuples (m ++ [.key k]) (r.key k) (by rw [locWord_key]; exact ht.key k) (litObs pre2.isEmpty post (nextM tail))
      false 0 (by simp [Res.key]) hu' v (forestM st r (locWord m) tail rest)
      (fun z hz => hp z (by rw [← List.append_assoc] at hz; exact List.mem_append_left _ (List.mem_append_left _ hz)))
    rw [locWord_key] at iv
    unfold forestM emitM
    rw [iv, ih, List.append_assoc, h.goKey (y ++ m) cnt k, List.append_assoc]
end

end

end FPre

/-! ### The whole document -/

/-- The items of several parts, one after the other. -/
def partsForest (st : Loc → List Step → Nat) (p : List (QStep Num)) (L : List (Loc × J)) (rest : Forest) : Forest :=
  L.foldr (fun z rest => forest (st z.1) (Res.init p) [] id z.2 rest) rest

theorem partsForest_append (st : Loc → List Step → Nat) (p : List (QStep Num)) (L M : List (Loc × J)) (rest : Forest) :
    partsForest st p (L ++ M) rest = partsForest st p L (partsForest st p M rest) := List.foldr_append

theorem role_above {p : List (QStep Num)} (hf : hasFilter p = true) : (Res.init p).role = none := by
  cases p with
  | nil => cases hf
  | cons s p => rfl

theorem forest_obs {st : List Step → Nat} {r : Res} (hr : r.role = none) (w : List Step) (obs obs' : Str → Str) (v : J) (rest : Forest) :
    forest st r w obs v rest = forest st r w obs' v rest := by
  cases v with
  | lit t => unfold forest leafForest; rw [hr]
  | str t => unfold forest; rfl
  | arr a es => unfold forest; rfl
  | obj a ms => unfold forest; rfl

section
open Classical
variable {B : List Step} {p : List (QStep Num)} {c : SCtx} (h : FPre B (pathRegs p) c) (hB : ∀ s ∈ B, isSlice s = false)
  (hf : hasFilter p = true) {st : Loc → List Step → Nat}
  (hst : ∀ y m, WordState (pathRegs p) c (locWord m) (c.run ((y ++ m).map c.col)) → st y (locWord m) = c.run ((y ++ m).map c.col))
include h hB hf hst

/-- A value at a location that is matched and lies in no other one. -/
theorem outer_part {l : Loc} {x : Label} (hl : ∀ a, a <+: l → ¬ Matches B a) (hm : Matches B (l ++ [x])) (obs : Str → Str) (el : Bool)
    (cnt : Nat) (v : J) (rest : Forest) (hp : ∀ z ∈ v.parts (l ++ [x]), ¬ Matches B z.1) :
    emit (tableOf c) obs el (c.run ((l ++ [x]).map c.col)) cnt v ++ forestTuples rest =
      forestTuples (forest (st (l ++ [x])) (Res.init p) [] id v rest) := by
  have := h.part_tuples hB hm (hst (l ++ [x])) [] (Res.init p) track_init obs el cnt (by intro h; cases h) (by
    intro a ha hma
    rw [List.append_nil] at ha
    rcases prefix_snoc ha with ha | ha
    · exact absurd hma (hl a ha)
    · exact ha) v rest (by rw [List.append_nil]; exact hp)
  rw [List.append_nil] at this
  rw [← this]
  congr 1
  exact forest_obs (role_above hf) _ _ _ _ _

mutual
/-- Outside of what `B` matches, the automaton emits the tuples of the parts that `B` matches. -/
theorem outer_tuples : ∀ (v : J) (l : Loc) (obs : Str → Str) (el : Bool) (cnt : Nat) (rest : Forest),
    (∀ a, a <+: l → ¬ Matches B a) →
    (∀ z ∈ v.parts l, Matches B z.1 → ∀ z' ∈ z.2.parts z.1, ¬ Matches B z'.1) →
    emit (tableOf c) obs el (c.run (l.map c.col)) cnt v ++ forestTuples rest =
      forestTuples (partsForest st p ((v.parts l).filter fun z => decide (Matches B z.1)) rest)
  | .lit t, l, obs, el, cnt, rest, hl, _ => by
    have hm : (tableOf c).matchedType (c.run (l.map c.col)) cnt = .none := by
      unfold QDfa.matchedType
      rw [c.accept_run _ (c.letters_map l), h.stop_outside hB hl]; simp [acceptOf]
    unfold emit
    rw [hm]; rfl
  | .str t, l, obs, el, cnt, rest, hl, _ => by
    have hm : (tableOf c).matchedType (c.run (l.map c.col)) cnt = .none := by
      unfold QDfa.matchedType
      rw [c.accept_run _ (c.letters_map l), h.stop_outside hB hl]; simp [acceptOf]
    unfold emit
    rw [hm]; rfl
  | .arr a es, l, obs, el, cnt, rest, hl, hap => by
    have hm : (tableOf c).matchedType (c.run (l.map c.col)) cnt = .none := by
      unfold QDfa.matchedType
      rw [c.accept_run _ (c.letters_map l), h.stop_outside hB hl]; simp [acceptOf]
    unfold emit
    rw [hm, h.goArr l cnt 0]
    exact outer_tuplesE es l 0 0 rest hl hap
  | .obj a ms, l, obs, el, cnt, rest, hl, hap => by
    have hm : (tableOf c).matchedType (c.run (l.map c.col)) cnt = .none := by
      unfold QDfa.matchedType
      rw [c.accept_run _ (c.letters_map l), h.stop_outside hB hl]; simp [acceptOf]
    unfold emit
    rw [hm]
    exact outer_tuplesM ms l cnt rest hl hap
theorem outer_tuplesE : ∀ (es : Elems) (l : Loc) (i cnt : Nat) (rest : Forest),
    (∀ a, a <+: l → ¬ Matches B a) →
    (∀ z ∈ es.parts l i, Matches B z.1 → ∀ z' ∈ z.2.parts z.1, ¬ Matches B z'.1) →
    emitE (tableOf c) (c.run ((l ++ [Label.elem 0]).map c.col)) cnt es ++ forestTuples rest =
      forestTuples (partsForest st p ((es.parts l i).filter fun z => decide (Matches B z.1)) rest)
  | .nil, l, i, cnt, rest, _, _ => by simp [emitE, Elems.parts, partsForest]
  | .cons pre v post tail, l, i, cnt, rest, hl, hap => by
    have e : c.run ((l ++ [Label.elem 0]).map c.col) = c.run ((l ++ [Label.elem i]).map c.col) := by simp [SCtx.col]
    have it := outer_tuplesE tail l (i + 1) (cnt + 1) rest hl (fun z hz => hap z (by simp [Elems.parts, hz]))
    unfold emitE
    rw [List.append_assoc, it, e]
    simp only [Elems.parts, List.filter_append]
    rw [partsForest_append]
    by_cases hm : Matches B (l ++ [.elem i])
    · have hin := hap (l ++ [.elem i], v) (by simp [Elems.parts]) hm
      have h0 : (v.parts (l ++ [.elem i])).filter (fun z => decide (Matches B z.1)) = [] := by
        rw [List.filter_eq_nil_iff]; intro z hz; simpa using hin z hz
      rw [outer_part h hB hf hst hl hm _ _ _ _ _ hin, h0]
      simp [partsForest, hm]
    · have iv := outer_tuples v (l ++ [.elem i]) (litObs false post (nextE tail)) true cnt
        (partsForest st p ((tail.parts l (i + 1)).filter fun z => decide (Matches B z.1)) rest) (by
          intro a ha hma
          rcases prefix_snoc ha with ha | ha
          · exact hl a ha hma
          · exact hm (ha ▸ hma)) (fun z hz => hap z (by simp [Elems.parts, hz]))
      rw [iv]
      simp [partsForest, hm]
theorem outer_tuplesM : ∀ (ms : Members) (l : Loc) (cnt : Nat) (rest : Forest),
    (∀ a, a <+: l → ¬ Matches B a) →
    (∀ z ∈ ms.parts l, Matches B z.1 → ∀ z' ∈ z.2.parts z.1, ¬ Matches B z'.1) →
    emitM (tableOf c) (c.run (l.map c.col)) cnt ms ++ forestTuples rest =
      forestTuples (partsForest st p ((ms.parts l).filter fun z => decide (Matches B z.1)) rest)
  | .nil, l, cnt, rest, _, _ => by simp [emitM, Members.parts, partsForest]
  | .cons pre k mid pre2 v post tail, l, cnt, rest, hl, hap => by
    have it := outer_tuplesM tail l cnt rest hl (fun z hz => hap z (by simp [Members.parts, hz]))
    unfold emitM
    rw [List.append_assoc, it, h.goKey l cnt k]
    simp only [Members.parts, List.filter_append]
    rw [partsForest_append]
    by_cases hm : Matches B (l ++ [.key k])
    · have hin := hap (l ++ [.key k], v) (by simp [Members.parts]) hm
      have h0 : (v.parts (l ++ [.key k])).filter (fun z => decide (Matches B z.1)) = [] := by
        rw [List.filter_eq_nil_iff]; intro z hz; simpa using hin z hz
      rw [outer_part h hB hf hst hl hm _ _ _ _ _ hin, h0]
      simp [partsForest, hm]
    · have iv := outer_tuples v (l ++ [.key k]) (litObs pre2.isEmpty post (nextM tail)) false 0
        (partsForest st p ((tail.parts l).filter fun z => decide (Matches B z.1)) rest) (by
          intro a ha hma
          rcases prefix_snoc ha with ha | ha
          · exact hl a ha hma
          · exact hm (ha ▸ hma)) (fun z hz => hap z (by simp [Members.parts, hz]))
      rw [iv]
      simp [partsForest, hm]
end

end

/-! ### The serial run -/

theorem matches_ne {B : List Step} (hB : B ≠ []) {l : Loc} (h : Matches B l) : l ≠ [] := by
  rintro rfl
  cases B with
  | nil => exact hB rfl
  | cons s B => cases h <;> simp_all

mutual
theorem parts_kept : ∀ (v : J) (l : Loc), ∀ z ∈ v.parts l,
    (v.wf = true → z.2.wf = true) ∧ (v.tidy = true → z.2.tidy = true) ∧ z.2.depth ≤ v.depth ∧
    ∀ n, v.within n = true → z.2.within n = true
  | .lit t, l, z, hz => by simp [J.parts] at hz
  | .str t, l, z, hz => by simp [J.parts] at hz
  | .arr a es, l, z, hz => by
    obtain ⟨h1, h2, h3, h4⟩ := parts_keptE es l 0 z hz
    refine ⟨?_, h2, by simp only [J.depth]; omega, h4⟩
    intro h
    simp only [J.wf, Bool.and_eq_true] at h
    exact h1 h.2
  | .obj a ms, l, z, hz => by
    obtain ⟨h1, h2, h3, h4⟩ := parts_keptM ms l z hz
    refine ⟨?_, h2, by simp only [J.depth]; omega, h4⟩
    intro h
    simp only [J.wf, Bool.and_eq_true] at h
    exact h1 h.2
theorem parts_keptE : ∀ (es : Elems) (l : Loc) (i : Nat), ∀ z ∈ es.parts l i,
    (es.wf = true → z.2.wf = true) ∧ (es.tidy = true → z.2.tidy = true) ∧ z.2.depth ≤ es.depth ∧
    ∀ n, es.within n = true → z.2.within n = true
  | .nil, l, i, z, hz => by simp [Elems.parts] at hz
  | .cons pre v post tail, l, i, z, hz => by
    have hv := parts_kept v (l ++ [.elem i]) z
    have ht := parts_keptE tail l (i + 1) z
    simp only [Elems.parts, List.append_assoc, List.mem_append, List.mem_singleton] at hz
    simp only [Elems.wf, Elems.tidy, Elems.depth, Elems.within, Bool.and_eq_true]
    rcases hz with hz | rfl | hz
    · obtain ⟨h1, h2, h3, h4⟩ := hv hz
      exact ⟨fun h => h1 (by simp_all), fun h => h2 (by simp_all), by omega, fun n h => h4 n (by simp_all)⟩
    · exact ⟨fun h => by simp_all, fun h => by simp_all, by simp; omega, fun n h => by simp_all⟩
    · obtain ⟨h1, h2, h3, h4⟩ := ht hz
      exact ⟨fun h => h1 (by simp_all), fun h => h2 (by simp_all), by omega, fun n h => h4 n (by simp_all)⟩
theorem parts_keptM : ∀ (ms : Members) (l : Loc), ∀ z ∈ ms.parts l,
    (ms.wf = true → z.2.wf = true) ∧ (ms.tidy = true → z.2.tidy = true) ∧ z.2.depth ≤ ms.depth ∧
    ∀ n, ms.within n = true → z.2.within n = true
  | .nil, l, z, hz => by simp [Members.parts] at hz
  | .cons pre k mid pre2 v post tail, l, z, hz => by
    have hv := parts_kept v (l ++ [.key k]) z
    have ht := parts_keptM tail l z
    simp only [Members.parts, List.append_assoc, List.mem_append, List.mem_singleton] at hz
    simp only [Members.wf, Members.tidy, Members.depth, Members.within, Bool.and_eq_true]
    rcases hz with hz | rfl | hz
    · obtain ⟨h1, h2, h3, h4⟩ := hv hz
      exact ⟨fun h => h1 (by simp_all), fun h => h2 (by simp_all), by omega, fun n h => h4 n (by simp_all)⟩
    · exact ⟨fun h => by simp_all, fun h => by simp_all, by simp; omega, fun n h => by simp_all⟩
    · obtain ⟨h1, h2, h3, h4⟩ := ht hz
      exact ⟨fun h => h1 (by simp_all), fun h => h2 (by simp_all), by omega, fun n h => h4 n (by simp_all)⟩
end

section
variable {p : List (QStep Num)} {c : SCtx} {st : Loc → List Step → Nat} (h : ∀ y, FSem (pathRegs p) c (st y)) (O : NumOps)
  (hp : CleanPath p) (hn : namedAfterFilter p = true) (hf : hasFilter p = true)
include h hp hn

/-- The properties of the items of all parts. -/
theorem parts_forest : ∀ (L : List (Loc × J)), (∀ z ∈ L, z.2.wf = true ∧ z.2.tidy = true ∧ z.2.decided (arith O) O.atof p = true) →
    Decided O (contextOf c) (condNames (contextOf c)) (filterHolds O (contextOf c)) (partsForest st p L .nil) ∧
    Fits (contextOf c) (condNames (contextOf c)) none (partsForest st p L .nil) ∧
    (partsForest st p L .nil).unnested = true ∧
    (∀ x ∈ (partsForest st p L .nil).preds, (PF.init (contextOf c)).conds x =
      some (condTable (condNames (contextOf c) x) fun _ => none)) ∧
    (hasFilter p = true → (partsForest st p L .nil).elemsOnly = true) ∧
    (partsForest st p L .nil).released (filterHolds O (contextOf c)) =
      (L.flatMap fun z => z.2.select (arith O) O.atof p).map J.render
  | [], _ => ⟨trivial, trivial, rfl, (by intro x hx; simp [partsForest, Forest.preds] at hx), fun _ => rfl, rfl⟩
  | z :: L, hL => by
    obtain ⟨i1, i2, i3, i4, i5, i6⟩ := parts_forest L (fun z hz => hL z (by simp [hz]))
    obtain ⟨hw, htd, hdec⟩ := hL z (by simp)
    have hz := h z.1
    have ht := track_init (p := p)
    have hg := good_init hp hn
    have hx : ExactObs id z.2 := by intro t _; rfl
    have hdr : DecR O (Res.init p) z.2 := ⟨(by intro e he; cases he), by intro q hq; cases hq; exact hdec⟩
    refine ⟨decided_forest hz O _ [] ht hg id z.2 hw htd hdr _ i1,
      fits_forest hz _ [] ht hg id none (by intro _ d hd; simp [Res.init] at hd) z.2 hw htd hx _ i2,
      unnested_forest hz _ [] ht id z.2 _ i3, ?_, fun hf => elemsOnly_forest (st z.1) _ [] hg (above_init hf) id z.2 _ (i5 hf), ?_⟩
    · intro y hy
      rcases preds_forest hz _ [] ht id z.2 _ y hy with hy | ⟨y, e, ds, h1, h2, rfl⟩
      · exact i4 y hy
      · rw [hz.initConds h2 h1, hz.names h1 h2]
    · show (forest (st z.1) _ [] id z.2 (partsForest st p L .nil)).released _ = _
      rw [released_forest hz O _ [] ht hg id z.2 hw htd hx hdr, i6]
      simp [selR, Res.init, passes]

end

open Classical in
/-- The parts that `B` selects, with their locations. -/
noncomputable def partsOf (B : List Step) (v : J) : List (Loc × J) := (v.parts []).filter fun z => decide (Matches B z.1)

/-- The states of the words below every location. -/
theorem FPre.family {B : List Step} {p : List (QStep Num)} {c : SCtx} (h : FPre B (pathRegs p) c) (hB : ∀ s ∈ B, isSlice s = false) :
    ∃ st : Loc → List Step → Nat, (∀ y w, WordState (pathRegs p) c w (st y w)) ∧ (∀ y, FSem (pathRegs p) c (st y)) ∧
      ∀ y m, WordState (pathRegs p) c (locWord m) (c.run ((y ++ m).map c.col)) → st y (locWord m) = c.run ((y ++ m).map c.col) := by
  have hex : ∀ k r, (pathRegs p)[k]? = some r → ∃ s, s < c.dfa.rows.length + 1 ∧ c.dfa.stop s = k + 1 :=
    fun k r hk => h.exists_state hB hk
  have := h.states_for hex
  refine ⟨fun y => Classical.choose (this y), fun y => (Classical.choose_spec (this y)).1,
    fun y => h.sem hex (Classical.choose_spec (this y)).1, fun y => (Classical.choose_spec (this y)).2⟩

theorem FPre.hasCond {B : List Step} {p : List (QStep Num)} {c : SCtx} (_ : FPre B (pathRegs p) c) {st : List Step → Nat}
    (hst : ∀ w, WordState (pathRegs p) c w (st w)) (hs : FSem (pathRegs p) c st) (hf : hasFilter p = true)
    (hsz : (tableOf c).statesNum ≤ 100) :
    ∃ s < MAX_PREDICATE_STATE, ((PF.init (contextOf c)).conds s).isSome = true := by
  obtain ⟨w, e, ds, hreg⟩ := hasFilter_pred p [] hf
  have hreg' : ⟨w, .pred e ds⟩ ∈ pathRegs p := List.mem_append_left _ hreg
  have hro : roleOf (pathRegs p) w = some (.pred e ds) := (roleOf_some hs.nodup).2 hreg'
  have hw : SimpleWord w := hs.simple _ hreg'
  refine ⟨st w, ?_, by rw [hs.initConds hro hw]; rfl⟩
  have h1 := (hst w).1
  have e : (tableOf c).statesNum = c.dfa.rows.length + 1 := rfl
  simp only [MAX_PREDICATE_STATE]
  omega

/-- The serial run of a filter query below other steps. -/
theorem FPre.serial {B : List Step} {p : List (QStep Num)} {c : SCtx} (h : FPre B (pathRegs p) c) (hB : ∀ s ∈ B, isSlice s = false)
    (hne : B ≠ []) (O : NumOps) (hp : CleanPath p)
    (hn : namedAfterFilter p = true) (hf : hasFilter p = true) (hsz : (tableOf c).statesNum ≤ 100) (pre trail : Str) (v : J)
    (hpre : pre.all isWs = true) (htr : trail.all isWs = true) (hsp : pre.head? ≠ some ' ')
    (hc : v.isContainer = true) (hwf : v.wf = true) (hk : v.keysTight = true)
    (hdep : v.depth ≤ MAX_STACK) (htd : v.tidy = true) (hap : Apart B v)
    (hdec : ∀ z ∈ partsOf B v, z.2.decided (arith O) O.atof p = true) :
    let r := serialPartialRun O (tableOf c) (contextOf c) none (pre ++ v.render ++ trail)
    r.pf.output = ((partsOf B v).flatMap fun z => z.2.select (arith O) O.atof p).map J.render := by
  obtain ⟨ms', he⟩ := execAutomaton_doc (tableOf c) pre trail v id SA.init hpre htr hsp hc hwf hk rfl
    hdep (by simpa [SA.init] using hdep)
  have htl : (execAutomaton (tableOf c) (pre ++ v.render ++ trail) SA.init).tl =
      emit (tableOf c) id false 1 0 v := by
    rw [he]
    show (SA.init.emitAll _).tl = _
    rw [emitAll_tl]; rfl
  obtain ⟨st, hst, hs, hrun⟩ := h.family hB
  have hft : emit (tableOf c) id false 1 0 v = forestTuples (partsForest st p (partsOf B v) .nil) := by
    have := outer_tuples h hB hf hrun v [] id false 0 .nil (by
      intro a ha hm
      have : a = [] := by simpa using ha
      exact matches_ne hne hm this) hap
    simpa [forestTuples, partsOf, SCtx.run] using this
  obtain ⟨i1, i2, i3, i4, i5, i6⟩ := parts_forest hs O hp hn (partsOf B v) (by
    intro z hz
    have hz' := parts_kept v [] z (List.mem_filter.1 hz).1
    exact ⟨hz'.1 hwf, hz'.2.1 htd, hdec z hz⟩)
  simp only [serialPartialRun]
  rw [htl, hft]
  have := c24_nested O (contextOf c) (condNames (contextOf c)) (filterHolds O (contextOf c))
    (partsForest st p (partsOf B v) .nil) (PF.init (contextOf c)) (h.hasCond (hst []) (hs []) hf hsz) i1 i2 i3 rfl rfl i4
  rw [this.1, output_released _ _ (i5 hf), i6]
  simp [PF.init]

/-! ### Buffers -/

theorem FPre.init_ub {B : List Step} {p : List (QStep Num)} {c : SCtx} (h : FPre B (pathRegs p) c) (hB : ∀ s ∈ B, isSlice s = false)
    (hs : (tableOf c).statesNum ≤ 100) : (PF.init (contextOf c)).ub = false := by
  have hex : ∀ k r, (pathRegs p)[k]? = some r → ∃ s, s < c.dfa.rows.length + 1 ∧ c.dfa.stop s = k + 1 :=
    fun k r hk => h.exists_state hB hk
  have key : ∀ s ∈ (contextOf c).predStates, s < 100 ∧ ∀ x ∈ (contextOf c).mapping s, (condName (contextOf c) x).isSome = true := by
    intro s hm
    have hm' : s ∈ ((List.range (tableOf c).statesNum).filter fun i =>
      (tableOf c).stop i ≠ 0 && (tableOf c).accept i == .predicate) := hm
    rw [List.mem_filter, List.mem_range] at hm'
    obtain ⟨h1, h2⟩ := hm'
    simp only [ne_eq, decide_not, Bool.and_eq_true, Bool.not_eq_true', decide_eq_false_iff_not, beq_iff_eq] at h2
    refine ⟨by omega, ?_⟩
    have hlt : s < c.dfa.rows.length + 1 := h1
    have hst := h2.1
    rw [h.stopQ, if_pos hlt] at hst
    have h0 : s ≠ 0 := by rintro rfl; exact hst rfl
    obtain ⟨x, hx, hr⟩ := c.reach s (by omega) (by omega)
    rcases h.stop_letters hx with ⟨h3, _⟩ | ⟨k, r, h3, h4, h5, _⟩
    · rw [hr] at h3; exact absurd h3 hst
    · rw [hr] at h4
      have hro : roleOf (pathRegs p) r.w = some r.role := (roleOf_some h.nodup).2 (List.mem_of_getElem? h3)
      have hacc := h.accept (w := r.w) (s := s) ⟨hlt, .inr ⟨k, r.role, h3, hro, h4⟩⟩
      rw [h2.2, hro] at hacc
      obtain ⟨w, ro⟩ := r
      cases ro with
      | cond q => cases hacc
      | out => cases hacc
      | pred e ds =>
        have := h.condNames_of hex hlt h4 h3
        intro y hy
        have hy' := List.mem_map_of_mem (f := condName (contextOf c)) hy
        rw [this] at hy'
        obtain ⟨q, _, hq⟩ := List.mem_map.1 hy'
        rw [← hq]; rfl
  show ((contextOf c).predStates.any (fun s => decide (s ≥ MAX_PREDICATE_STATE)) ||
      (contextOf c).predStates.any (fun s => ((contextOf c).mapping s).any fun x => (condName (contextOf c) x).isNone)) = false
  rw [Bool.or_eq_false_iff]
  constructor
  · rw [List.any_eq_false]
    intro s hm
    have := (key s hm).1
    rw [decide_eq_true_eq]
    unfold MAX_PREDICATE_STATE
    omega
  · rw [List.any_eq_false]
    intro s hm
    rw [Bool.not_eq_true, List.any_eq_false]
    intro x hx
    have := (key s hm).2 x hx
    cases hcn : condName (contextOf c) x with
    | none => rw [hcn] at this; cases this
    | some y => simp

theorem parts_bounds {p : List (QStep Num)} {c : SCtx} {st : Loc → List Step → Nat} (h : ∀ y, FSem (pathRegs p) c (st y)) (O : NumOps)
    (hp : CleanPath p) (hn : namedAfterFilter p = true) (n d : Nat) : ∀ (L : List (Loc × J)),
    (∀ z ∈ L, z.2.tidy = true ∧ z.2.within n = true ∧ z.2.depth ≤ d) →
    (partsForest st p L .nil).cands = (L.flatMap fun z => z.2.select (arith O) O.atof (unfiltered p)).map J.render ∧
    (∀ t ∈ (partsForest st p L .nil).condTexts, t.length ≤ n) ∧ (partsForest st p L .nil).nest ≤ d
  | [], _ => ⟨rfl, by intro t ht; simp [partsForest, Forest.condTexts] at ht, by simp [partsForest, Forest.nest]⟩
  | z :: L, hL => by
    obtain ⟨i1, i2, i3⟩ := parts_bounds h O hp hn n d L (fun z hz => hL z (by simp [hz]))
    obtain ⟨htd, hw, hd⟩ := hL z (by simp)
    have hx : ExactObs id z.2 := by intro t _; rfl
    refine ⟨?_, ?_, ?_⟩
    · show (forest (st z.1) _ [] id z.2 (partsForest st p L .nil)).cands = _
      rw [cands_forest (h z.1) O (Res.init p) [] track_init (good_init hp hn) id z.2 htd hx _, i1]
      simp [candR, Res.init]
    · intro t ht
      rcases condTexts_forest n (st z.1) (Res.init p) [] id z.2 htd hx hw _ t ht with h | h
      · exact h
      · exact i2 t h
    · have := nest_forest (st z.1) (Res.init p) [] id z.2 (partsForest st p L .nil)
      show (forest (st z.1) _ [] id z.2 (partsForest st p L .nil)).nest ≤ d
      omega

/-- The serial run of a filter query below other steps stays in its buffers. -/
theorem FPre.serial_clean {B : List Step} {p : List (QStep Num)} {c : SCtx} (h : FPre B (pathRegs p) c) (hB : ∀ s ∈ B, isSlice s = false)
    (hne : B ≠ []) (O : NumOps) (hp : CleanPath p)
    (hn : namedAfterFilter p = true) (hf : hasFilter p = true) (hsz : (tableOf c).statesNum ≤ 100) (pre trail : Str) (v : J)
    (hpre : pre.all isWs = true) (htr : trail.all isWs = true) (hsp : pre.head? ≠ some ' ')
    (hc : v.isContainer = true) (hwf : v.wf = true) (hk : v.keysTight = true)
    (hdep : v.depth ≤ MAX_STACK) (htd : v.tidy = true) (hap : Apart B v)
    (hdec : ∀ z ∈ partsOf B v, z.2.decided (arith O) O.atof p = true)
    (htok : (toks id pre.length v).any tokUb = false) (hw : v.within 998 = true) (hlen : v.tokenCount ≤ MAX_TUPLE_LIST)
    (hcnt : ((partsOf B v).flatMap fun z => z.2.select (arith O) O.atof (unfiltered p)).length ≤ MAX_OUTPUT)
    (hsel : ∀ z ∈ partsOf B v, ∀ y ∈ z.2.select (arith O) O.atof (unfiltered p), y.render.length ≤ 998) :
    let r := serialPartialRun O (tableOf c) (contextOf c) none (pre ++ v.render ++ trail)
    r.sa.ub = false ∧ r.pf.ub = false := by
  obtain ⟨ms', he⟩ := execAutomaton_doc (tableOf c) pre trail v id SA.init hpre htr hsp hc hwf hk rfl
    hdep (by simpa [SA.init] using hdep)
  have htl : (execAutomaton (tableOf c) (pre ++ v.render ++ trail) SA.init).tl =
      emit (tableOf c) id false 1 0 v := by
    rw [he]
    show (SA.init.emitAll _).tl = _
    rw [emitAll_tl]; rfl
  obtain ⟨st, hst, hs, hrun⟩ := h.family hB
  have hft : emit (tableOf c) id false 1 0 v = forestTuples (partsForest st p (partsOf B v) .nil) := by
    have := outer_tuples h hB hf hrun v [] id false 0 .nil (by
      intro a ha hm
      have : a = [] := by simpa using ha
      exact matches_ne hne hm this) hap
    simpa [forestTuples, partsOf, SCtx.run] using this
  have hkept : ∀ z ∈ partsOf B v, z.2.wf = true ∧ z.2.tidy = true ∧ z.2.within 998 = true ∧ z.2.depth ≤ MAX_STACK := by
    intro z hz
    have hz' := parts_kept v [] z (List.mem_filter.1 hz).1
    exact ⟨hz'.1 hwf, hz'.2.1 htd, hz'.2.2.2 _ hw, Nat.le_trans hz'.2.2.1 hdep⟩
  obtain ⟨i1, i2, i3, i4, i5, i6⟩ := parts_forest hs O hp hn (partsOf B v) (fun z hz => ⟨(hkept z hz).1, (hkept z hz).2.1, hdec z hz⟩)
  obtain ⟨b1, b2, b3⟩ := parts_bounds hs O hp hn 998 MAX_STACK (partsOf B v) (fun z hz => (hkept z hz).2)
  have hcl : ∀ t ∈ (partsForest st p (partsOf B v) .nil).cands, t.length ≤ 998 := by
    intro t ht
    rw [b1] at ht
    obtain ⟨y, hy, rfl⟩ := List.mem_map.1 ht
    obtain ⟨z, hz, hy⟩ := List.mem_flatMap.1 hy
    exact hsel z hz y hy
  constructor
  · have hsa : (execAutomaton (tableOf c) (pre ++ v.render ++ trail) SA.init).ub =
        ((SA.emitAll SA.init (emit (tableOf c) id false 1 0 v)).ub || (toks id pre.length v).any tokUb) := by
      rw [he]; rfl
    show (execAutomaton (tableOf c) (pre ++ v.render ++ trail) SA.init).ub = false
    rw [hsa, htok, Bool.or_false, Bool.eq_false_iff, ne_eq, emitAll_ub]
    rintro (h1 | ⟨t, h1, h2⟩ | ⟨_, h1⟩)
    · cases h1
    · rw [hft] at h1
      have : t.text.length ≤ 998 := by
        rcases forestTuples_texts _ t h1 with h | h | h | h
        · rw [h]; simp
        · rw [h]; simp
        · exact hcl _ h
        · exact b2 _ h
      simp only [MAX_TEXT] at h2
      omega
    · have := emit_length (tableOf c) id false 1 0 v
      simp only [SA.init, List.length_nil] at h1
      omega
  · simp only [serialPartialRun]
    rw [htl, hft]
    have hone := h.hasCond (hst []) (hs []) hf hsz
    have hgen : generate O (contextOf c) (PF.init (contextOf c)) (forestTuples (partsForest st p (partsOf B v) .nil)) =
        (forestTuples (partsForest st p (partsOf B v) .nil)).foldl (pfStep O (contextOf c)) (PF.init (contextOf c)) := by
      unfold generate
      rw [if_neg]
      intro hall
      obtain ⟨s, hs1, hs2⟩ := hone
      have := List.all_eq_true.1 hall s (List.mem_range.2 hs1)
      cases hc : (PF.init (contextOf c)).conds s with
      | none => rw [hc] at hs2; cases hs2
      | some _ => rw [hc] at this; cases this
    rw [hgen]
    refine forest_ub (names := condNames (contextOf c)) (holds := filterHolds O (contextOf c))
      (partsForest st p (partsOf B v) .nil) (PF.init (contextOf c)) (PF.init (contextOf c)).conds []
      (i5 hf) i1 i2 i3 ⟨rfl, rfl, rfl, rfl⟩ i4 (h.init_ub hB hsz) ?_ ?_ hcl
    · simp only [MAX_STACK] at b3
      simp only [MAX_STACK_ELEMENT]
      omega
    · rw [b1]
      simpa using hcnt

/-! ### Compiling -/

/-- The expression of a path `B` followed by the path with filters `p`. -/
def belowAst (B : List Step) (p : List (QStep Num)) : Ast := p.foldl fstepAst (astOf B)

theorem construct_below (B : List Step) (p : List (QStep Num)) (hp : refsNamed p = true) (c : SCtx) :
    construct (belowAst B p) c = p.foldl fctxStep (B.foldl ctxStep c) := by
  unfold belowAst
  rw [construct_fsteps p _ hp, construct_astOf]

theorem ctx_pushed (B : List Step) (hB : ∀ s ∈ B, isSlice s = false) : ∀ (P : List Step) (g : Option Bool),
    ∃ g', B.foldl ctxStep { SCtx.init with st := P.map seOf, lastGen := g } =
      { SCtx.init with st := (P ++ B).map seOf, lastGen := g' } := by
  induction B with
  | nil => intro P g; exact ⟨g, by simp⟩
  | cons s B ih =>
    intro P g
    have h1 : ∃ g', ctxStep { SCtx.init with st := P.map seOf, lastGen := g } s =
        { SCtx.init with st := (P ++ [s]).map seOf, lastGen := g' } := by
      have := hB s (by simp)
      cases s with
      | slice a b => cases this
      | _ => exact ⟨_, by simp [ctxStep, SCtx.push]; rfl⟩
    obtain ⟨g1, h1⟩ := h1
    obtain ⟨g2, h2⟩ := ih (fun s hs => hB s (by simp [hs])) (P ++ [s]) g1
    exact ⟨g2, by rw [List.foldl_cons, h1, h2]; simp⟩

theorem below_build (B : List Step) (hB : ∀ s ∈ B, isSlice s = false) (p : List (QStep Num)) (h0 : p ≠ []) (hp : CleanPath p)
    (hn : namedAfterFilter p = true) (hr : returnsTested p = false) (hl : (B.filterMap stepName ++ pathNames p).length ≤ 253) :
    ∃ c, buildCtx (belowAst B p) = some c ∧ FPre B (pathRegs p) c := by
  obtain ⟨g, hg⟩ := ctx_pushed B hB [] SCtx.init.lastGen
  have hg' : B.foldl ctxStep .init = { SCtx.init with st := B.map seOf, lastGen := g } := hg
  obtain ⟨c, hc, h⟩ := fpre_of_build B (B.foldl ctxStep .init) (by rw [hg']) p h0 hp hn hr hl
  exact ⟨c, hc _ (construct_below B p hp.1 .init), h⟩

end JPS
