import Verif.FilterTable
import Verif.Seen
/-!
# What the filter sees of a document

For a path with filters, the tuples of a document form a `Forest`.
-/

set_option autoImplicit false

namespace JPS
open Spec

/-! ### What remains of a path below a word -/

/-- Position in a path: the test of the element just entered, the properties tested by the innermost
filter, the names read since its element, and the rest of the path. -/
structure Res where
  tst : Option (Expr Num)
  ds : List (List Str)
  pre : List Str
  rem : Option (List (QStep Num))

/-- Nothing can match any more. -/
def Res.dead : Res := ⟨none, [], [], none⟩

/-- At the start of a path. -/
def Res.init (p : List (QStep Num)) : Res := ⟨none, [], [], some p⟩

/-- The rest of a path after a name. -/
def remProp (k : Str) : Option (List (QStep Num)) → Option (List (QStep Num))
  | some (.prop k' :: p) => if k' = k then some p else none
  | _ => none

/-- The position after a name. -/
def Res.key (r : Res) (k : Str) : Res := ⟨none, r.ds, r.pre ++ [k], remProp k r.rem⟩

/-- The position in an array. -/
def Res.elem (r : Res) : Res :=
  match r.rem with
  | some (.all :: p) => ⟨none, [], [], some p⟩
  | some (.filter e :: p) => ⟨some e, testedPaths e, [], some p⟩
  | _ => .dead

/-- The words registered below a position. -/
def Res.Lang (r : Res) (x : List Step) (ro : Role) : Prop :=
  (x = [] ∧ ∃ e, r.tst = some e ∧ ro = .pred e (testedPaths e)) ∨
  (∃ c ∈ r.ds, ∃ c', r.pre ++ c' = c ∧ x = c'.map Step.prop ∧ ro = .cond c) ∨
  (∃ p, r.rem = some p ∧ (⟨x, ro⟩ ∈ regs [] p ∨ (x = p.map sk ∧ ro = .out)))

/-- The path is read to its end. -/
def remDone : Option (List (QStep Num)) → Bool
  | some [] => true
  | _ => false

theorem remDone_iff {p : Option (List (QStep Num))} : remDone p = true ↔ p = some [] := by
  unfold remDone
  split <;> simp_all

/-- What the position stands for. -/
def Res.role (r : Res) : Option Role :=
  match r.tst with
  | some e => some (.pred e (testedPaths e))
  | none => if r.pre ∈ r.ds then some (.cond r.pre) else if remDone r.rem then some .out else none

theorem regs_prefix : ∀ (p : List (QStep Num)) (u : List Step),
    regs u p = (regs [] p).map fun r => ⟨u ++ r.w, r.role⟩
  | [], u => rfl
  | .prop k :: p, u => by
    simp only [regs, List.nil_append]
    rw [regs_prefix p (u ++ [Step.prop k]), regs_prefix p [Step.prop k], List.map_map]
    apply List.map_congr_left
    intro r _; simp
  | .all :: p, u => by
    simp only [regs, List.nil_append]
    rw [regs_prefix p (u ++ [Step.all]), regs_prefix p [Step.all], List.map_map]
    apply List.map_congr_left
    intro r _; simp
  | .filter e :: p, u => by
    simp only [regs, List.nil_append]
    rw [regs_prefix p (u ++ [Step.all]), regs_prefix p [Step.all], List.map_append, List.map_map]
    congr 1
    · simp [block, Function.comp_def]
    · apply List.map_congr_left
      intro r _; simp

theorem mem_regs {p : List (QStep Num)} {s : Step} {x : List Step} {ro : Role} :
    (⟨s :: x, ro⟩ : Reg) ∈ regs [s] p ↔ (⟨x, ro⟩ : Reg) ∈ regs [] p := by
  rw [regs_prefix p [s], List.mem_map]
  constructor
  · rintro ⟨⟨w, r⟩, h, e⟩
    simp only [List.cons_append, List.nil_append, Reg.mk.injEq, List.cons.injEq, true_and] at e
    rw [← e.1, ← e.2]; exact h
  · intro h; exact ⟨_, h, rfl⟩

theorem regs_head {p : List (QStep Num)} {s t : Step} {x : List Step} {ro : Role} (h : s ≠ t) :
    (⟨t :: x, ro⟩ : Reg) ∉ regs [s] p := by
  rw [regs_prefix p [s], List.mem_map]
  rintro ⟨⟨w, r⟩, _, e⟩
  simp only [List.cons_append, List.nil_append, Reg.mk.injEq, List.cons.injEq] at e
  exact h e.1.1

theorem regs_nonempty : ∀ (p : List (QStep Num)) (ro : Role), (⟨[], ro⟩ : Reg) ∉ regs [] p
  | [], ro => by simp [regs]
  | .prop k :: p, ro => by
    simp only [regs, List.nil_append]
    rw [regs_prefix p, List.mem_map]
    rintro ⟨⟨w, r⟩, _, e⟩; simp at e
  | .all :: p, ro => by
    simp only [regs, List.nil_append]
    rw [regs_prefix p, List.mem_map]
    rintro ⟨⟨w, r⟩, _, e⟩; simp at e
  | .filter e :: p, ro => by
    simp only [regs, List.nil_append, List.mem_append]
    rw [regs_prefix p, List.mem_map]
    rintro (h | ⟨⟨w, r⟩, _, e⟩)
    · simp [block] at h
    · simp at e

theorem Res.lang_key (r : Res) (k : Str) (x : List Step) (ro : Role) :
    r.Lang (.prop k :: x) ro ↔ (r.key k).Lang x ro := by
  unfold Res.Lang Res.key
  simp only [reduceCtorEq, false_and, and_false, exists_false, false_or]
  apply or_congr
  · constructor
    · rintro ⟨c, hc, c', h1, h2, h3⟩
      cases c' with
      | nil => simp at h2
      | cons a c' =>
        simp only [List.map_cons, List.cons.injEq, Step.prop.injEq] at h2
        obtain ⟨rfl, h2⟩ := h2
        exact ⟨c, hc, c', by simpa using h1, h2, h3⟩
    · rintro ⟨c, hc, c', h1, h2, h3⟩
      exact ⟨c, hc, k :: c', by simpa using h1, by simp [h2], h3⟩
  · cases hr : r.rem with
    | none => simp [remProp]
    | some p =>
      cases p with
      | nil => simp [remProp, regs]
      | cons s p =>
        cases s with
        | prop k' =>
          by_cases hk : k' = k
          · subst hk
            simp only [remProp, if_true, Option.some.injEq, exists_eq_left', regs, List.nil_append, mem_regs,
              List.map_cons, sk, List.cons.injEq, true_and]
          · simp only [remProp, if_neg hk, Option.some.injEq, exists_eq_left', regs, List.nil_append,
              List.map_cons, sk, List.cons.injEq, Step.prop.injEq, Ne.symm hk, false_and, or_false, reduceCtorEq,
              exists_false, iff_false]
            exact regs_head (fun h => hk (by simpa using h))
        | all =>
          simp only [remProp, Option.some.injEq, exists_eq_left', regs, List.nil_append,
              List.map_cons, sk, List.cons.injEq, false_and, or_false, reduceCtorEq,
              exists_false, iff_false]
          exact regs_head (by simp)
        | filter e =>
          simp only [remProp, Option.some.injEq, exists_eq_left', regs, List.nil_append, List.mem_append,
              List.map_cons, sk, List.cons.injEq, false_and, or_false, reduceCtorEq,
              exists_false, iff_false, not_or]
          refine ⟨by simp [block], regs_head (by simp)⟩

theorem Res.lang_elem (r : Res) (x : List Step) (ro : Role) :
    r.Lang (.all :: x) ro ↔ r.elem.Lang x ro := by
  have h2 : ¬ ∃ c ∈ r.ds, ∃ c', r.pre ++ c' = c ∧ Step.all :: x = c'.map Step.prop ∧ ro = .cond c := by
    rintro ⟨c, _, c', _, h, _⟩
    cases c' <;> simp at h
  unfold Res.Lang Res.elem
  simp only [reduceCtorEq, false_and, false_or, h2]
  cases hr : r.rem with
  | none => simp [Res.dead]
  | some p =>
    cases p with
    | nil => simp [Res.dead, regs]
    | cons s p =>
      cases s with
      | prop k =>
        simp only [Option.some.injEq, exists_eq_left', regs, List.nil_append, List.map_cons, sk, List.cons.injEq,
          reduceCtorEq, false_and, or_false, Res.dead, List.not_mem_nil, exists_false, and_false, iff_false]
        exact regs_head (by simp)
      | all =>
        simp only [Option.some.injEq, exists_eq_left', regs, List.nil_append, List.map_cons, sk, List.cons.injEq,
          true_and, mem_regs, reduceCtorEq, false_and, exists_false, and_false, false_or, List.not_mem_nil]
      | filter e =>
        simp only [Option.some.injEq, exists_eq_left', regs, List.nil_append, List.map_cons, sk, List.cons.injEq,
          true_and, List.mem_append, mem_regs]
        rw [or_assoc, ← or_assoc (b := ∃ c ∈ testedPaths e, _)]
        apply or_congr
        · simp only [block, List.mem_cons, Reg.mk.injEq, List.cons.injEq, true_and, List.mem_map]
          apply or_congr
          · exact Iff.rfl
          · constructor
            · rintro ⟨q, hq, h1, h2⟩
              exact ⟨q, hq, q, rfl, by simpa using h1.symm, h2.symm⟩
            · rintro ⟨q, hq, q', h1, h2, h3⟩
              subst h1
              exact ⟨q', hq, by simpa using h2.symm, h3.symm⟩
        · exact Iff.rfl

theorem Res.role_lang {r : Res} {ro : Role} (h : r.role = some ro) : r.Lang [] ro := by
  unfold Res.role at h
  cases ht : r.tst with
  | some e =>
    rw [ht] at h
    simp only [Option.some.injEq] at h
    exact .inl ⟨rfl, e, ht, h.symm⟩
  | none =>
    rw [ht] at h
    simp only at h
    split at h
    · rename_i hp
      simp only [Option.some.injEq] at h
      exact .inr (.inl ⟨_, hp, [], by simp, rfl, h.symm⟩)
    · split at h
      · rename_i hr
        simp only [Option.some.injEq] at h
        exact .inr (.inr ⟨[], remDone_iff.1 hr, .inr ⟨rfl, h.symm⟩⟩)
      · cases h

theorem Res.lang_role {r : Res} {ro : Role} (h : r.Lang [] ro) : r.role ≠ none := by
  unfold Res.role
  cases ht : r.tst with
  | some e => simp
  | none =>
    simp only
    rcases h with ⟨_, e, h, _⟩ | ⟨c, hc, c', h1, h2, _⟩ | ⟨p, hp, h | ⟨h, _⟩⟩
    · rw [ht] at h; cases h
    · have : c' = [] := by cases c' <;> simp at h2 ⊢
      subst this
      rw [List.append_nil] at h1
      rw [if_pos (h1 ▸ hc)]; simp
    · exact absurd h (regs_nonempty p ro)
    · have : p = [] := by cases p <;> simp at h ⊢
      subst this
      split
      · simp
      · rw [if_pos (remDone_iff.2 hp)]; simp

/-- The registered words that extend `w` are those of the position `r`. -/
structure Track (Q : List Reg) (w : List Step) (r : Res) : Prop where
  simple : SimpleWord w
  lang : ∀ x ro, (⟨w ++ x, ro⟩ : Reg) ∈ Q ↔ r.Lang x ro

namespace Track
variable {Q : List Reg} {w : List Step} {r : Res}

theorem key (h : Track Q w r) (k : Str) : Track Q (w ++ [Step.prop k]) (r.key k) := by
  refine ⟨?_, ?_⟩
  · intro s hs
    rcases List.mem_append.1 hs with hs | hs
    · exact h.simple s hs
    · simp at hs; exact .inr ⟨k, hs⟩
  · intro x ro
    rw [← r.lang_key, ← h.lang]; simp

theorem elem (h : Track Q w r) : Track Q (w ++ [Step.all]) r.elem := by
  refine ⟨?_, ?_⟩
  · intro s hs
    rcases List.mem_append.1 hs with hs | hs
    · exact h.simple s hs
    · simp at hs; exact .inl hs
  · intro x ro
    rw [← r.lang_elem, ← h.lang]; simp

theorem role (h : Track Q w r) (hn : (Q.map Reg.w).Nodup) : roleOf Q w = r.role := by
  have hl := h.lang []
  simp only [List.append_nil] at hl
  cases hr : roleOf Q w with
  | some ro =>
    have := (hl ro).1 ((roleOf_some hn).1 hr)
    cases hrr : r.role with
    | none => exact absurd hrr (Res.lang_role this)
    | some ro' =>
      have h2 := (roleOf_some hn).2 ((hl ro').2 (Res.role_lang hrr))
      rw [hr] at h2; exact h2
  | none =>
    cases hrr : r.role with
    | none => rfl
    | some ro' =>
      have h2 := (roleOf_some hn).2 ((hl ro').2 (Res.role_lang hrr))
      rw [hr] at h2; cases h2

/-- A tested property is not the result. -/
theorem cond_not_out (h : Track Q w r) (hn : (Q.map Reg.w).Nodup) (hp : r.pre ∈ r.ds) : r.rem ≠ some [] := by
  intro hr
  have hl := h.lang []
  simp only [List.append_nil] at hl
  have h1 := (roleOf_some hn).2 ((hl (.cond r.pre)).2 (.inr (.inl ⟨_, hp, [], by simp, rfl, rfl⟩)))
  have h2 := (roleOf_some hn).2 ((hl .out).2 (.inr (.inr ⟨[], hr, .inr ⟨rfl, rfl⟩⟩)))
  rw [h1] at h2; cases h2

end Track

/-! ### The forest of a value -/

/-- A scalar. -/
def leafForest (st : Nat) (r : Res) (t : Str) (rest : Forest) : Forest :=
  match r.role with
  | some .out => .cand st t rest
  | some (.cond c) => .cond st (joinPath c) t rest
  | _ => rest

mutual
/-- The items of a value met at the position `r` after the word `w`, before the items `rest`. -/
def forest (st : List Step → Nat) (r : Res) (w : List Step) (obs : Str → Str) : J → Forest → Forest
  | .lit t, rest => leafForest (st w) r (obs t) rest
  | .str s, rest => leafForest (st w) r ('"' :: s ++ ['"']) rest
  | .arr a es, rest =>
    match r.role with
    | some .out => forestE st r.elem (w ++ [Step.all]) es (.cand (st w) (J.arr a es).render rest)
    | some (.cond c) => .cond (st w) (joinPath c) [] (forestE st r.elem (w ++ [Step.all]) es rest)
    | _ => forestE st r.elem (w ++ [Step.all]) es rest
  | .obj a ms, rest =>
    match r.role with
    | some .out => forestM st r w ms (.cand (st w) (J.obj a ms).render rest)
    | some (.cond c) => .cond (st w) (joinPath c) [] (forestM st r w ms rest)
    | some (.pred _ _) => .elem (st w) (forestM st r w ms .nil) rest
    | none => forestM st r w ms rest
def forestE (st : List Step → Nat) (r : Res) (w : List Step) : Elems → Forest → Forest
  | .nil, rest => rest
  | .cons _ v post tail, rest => forest st r w (litObs false post (nextE tail)) v (forestE st r w tail rest)
def forestM (st : List Step → Nat) (r : Res) (w : List Step) : Members → Forest → Forest
  | .nil, rest => rest
  | .cons _ k _ pre2 v post tail, rest =>
    forest st (r.key k) (w ++ [Step.prop k]) (litObs pre2.isEmpty post (nextM tail)) v (forestM st r w tail rest)
end

theorem elem_not_dead_tst {r : Res} : (r.key []).tst = none := rfl

section
variable {Q : List Reg} {T : List (Option Ast)} {c : SCtx} (h : FWords Q T c)
include h

mutual
/-- The tuples of the forest are those the automaton emits. -/
theorem forest_tuples (r : Res) (w : List Step) (ht : Track Q w r) (obs : Str → Str) (el : Bool) (cnt : Nat)
    (hel : r.tst.isSome = true → el = true) : ∀ (v : J) (rest : Forest),
    forestTuples (forest c.state r w obs v rest) = emit (tableOf c) obs el (c.state w) cnt v ++ forestTuples rest
  | .lit t, rest => by
    have hm := h.matched ht.simple cnt
    rw [ht.role h.nodup] at hm
    unfold forest emit leafForest
    cases hr : r.role with
    | none => rw [hr] at hm; rw [hm]; rfl
    | some ro => rw [hr] at hm; rw [hm]; cases ro <;> rfl
  | .str t, rest => by
    have hm := h.matched ht.simple cnt
    rw [ht.role h.nodup] at hm
    unfold forest emit leafForest
    cases hr : r.role with
    | none => rw [hr] at hm; rw [hm]; rfl
    | some ro => rw [hr] at hm; rw [hm]; cases ro <;> rfl
  | .arr a es, rest => by
    have hm := h.matched ht.simple cnt
    rw [ht.role h.nodup] at hm
    have ih := forestE_tuples r.elem (w ++ [Step.all]) ht.elem es 0
    unfold forest emit
    rw [h.goArr w cnt]
    cases hr : r.role with
    | none => rw [hr] at hm; rw [hm]; exact ih rest
    | some ro =>
      rw [hr] at hm; rw [hm]
      cases ro with
      | pred e ds => exact ih rest
      | cond q => simp only [forestTuples, FWords.accOf, ih rest, List.cons_append]
      | out => simp only [forestTuples, FWords.accOf, ih _, List.append_assoc, List.cons_append, List.nil_append]
  | .obj a ms, rest => by
    have hm := h.matched ht.simple cnt
    rw [ht.role h.nodup] at hm
    have ih := forestM_tuples r w ht cnt ms
    unfold forest emit
    cases hr : r.role with
    | none => rw [hr] at hm; rw [hm]; exact ih rest
    | some ro =>
      rw [hr] at hm; rw [hm]
      cases ro with
      | pred e ds =>
        have htst : r.tst.isSome = true := by
          unfold Res.role at hr
          cases hts : r.tst with
          | some e => rfl
          | none =>
            rw [hts] at hr
            simp only at hr
            split at hr
            · cases hr
            · split at hr <;> cases hr
        rw [hel htst]
        simp only [forestTuples, FWords.accOf, ih .nil, List.append_nil, if_true, List.cons_append, List.append_assoc,
          List.nil_append]
      | cond q => simp only [forestTuples, FWords.accOf, ih rest, List.cons_append]
      | out => simp only [forestTuples, FWords.accOf, ih _, List.append_assoc, List.cons_append, List.nil_append]
theorem forestE_tuples (r : Res) (w : List Step) (ht : Track Q w r) : ∀ (es : Elems) (cnt : Nat) (rest : Forest),
    forestTuples (forestE c.state r w es rest) = emitE (tableOf c) (c.state w) cnt es ++ forestTuples rest
  | .nil, _, rest => by simp [forestE, emitE]
  | .cons pre v post tail, cnt, rest => by
    unfold forestE emitE
    rw [forest_tuples r w ht _ true cnt (fun _ => rfl) v, forestE_tuples r w ht tail (cnt + 1), List.append_assoc]
theorem forestM_tuples (r : Res) (w : List Step) (ht : Track Q w r) (cnt : Nat) : ∀ (ms : Members) (rest : Forest),
    forestTuples (forestM c.state r w ms rest) = emitM (tableOf c) (c.state w) cnt ms ++ forestTuples rest
  | .nil, rest => by simp [forestM, emitM]
  | .cons pre k mid pre2 v post tail, rest => by
    unfold forestM emitM
    rw [forest_tuples (r.key k) (w ++ [Step.prop k]) (ht.key k) _ false 0 (by simp [Res.key]) v,
      forestM_tuples r w ht cnt tail, List.append_assoc, h.goKey w cnt k]
end

end

end JPS
