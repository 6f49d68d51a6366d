import Verif.FilterRun
/-!
# Filter queries below other steps

The automaton of a path `B`, without slices, followed by a path with filters.  Below a location that `B` matches and that is
not nested in another one, it behaves as the automaton of the path with filters alone.
-/

set_option autoImplicit false

namespace JPS
open Spec

/-! ### Words and locations -/

/-- The steps that read a label. -/
def stepLab : Label → Step
  | .key k => .prop k
  | .elem _ => .all

/-- The word of a location. -/
def locWord (l : Loc) : List Step := l.map stepLab

theorem locWord_key (l : Loc) (k : Str) : locWord (l ++ [.key k]) = locWord l ++ [.prop k] := by simp [locWord, stepLab]
theorem locWord_elem (l : Loc) (i : Nat) : locWord (l ++ [.elem i]) = locWord l ++ [.all] := by simp [locWord, stepLab]

theorem word_locWord (c : SCtx) (l : Loc) : c.word (locWord l) = l.map c.col := by
  unfold SCtx.word locWord
  rw [List.map_map, List.map_map]
  apply List.map_congr_left
  intro x _
  cases x <;> rfl

theorem matches_simple : ∀ (w : List Step), SimpleWord w → ∀ (b : Loc), Matches w b ↔ locWord b = w
  | [], _, b => by
    rw [matches_nil_left]
    cases b <;> simp [locWord]
  | s :: w, hw, [] => by
    rw [matches_nil]; simp [locWord]
  | s :: w, hw, x :: b => by
    have ih := matches_simple w (fun s hs => hw s (by simp [hs])) b
    rcases hw s (by simp) with rfl | ⟨k, rfl⟩
    · rw [matches_all, ih]
      cases x <;> simp [locWord, stepLab]
    · rw [matches_prop, ih]
      cases x <;> simp [locWord, stepLab]

theorem locWord_lab {w : List Step} (hw : SimpleWord w) : locWord (w.map lab) = w := by
  induction w with
  | nil => rfl
  | cons s w ih =>
    have := ih (fun s hs => hw s (by simp [hs]))
    unfold locWord at this ⊢
    simp only [List.map_cons, this]
    rcases hw s (by simp) with rfl | ⟨k, rfl⟩ <;> rfl

/-- A location that a path matches. -/
def someLoc (B : List Step) : Loc := B.map fun s => match s with
  | .prop k => .key k
  | .descProp k => .key k
  | _ => .elem 0

theorem someLoc_matches {B : List Step} (hB : ∀ s ∈ B, isSlice s = false) : Matches B (someLoc B) := by
  induction B with
  | nil => exact .nil
  | cons s B ih =>
    have ih := ih (fun s hs => hB s (by simp [hs]))
    cases s with
    | dotAll => exact .dotAll _ ih
    | descAll => exact .descAll _ ih
    | prop k => exact .prop k ih
    | descProp k => exact .descProp k ih
    | all => exact .all 0 ih
    | slice a b => have := hB (.slice a b) (by simp); simp [isSlice] at this

/-! ### The words of a path with filters -/

theorem regs_counts : ∀ (p : List (QStep Num)) (u : List Step), ∀ r ∈ regs u p,
    u.count .all ≤ r.w.count .all ∧ r.w.count .all ≤ (u ++ p.map sk).count .all
  | [], u, r, hr => by simp [regs] at hr
  | .prop k :: p, u, r, hr => by
    have := regs_counts p (u ++ [.prop k]) r hr
    simp only [List.map_cons, sk, List.count_append, List.count_cons, List.count_nil] at this ⊢
    simp at this ⊢; omega
  | .all :: p, u, r, hr => by
    have := regs_counts p (u ++ [.all]) r hr
    simp only [List.map_cons, sk, List.count_append, List.count_cons, List.count_nil] at this ⊢
    simp at this ⊢; omega
  | .filter e :: p, u, r, hr => by
    simp only [regs, List.mem_append] at hr
    rcases hr with hr | hr
    · have hc : r.w.count .all = (u ++ [Step.all]).count .all := by
        simp only [block, List.mem_cons, List.mem_map] at hr
        rcases hr with rfl | ⟨q, _, rfl⟩
        · rfl
        · have : (q.map Step.prop).count .all = 0 := List.count_eq_zero.2 (by simp)
          rw [List.count_append (l₁ := u ++ [Step.all]), this, Nat.add_zero]
      rw [hc]
      simp only [List.map_cons, sk, List.count_append, List.count_cons, List.count_nil]
      simp
    · have := regs_counts p (u ++ [.all]) r hr
      simp only [List.map_cons, sk, List.count_append, List.count_cons, List.count_nil] at this ⊢
      simp at this ⊢; omega

theorem regs_pairwise : ∀ (p : List (QStep Num)) (u : List Step),
    (regs u p).Pairwise fun r s => r.w.count .all ≤ s.w.count .all
  | [], u => by simp [regs]
  | .prop k :: p, u => regs_pairwise p (u ++ [.prop k])
  | .all :: p, u => regs_pairwise p (u ++ [.all])
  | .filter e :: p, u => by
    have hc : ∀ r ∈ block (u ++ [.all]) e, r.w.count .all = (u ++ [Step.all]).count .all := by
      intro r hr
      simp only [block, List.mem_cons, List.mem_map] at hr
      rcases hr with rfl | ⟨q, _, rfl⟩
      · rfl
      · have : (q.map Step.prop).count .all = 0 := List.count_eq_zero.2 (by simp)
        rw [List.count_append (l₁ := u ++ [Step.all]), this, Nat.add_zero]
    simp only [regs]
    rw [List.pairwise_append]
    refine ⟨?_, regs_pairwise p (u ++ [.all]), ?_⟩
    · rw [List.pairwise_iff_forall_sublist]
      intro a b hab
      have ha := hab.subset (a := a) (by simp)
      have hb := hab.subset (a := b) (by simp)
      rw [hc a ha, hc b hb]; exact Nat.le_refl _
    · intro r hr s hs
      rw [hc r hr]
      exact (regs_counts p _ s hs).1

theorem pathRegs_pairwise (p : List (QStep Num)) :
    (pathRegs p).Pairwise fun r s => r.w.count .all ≤ s.w.count .all := by
  unfold pathRegs
  rw [List.pairwise_append]
  refine ⟨regs_pairwise p [], by simp, ?_⟩
  intro r hr s hs
  simp only [List.mem_singleton] at hs; subst hs
  simpa using (regs_counts p [] r hr).2

theorem takeWhile_all (a z : List Step) :
    ((a ++ [Step.all]) ++ z).takeWhile (fun s => decide (s ≠ .all)) = a.takeWhile fun s => decide (s ≠ .all) := by
  induction a with
  | nil => simp
  | cons s a ih =>
    simp only [List.cons_append, List.takeWhile_cons]
    split
    · rw [ih]
    · rfl

theorem regs_shared : ∀ (p : List (QStep Num)) (u : List Step), ∀ r ∈ regs u p,
    ∃ a z z', r.w = (a ++ [Step.all]) ++ z ∧ u ++ p.map sk = (a ++ [Step.all]) ++ z'
  | [], u, r, hr => by simp [regs] at hr
  | .prop k :: p, u, r, hr => by
    obtain ⟨a, z, z', h1, h2⟩ := regs_shared p (u ++ [.prop k]) r hr
    exact ⟨a, z, z', h1, by rw [← h2]; simp [sk]⟩
  | .all :: p, u, r, hr => by
    obtain ⟨a, z, z', h1, h2⟩ := regs_shared p (u ++ [.all]) r hr
    exact ⟨a, z, z', h1, by rw [← h2]; simp [sk]⟩
  | .filter e :: p, u, r, hr => by
    simp only [regs, List.mem_append] at hr
    rcases hr with hr | hr
    · refine ⟨u, ?_⟩
      simp only [block, List.mem_cons, List.mem_map] at hr
      rcases hr with rfl | ⟨q, _, rfl⟩
      · exact ⟨[], p.map sk, by simp, by simp [sk]⟩
      · exact ⟨q.map .prop, p.map sk, by simp, by simp [sk]⟩
    · obtain ⟨a, z, z', h1, h2⟩ := regs_shared p (u ++ [.all]) r hr
      exact ⟨a, z, z', h1, by rw [← h2]; simp [sk]⟩

theorem pathRegs_names (p : List (QStep Num)) : ∀ r ∈ pathRegs p,
    r.w.takeWhile (fun s => decide (s ≠ .all)) = (p.map sk).takeWhile (fun s => decide (s ≠ .all)) := by
  intro r hr
  unfold pathRegs at hr
  rcases List.mem_append.1 hr with hr | hr
  · obtain ⟨a, z, z', h1, h2⟩ := regs_shared p [] r hr
    rw [List.nil_append] at h2
    rw [h1, h2, takeWhile_all, takeWhile_all]
  · simp only [List.mem_singleton] at hr; subst hr; rfl

/-- A registered word is no proper ending of an earlier one. -/
theorem pathRegs_suffix (p : List (QStep Num)) {k j : Nat} {r s : Reg} (hk : (pathRegs p)[k]? = some r)
    (hj : (pathRegs p)[j]? = some s) (hlt : k < j) {x : List Step} (he : r.w = x ++ s.w) : x = [] := by
  obtain ⟨k1, k2⟩ := List.getElem?_eq_some_iff.1 hk
  obtain ⟨j1, j2⟩ := List.getElem?_eq_some_iff.1 hj
  have hc := List.pairwise_iff_getElem.1 (pathRegs_pairwise p) k j k1 j1 hlt
  rw [k2, j2, he, List.count_append] at hc
  have h0 : x.count .all = 0 := by omega
  have hx : ∀ s ∈ x, decide (s ≠ Step.all) = true := by
    intro s hs
    rw [decide_eq_true_eq]
    rintro rfl
    exact List.count_eq_zero.1 h0 hs
  have h1 := pathRegs_names p r (List.mem_of_getElem? hk)
  have h2 := pathRegs_names p s (List.mem_of_getElem? hj)
  rw [he, List.takeWhile_append_of_pos hx, ← h2] at h1
  have := congrArg List.length h1
  rw [List.length_append] at this
  exact List.length_eq_zero_iff.1 (by omega)

theorem lang_last {it : Item} (h : it.opt = .none) : ∀ (L : List Item) (x : List Nat), Lang (L ++ [it]) x →
    ∃ y a, x = y ++ [a] ∧ it.edge a = true := by
  intro L x hl
  generalize hr : L ++ [it] = R at hl
  induction hl generalizing L with
  | nil => simp at hr
  | @one it' r a w h1 h2 h3 ih =>
    cases L with
    | nil =>
      simp only [List.nil_append, List.cons.injEq] at hr
      obtain ⟨rfl, hr⟩ := hr
      subst hr
      cases h3
      exact ⟨[], a, rfl, h2⟩
    | cons b L =>
      simp only [List.cons_append, List.cons.injEq] at hr
      obtain ⟨y, a', rfl, h⟩ := ih L hr.2
      exact ⟨a :: y, a', rfl, h⟩
  | @skip it' r w h1 h3 ih =>
    cases L with
    | nil =>
      simp only [List.nil_append, List.cons.injEq] at hr
      obtain ⟨rfl, hr⟩ := hr
      rw [h] at h1; cases h1
    | cons b L =>
      simp only [List.cons_append, List.cons.injEq] at hr
      exact ih L hr.2
  | @more it' r a w h1 h2 h3 ih =>
    obtain ⟨y, a', rfl, h⟩ := ih L hr
    exact ⟨a :: y, a', rfl, h⟩
  | @last it' r a w h1 h2 h3 ih =>
    cases L with
    | nil =>
      simp only [List.nil_append, List.cons.injEq] at hr
      obtain ⟨rfl, hr⟩ := hr
      rw [h] at h1; cases h1
    | cons b L =>
      simp only [List.cons_append, List.cons.injEq] at hr
      obtain ⟨y, a', rfl, h⟩ := ih L hr.2
      exact ⟨a :: y, a', rfl, h⟩
  | @again it' r a w h1 h2 h3 ih =>
    obtain ⟨y, a', rfl, h⟩ := ih L hr
    exact ⟨a :: y, a', rfl, h⟩

/-! ### States by stop value -/

namespace FPre
variable {B : List Step} {Q : List Reg} {c : SCtx}

theorem ok (h : FPre B Q c) : c.Ok := by
  obtain ⟨i, U, hQ, _⟩ := h.out
  have hQ0 : Q ≠ [] := by rintro rfl; simp at hQ
  refine ⟨by rw [h.inv.rules]; simpa using hQ0, ?_, h.inv.nodup, h.few⟩
  intro r hr it hit
  rw [h.inv.rules] at hr
  obtain ⟨q, _, rfl⟩ := List.mem_map.1 hr
  unfold itemsOf at hit
  obtain ⟨se, hse, hit⟩ := List.mem_flatMap.1 hit
  obtain ⟨s, _, rfl⟩ := List.mem_map.1 hse
  cases s <;> simp [seOf, SE.items, nameCol] at hit
  all_goals first
    | (subst hit; simp)
    | (rcases hit with rfl | rfl <;> simp)

theorem simple (h : FPre B Q c) {r : Reg} (hr : r ∈ Q) : SimpleWord r.w :=
  (h.inv.clean _ (List.mem_map_of_mem hr)).simple

theorem ranges_zero (h : FPre B Q c) (k : Nat) : c.ranges.getD k (0, 0) = (0, 0) := by
  rw [h.inv.ranges, List.getD_eq_getElem?_getD, List.getElem?_map]
  cases (Q.map Reg.w)[k]? <;> rfl

theorem inRange (h : FPre B Q c) {x : List Nat} (hx : c.letters x) (n : Nat) : (tableOf c).inRange (c.run x) n = true := by
  unfold QDfa.inRange
  have e1 := c.lower_run _ hx
  have e2 := c.upper_run _ hx
  rw [h.ranges_zero] at e1 e2
  rw [e1, e2]; simp

theorem goKey (h : FPre B Q c) (l : Loc) (n : Nat) (k : Str) :
    (tableOf c).go (c.run (l.map c.col)) n (some k) = c.run ((l ++ [Label.key k]).map c.col) := by
  unfold QDfa.go
  rw [if_pos (h.inRange (c.letters_map l) n), c.nextByStr_run h.ok _ (c.letters_map l) k]
  simp

theorem goArr (h : FPre B Q c) (l : Loc) (n i : Nat) :
    (tableOf c).go (c.run (l.map c.col)) n none = c.run ((l ++ [Label.elem i]).map c.col) := by
  unfold QDfa.go
  rw [if_pos (h.inRange (c.letters_map l) n), c.nextByStr_arr h.ok _ (c.letters_map l)]
  simp [SCtx.col]

theorem stopQ (h : FPre B Q c) (i : Nat) : (tableOf c).stop i = if i < c.dfa.rows.length + 1 then c.dfa.stop i else 0 := by
  have e : (tableOf c).stop i = if i < c.dfa.rows.length + 1 then stopOf c (c.dfa.stop i) else 0 := rfl
  rw [e]
  unfold stopOf
  rw [h.ranges_zero]
  simp

/-- The stop value of a state is the last rule its letters match. -/
theorem stop_letters (h : FPre B Q c) {x : List Nat} (hx : c.letters x) :
    (c.dfa.stop (c.run x) = 0 ∧ ∀ r ∈ Q, ¬ Lang (itemsOf c.names (B ++ r.w)) x) ∨
    (∃ k r, Q[k]? = some r ∧ c.dfa.stop (c.run x) = k + 1 ∧ Lang (itemsOf c.names (B ++ r.w)) x ∧
      ∀ k' r', k < k' → Q[k']? = some r' → ¬ Lang (itemsOf c.names (B ++ r'.w)) x) := by
  by_cases hne : x = []
  · subst hne
    refine .inl ⟨buildDfa_start c.rules _, ?_⟩
    intro r hr hl
    have h1 : Lang (itemsOf c.names (B ++ r.w)) (([] : Loc).map c.col) := hl
    rw [c.lang_matches h.few _ (h.inv.named _ (List.mem_map_of_mem hr)), matches_nil] at h1
    simp at h1
    exact h.nonempty r hr h1.2
  · rw [c.stop_run x hx hne, h.inv.rules]
    rcases lastMatch_spec ((Q.map Reg.w).map fun w => itemsOf c.names (B ++ w)) x 0 with ⟨h1, h2⟩ | ⟨k, r, h1, h2, h3, h4⟩
    · refine .inl ⟨h1, ?_⟩
      intro r hr
      exact h2 _ (List.mem_map.2 ⟨r.w, List.mem_map_of_mem hr, rfl⟩)
    · rw [List.map_map, List.getElem?_map] at h1
      cases hg : Q[k]? with
      | none => rw [hg] at h1; cases h1
      | some r' =>
        rw [hg] at h1
        simp only [Option.map_some, Function.comp, Option.some.injEq] at h1
        subst h1
        refine .inr ⟨k, r', hg, by omega, h3, ?_⟩
        intro k' r'' hlt hg'
        exact h4 k' _ hlt (by rw [List.map_map, List.getElem?_map, hg']; rfl)

theorem unsliced (h : FPre B Q c) (hB : ∀ s ∈ B, isSlice s = false) {r : Reg} (hr : r ∈ Q) :
    (B ++ r.w).map unslice = B ++ r.w := by
  rw [List.map_append]
  have h1 : ∀ l : List Step, (∀ s ∈ l, isSlice s = false) → l.map unslice = l := by
    intro l hl
    conv => rhs; rw [← List.map_id l]
    apply List.map_congr_left
    intro s hs
    have := hl s hs
    cases s <;> simp [isSlice] at this <;> rfl
  rw [h1 B hB, h1 r.w]
  intro s hs
  rcases h.simple hr s hs with rfl | ⟨k, rfl⟩ <;> rfl

/-- The stop value at a location. -/
theorem stop_loc (h : FPre B Q c) (hB : ∀ s ∈ B, isSlice s = false) (l : Loc) :
    (c.dfa.stop (c.run (l.map c.col)) = 0 ∧ ∀ r ∈ Q, ¬ Matches (B ++ r.w) l) ∨
    (∃ k r, Q[k]? = some r ∧ c.dfa.stop (c.run (l.map c.col)) = k + 1 ∧ Matches (B ++ r.w) l ∧
      ∀ k' r', k < k' → Q[k']? = some r' → ¬ Matches (B ++ r'.w) l) := by
  have hl : ∀ r ∈ Q, (Lang (itemsOf c.names (B ++ r.w)) (l.map c.col) ↔ Matches (B ++ r.w) l) := by
    intro r hr
    rw [c.lang_matches h.few _ (h.inv.named _ (List.mem_map_of_mem hr)), h.unsliced hB hr]
  rcases h.stop_letters (c.letters_map l) with ⟨h1, h2⟩ | ⟨k, r, h1, h2, h3, h4⟩
  · exact .inl ⟨h1, fun r hr hm => h2 r hr ((hl r hr).2 hm)⟩
  · refine .inr ⟨k, r, h1, h2, (hl r (List.mem_of_getElem? h1)).1 h3, ?_⟩
    intro k' r' hlt hg hm
    exact h4 k' r' hlt hg ((hl r' (List.mem_of_getElem? hg)).2 hm)

/-- Outside of everything that `B` matches, nothing is accepted. -/
theorem stop_outside (h : FPre B Q c) (hB : ∀ s ∈ B, isSlice s = false) {l : Loc} (hl : ∀ a, a <+: l → ¬ Matches B a) :
    c.dfa.stop (c.run (l.map c.col)) = 0 := by
  rcases h.stop_loc hB l with ⟨h1, _⟩ | ⟨k, r, _, _, h3, _⟩
  · exact h1
  · obtain ⟨l1, l2, rfl, m1, _⟩ := matches_split h3
    exact absurd m1 (hl l1 (List.prefix_append _ _))

end FPre

/-- The state `s` has the stop value of the word `w`. -/
def WordState (Q : List Reg) (c : SCtx) (w : List Step) (s : Nat) : Prop :=
  s < c.dfa.rows.length + 1 ∧ ((c.dfa.stop s = 0 ∧ roleOf Q w = none) ∨
    ∃ k r, Q[k]? = some ⟨w, r⟩ ∧ roleOf Q w = some r ∧ c.dfa.stop s = k + 1)

namespace FPre
variable {B : List Step} {Q : List Reg} {c : SCtx}

/-- Below a location `y` matched by `B`, if no other location on the way is. -/
theorem stands (h : FPre B Q c) (hB : ∀ s ∈ B, isSlice s = false) {y m : Loc} (hy : Matches B y)
    (hu : ∀ a, a <+: y ++ m → Matches B a → a = y) : WordState Q c (locWord m) (c.run ((y ++ m).map c.col)) := by
  refine ⟨c.run_lt _ (c.letters_map _), ?_⟩
  have key : ∀ r ∈ Q, (Matches (B ++ r.w) (y ++ m) ↔ locWord m = r.w) := by
    intro r hr
    constructor
    · intro hm
      obtain ⟨l1, l2, e, m1, m2⟩ := matches_split hm
      have := hu l1 ⟨l2, e.symm⟩ m1
      subst this
      have := List.append_cancel_left e
      subst this
      exact (matches_simple _ (h.simple hr) _).1 m2
    · intro hw
      exact matches_append hy ((matches_simple _ (h.simple hr) _).2 hw)
  rcases h.stop_loc hB (y ++ m) with ⟨h1, h2⟩ | ⟨k, r, h1, h2, h3, _⟩
  · refine .inl ⟨h1, roleOf_none.2 ?_⟩
    intro hm
    obtain ⟨r, hr, he⟩ := List.mem_map.1 hm
    exact h2 r hr ((key r hr).2 he.symm)
  · have hr := List.mem_of_getElem? h1
    have := (key r hr).1 h3
    refine .inr ⟨k, r.role, by rw [h1, this], ?_, h2⟩
    rw [roleOf_some h.nodup, this]; exact hr

end FPre

/-- Every registered word of a path has a state. -/
theorem FPre.exists_state {B : List Step} {p : List (QStep Num)} {c : SCtx} (h : FPre B (pathRegs p) c)
    (hB : ∀ s ∈ B, isSlice s = false) {k : Nat} {r : Reg} (hk : (pathRegs p)[k]? = some r) :
    ∃ s, s < c.dfa.rows.length + 1 ∧ c.dfa.stop s = k + 1 := by
  have hr := List.mem_of_getElem? hk
  have hB0 := someLoc_matches hB
  refine ⟨c.run ((someLoc B ++ r.w.map lab).map c.col), c.run_lt _ (c.letters_map _), ?_⟩
  have hm : Matches (B ++ r.w) (someLoc B ++ r.w.map lab) :=
    matches_append hB0 ((matches_simple _ (h.simple hr) _).2 (locWord_lab (h.simple hr)))
  rcases h.stop_loc hB (someLoc B ++ r.w.map lab) with ⟨_, h2⟩ | ⟨j, s, h1, h2, h3, h4⟩
  · exact absurd hm (h2 r hr)
  · rw [h2]
    have hjk : k ≤ j := by
      apply Classical.byContradiction
      intro hlt
      exact h4 k r (by omega) hk hm
    have hs := List.mem_of_getElem? h1
    obtain ⟨l1, l2, e, m1, m2⟩ := matches_split h3
    have hlen := matches_length_le m1
    have : (someLoc B).length = B.length := by simp [someLoc]
    obtain ⟨x, e1, e2⟩ : ∃ x, l1 = someLoc B ++ x ∧ r.w.map lab = x ++ l2 := by
      rcases List.append_eq_append_iff.1 e with ⟨x, e1, e2⟩ | ⟨x, e1, e2⟩
      · exact ⟨x, e1, e2⟩
      · have h0 := congrArg List.length e1
        rw [List.length_append] at h0
        have : x = [] := List.length_eq_zero_iff.1 (by omega)
        subst this
        exact ⟨[], by simpa using e1.symm, by simpa using e2.symm⟩
    have hw : r.w = locWord x ++ s.w := by
      rw [← locWord_lab (h.simple hr), e2, ← (matches_simple _ (h.simple hs) _).1 m2]
      simp [locWord]
    by_cases hj : j = k
    · rw [hj]
    · have := pathRegs_suffix p hk h1 (by omega) hw
      rw [this, List.nil_append] at hw
      exact absurd (nodup_index h.nodup (x := r.w) (by rw [List.getElem?_map, hk]; rfl)
        (by rw [List.getElem?_map, h1, hw]; rfl)).symm hj

namespace FPre
variable {B : List Step} {Q : List Reg} {c : SCtx}

/-- The last letter of a state by its role. -/
theorem byArray_of (h : FPre B Q c) {s k : Nat} {r : Reg} (hlt : s < c.dfa.rows.length + 1) (hs : c.dfa.stop s = k + 1)
    (hk : Q[k]? = some r) : (∀ w', r.w = w' ++ [.all] → c.byArray s = true) ∧
      (∀ w' n, r.w = w' ++ [.prop n] → c.byArray s = false) := by
  have lastOf : ∀ {x : List Nat}, c.letters x → c.run x = s → Lang (itemsOf c.names (B ++ r.w)) x := by
    intro x hx hr
    rcases h.stop_letters hx with ⟨h1, _⟩ | ⟨k', r', h1, h2, h3, _⟩
    · rw [hr, hs] at h1; omega
    · rw [hr, hs] at h2
      have : k' = k := by omega
      subst this
      rw [hk] at h1
      simp only [Option.some.injEq] at h1
      rw [h1]; exact h3
  have hs0 : s ≠ 0 := by
    rintro rfl
    simp [SDfa.stop] at hs
  constructor
  · intro w' hw
    obtain ⟨x, hx, hr⟩ := c.reach s hs0 hlt
    have hl := lastOf hx hr
    have e : itemsOf c.names (B ++ r.w) = itemsOf c.names (B ++ w') ++ [⟨some 2, .none⟩] := by
      rw [hw]; simp [itemsOf, seOf, SE.items]
    rw [e] at hl
    obtain ⟨y, a, rfl, ha⟩ := lang_last rfl _ _ hl
    simp only [Item.edge, beq_iff_eq] at ha
    subst ha
    rw [← hr]
    exact c.byArray_run h.ok y (fun a ha => hx a (List.mem_append_left _ ha))
  · intro w' n hw
    rw [Bool.eq_false_iff]
    intro hb
    unfold SCtx.byArray at hb
    rw [List.any_eq_true] at hb
    obtain ⟨j, hj, he⟩ := hb
    rw [List.mem_range] at hj
    simp only [beq_iff_eq] at he
    have ht := c.table_eq h.ok j 2 hj (by omega) (by omega)
    have e : (tableOf c).table j 2 =
        if j < c.dfa.rows.length + 1 ∧ 2 < c.names.length + 3 then (compress c.dfa.rows).nextState j 2
        else 0 := rfl
    rw [e, if_pos ⟨hj, by omega⟩, he] at ht
    by_cases hj0 : j = 0
    · subst hj0
      have : c.dfa.next 0 2 = 0 := by simp [SDfa.next, rowsNext]
      rw [this] at ht
      exact hs0 ht
    · obtain ⟨x, hx, hxr⟩ := c.reach j hj0 hj
      have hx2 : c.letters (x ++ [2]) := by
        intro a ha
        rcases List.mem_append.1 ha with ha | ha
        · exact hx a ha
        · simp at ha; subst ha; omega
      have hrun : c.run (x ++ [2]) = s := by
        rw [ht, ← hxr]; simp [SCtx.run]
      have hl := lastOf hx2 hrun
      have e : itemsOf c.names (B ++ r.w) = itemsOf c.names (B ++ w') ++ [⟨some (nameCol c.names n), .none⟩] := by
        rw [hw]; simp [itemsOf, seOf, SE.items]
      rw [e] at hl
      obtain ⟨y, a, he', ha⟩ := lang_last rfl _ _ hl
      have := List.append_inj_right' he' (by simp)
      simp only [List.cons.injEq, and_true] at this
      subst this
      simp [Item.edge, nameCol] at ha

theorem accept (h : FPre B Q c) {w : List Step} {s : Nat} (hs : WordState Q c w s) :
    (tableOf c).accept s = FWords.accOf (roleOf Q w) := by
  obtain ⟨hlt, hs⟩ := hs
  have e : (tableOf c).accept s = if s < c.dfa.rows.length + 1 then acceptOf c (c.dfa.stop s) (c.byArray s) else .none := rfl
  rw [e, if_pos hlt]
  rcases hs with ⟨h1, h2⟩ | ⟨k, r, h1, h2, h3⟩
  · rw [h1, h2]; rfl
  · obtain ⟨b1, b2⟩ := h.byArray_of hlt h3 h1
    rw [h3, h2]
    obtain ⟨i, U, hi, hid, huniq⟩ := h.out
    unfold acceptOf
    rw [if_neg (Nat.succ_ne_zero k), hid, Nat.add_sub_cancel, h.ranges_zero]
    simp only [ne_eq, not_true_eq_false, or_self, false_and, if_false, Option.some.injEq]
    have hm := List.mem_of_getElem? h1
    by_cases hk : k = i
    · rw [if_pos (by omega)]
      subst hk
      rw [hi] at h1
      simp at h1
      rw [← h1.2]; rfl
    · rw [if_neg (by omega)]
      cases r with
      | out => exact absurd (huniq k w h1) hk
      | pred e ds =>
        obtain ⟨w', hw⟩ := h.predEnd w e ds hm
        rw [b1 w' hw]; rfl
      | cond q =>
        obtain ⟨w', k', hw⟩ := h.condEnd w q hm
        rw [b2 w' k' hw]; rfl

theorem subtrees_of (h : FPre B Q c) {i k : Nat} {r : Reg} (hi : i < c.dfa.rows.length + 1) (hs : c.dfa.stop i = k + 1)
    (hk : Q[k]? = some r) : (contextOf c).subtrees i = r.role.tree := by
  have e : (contextOf c).subtrees i = if (tableOf c).stop i = 0 then none else c.trees.getD ((tableOf c).stop i - 1) none := rfl
  rw [e, h.stopQ, if_pos hi, hs, if_neg (Nat.succ_ne_zero k), Nat.add_sub_cancel, h.inv.trees,
    List.getD_eq_getElem?_getD, List.getElem?_map, hk]
  rfl

theorem subtrees (h : FPre B Q c) {w : List Step} {s : Nat} (hs : WordState Q c w s) :
    (contextOf c).subtrees s = (roleOf Q w).bind Role.tree := by
  obtain ⟨hlt, ⟨h1, h2⟩ | ⟨k, r, h1, h2, h3⟩⟩ := hs
  · have e : (contextOf c).subtrees s = if (tableOf c).stop s = 0 then none
        else c.trees.getD ((tableOf c).stop s - 1) none := rfl
    rw [e, h.stopQ, h1, h2]; simp
  · rw [h.subtrees_of hlt h3 h1, h2]; rfl

/-- The condition names of a filter, if every registered word has a state. -/
theorem condNames_of (h : FPre B Q c) (hex : ∀ k r, Q[k]? = some r → ∃ s, s < c.dfa.rows.length + 1 ∧ c.dfa.stop s = k + 1)
    {i k : Nat} {w : List Step} {e : Expr Num} {ds : List (List Str)}
    (hi : i < c.dfa.rows.length + 1) (hs : c.dfa.stop i = k + 1) (hk : Q[k]? = some ⟨w, .pred e ds⟩) :
    ((contextOf c).mapping i).map (condName (contextOf c)) = ds.map fun q => some (joinPath q) := by
  obtain ⟨xs, m1, m2⟩ := h.maps k w e ds hk
  have e1 : (contextOf c).mapping i = if (tableOf c).stop i = 0 then [] else
      (((c.mapping.find? (fun p => p.1 == (tableOf c).stop i - 1)).map Prod.snd).getD []).map
        (fun x => accIdState c.dfa (x + 1)) := rfl
  rw [e1, h.stopQ, if_pos hi, hs, if_neg (Nat.succ_ne_zero k), Nat.add_sub_cancel, m1]
  simp only [Option.getD_some, List.map_map]
  have hacc : ∀ {x : Nat} {r : Reg}, Q[x]? = some r →
      ∃ i, accIdState c.dfa (x + 1) = some i ∧ (contextOf c).subtrees i = r.role.tree := by
    intro x r hx
    obtain ⟨s, s1, s2⟩ := hex x r hx
    unfold accIdState
    cases hf : (List.range (c.dfa.rows.length + 1)).find? fun i => c.dfa.stop i == x + 1 with
    | none =>
      have := List.find?_eq_none.1 hf s (List.mem_range.2 s1)
      simp [s2] at this
    | some i =>
      refine ⟨i, rfl, ?_⟩
      have h1 := List.mem_range.1 (List.mem_of_find?_eq_some hf)
      have h2 := List.find?_some hf
      simp only [beq_iff_eq] at h2
      exact h.subtrees_of h1 h2 hx
  have : ∀ (xs : List Nat) (ns : List Str), xs.map (fun x => (Q.map (·.role.tree))[x]?) = ns.map (fun n => some (some (.var n))) →
      xs.map (condName (contextOf c) ∘ fun x => accIdState c.dfa (x + 1)) = ns.map some := by
    intro xs
    induction xs with
    | nil => intro ns hn; cases ns <;> simp at hn ⊢
    | cons x xs ih =>
      intro ns hn
      cases ns with
      | nil => simp at hn
      | cons n ns =>
        simp only [List.map_cons, List.cons.injEq] at hn ⊢
        refine ⟨?_, ih ns hn.2⟩
        have hx := hn.1
        rw [List.getElem?_map] at hx
        cases hg : Q[x]? with
        | none => rw [hg] at hx; cases hx
        | some r =>
          rw [hg] at hx
          simp only [Option.map_some, Option.some.injEq] at hx
          obtain ⟨i', a1, a2⟩ := hacc hg
          simp only [Function.comp, condName, a1, Option.bind_some, a2, hx, Ast.str?]
  rw [this xs _ m2, List.map_map]
  rfl

theorem initConds (h : FPre B Q c) (hex : ∀ k r, Q[k]? = some r → ∃ s, s < c.dfa.rows.length + 1 ∧ c.dfa.stop s = k + 1)
    {w : List Step} {s : Nat} {e : Expr Num} {ds : List (List Str)}
    (hr : roleOf Q w = some (.pred e ds)) (hs : WordState Q c w s) :
    (PF.init (contextOf c)).conds s = some (condTable (ds.map joinPath) fun _ => none) := by
  have hpred : s ∈ (contextOf c).predStates := by
    show s ∈ ((List.range (tableOf c).statesNum).filter fun i =>
      (tableOf c).stop i ≠ 0 && (tableOf c).accept i == .predicate)
    rw [List.mem_filter, List.mem_range]
    refine ⟨hs.1, ?_⟩
    rw [h.accept hs, hr, h.stopQ, if_pos hs.1]
    rcases hs.2 with ⟨_, h2⟩ | ⟨k, r', h1, _, h3⟩
    · rw [hr] at h2; cases h2
    · rw [h3]; simp [FWords.accOf]
  show (if s ∈ (contextOf c).predStates then
      some (((contextOf c).mapping s).filterMap fun x => (condName (contextOf c) x).map fun n => (n, none))
    else none) = _
  rw [if_pos hpred]
  rcases hs.2 with ⟨_, h2⟩ | ⟨k, r', h1, h2, h3⟩
  · rw [hr] at h2; cases h2
  · rw [hr] at h2
    simp only [Option.some.injEq] at h2; subst h2
    have := h.condNames_of hex hs.1 h3 h1
    congr 1
    generalize (contextOf c).mapping s = M at *
    unfold condTable
    rw [List.map_map]
    clear h1 hr
    induction M generalizing ds with
    | nil => cases ds <;> simp at this ⊢
    | cons x M ih =>
      cases ds with
      | nil => simp at this
      | cons q ds =>
        simp only [List.map_cons, List.cons.injEq] at this
        rw [List.filterMap_cons, this.1]
        simp only [Option.map_some, List.map_cons, ih this.2]
        rfl

/-- What the filter knows of states that stand for words. -/
theorem sem (h : FPre B Q c) (hex : ∀ k r, Q[k]? = some r → ∃ s, s < c.dfa.rows.length + 1 ∧ c.dfa.stop s = k + 1)
    {st : List Step → Nat} (hst : ∀ w, WordState Q c w (st w)) : FSem Q c st where
  nodup := h.nodup
  simple := fun r hr => h.simple hr
  subtrees := fun _ => h.subtrees (hst _)
  names := by
    intro w hw e ds hr
    rcases (hst w).2 with ⟨_, h2⟩ | ⟨k, r', h1, h2, h3⟩
    · rw [hr] at h2; cases h2
    · rw [hr] at h2
      simp only [Option.some.injEq] at h2; subst h2
      have := h.condNames_of hex (hst w).1 h3 h1
      exact filterMap_of_map _ _ _ (by rw [this, List.map_map]; rfl)
  state_inj := by
    intro w x hw hx r s hr hs he
    rcases (hst w).2 with ⟨_, h2⟩ | ⟨k, r', h1, h2, h3⟩
    · rw [hr] at h2; cases h2
    rcases (hst x).2 with ⟨_, g2⟩ | ⟨j, s', g1, g2, g3⟩
    · rw [hs] at g2; cases g2
    rw [he, g3] at h3
    have : j = k := by omega
    subst this
    rw [h1] at g1
    simp only [Option.some.injEq, Reg.mk.injEq] at g1
    exact g1.1
  initConds := fun hr _ => h.initConds hex hr (hst _)

open Classical in
/-- States for all words below a location: those of the run where they stand for the word, and others with the right
stop value for words that do not occur. -/
theorem states_for (h : FPre B Q c) (hex : ∀ k r, Q[k]? = some r → ∃ s, s < c.dfa.rows.length + 1 ∧ c.dfa.stop s = k + 1)
    (y : Loc) : ∃ st : List Step → Nat, (∀ w, WordState Q c w (st w)) ∧
      ∀ m, WordState Q c (locWord m) (c.run ((y ++ m).map c.col)) → st (locWord m) = c.run ((y ++ m).map c.col) := by
  have hany : ∀ w, ∃ s, WordState Q c w s := by
    intro w
    cases hr : roleOf Q w with
    | none => exact ⟨0, by omega, .inl ⟨by simp [SDfa.stop], hr⟩⟩
    | some r =>
      obtain ⟨k, hk⟩ := List.getElem?_of_mem ((roleOf_some h.nodup).1 hr)
      obtain ⟨s, s1, s2⟩ := hex k _ hk
      exact ⟨s, s1, .inr ⟨k, r, hk, hr, s2⟩⟩
  refine ⟨fun w => if WordState Q c w (c.run (y.map c.col ++ c.word w)) then c.run (y.map c.col ++ c.word w) else (hany w).choose,
    ?_, ?_⟩
  · intro w
    dsimp only
    split
    · assumption
    · exact (hany w).choose_spec
  · intro m hm
    dsimp only
    rw [word_locWord, ← List.map_append, if_pos hm]

end FPre

end JPS
