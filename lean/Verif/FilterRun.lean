import Verif.FilterSelect
import Verif.Serial
import Verif.LexerDoc
/-!
# The finished context and the serial run of paths with filters
-/

set_option autoImplicit false

namespace JPS
open Spec

theorem regs_count : ∀ (p : List (QStep Num)) (u : List Step), ∀ r ∈ regs u p, u.count .all < r.w.count .all
  | [], u, r, h => by simp [regs] at h
  | .prop k :: p, u, r, h => by
    have := regs_count p (u ++ [.prop k]) r h
    rw [List.count_append] at this; omega
  | .all :: p, u, r, h => by
    have := regs_count p (u ++ [.all]) r h
    rw [List.count_append] at this; omega
  | .filter e :: p, u, r, h => by
    simp only [regs, List.mem_append] at h
    rcases h with h | h
    · simp only [block, List.mem_cons, List.mem_map] at h
      rcases h with rfl | ⟨q, _, rfl⟩
      · simp
      · rw [List.count_append (l₁ := u ++ [Step.all]), count_props]; simp
    · have := regs_count p (u ++ [.all]) r h
      rw [List.count_append] at this; omega

theorem block_nodup (u : List Step) (e : Expr Num) (he : ∀ q ∈ e.props, q ≠ []) : ((block u e).map Reg.w).Nodup := by
  simp only [block, List.map_cons, List.map_map, List.nodup_cons, List.mem_map, Function.comp_apply]
  constructor
  · rintro ⟨q, hq, h⟩
    have := congrArg List.length h
    rw [List.length_append] at this
    have h0 : q = [] := by
      cases q with
      | nil => rfl
      | cons a q => simp at this
    exact he q (mem_testedPaths.1 hq) h0
  · have hnd := nodup_testedPaths e
    generalize testedPaths e = ds at hnd
    induction ds with
    | nil => exact List.nodup_nil
    | cons q ds ih =>
      rw [List.nodup_cons] at hnd
      rw [List.map_cons, List.nodup_cons]
      refine ⟨?_, ih hnd.2⟩
      intro hm
      obtain ⟨q', hq', he⟩ := List.mem_map.1 hm
      simp only [Function.comp_apply] at he
      have := map_prop_inj (List.append_cancel_left he)
      exact hnd.1 (this ▸ hq')

theorem block_count {u : List Step} {e : Expr Num} {r : Reg} (h : r ∈ block u e) : r.w.count .all = u.count .all := by
  simp only [block, List.mem_cons, List.mem_map] at h
  rcases h with rfl | ⟨q, _, rfl⟩
  · rfl
  · rw [List.count_append, count_props]; rfl

theorem regs_nodup : ∀ (p : List (QStep Num)) (u : List Step), CleanPath p → ((regs u p).map Reg.w).Nodup
  | [], u, _ => by simp [regs]
  | .prop k :: p, u, h => regs_nodup p _ ⟨h.1, fun k hk => h.2 k (by simp [pathNames, hk])⟩
  | .all :: p, u, h => regs_nodup p _ ⟨h.1, fun k hk => h.2 k (by simp [pathNames, hk])⟩
  | .filter e :: p, u, h => by
    simp only [regs, List.map_append]
    rw [List.nodup_append]
    refine ⟨block_nodup _ _ fun q hq => (h.filter.1 q hq).1, regs_nodup p _ h.filter.2, ?_⟩
    intro a ha b hb
    obtain ⟨r, hr, rfl⟩ := List.mem_map.1 ha
    obtain ⟨s, hs, rfl⟩ := List.mem_map.1 hb
    have h1 := block_count hr
    have h2 := regs_count _ _ s hs
    intro he; rw [he] at h1; omega

theorem sk_props : ∀ (p : List (QStep Num)) (q : List Str), p.map sk = q.map Step.prop → propsOnly p = some q
  | [], q, h => by cases q <;> simp at h; rfl
  | .prop k :: p, q, h => by
    cases q with
    | nil => simp at h
    | cons a q =>
      simp only [List.map_cons, List.cons.injEq, sk, Step.prop.injEq] at h
      simp [propsOnly, sk_props p q h.2, h.1]
  | .all :: p, q, h => by cases q <;> simp [sk] at h
  | .filter e :: p, q, h => by cases q <;> simp [sk] at h

theorem named_tail {s : QStep Num} {p : List (QStep Num)} (h : namedAfterFilter (s :: p) = true) : namedAfterFilter p = true := by
  cases s with
  | prop k => exact h
  | all => exact h
  | filter e =>
    cases p with
    | nil => rfl
    | cons t p => cases t with
      | prop k => exact h
      | all => cases h
      | filter e => cases h

/-- The word of the whole path is not registered by its filters. -/
theorem regs_fresh : ∀ (p : List (QStep Num)) (u : List Step), namedAfterFilter p = true → returnsTested p = false →
    u ++ p.map sk ∉ (regs u p).map Reg.w
  | [], u, _, _ => by simp [regs]
  | .prop k :: p, u, hn, hr => by
    have := regs_fresh p (u ++ [.prop k]) (named_tail hn) hr
    simpa [regs, sk] using this
  | .all :: p, u, hn, hr => by
    have := regs_fresh p (u ++ [.all]) (named_tail hn) hr
    simpa [regs, sk] using this
  | .filter e :: p, u, hn, hr => by
    simp only [returnsTested, Bool.or_eq_false_iff] at hr
    have ih := regs_fresh p (u ++ [.all]) (named_tail hn) hr.2
    intro hm
    simp only [regs, List.map_append, List.mem_append] at hm
    have e1 : u ++ List.map sk (QStep.filter e :: p) = u ++ [Step.all] ++ p.map sk := by simp [sk]
    rw [e1] at hm
    rcases hm with hm | hm
    · simp only [block, List.map_cons, List.map_map, List.mem_cons, List.mem_map, Function.comp_apply] at hm
      rcases hm with hm | ⟨q, hq, hm⟩
      · have := List.append_right_eq_self.1 hm
        cases p with
        | nil => cases hn
        | cons s p => simp at this
      · have := List.append_cancel_left hm
        rw [sk_props p q this.symm] at hr
        have hc := hr.1
        simp only [List.contains_eq_mem, decide_eq_false_iff_not] at hc
        exact hc (mem_testedPaths.1 hq)
    · exact ih hm

theorem fold_lastGen : ∀ (p : List (QStep Num)) (c : SCtx), namedAfterFilter p = true → p ≠ [] →
    (p.foldl fctxStep c).lastGen = some false
  | [], _, _, h => absurd rfl h
  | [.prop k], c, _, _ => rfl
  | [.all], c, _, _ => rfl
  | [.filter e], c, h, _ => by cases h
  | s :: t :: p, c, h, _ => fold_lastGen (t :: p) (fctxStep c s) (named_tail h) (by simp)

theorem regs_roles : ∀ (p : List (QStep Num)) (u : List Step), ∀ r ∈ regs u p, r.role ≠ .out
  | [], u, r, h => by simp [regs] at h
  | .prop k :: p, u, r, h => regs_roles p (u ++ [.prop k]) r h
  | .all :: p, u, r, h => regs_roles p (u ++ [.all]) r h
  | .filter e :: p, u, r, h => by
    simp only [regs, List.mem_append] at h
    rcases h with h | h
    · simp only [block, List.mem_cons, List.mem_map] at h
      rcases h with rfl | ⟨q, _, rfl⟩ <;> simp
    · exact regs_roles p (u ++ [.all]) r h

theorem regs_pred : ∀ (p : List (QStep Num)) (u : List Step), ∀ w e ds, ⟨w, .pred e ds⟩ ∈ regs u p → ∃ w', w = w' ++ [.all]
  | [], u, w, e, ds, h => by simp [regs] at h
  | .prop k :: p, u, w, e, ds, h => regs_pred p (u ++ [.prop k]) w e ds h
  | .all :: p, u, w, e, ds, h => regs_pred p (u ++ [.all]) w e ds h
  | .filter e' :: p, u, w, e, ds, h => by
    simp only [regs, List.mem_append] at h
    rcases h with h | h
    · simp only [block, List.mem_cons, List.mem_map] at h
      rcases h with h | ⟨q, _, h⟩
      · exact ⟨u, by simp at h; exact h.1⟩
      · simp at h
    · exact regs_pred p (u ++ [.all]) w e ds h

theorem regs_cond : ∀ (p : List (QStep Num)) (u : List Step), CleanPath p →
    ∀ w q, ⟨w, .cond q⟩ ∈ regs u p → ∃ w' k, w = w' ++ [.prop k]
  | [], u, _, w, q, h => by simp [regs] at h
  | .prop k :: p, u, hp, w, q, h => regs_cond p (u ++ [.prop k]) ⟨hp.1, fun k hk => hp.2 k (by simp [pathNames, hk])⟩ w q h
  | .all :: p, u, hp, w, q, h => regs_cond p (u ++ [.all]) ⟨hp.1, fun k hk => hp.2 k (by simp [pathNames, hk])⟩ w q h
  | .filter e :: p, u, hp, w, q, h => by
    simp only [regs, List.mem_append] at h
    rcases h with h | h
    · simp only [block, List.mem_cons, List.mem_map] at h
      rcases h with h | ⟨q', hq, h⟩
      · simp at h
      · simp only [Reg.mk.injEq] at h
        have hne := (hp.filter.1 q' (mem_testedPaths.1 hq)).1
        refine ⟨u ++ [Step.all] ++ q'.dropLast.map .prop, q'.getLast hne, ?_⟩
        rw [← h.1, List.append_assoc (u ++ [Step.all]), ← List.map_singleton (f := Step.prop), ← List.map_append,
          List.dropLast_concat_getLast hne]
    · exact regs_cond p (u ++ [.all]) hp.filter.2 w q h

theorem regs_steps : ∀ (p : List (QStep Num)) (u : List Step), ∀ r ∈ regs u p, ∀ k, Step.prop k ∈ r.w →
    Step.prop k ∈ u ∨ k ∈ pathNames p
  | [], u, r, h, k, hk => by simp [regs] at h
  | .prop k' :: p, u, r, h, k, hk => by
    rcases regs_steps p (u ++ [.prop k']) r h k hk with h | h
    · simp only [List.mem_append, List.mem_singleton, Step.prop.injEq] at h
      rcases h with h | rfl
      · exact .inl h
      · exact .inr (by simp [pathNames])
    · exact .inr (by simp [pathNames, h])
  | .all :: p, u, r, h, k, hk => by
    rcases regs_steps p (u ++ [.all]) r h k hk with h | h
    · simp at h; exact .inl h
    · exact .inr (by simp [pathNames, h])
  | .filter e :: p, u, r, h, k, hk => by
    simp only [regs, List.mem_append] at h
    rcases h with h | h
    · simp only [block, List.mem_cons, List.mem_map] at h
      rcases h with rfl | ⟨q, hq, rfl⟩
      · simp at hk; exact .inl hk
      · simp only [List.mem_append, List.mem_map, Step.prop.injEq, exists_eq_right, List.mem_singleton, reduceCtorEq,
          or_false] at hk
        rcases hk with hk | hk
        · exact .inl hk
        · exact .inr (by
            simp only [pathNames, List.mem_append, List.mem_flatten]
            exact .inl ⟨q, mem_testedPaths.1 hq, hk⟩)
    · rcases regs_steps p (u ++ [.all]) r h k hk with h | h
      · simp at h; exact .inl h
      · exact .inr (by simp [pathNames, h])

theorem sk_steps : ∀ (p : List (QStep Num)) (k : Str), Step.prop k ∈ p.map sk → k ∈ pathNames p
  | [], k, h => by simp at h
  | .prop k' :: p, k, h => by
    simp only [List.map_cons, List.mem_cons, sk, Step.prop.injEq] at h
    rcases h with rfl | h
    · simp [pathNames]
    · simp [pathNames, sk_steps p k h]
  | .all :: p, k, h => by simp only [List.map_cons, List.mem_cons, sk, reduceCtorEq, false_or] at h; exact sk_steps p k h
  | .filter e :: p, k, h => by
    simp only [List.map_cons, List.mem_cons, sk, reduceCtorEq, false_or] at h
    simp [pathNames, sk_steps p k h]

theorem CleanPath.word : ∀ {p : List (QStep Num)}, CleanPath p → CleanWord (p.map sk)
  | [], _ => by intro s hs; simp at hs
  | s :: p, h => by
    have hp : CleanPath p := by
      cases s with
      | filter e => exact h.filter.2
      | prop k => exact ⟨h.1, fun k hk => h.2 k (by simp [pathNames, hk])⟩
      | all => exact ⟨h.1, fun k hk => h.2 k (by simp [pathNames, hk])⟩
    have ih := CleanPath.word hp
    intro t ht
    simp only [List.map_cons, List.mem_cons] at ht
    rcases ht with rfl | ht
    · cases s with
      | filter e => exact .inl rfl
      | all => exact .inl rfl
      | prop k => exact .inr ⟨k, rfl, h.2 k (by simp [pathNames])⟩
    · exact ih t ht

theorem FAll.init (B : List Step) {c : SCtx} (hc : c = { SCtx.init with st := B.map seOf, lastGen := c.lastGen }) :
    FAll B [] [] c := by
  rw [hc]
  exact ⟨by simp, ⟨rfl, rfl, rfl, rfl, by simp, List.nodup_nil, by intro k hk; simp [SCtx.init] at hk, by simp, rfl⟩,
    by intro h w e ds hq; simp at hq, by simp⟩

theorem nodup_subset_length {α : Type} [DecidableEq α] {l m : List α} (hn : l.Nodup) (hs : ∀ x ∈ l, x ∈ m) :
    l.length ≤ m.length := hn.length_le_of_subset hs

theorem createDfa_trees (c : SCtx) (b : Bool) (h : (c.createDfa b).2 = false) :
    (c.createDfa b).1.trees = c.trees ++ [none] := by
  unfold SCtx.createDfa at h ⊢
  split
  · rename_i hc; rw [if_pos hc] at h; cases h
  · rfl

/-- The words of a path with filters. -/
def pathRegs (p : List (QStep Num)) : List Reg := regs [] p ++ [⟨p.map sk, .out⟩]

/-- The registered words of a finished compilation, each after the steps `B`: one of them is the result, every word has the
subtree of its role, and filters know their conditions. -/
structure FPre (B : List Step) (Q : List Reg) (c : SCtx) : Prop where
  inv : FInv B (Q.map Reg.w) (Q.map (·.role.tree)) c
  few : c.names.length ≤ 253
  nodup : (Q.map Reg.w).Nodup
  nonempty : ∀ r ∈ Q, r.w ≠ []
  out : ∃ i U, Q[i]? = some ⟨U, .out⟩ ∧ c.lastId = some (i + 1) ∧ ∀ j w, Q[j]? = some ⟨w, .out⟩ → j = i
  predEnd : ∀ w e ds, ⟨w, .pred e ds⟩ ∈ Q → ∃ w', w = w' ++ [.all]
  condEnd : ∀ w q, ⟨w, .cond q⟩ ∈ Q → ∃ w' k, w = w' ++ [.prop k]
  maps : ∀ h w e ds, Q[h]? = some ⟨w, .pred e ds⟩ → MapOk c.mapping (Q.map (·.role.tree)) h (ds.map joinPath)

/-- The context of a path with filters after steps `B` that register nothing. -/
theorem fpre_of_build (B : List Step) (c0 : SCtx) (h00 : c0 = { SCtx.init with st := B.map seOf, lastGen := c0.lastGen })
    (p : List (QStep Num)) (h0 : p ≠ []) (hp : CleanPath p) (hn : namedAfterFilter p = true)
    (hr : returnsTested p = false) (hl : (B.filterMap stepName ++ pathNames p).length ≤ 253) :
    ∃ c, (∀ t, construct t .init = p.foldl fctxStep c0 → buildCtx t = some c) ∧ FPre B (pathRegs p) c := by
  have ha : FAll B (p.map sk) (regs [] p) (p.foldl fctxStep c0) := by
    simpa using FAll.fold p [] [] c0 (FAll.init B h00) (by intro s hs; simp at hs) hp
  have hlg := fold_lastGen p c0 hn h0
  have hfresh := regs_fresh p [] hn hr
  rw [List.nil_append] at hfresh
  have hcr := ha.inv.create ha.st hp.word hfresh false none
  have hb : ∀ t, construct t .init = p.foldl fctxStep c0 → buildCtx t = some ((p.foldl fctxStep c0).createDfa false).1 := by
    intro t ht
    unfold buildCtx
    rw [ht]
    simp only [hlg]
  generalize p.foldl fctxStep c0 = c at ha hlg hcr hb
  simp only [Bool.false_eq_true, if_false] at hcr
  obtain ⟨h1, _, h3, h4, h5, h6, h7⟩ := hcr
  have htrees := createDfa_trees c false h1
  have hlenQ : c.trees.length = (regs [] p).length := by rw [ha.inv.trees]; simp
  have hinv : FInv B ((regs [] p).map Reg.w ++ [p.map sk]) ((regs [] p).map (·.role.tree) ++ [none]) (c.createDfa false).1 := by
    refine h7.congr rfl rfl ?_ rfl rfl
    show (c.createDfa false).1.trees = (c.createDfa false).1.trees.set _ none
    rw [htrees, h3, List.length_map, Nat.add_sub_cancel, ← hlenQ]
    simp
  have hq1 : (pathRegs p).map Reg.w = (regs [] p).map Reg.w ++ [p.map sk] := by simp [pathRegs]
  have hq2 : (pathRegs p).map (·.role.tree) = (regs [] p).map (·.role.tree) ++ [none] := by simp [pathRegs, Role.tree]
  refine ⟨_, hb, ?_⟩
  refine ⟨by rw [hq1, hq2]; exact hinv, ?_, ?_, ?_, ?_, ?_, ?_, ?_⟩
  · refine Nat.le_trans (nodup_subset_length hinv.nodup ?_) hl
    intro k hk
    rw [List.mem_append]
    rcases hinv.from_ k hk with ⟨s, hs, hk⟩ | ⟨w, hw, hm⟩
    · exact .inl (List.mem_filterMap.2 ⟨s, hs, hk⟩)
    · refine .inr ?_
      rcases List.mem_append.1 hw with hw | hw
      · obtain ⟨r, hr, rfl⟩ := List.mem_map.1 hw
        rcases regs_steps p [] r hr k hm with h | h
        · simp at h
        · exact h
      · simp only [List.mem_singleton] at hw; subst hw
        exact sk_steps p k hm
  · rw [hq1, List.nodup_append]
    refine ⟨regs_nodup p [] hp, by simp, ?_⟩
    intro a ha' b hb'
    simp only [List.mem_singleton] at hb'
    subst hb'
    intro he; exact hfresh (he ▸ ha')
  · intro r hr
    unfold pathRegs at hr
    rcases List.mem_append.1 hr with hr | hr
    · intro he
      obtain ⟨w, ro⟩ := r
      simp only at he
      subst he
      exact regs_nonempty p ro hr
    · simp only [List.mem_singleton] at hr; subst hr
      simpa using h0
  · refine ⟨(regs [] p).length, p.map sk, by simp [pathRegs], by rw [h6]; simp, ?_⟩
    intro j w hj
    unfold pathRegs at hj
    rw [List.getElem?_append] at hj
    split at hj
    · exact absurd rfl (regs_roles p [] _ (List.mem_of_getElem? hj))
    · have := (List.getElem?_eq_some_iff.1 hj).1
      simp at this; omega
  · intro w e ds hr
    rcases List.mem_append.1 hr with hr | hr
    · exact regs_pred p [] w e ds hr
    · simp at hr
  · intro w q hr
    rcases List.mem_append.1 hr with hr | hr
    · exact regs_cond p [] hp w q hr
    · simp at hr
  · intro h w e ds hget
    rw [hq2, h5]
    apply MapOk.grow
    apply ha.maps h w e ds
    unfold pathRegs at hget
    rw [List.getElem?_append] at hget
    split at hget
    · exact hget
    · rename_i hlt
      have : h - (regs [] p).length = 0 := by
        have := (List.getElem?_eq_some_iff.1 hget).1
        simp at this; omega
      rw [this] at hget
      simp at hget

/-- The context of a path with filters. -/
theorem ftab_of_build (p : List (QStep Num)) (h0 : p ≠ []) (hp : CleanPath p) (hn : namedAfterFilter p = true)
    (hr : returnsTested p = false) (hl : (pathNames p).length ≤ 253) :
    ∃ c, buildCtx (fAst p) = some c ∧ FTab (pathRegs p) c := by
  obtain ⟨c, hc, h⟩ := fpre_of_build [] .init rfl p h0 hp hn hr (by simpa using hl)
  exact ⟨c, hc _ (construct_fAst p hp.1 .init), ⟨h.inv, h.few, h.nodup, h.nonempty, h.out, h.predEnd, h.condEnd⟩, h.maps⟩

/-! ### Sizes -/

theorem regs_after {p : List (QStep Num)} {u : List Step} {r : Reg} (h : r ∈ regs u p) : ∃ v, r.w = u ++ v := by
  rw [regs_prefix] at h
  obtain ⟨r', _, rfl⟩ := List.mem_map.1 h
  exact ⟨_, rfl⟩

theorem length_stepTree : ∀ (p : List (QStep Num)) (u : List Step), (stepTree u p).length = treeSize p
  | [], _ => rfl
  | .prop k :: p, u => by rw [stepTree, List.length_cons, length_stepTree p, treeSize]; omega; nofun
  | .all :: p, u => by rw [stepTree, List.length_cons, length_stepTree p, treeSize]; omega; nofun
  | .filter e :: p, u => by
    rw [stepTree, List.length_cons, List.length_append, length_stepTree p, treeSize, List.length_flatMap]
    simp only [List.length_map, List.length_range]
    rw [show (e.props.map List.length).sum = (e.props.map fun q => q.length).sum from rfl]
    omega

theorem mem_step (p : List (QStep Num)) (s : Step) (u w : List Step)
    (h : w = u ++ s :: p.map sk ∨ ∃ r ∈ regs (u ++ [s]) p, r.w = w) (n : Nat) (h1 : u.length ≤ n) (h2 : n < w.length)
    (D : List (List Step))
    (ih : (w = u ++ [s] ++ p.map sk ∨ ∃ r ∈ regs (u ++ [s]) p, r.w = w) → ∀ n, (u ++ [s]).length ≤ n → n < w.length →
      w.take (n + 1) ∈ D) : w.take (n + 1) ∈ (u ++ [s]) :: D := by
  by_cases hn : n = u.length
  · subst hn
    have : w.take (u.length + 1) = u ++ [s] := by
      rcases h with rfl | ⟨r, hr, rfl⟩
      · rw [show u ++ s :: p.map sk = u ++ [s] ++ p.map sk by simp, List.take_append_of_le_length (by simp),
          List.take_of_length_le (by simp)]
      · obtain ⟨v, hv⟩ := regs_after hr
        rw [hv, List.take_append_of_le_length (by simp), List.take_of_length_le (by simp)]
    rw [this]
    simp
  · exact List.mem_cons_of_mem _ (ih (by simpa using h) n (by simp; omega) h2)

theorem mem_stepTree : ∀ (p : List (QStep Num)) (u : List Step) (w : List Step), (w = u ++ p.map sk ∨ ∃ r ∈ regs u p, r.w = w) →
    ∀ n, u.length ≤ n → n < w.length → w.take (n + 1) ∈ stepTree u p
  | [], u, w, h, n, h1, h2 => by
    rcases h with rfl | ⟨r, hr, _⟩
    · simp at h2; omega
    · cases hr
  | .prop k :: p, u, w, h, n, h1, h2 => mem_step p (.prop k) u w (by simpa [regs, sk] using h) n h1 h2 (stepTree _ p) (mem_stepTree p _ _)
  | .all :: p, u, w, h, n, h1, h2 => mem_step p .all u w (by simpa [regs, sk] using h) n h1 h2 (stepTree _ p) (mem_stepTree p _ _)
  | .filter e :: p, u, w, h, n, h1, h2 => by
    have ih := mem_stepTree p (u ++ [.all]) w
    have hor : (∃ q ∈ e.props, w = u ++ [.all] ++ q.map .prop) ∨ w = u ++ [.all] ∨
        (w = u ++ [.all] ++ p.map sk ∨ ∃ r ∈ regs (u ++ [.all]) p, r.w = w) := by
      rcases h with h | ⟨r, hr, h⟩
      · exact .inr (.inr (.inl (by simpa [sk] using h)))
      · rw [regs, List.mem_append, block, List.mem_cons, List.mem_map] at hr
        rcases hr with (rfl | ⟨q, hq, rfl⟩) | hr
        · exact .inr (.inl h.symm)
        · exact .inl ⟨q, mem_testedPaths.1 hq, h.symm⟩
        · exact .inr (.inr (.inr ⟨r, hr, h⟩))
    rw [stepTree]
    by_cases hn : n = u.length
    · subst hn
      have : w.take (u.length + 1) = u ++ [.all] := by
        rcases hor with ⟨q, _, rfl⟩ | rfl | rfl | ⟨r, hr, rfl⟩
        · rw [List.take_append_of_le_length (by simp), List.take_of_length_le (by simp)]
        · rw [List.take_of_length_le (by simp)]
        · rw [List.take_append_of_le_length (by simp), List.take_of_length_le (by simp)]
        · obtain ⟨v, hv⟩ := regs_after hr
          rw [hv, List.take_append_of_le_length (by simp), List.take_of_length_le (by simp)]
      rw [this]
      simp
    · refine List.mem_cons_of_mem _ ?_
      rcases hor with ⟨q, hq, rfl⟩ | rfl | h
      · refine List.mem_append_left _ (List.mem_flatMap.2 ⟨q, hq, List.mem_map.2 ⟨n - u.length - 1, List.mem_range.2 (by simp at h2; omega), ?_⟩⟩)
        have e1 : (u ++ [Step.all] ++ q.map Step.prop).take (n + 1) = u ++ [Step.all] ++ (q.map Step.prop).take (n + 1 - (u ++ [Step.all]).length) := by
          rw [List.take_append, List.take_of_length_le (by simp; omega)]
        rw [e1, List.map_take, show n - u.length - 1 + 1 = n + 1 - (u ++ [Step.all]).length by simp; omega]
      · simp at h2; omega
      · exact List.mem_append_right _ (ih h n (by simp; omega) h2)

theorem pathRegs_stepTree (p : List (QStep Num)) : ∀ q ∈ pathRegs p, ∀ n, n < q.w.length → q.w.take (n + 1) ∈ stepTree [] p := by
  intro q hq n hn
  refine mem_stepTree p [] q.w ?_ n (Nat.zero_le _) hn
  rw [pathRegs, List.mem_append, List.mem_singleton] at hq
  rcases hq with hq | rfl
  · exact .inr ⟨q, hq, rfl⟩
  · exact .inl (by simp)

theorem hasFilter_pred : ∀ (p : List (QStep Num)) (u : List Step), hasFilter p = true →
    ∃ w e ds, ⟨w, .pred e ds⟩ ∈ regs u p
  | [], u, h => by cases h
  | .prop k :: p, u, h => hasFilter_pred p (u ++ [.prop k]) h
  | .all :: p, u, h => hasFilter_pred p (u ++ [.all]) h
  | .filter e :: p, u, h => ⟨u ++ [.all], e, testedPaths e, by simp [regs, block]⟩

/-! ### The serial run -/

theorem track_init {p : List (QStep Num)} : Track (pathRegs p) [] (Res.init p) := by
  refine ⟨by intro s hs; simp at hs, ?_⟩
  intro x ro
  simp only [pathRegs, List.nil_append, List.mem_append, List.mem_singleton, Reg.mk.injEq, Res.Lang, Res.init]
  constructor
  · intro h; exact .inr (.inr ⟨p, rfl, h⟩)
  · rintro (⟨_, e, h, _⟩ | ⟨c, h, _⟩ | ⟨q, h, h'⟩)
    · cases h
    · simp at h
    · cases h; exact h'

theorem good_init {p : List (QStep Num)} (hp : CleanPath p) (hn : namedAfterFilter p = true) : Good (Res.init p) := by
  refine ⟨by intro d hd; simp [Res.init] at hd, (by intro e he; cases he), ?_⟩
  intro q hq
  cases hq
  exact ⟨hp, hn⟩

theorem above_init {p : List (QStep Num)} (h : hasFilter p = true) : Above (Res.init p) := by
  intro _
  refine ⟨rfl, ?_⟩
  intro q hq
  cases hq
  exact h

/-- The serial run of a path with filters, if its tuples are those of the forest of a value `x`. -/
theorem FSem.serial {p : List (QStep Num)} {c : SCtx} (h : FSem (pathRegs p) c c.state) (O : NumOps) (hp : CleanPath p)
    (hn : namedAfterFilter p = true) (hf : hasFilter p = true) (hst : (tableOf c).statesNum ≤ 100) (pre trail : Str) (v x : J)
    (hpre : pre.all isWs = true) (htr : trail.all isWs = true) (hsp : pre.head? ≠ some ' ')
    (hc : v.isContainer = true) (hwf : v.wf = true) (hk : v.keysTight = true)
    (hdep : v.depth ≤ MAX_STACK)
    (hft : forestTuples (forest c.state (Res.init p) [] id x .nil) = emit (tableOf c) id false 1 0 v)
    (hxw : x.wf = true) (htd : x.tidy = true) (hdec : x.decided (arith O) O.atof p = true) :
    let r := serialPartialRun O (tableOf c) (contextOf c) none (pre ++ v.render ++ trail)
    r.pf.output = (x.select (arith O) O.atof p).map J.render := by
  obtain ⟨ms', he⟩ := execAutomaton_doc (tableOf c) pre trail v id SA.init hpre htr hsp hc hwf hk rfl
    hdep (by simpa [SA.init] using hdep)
  have htl : (execAutomaton (tableOf c) (pre ++ v.render ++ trail) SA.init).tl =
      emit (tableOf c) id false 1 0 v := by
    rw [he]
    show (SA.init.emitAll _).tl = _
    rw [emitAll_tl]; rfl
  have ht := track_init (p := p)
  have hg := good_init hp hn
  have ha := above_init hf
  have hx : ExactObs id x := by intro t _; rfl
  simp only [serialPartialRun]
  rw [htl, ← hft]
  obtain ⟨w, e, ds, hreg⟩ := hasFilter_pred p [] hf
  have hreg' : ⟨w, .pred e ds⟩ ∈ pathRegs p := List.mem_append_left _ hreg
  have hone : ∃ s < MAX_PREDICATE_STATE, ((PF.init (contextOf c)).conds s).isSome = true := by
    have hro : roleOf (pathRegs p) w = some (.pred e ds) := (roleOf_some h.nodup).2 hreg'
    have hw : SimpleWord w := h.simple _ hreg'
    refine ⟨c.state w, ?_, by rw [h.initConds hro hw]; rfl⟩
    have h1 := FWords.state_lt (c := c) w
    have e : (tableOf c).statesNum = c.dfa.rows.length + 1 := rfl
    simp only [MAX_PREDICATE_STATE]
    omega
  have hdr : DecR O (Res.init p) x := ⟨(by intro e he; cases he), by intro q hq; cases hq; exact hdec⟩
  have := c24_nested O (contextOf c) (condNames (contextOf c)) (filterHolds O (contextOf c))
    (forest c.state (Res.init p) [] id x .nil) (PF.init (contextOf c)) hone
    (decided_forest h O (Res.init p) [] ht hg id x hxw htd hdr .nil trivial)
    (fits_forest h (Res.init p) [] ht hg id none (by intro _ d hd; simp [Res.init] at hd) x hxw htd hx .nil trivial)
    (unnested_forest h (Res.init p) [] ht id x .nil rfl) rfl rfl
    (by
      intro y hy
      rcases preds_forest h (Res.init p) [] ht id x .nil y hy with hy | ⟨y, e, ds, h1, h2, rfl⟩
      · simp [Forest.preds] at hy
      · rw [h.initConds h2 h1, h.names h1 h2])
  rw [this.1, output_released _ _ (elemsOnly_forest c.state (Res.init p) [] hg ha id x .nil rfl),
    released_forest h O (Res.init p) [] ht hg id x hxw htd hx hdr]
  simp [PF.init, selR, Res.init, passes, Forest.released]

/-- The number of states of a path with filters. -/
theorem FTab.states {p : List (QStep Num)} {c : SCtx} (h : FTab (pathRegs p) c) (hsz : treeSize p ≤ 98) :
    (tableOf c).statesNum ≤ 100 := by
  have h2 := h.states_le (pathRegs_stepTree p)
  rw [length_stepTree] at h2
  omega

/-- The tuples of a document are those of its forest. -/
theorem FTab.tuples {p : List (QStep Num)} {c : SCtx} (h : FTab (pathRegs p) c) (v : J) :
    forestTuples (forest c.state (Res.init p) [] id v .nil) = emit (tableOf c) id false 1 0 v := by
  have := forest_tuples h.toFWords (Res.init p) [] track_init id false 0 (by intro h; cases h) v .nil
  rw [this, show c.state [] = 1 from rfl]
  simp [forestTuples]

/-- The serial run of a path with filters. -/
theorem FTab.serial {p : List (QStep Num)} {c : SCtx} (h : FTab (pathRegs p) c) (O : NumOps) (hp : CleanPath p)
    (hn : namedAfterFilter p = true) (hf : hasFilter p = true) (hsz : treeSize p ≤ 98) (pre trail : Str) (v : J)
    (hpre : pre.all isWs = true) (htr : trail.all isWs = true) (hsp : pre.head? ≠ some ' ')
    (hc : v.isContainer = true) (hwf : v.wf = true) (hk : v.keysTight = true)
    (hdep : v.depth ≤ MAX_STACK) (htd : v.tidy = true) (hdec : v.decided (arith O) O.atof p = true) :
    let r := serialPartialRun O (tableOf c) (contextOf c) none (pre ++ v.render ++ trail)
    r.pf.output = (v.select (arith O) O.atof p).map J.render :=
  h.sem.serial O hp hn hf (h.states hsz) pre trail v v hpre htr hsp hc hwf hk hdep (h.tuples v) hwf htd hdec

end JPS
