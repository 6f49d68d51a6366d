import Verif.FilterForest
/-!
# The forest of a document fits the compiled query
-/

set_option autoImplicit false

namespace JPS
open Spec

/-! ### Facts about positions -/

theorem Res.role_pred {r : Res} {e : Expr Num} {ds : List (List Str)} (h : r.role = some (.pred e ds)) :
    r.tst = some e ∧ ds = testedPaths e := by
  unfold Res.role at h
  cases hts : r.tst with
  | some e' =>
    rw [hts] at h
    simp only [Option.some.injEq, Role.pred.injEq] at h
    exact ⟨by rw [h.1], by rw [← h.2, h.1]⟩
  | none =>
    rw [hts] at h
    simp only at h
    split at h
    · cases h
    · split at h <;> cases h

theorem Res.role_cond {r : Res} {q : List Str} (h : r.role = some (.cond q)) :
    r.tst = none ∧ q = r.pre ∧ r.pre ∈ r.ds := by
  unfold Res.role at h
  cases hts : r.tst with
  | some e' => rw [hts] at h; cases h
  | none =>
    rw [hts] at h
    simp only at h
    split at h
    · rename_i hp
      simp only [Option.some.injEq, Role.cond.injEq] at h
      exact ⟨rfl, h.symm, hp⟩
    · split at h <;> cases h

theorem Res.role_out {r : Res} (h : r.role = some .out) : r.tst = none ∧ r.pre ∉ r.ds ∧ r.rem = some [] := by
  unfold Res.role at h
  cases hts : r.tst with
  | some e' => rw [hts] at h; cases h
  | none =>
    rw [hts] at h
    simp only at h
    split at h
    · cases h
    · rename_i hp
      split at h
      · rename_i hr; exact ⟨rfl, hp, remDone_iff.1 hr⟩
      · cases h

theorem Res.role_none {r : Res} (h : r.role = none) : r.tst = none ∧ r.pre ∉ r.ds ∧ r.rem ≠ some [] := by
  unfold Res.role at h
  cases hts : r.tst with
  | some e' => rw [hts] at h; cases h
  | none =>
    rw [hts] at h
    simp only at h
    split at h
    · cases h
    · rename_i hp
      split at h
      · cases h
      · rename_i hr; exact ⟨rfl, hp, fun he => hr (remDone_iff.2 he)⟩

/-- Positions met in a document. -/
structure Good (r : Res) : Prop where
  clean : ∀ d ∈ r.ds, d ≠ [] ∧ ∀ s ∈ d, '.' ∉ s
  tested : ∀ e, r.tst = some e → r.pre = [] ∧ r.ds = testedPaths e ∧ ∃ k p, r.rem = some (.prop k :: p)
  path : ∀ p, r.rem = some p → CleanPath p ∧ namedAfterFilter p = true

theorem Good.key {r : Res} (h : Good r) (k : Str) : Good (r.key k) := by
  refine ⟨h.clean, (by intro e he; cases he), ?_⟩
  intro p hp
  have hp' : remProp k r.rem = some p := hp
  unfold remProp at hp'
  split at hp'
  · rename_i k' q hr
    split at hp'
    · simp only [Option.some.injEq] at hp'
      subst hp'
      obtain ⟨⟨h1, h2⟩, h3⟩ := h.path _ hr
      exact ⟨⟨by simpa [refsNamed] using h1, fun k hk => h2 k (by simp [pathNames, hk])⟩, by
        simpa [namedAfterFilter] using h3⟩
    · cases hp'
  · cases hp'

theorem Good.dead : Good .dead :=
  ⟨by intro d hd; simp [Res.dead] at hd, (by intro e he; cases he), by intro p hp; cases hp⟩

theorem Good.elem {r : Res} (h : Good r) : Good r.elem := by
  unfold Res.elem
  split
  · rename_i p hr
    obtain ⟨⟨h1, h2⟩, h3⟩ := h.path _ hr
    refine ⟨by intro d hd; simp at hd, (by intro e he; cases he), ?_⟩
    intro q hq
    simp only [Option.some.injEq] at hq
    subst hq
    exact ⟨⟨by simpa [refsNamed] using h1, fun k hk => h2 k (by simpa [pathNames] using hk)⟩, by
        simpa [namedAfterFilter] using h3⟩
  · rename_i e p hr
    obtain ⟨h12, h3⟩ := h.path _ hr
    obtain ⟨h1, h2⟩ := h12.filter
    have hk : ∃ k q, p = .prop k :: q ∧ namedAfterFilter p = true := by
      cases p with
      | nil => simp [namedAfterFilter] at h3
      | cons s q =>
        cases s with
        | prop k => exact ⟨k, q, rfl, by simpa [namedAfterFilter] using h3⟩
        | all => simp [namedAfterFilter] at h3
        | filter e => simp [namedAfterFilter] at h3
    obtain ⟨k, q, hp, h3'⟩ := hk
    refine ⟨?_, ?_, ?_⟩
    · intro d hd
      have := h1 d (mem_testedPaths.1 hd)
      exact ⟨this.1, fun s hs => (this.2 s hs).1⟩
    · intro e' he'
      simp only [Option.some.injEq] at he'
      subst he'
      exact ⟨rfl, rfl, k, q, by rw [hp]⟩
    · intro q' hq'
      simp only [Option.some.injEq] at hq'
      subst hq'
      exact ⟨h2, h3'⟩
  · exact Good.dead

theorem Good.elem_of_tested {r : Res} (h : Good r) {e : Expr Num} (he : r.tst = some e) : r.elem = .dead := by
  obtain ⟨_, _, k, p, hp⟩ := h.tested e he
  unfold Res.elem; rw [hp]

theorem Res.elem_ds {r : Res} (h : r.elem.tst = none) : r.elem.ds = [] := by
  unfold Res.elem at h ⊢
  split <;> simp_all [Res.dead]

/-! ### Names of conditions -/

/-- The names in the condition list of a predicate state. -/
def condNames (ctx : QCtx) (s : Nat) : List Str := (ctx.mapping s).filterMap (condName ctx)

theorem filterMap_of_map {α β : Type} (f : α → Option β) : ∀ (l : List α) (m : List β),
    l.map f = m.map some → l.filterMap f = m
  | [], m, h => by cases m <;> simp at h ⊢
  | a :: l, [], h => by simp at h
  | a :: l, b :: m, h => by
    simp only [List.map_cons, List.cons.injEq] at h
    rw [List.filterMap_cons, h.1]
    simp only [filterMap_of_map f l m h.2]

theorem FTab.names {Q : List Reg} {c : SCtx} (h : FTab Q c) {w : List Step} (hw : SimpleWord w) {e : Expr Num}
    {ds : List (List Str)} (hr : roleOf Q w = some (.pred e ds)) :
    condNames (contextOf c) (c.state w) = ds.map joinPath := by
  rcases h.stop_state hw with ⟨_, h2⟩ | ⟨k, r', h1, h2, h3⟩
  · rw [hr] at h2; cases h2
  · rw [hr] at h2
    simp only [Option.some.injEq] at h2; subst h2
    have := h.condNames_of (FWords.state_lt w) h3 h1
    exact filterMap_of_map _ _ _ (by rw [this, List.map_map]; rfl)

/-- Different registered words have different states. -/
theorem FTab.state_inj {Q : List Reg} {c : SCtx} (h : FTab Q c) {w x : List Step} (hw : SimpleWord w)
    (hx : SimpleWord x) {r s : Role} (hr : roleOf Q w = some r) (hs : roleOf Q x = some s)
    (he : c.state w = c.state x) : w = x := by
  rcases h.stop_state hw with ⟨_, h2⟩ | ⟨k, r', h1, h2, h3⟩
  · rw [hr] at h2; cases h2
  rcases h.stop_state hx with ⟨_, g2⟩ | ⟨j, s', g1, g2, g3⟩
  · rw [hs] at g2; cases g2
  rw [he, g3] at h3
  have : j = k := by omega
  subst this
  rw [h1] at g1
  simp only [Option.some.injEq, Reg.mk.injEq] at g1
  exact g1.1

/-- What the filter knows of the registered words: which states they have, their subtrees and condition lists. -/
structure FSem (Q : List Reg) (c : SCtx) (st : List Step → Nat) : Prop where
  nodup : (Q.map Reg.w).Nodup
  simple : ∀ r ∈ Q, SimpleWord r.w
  subtrees : ∀ {w : List Step}, SimpleWord w → (contextOf c).subtrees (st w) = (roleOf Q w).bind Role.tree
  names : ∀ {w : List Step}, SimpleWord w → ∀ {e : Expr Num} {ds : List (List Str)}, roleOf Q w = some (.pred e ds) →
    condNames (contextOf c) (st w) = ds.map joinPath
  state_inj : ∀ {w x : List Step}, SimpleWord w → SimpleWord x → ∀ {r s : Role}, roleOf Q w = some r →
    roleOf Q x = some s → st w = st x → w = x
  initConds : ∀ {w : List Step} {e : Expr Num} {ds : List (List Str)}, roleOf Q w = some (.pred e ds) → SimpleWord w →
    (PF.init (contextOf c)).conds (st w) = some (condTable (ds.map joinPath) fun _ => none)

theorem FTab.sem {Q : List Reg} {c : SCtx} (h : FTab Q c) : FSem Q c c.state :=
  ⟨h.nodup, fun r hr => (h.inv.clean r.w (List.mem_map_of_mem hr)).simple, fun hw => h.subtrees hw, fun hw _ _ hr => h.names hw hr,
    fun hw hx _ _ hr hs he => h.state_inj hw hx hr hs he, fun hr hw => h.initConds hr hw⟩

/-! ### Texts -/

/-- The reported text of a literal is its text. -/
def ExactObs (obs : Str → Str) (v : J) : Prop := ∀ t, v = .lit t → obs t = t

theorem exactE {v : J} {post : Str} {ch : Char} (h : tidyPost v post = true) :
    ExactObs (litObs false post ch) v := by
  rintro t rfl
  simp only [tidyPost, Bool.and_eq_true, bne_iff_ne, Bool.or_eq_true, beq_iff_eq, List.isEmpty_iff] at h
  exact litObs_exact h.1 (by rcases h.2 with (h | h) | h <;> simp [h]) (.inl rfl)

theorem exactM {v : J} {pre2 post : Str} {rest : Members} (h : tidyPost v post = true)
    (hq : tidyPre pre2 v post rest = true) : ExactObs (litObs pre2.isEmpty post (nextM rest)) v := by
  rintro t rfl
  simp only [tidyPost, Bool.and_eq_true, bne_iff_ne, Bool.or_eq_true, beq_iff_eq, List.isEmpty_iff] at h
  simp only [tidyPre, Bool.or_eq_true, Bool.and_eq_true, Bool.not_eq_true', List.isEmpty_iff] at hq
  refine litObs_exact h.1 (by rcases h.2 with (h | h) | h <;> simp [h]) ?_
  rcases hq with hq | ⟨hq1, hq2⟩
  · exact .inl hq
  · refine .inr ⟨hq1, ?_⟩
    cases rest with
    | nil => simp at hq2
    | cons => rfl

theorem lit_text {t : Str} (h : litOk t = true) : t ≠ ['{'] ∧ t ≠ ['}'] ∧ t ≠ [] ∧ t.head? ≠ some '"' := by
  refine ⟨?_, ?_, ?_, ?_⟩
  · rintro rfl; revert h; decide
  · rintro rfl; revert h; decide
  · rintro rfl; revert h; decide
  · intro hh
    cases t with
    | nil => simp at hh
    | cons a t =>
      simp at hh; subst hh
      simp [litOk, isAlpha] at h

/-! ### The forest fits -/

/-- The tested property `d` belongs to the filter of the enclosing element. -/
def EnclOk (Q : List Reg) (st : List Step → Nat) (encl : Option Nat) (d : List Str) : Prop :=
  ∃ u e, encl = some (st u) ∧ SimpleWord u ∧ roleOf Q u = some (.pred e (testedPaths e)) ∧ d ∈ testedPaths e

theorem joinPath_mem {d : List Str} {ds : List (List Str)} (h : d ∈ ds) : joinPath d ∈ ds.map joinPath :=
  List.mem_map_of_mem h

section
variable {Q : List Reg} {c : SCtx} {st : List Step → Nat} (h : FSem Q c st)
include h

theorem fits_cond {r : Res} {w : List Step} (ht : Track Q w r) {encl : Option Nat}
    (he : r.tst = none → ∀ d ∈ r.ds, EnclOk Q st encl d) {q : List Str} (hr : r.role = some (.cond q)) {t : Str}
    (h1 : t ≠ ['{']) (h2 : t ≠ ['}']) {rest : Forest} (hf : Fits (contextOf c) (condNames (contextOf c)) encl rest) :
    Fits (contextOf c) (condNames (contextOf c)) encl (.cond (st w) (joinPath q) t rest) := by
  obtain ⟨a1, a2, a3⟩ := Res.role_cond hr
  have hs := h.subtrees ht.simple
  rw [ht.role h.nodup, hr] at hs
  obtain ⟨u, e, b1, b2, b3, b4⟩ := he a1 _ a3
  refine ⟨hs, fun s hs => ?_, h1, h2, hf⟩
  rw [b1] at hs
  injection hs with hs
  subst hs
  rw [h.names b2 b3, a2]
  exact joinPath_mem b4

theorem fits_cand {r : Res} {w : List Step} (ht : Track Q w r) {encl : Option Nat}
    (hr : r.role = some .out) {t : Str}
    (h1 : t ≠ ['{']) (h2 : t ≠ ['}']) {rest : Forest} (hf : Fits (contextOf c) (condNames (contextOf c)) encl rest) :
    Fits (contextOf c) (condNames (contextOf c)) encl (.cand (st w) t rest) := by
  have hs := h.subtrees ht.simple
  rw [ht.role h.nodup, hr] at hs
  exact ⟨fun _ _ => .inl hs, h1, h2, hf⟩

theorem fits_leaf {r : Res} {w : List Step} (ht : Track Q w r) {encl : Option Nat}
    (he : r.tst = none → ∀ d ∈ r.ds, EnclOk Q st encl d) {t : Str}
    (h1 : t ≠ ['{']) (h2 : t ≠ ['}']) {rest : Forest} (hf : Fits (contextOf c) (condNames (contextOf c)) encl rest) :
    Fits (contextOf c) (condNames (contextOf c)) encl (leafForest (st w) r t rest) := by
  unfold leafForest
  cases hr : r.role with
  | none => exact hf
  | some ro =>
    cases ro with
    | pred e ds => exact hf
    | cond q => exact fits_cond h ht he hr h1 h2 hf
    | out => exact fits_cand h ht hr h1 h2 hf

mutual
theorem fits_forest (r : Res) (w : List Step) (ht : Track Q w r) (hg : Good r) (obs : Str → Str)
    (encl : Option Nat) (he : r.tst = none → ∀ d ∈ r.ds, EnclOk Q st encl d) : ∀ (v : J), v.wf = true → v.tidy = true →
    ExactObs obs v → ∀ (rest : Forest), Fits (contextOf c) (condNames (contextOf c)) encl rest →
    Fits (contextOf c) (condNames (contextOf c)) encl (forest st r w obs v rest)
  | .lit t, hw, _, hx, rest, hf => by
    unfold forest
    have := lit_text (t := t) hw
    rw [hx t rfl]
    exact fits_leaf h ht he this.1 this.2.1 hf
  | .str s, _, _, _, rest, hf => by
    unfold forest
    exact fits_leaf h ht he (by simp) (by simp) hf
  | .arr a es, hw, htd, _, rest, hf => by
    simp only [J.wf, Bool.and_eq_true] at hw
    have ih := fits_forestE r.elem (w ++ [Step.all]) ht.elem hg.elem encl (fun h1 d hd => by
      rw [Res.elem_ds h1] at hd; simp at hd) es hw.2 htd
    unfold forest
    cases hr : r.role with
    | none => exact ih rest hf
    | some ro =>
      cases ro with
      | pred e ds => exact ih rest hf
      | cond q => exact fits_cond h ht he hr (by simp) (by simp) (ih rest hf)
      | out => exact ih _ (fits_cand h ht hr (by simp [J.render]) (by simp [J.render]) hf)
  | .obj a ms, hw, htd, _, rest, hf => by
    simp only [J.wf, Bool.and_eq_true] at hw
    unfold forest
    cases hr : r.role with
    | none =>
      exact fits_forestM r w ht hg encl (he (Res.role_none hr).1) ms hw.2 htd rest hf
    | some ro =>
      cases ro with
      | pred e ds =>
        refine ⟨fits_forestM r w ht hg (some (st w)) ?_ ms hw.2 htd .nil trivial, hf⟩
        obtain ⟨a1, a2⟩ := Res.role_pred hr
        intro d hd
        rw [(hg.tested e a1).2.1] at hd
        exact ⟨w, e, rfl, ht.simple, by rw [ht.role h.nodup, hr, a2], hd⟩
      | cond q =>
        exact fits_cond h ht he hr (by simp) (by simp)
          (fits_forestM r w ht hg encl (he (Res.role_cond hr).1) ms hw.2 htd rest hf)
      | out =>
        exact fits_forestM r w ht hg encl (he (Res.role_out hr).1) ms hw.2 htd _
          (fits_cand h ht hr (by simp [J.render]) (by simp [J.render]) hf)
theorem fits_forestE (r : Res) (w : List Step) (ht : Track Q w r) (hg : Good r)
    (encl : Option Nat) (he : r.tst = none → ∀ d ∈ r.ds, EnclOk Q st encl d) : ∀ (es : Elems), es.wf = true → es.tidy = true →
    ∀ (rest : Forest), Fits (contextOf c) (condNames (contextOf c)) encl rest →
    Fits (contextOf c) (condNames (contextOf c)) encl (forestE st r w es rest)
  | .nil, _, _, rest, hf => by simpa [forestE] using hf
  | .cons pre v post tail, hw, htd, rest, hf => by
    simp only [Elems.wf, Bool.and_eq_true] at hw
    simp only [Elems.tidy, Bool.and_eq_true] at htd
    unfold forestE
    exact fits_forest r w ht hg _ encl he v hw.1.1.2 htd.1.2 (exactE htd.1.1) _
      (fits_forestE r w ht hg encl he tail hw.2 htd.2 rest hf)
theorem fits_forestM (r : Res) (w : List Step) (ht : Track Q w r) (hg : Good r)
    (encl : Option Nat) (he : ∀ d ∈ r.ds, EnclOk Q st encl d) : ∀ (ms : Members), ms.wf = true → ms.tidy = true →
    ∀ (rest : Forest), Fits (contextOf c) (condNames (contextOf c)) encl rest →
    Fits (contextOf c) (condNames (contextOf c)) encl (forestM st r w ms rest)
  | .nil, _, _, rest, hf => by simpa [forestM] using hf
  | .cons pre k mid pre2 v post tail, hw, htd, rest, hf => by
    simp only [Members.wf, Bool.and_eq_true] at hw
    simp only [Members.tidy, Bool.and_eq_true] at htd
    unfold forestM
    exact fits_forest (r.key k) (w ++ [Step.prop k]) (ht.key k) (hg.key k) _ encl (fun _ => he) v hw.1.1.2 htd.1.2
      (exactM htd.1.1.1 htd.1.1.2) _ (fits_forestM r w ht hg encl he tail hw.2 htd.2 rest hf)
end

/-! ### Nesting -/

/-- `x` is the state of a filter's elements below `w`. -/
def PredBelow (Q : List Reg) (st : List Step → Nat) (w : List Step) (x : Nat) : Prop :=
  ∃ y e ds, SimpleWord (w ++ y) ∧ roleOf Q (w ++ y) = some (.pred e ds) ∧ x = st (w ++ y)

omit h in
theorem PredBelow.up {w : List Step} {s : Step} {x : Nat} (hp : PredBelow Q st (w ++ [s]) x) : PredBelow Q st w x := by
  obtain ⟨y, e, ds, h1, h2, h3⟩ := hp
  exact ⟨s :: y, e, ds, by simpa using h1, by simpa using h2, by simpa using h3⟩

omit h in
theorem leaf_preds (st : Nat) (r : Res) (t : Str) (rest : Forest) : (leafForest st r t rest).preds = rest.preds := by
  unfold leafForest
  cases hr : r.role with
  | none => rfl
  | some ro => cases ro <;> rfl

mutual
theorem preds_forest (r : Res) (w : List Step) (ht : Track Q w r) (obs : Str → Str) : ∀ (v : J) (rest : Forest),
    ∀ x ∈ (forest st r w obs v rest).preds, x ∈ rest.preds ∨ PredBelow Q st w x
  | .lit t, rest, x, hx => by unfold forest at hx; rw [leaf_preds] at hx; exact .inl hx
  | .str t, rest, x, hx => by unfold forest at hx; rw [leaf_preds] at hx; exact .inl hx
  | .arr a es, rest, x, hx => by
    have ih : ∀ rest', x ∈ (forestE st r.elem (w ++ [Step.all]) es rest').preds →
        x ∈ rest'.preds ∨ PredBelow Q st w x := fun rest' hx =>
      (preds_forestE r.elem (w ++ [Step.all]) ht.elem es rest' x hx).imp id PredBelow.up
    unfold forest at hx
    cases hr : r.role with
    | none => rw [hr] at hx; exact ih rest hx
    | some ro =>
      rw [hr] at hx
      cases ro with
      | pred e ds => exact ih rest hx
      | cond q => exact ih rest hx
      | out => exact ih (.cand _ _ rest) hx
  | .obj a ms, rest, x, hx => by
    have ih : ∀ rest', x ∈ (forestM st r w ms rest').preds → x ∈ rest'.preds ∨ PredBelow Q st w x := fun rest' hx =>
      (preds_forestM r w ht ms rest' x hx).imp id (fun ⟨k, hk⟩ => hk.up)
    unfold forest at hx
    cases hr : r.role with
    | none => rw [hr] at hx; exact ih rest hx
    | some ro =>
      rw [hr] at hx
      cases ro with
      | pred e ds =>
        simp only [Forest.preds, List.cons_append, List.mem_cons, List.mem_append] at hx
        rcases hx with hx | hx | hx
        · exact .inr ⟨[], e, ds, by simpa using ht.simple, by rw [List.append_nil, ht.role h.nodup, hr], by simpa using hx⟩
        · rcases ih .nil hx with hx | hx
          · simp [Forest.preds] at hx
          · exact .inr hx
        · exact .inl hx
      | cond q => exact ih rest hx
      | out => exact ih (.cand _ _ rest) hx
theorem preds_forestE (r : Res) (w : List Step) (ht : Track Q w r) : ∀ (es : Elems) (rest : Forest),
    ∀ x ∈ (forestE st r w es rest).preds, x ∈ rest.preds ∨ PredBelow Q st w x
  | .nil, rest, x, hx => by unfold forestE at hx; exact .inl hx
  | .cons pre v post tail, rest, x, hx => by
    unfold forestE at hx
    rcases preds_forest r w ht _ v _ x hx with hx | hx
    · exact preds_forestE r w ht tail rest x hx
    · exact .inr hx
theorem preds_forestM (r : Res) (w : List Step) (ht : Track Q w r) : ∀ (ms : Members) (rest : Forest),
    ∀ x ∈ (forestM st r w ms rest).preds, x ∈ rest.preds ∨ ∃ k, PredBelow Q st (w ++ [Step.prop k]) x
  | .nil, rest, x, hx => by unfold forestM at hx; exact .inl hx
  | .cons pre k mid pre2 v post tail, rest, x, hx => by
    unfold forestM at hx
    rcases preds_forest (r.key k) (w ++ [Step.prop k]) (ht.key k) _ v _ x hx with hx | hx
    · exact preds_forestM r w ht tail rest x hx
    · exact .inr ⟨k, hx⟩
end

omit h in
theorem leaf_unnested (st : Nat) (r : Res) (t : Str) (rest : Forest) :
    (leafForest st r t rest).unnested = rest.unnested := by
  unfold leafForest
  cases hr : r.role with
  | none => rfl
  | some ro => cases ro <;> rfl

mutual
theorem unnested_forest (r : Res) (w : List Step) (ht : Track Q w r) (obs : Str → Str) : ∀ (v : J) (rest : Forest),
    rest.unnested = true → (forest st r w obs v rest).unnested = true
  | .lit t, rest, hr => by unfold forest; rw [leaf_unnested]; exact hr
  | .str t, rest, hr => by unfold forest; rw [leaf_unnested]; exact hr
  | .arr a es, rest, hrest => by
    have ih := unnested_forestE r.elem (w ++ [Step.all]) ht.elem es
    unfold forest
    cases hr : r.role with
    | none => exact ih _ hrest
    | some ro => cases ro <;> exact ih _ hrest
  | .obj a ms, rest, hrest => by
    have ih := unnested_forestM r w ht ms
    unfold forest
    cases hr : r.role with
    | none => exact ih _ hrest
    | some ro =>
      cases ro with
      | pred e ds =>
        simp only [Forest.unnested, Bool.and_eq_true, Bool.not_eq_true']
        refine ⟨⟨?_, ih _ rfl⟩, hrest⟩
        rw [Bool.eq_false_iff]
        intro hm
        rw [List.contains_iff_mem] at hm
        rcases preds_forestM h r w ht ms _ _ hm with hm | ⟨k, y, e', ds', h1, h2, h3⟩
        · simp [Forest.preds] at hm
        · have := h.state_inj ht.simple h1 (by rw [ht.role h.nodup, hr]) h2 h3
          have := congrArg List.length this
          simp at this
      | cond q => exact ih _ hrest
      | out => exact ih _ hrest
theorem unnested_forestE (r : Res) (w : List Step) (ht : Track Q w r) : ∀ (es : Elems) (rest : Forest),
    rest.unnested = true → (forestE st r w es rest).unnested = true
  | .nil, rest, hr => by unfold forestE; exact hr
  | .cons pre v post tail, rest, hr => by
    unfold forestE
    exact unnested_forest r w ht _ v _ (unnested_forestE r w ht tail rest hr)
theorem unnested_forestM (r : Res) (w : List Step) (ht : Track Q w r) : ∀ (ms : Members) (rest : Forest),
    rest.unnested = true → (forestM st r w ms rest).unnested = true
  | .nil, rest, hr => by unfold forestM; exact hr
  | .cons pre k mid pre2 v post tail, rest, hr => by
    unfold forestM
    exact unnested_forest (r.key k) (w ++ [Step.prop k]) (ht.key k) _ v _ (unnested_forestM r w ht tail rest hr)
end

end

/-! ### Only elements at the top -/

/-- Above all filters. -/
def Above (r : Res) : Prop := r.tst = none → r.ds = [] ∧ ∀ p, r.rem = some p → hasFilter p = true

theorem Above.key {r : Res} (h : Above r) (hn : r.tst = none) (k : Str) : Above (r.key k) := by
  intro _
  obtain ⟨h1, h2⟩ := h hn
  refine ⟨h1, ?_⟩
  intro p hp
  have hp' : remProp k r.rem = some p := hp
  unfold remProp at hp'
  split at hp'
  · rename_i k' q hr
    split at hp'
    · simp only [Option.some.injEq] at hp'
      subst hp'
      simpa [hasFilter] using h2 _ hr
    · cases hp'
  · cases hp'

theorem Above.elem {r : Res} (h : Above r) (hg : Good r) : Above r.elem := by
  intro hn
  refine ⟨Res.elem_ds hn, ?_⟩
  intro p hp
  cases ht : r.tst with
  | some e => rw [hg.elem_of_tested ht] at hp; cases hp
  | none =>
    obtain ⟨h1, h2⟩ := h ht
    unfold Res.elem at hp hn
    split at hp
    · rename_i q hr
      simp only [Option.some.injEq] at hp
      subst hp
      simpa [hasFilter] using h2 _ hr
    · rename_i e q hr
      rw [hr] at hn; cases hn
    · cases hp

theorem Above.role {r : Res} (h : Above r) : r.role = none ∨ ∃ e ds, r.role = some (.pred e ds) := by
  cases hr : r.role with
  | none => exact .inl rfl
  | some ro =>
    cases ro with
    | pred e ds => exact .inr ⟨e, ds, rfl⟩
    | cond q =>
      obtain ⟨h1, _, h3⟩ := Res.role_cond hr
      rw [(h h1).1] at h3; simp at h3
    | out =>
      obtain ⟨h1, _, h3⟩ := Res.role_out hr
      have := (h h1).2 _ h3
      simp [hasFilter] at this

section
variable (st : List Step → Nat)

mutual
theorem elemsOnly_forest (r : Res) (w : List Step) (hg : Good r) (ha : Above r) (obs : Str → Str) : ∀ (v : J) (rest : Forest),
    rest.elemsOnly = true → (forest st r w obs v rest).elemsOnly = true
  | .lit t, rest, hrest => by
    unfold forest leafForest
    rcases ha.role with hr | ⟨e, ds, hr⟩ <;> rw [hr] <;> exact hrest
  | .str t, rest, hrest => by
    unfold forest leafForest
    rcases ha.role with hr | ⟨e, ds, hr⟩ <;> rw [hr] <;> exact hrest
  | .arr a es, rest, hrest => by
    have ih := elemsOnly_forestE r.elem (w ++ [Step.all]) hg.elem (ha.elem hg) es rest hrest
    unfold forest
    rcases ha.role with hr | ⟨e, ds, hr⟩ <;> rw [hr] <;> exact ih
  | .obj a ms, rest, hrest => by
    unfold forest
    rcases ha.role with hr | ⟨e, ds, hr⟩ <;> rw [hr]
    · exact elemsOnly_forestM r w hg ha (Res.role_none hr).1 ms rest hrest
    · exact hrest
theorem elemsOnly_forestE (r : Res) (w : List Step) (hg : Good r) (ha : Above r) : ∀ (es : Elems) (rest : Forest),
    rest.elemsOnly = true → (forestE st r w es rest).elemsOnly = true
  | .nil, rest, hr => by unfold forestE; exact hr
  | .cons pre v post tail, rest, hr => by
    unfold forestE
    exact elemsOnly_forest r w hg ha _ v _ (elemsOnly_forestE r w hg ha tail rest hr)
theorem elemsOnly_forestM (r : Res) (w : List Step) (hg : Good r) (ha : Above r) (hn : r.tst = none) :
    ∀ (ms : Members) (rest : Forest),
    rest.elemsOnly = true → (forestM st r w ms rest).elemsOnly = true
  | .nil, rest, hr => by unfold forestM; exact hr
  | .cons pre k mid pre2 v post tail, rest, hr => by
    unfold forestM
    exact elemsOnly_forest (r.key k) (w ++ [Step.prop k]) (hg.key k) (ha.key hn k) _ v _
      (elemsOnly_forestM r w hg ha hn tail rest hr)
end

end

end JPS
