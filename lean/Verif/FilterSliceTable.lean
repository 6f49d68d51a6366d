import Verif.FilterSliceCtx
import Verif.FilterUb
import Verif.Props.Automaton
/-!
# The automaton of a path with filters and slices
-/

set_option autoImplicit false

namespace JPS
open Spec

/-! ### Words -/

/-- The word with the bounds forgotten. -/
def flat (w : List Step) : List Step := w.map unslice

theorem flat_append (w x : List Step) : flat (w ++ x) = flat w ++ flat x := by simp [flat]

theorem flat_props (q : List Str) : flat (q.map .prop) = q.map .prop := by
  simp [flat, Function.comp_def, unslice]

theorem word_flat (c : SCtx) (w : List Step) : c.word (flat w) = c.word w := by
  simp only [SCtx.word, flat, List.map_map]
  apply List.map_congr_left
  intro s _
  cases s <;> rfl

theorem state_flat (c : SCtx) (w : List Step) : c.state (flat w) = c.state w := by
  simp only [SCtx.state, word_flat]

theorem GClean.flat {w : List Step} (h : GClean w) : CleanWord (flat w) := by
  intro s hs
  obtain ⟨t, ht, rfl⟩ := List.mem_map.1 hs
  rcases h t ht with rfl | ⟨a, b, rfl⟩ | ⟨k, rfl, hk⟩
  · exact .inl rfl
  · exact .inl rfl
  · exact .inr ⟨k, rfl, hk⟩

theorem named_flat {names : List Str} {w : List Step} (h : Named names w) : Named names (flat w) := by
  intro s hs k hk
  obtain ⟨t, ht, rfl⟩ := List.mem_map.1 hs
  cases t <;> first | exact h _ ht k hk | simp [unslice, stepName] at hk

theorem itemsOf_flat (names : List Str) (w : List Step) : itemsOf names (flat w) = itemsOf names w := by
  unfold itemsOf flat
  induction w with
  | nil => rfl
  | cons s w ih =>
    simp only [List.map_cons, List.flatMap_cons, ih]
    congr 1
    cases s <;> rfl

/-- The index test of a range. -/
def inR (g : Int × Int) (n : Nat) : Bool :=
  (g.1 == 0 && g.2 == 0) || (decide ((n : Int) ≥ g.1) && decide ((n : Int) < g.2))

theorem inR_zero (n : Nat) : inR (0, 0) n = true := rfl

/-! ### The finished context -/

/-- The words that stand for something, with the bounds forgotten. -/
def low (Q : List SReg) : List Reg := Q.filterMap fun r => r.role.map fun ro => ⟨flat r.w, ro⟩

/-- The registered words of a finished compilation: one of them is the result. -/
structure STab (Q : List SReg) (c : SCtx) : Prop where
  inv : GInv (Q.map SReg.w) (Q.map SReg.tree) c
  few : c.names.length ≤ 253
  nodup : (Q.map fun r => flat r.w).Nodup
  nonempty : ∀ r ∈ Q, r.w ≠ []
  out : ∃ i U, Q[i]? = some ⟨U, some .out⟩ ∧ c.lastId = some (i + 1) ∧ ∀ j w, Q[j]? = some ⟨w, some .out⟩ → j = i
  predEnd : ∀ w e ds, ⟨w, some (.pred e ds)⟩ ∈ Q → ∃ w', w = w' ++ [.all]
  condEnd : ∀ w q, ⟨w, some (.cond q)⟩ ∈ Q → ∃ w' k, w = w' ++ [.prop k]
  skipEnd : ∀ w, ⟨w, none⟩ ∈ Q → (rangeOf w).1 ≠ 0 ∨ (rangeOf w).2 ≠ 0
  skipPre : ∀ w, ⟨w, none⟩ ∈ Q → ∃ U, ⟨U, some .out⟩ ∈ Q ∧ w <+: U
  maps : ∀ h w e ds, Q[h]? = some ⟨w, some (.pred e ds)⟩ → MapOk c.mapping (Q.map SReg.tree) h (ds.map joinPath)

theorem mem_low {Q : List SReg} {w : List Step} {ro : Role} :
    (⟨w, ro⟩ : Reg) ∈ low Q ↔ ∃ r ∈ Q, flat r.w = w ∧ r.role = some ro := by
  unfold low
  rw [List.mem_filterMap]
  constructor
  · rintro ⟨r, hr, h⟩
    cases hro : r.role with
    | none => rw [hro] at h; cases h
    | some x =>
      rw [hro] at h
      simp only [Option.map_some, Option.some.injEq, Reg.mk.injEq] at h
      exact ⟨r, hr, h.1, by rw [hro, h.2]⟩
  · rintro ⟨r, hr, h1, h2⟩
    exact ⟨r, hr, by rw [h2, ← h1]; rfl⟩

theorem low_nodup {Q : List SReg} (h : (Q.map fun r => flat r.w).Nodup) : ((low Q).map Reg.w).Nodup := by
  induction Q with
  | nil => exact List.nodup_nil
  | cons r Q ih =>
    rw [List.map_cons, List.nodup_cons] at h
    have ih := ih h.2
    cases hr : r.role with
    | none => simpa [low, List.filterMap_cons, hr] using ih
    | some ro =>
      have e : low (r :: Q) = ⟨flat r.w, ro⟩ :: low Q := by simp [low, List.filterMap_cons, hr]
      rw [e, List.map_cons, List.nodup_cons]
      refine ⟨?_, ih⟩
      intro hm
      obtain ⟨x, hx, he⟩ := List.mem_map.1 hm
      obtain ⟨y, hy, h1, _⟩ := mem_low.1 hx
      exact h.1 (List.mem_map.2 ⟨y, hy, h1.trans he⟩)

namespace STab
variable {Q : List SReg} {c : SCtx}

theorem ok (h : STab Q c) : c.Ok := by
  obtain ⟨i, U, hQ, _⟩ := h.out
  have hQ0 : Q ≠ [] := by rintro rfl; simp at hQ
  refine ⟨by rw [h.inv.rules]; simpa using hQ0, ?_, h.inv.nodup, h.few⟩
  intro r hr it hit
  rw [h.inv.rules] at hr
  obtain ⟨q, _, rfl⟩ := List.mem_map.1 hr
  unfold itemsOf at hit
  obtain ⟨se, hse, hit⟩ := List.mem_flatMap.1 hit
  obtain ⟨s, _, rfl⟩ := List.mem_map.1 hse
  cases s <;> simp [seOf, SE.items, nameCol] at hit
  all_goals first
    | (subst hit; simp)
    | (rcases hit with rfl | rfl <;> simp)

theorem items (h : STab Q c) {r : SReg} (hr : r ∈ Q) : itemsOf c.names r.w = (c.word r.w).map litItem := by
  have hm : r.w ∈ Q.map SReg.w := List.mem_map_of_mem hr
  rw [← itemsOf_flat, itemsOf_clean c _ (h.inv.clean _ hm).flat (named_flat (h.inv.named _ hm)), word_flat]

/-- The index of a word decides the stop value of its state. -/
theorem stop_of_word (h : STab Q c) {x : List Nat} (hx : c.letters x) :
    (c.dfa.stop (c.run x) = 0 ∧ ∀ r ∈ Q, x ≠ c.word r.w) ∨
    (∃ k r, Q[k]? = some r ∧ x = c.word r.w ∧ c.dfa.stop (c.run x) = k + 1) := by
  have hl : ∀ r ∈ Q, (Lang (itemsOf c.names r.w) x ↔ x = c.word r.w) := by
    intro r hr
    rw [h.items hr, lang_lits]
  by_cases hne : x = []
  · subst hne
    refine .inl ⟨buildDfa_start c.rules _, ?_⟩
    intro r hr he
    have := h.nonempty r hr
    cases hw : r.w with
    | nil => exact this hw
    | cons s w => rw [hw] at he; simp [SCtx.word] at he
  · rw [c.stop_run x hx hne, h.inv.rules]
    rcases lastMatch_spec ((Q.map SReg.w).map (itemsOf c.names)) x 0 with ⟨h1, h2⟩ | ⟨k, r, h1, h2, h3, h4⟩
    · refine .inl ⟨h1, ?_⟩
      intro r hr he
      exact h2 (itemsOf c.names r.w) (List.mem_map_of_mem (List.mem_map_of_mem hr)) ((hl r hr).2 he)
    · rw [List.map_map, List.getElem?_map] at h1
      cases hg : Q[k]? with
      | none => rw [hg] at h1; cases h1
      | some r' =>
        rw [hg] at h1
        simp only [Option.map_some, Function.comp, Option.some.injEq] at h1
        subst h1
        exact .inr ⟨k, r', hg, (hl r' (List.mem_of_getElem? hg)).1 h3, by omega⟩

theorem stop_state (h : STab Q c) {w : List Step} (hw : SimpleWord w) :
    (c.dfa.stop (c.state w) = 0 ∧ ∀ r ∈ Q, flat r.w ≠ w) ∨
    (∃ k r, Q[k]? = some r ∧ flat r.w = w ∧ c.dfa.stop (c.state w) = k + 1) := by
  rcases h.stop_of_word (FWords.letters (c := c) w) with ⟨h1, h2⟩ | ⟨k, r, h1, h2, h3⟩
  · refine .inl ⟨h1, ?_⟩
    intro r hr he
    refine h2 r hr ?_
    rw [← he, word_flat]
  · have hm : r.w ∈ Q.map SReg.w := List.mem_map_of_mem (List.mem_of_getElem? h1)
    have := word_inj c (flat r.w) w (h.inv.clean _ hm).flat (named_flat (h.inv.named _ hm)) hw (by rw [word_flat]; exact h2)
    exact .inr ⟨k, r, h1, this.symm, h3⟩

/-- A word has one entry. -/
theorem unique (h : STab Q c) {i j : Nat} {r s : SReg} (hi : Q[i]? = some r) (hj : Q[j]? = some s)
    (he : flat r.w = flat s.w) : i = j :=
  nodup_index h.nodup (x := flat r.w) (by rw [List.getElem?_map, hi]; rfl) (by rw [List.getElem?_map, hj, he]; rfl)

theorem role_some (h : STab Q c) {r : SReg} (hr : r ∈ Q) : roleOf (low Q) (flat r.w) = r.role := by
  cases hro : r.role with
  | some ro => exact (roleOf_some (low_nodup h.nodup)).2 (mem_low.2 ⟨r, hr, rfl, hro⟩)
  | none =>
    rw [roleOf_none]
    intro hm
    obtain ⟨x, hx, he⟩ := List.mem_map.1 hm
    obtain ⟨y, hy, h1, h2⟩ := mem_low.1 hx
    obtain ⟨i, hi⟩ := List.getElem?_of_mem hr
    obtain ⟨j, hj⟩ := List.getElem?_of_mem hy
    have := h.unique hi hj (by rw [h1, he])
    subst this
    rw [hi] at hj
    simp only [Option.some.injEq] at hj
    subst hj
    rw [hro] at h2; cases h2

theorem role_none {w : List Step} (h : ∀ r ∈ Q, flat r.w ≠ w) : roleOf (low Q) w = none := by
  rw [roleOf_none]
  intro hm
  obtain ⟨x, hx, he⟩ := List.mem_map.1 hm
  obtain ⟨y, hy, h1, h2⟩ := mem_low.1 hx
  exact h y hy (h1.trans he)

theorem range_at (h : STab Q c) {k : Nat} {r : SReg} (hk : Q[k]? = some r) : c.ranges.getD k (0, 0) = rangeOf r.w := by
  rw [h.inv.ranges, List.getD_eq_getElem?_getD, List.map_map, List.getElem?_map, hk]; rfl

theorem range_pred (h : STab Q c) {w : List Step} {e : Expr Num} {ds : List (List Str)} (hm : ⟨w, some (.pred e ds)⟩ ∈ Q) :
    rangeOf w = (0, 0) := by
  obtain ⟨w', rfl⟩ := h.predEnd w e ds hm
  exact rangeOf_all w'

theorem range_cond (h : STab Q c) {w : List Step} {q : List Str} (hm : ⟨w, some (.cond q)⟩ ∈ Q) : rangeOf w = (0, 0) := by
  obtain ⟨w', k, rfl⟩ := h.condEnd w q hm
  exact rangeOf_prop w' k

/-- The range of a word. -/
def rng (Q : List SReg) (w : List Step) : Int × Int := ((Q.find? fun r => flat r.w == w).map fun r => rangeOf r.w).getD (0, 0)

theorem rng_none {w : List Step} (h : ∀ r ∈ Q, flat r.w ≠ w) : rng Q w = (0, 0) := by
  unfold rng
  rw [List.find?_eq_none.2 (fun x hx => by simpa using h x hx)]; rfl

theorem rng_mem (h : STab Q c) {r : SReg} (hr : r ∈ Q) : rng Q (flat r.w) = rangeOf r.w := by
  unfold rng
  cases hf : Q.find? (fun x => flat x.w == flat r.w) with
  | none =>
    have := List.find?_eq_none.1 hf r hr
    simp at this
  | some x =>
    have h1 := List.mem_of_find?_eq_some hf
    have h2 := List.find?_some hf
    simp only [beq_iff_eq] at h2
    obtain ⟨i, hi⟩ := List.getElem?_of_mem h1
    obtain ⟨j, hj⟩ := List.getElem?_of_mem hr
    have := h.unique hi hj h2
    subst this
    rw [hi] at hj
    simp only [Option.some.injEq] at hj
    subst hj; rfl

theorem inRange (h : STab Q c) {w : List Step} (hw : SimpleWord w) (n : Nat) :
    (tableOf c).inRange (c.state w) n = inR (rng Q w) n := by
  unfold QDfa.inRange
  have e1 := c.lower_run _ (FWords.letters (c := c) w)
  have e2 := c.upper_run _ (FWords.letters (c := c) w)
  have e1' : (tableOf c).lower (c.state w) = (rng Q w).1 ∧ (tableOf c).upper (c.state w) = (rng Q w).2 := by
    show (tableOf c).lower (c.run (c.word w)) = (rng Q w).1 ∧ (tableOf c).upper (c.run (c.word w)) = (rng Q w).2
    have hst := h.stop_state hw
    unfold SCtx.state at hst
    rw [e1, e2]
    rcases hst with ⟨h1, h2⟩ | ⟨k, r, h1, h2, h3⟩
    · rw [h1, rng_none h2]; simp
    · rw [h3, if_pos (by omega), if_pos (by omega), Nat.add_sub_cancel, h.range_at h1, ← h2,
        h.rng_mem (List.mem_of_getElem? h1)]
      simp
  rw [e1'.1, e1'.2]; rfl

theorem goKey (h : STab Q c) {w : List Step} {n : Nat} (hn : (tableOf c).inRange (c.state w) n = true) (k : Str) :
    (tableOf c).go (c.state w) n (some k) = c.state (w ++ [.prop k]) := by
  unfold QDfa.go
  rw [if_pos hn]
  have := c.nextByStr_run h.ok (c.word w) (FWords.letters w) k
  unfold SCtx.state
  rw [this]
  simp [SCtx.word, lab]

theorem goArr (h : STab Q c) {w : List Step} {n : Nat} (hn : (tableOf c).inRange (c.state w) n = true) :
    (tableOf c).go (c.state w) n none = c.state (w ++ [.all]) := by
  unfold QDfa.go
  rw [if_pos hn]
  have := c.nextByStr_arr h.ok (c.word w) (FWords.letters w)
  unfold SCtx.state
  rw [this]
  simp [SCtx.word, lab, SCtx.col]

theorem byArray_all (h : STab Q c) (w : List Step) : c.byArray (c.state (w ++ [.all])) = true := by
  have := c.byArray_run h.ok (c.word w) (FWords.letters w)
  unfold SCtx.state
  rw [show c.word (w ++ [.all]) = c.word w ++ [2] by simp [SCtx.word, lab, SCtx.col]]
  exact this

theorem byArray_prop (h : STab Q c) {w : List Step} {k : Str} {i : Nat} {ro : Option Role}
    (hi : Q[i]? = some ⟨w ++ [.prop k], ro⟩) (hs : c.dfa.stop (c.state (w ++ [.prop k])) = i + 1) :
    c.byArray (c.state (w ++ [.prop k])) = false := by
  rw [Bool.eq_false_iff]
  intro hb
  unfold SCtx.byArray at hb
  rw [List.any_eq_true] at hb
  obtain ⟨j, hj, he⟩ := hb
  rw [List.mem_range] at hj
  simp only [beq_iff_eq] at he
  have ht := c.table_eq h.ok j 2 hj (by omega) (by omega)
  have e : (tableOf c).table j 2 =
      if j < c.dfa.rows.length + 1 ∧ 2 < c.names.length + 3 then (compress c.dfa.rows).nextState j 2
      else 0 := rfl
  rw [e, if_pos ⟨hj, by omega⟩, he] at ht
  by_cases hj0 : j = 0
  · subst hj0
    have : c.dfa.next 0 2 = 0 := by simp [SDfa.next, rowsNext]
    rw [this] at ht
    rw [ht] at hs
    simp [SDfa.stop] at hs
  · obtain ⟨x, hx, hxr⟩ := c.reach j hj0 hj
    have hx2 : c.letters (x ++ [2]) := by
      intro a ha
      rcases List.mem_append.1 ha with ha | ha
      · exact hx a ha
      · simp at ha; subst ha; omega
    have hrun : c.run (x ++ [2]) = c.state (w ++ [.prop k]) := by
      rw [ht, ← hxr]; simp [SCtx.run]
    rcases h.stop_of_word hx2 with ⟨h1, _⟩ | ⟨i', r', h1, h2, h3⟩
    · rw [hrun, hs] at h1; omega
    · rw [hrun, hs] at h3
      have : i = i' := by omega
      subst this
      rw [hi] at h1
      simp only [Option.some.injEq] at h1
      subst h1
      simp only [SCtx.word, List.map_append, List.map_cons, List.map_nil, lab] at h2
      have := List.append_inj_right' h2 (by simp)
      simp only [List.cons.injEq, and_true, SCtx.col, nameCol] at this
      split at this <;> omega

theorem accept (h : STab Q c) {w : List Step} (hw : SimpleWord w) :
    (tableOf c).accept (c.state w) = FWords.accOf (roleOf (low Q) w) := by
  unfold SCtx.state
  rw [c.accept_run _ (FWords.letters w)]
  have hst := h.stop_state hw
  rcases hst with ⟨h1, h2⟩ | ⟨k, r, h1, h2, h3⟩
  · unfold SCtx.state at h1
    rw [h1, role_none h2]; rfl
  · have hs := h3
    unfold SCtx.state at hs
    have hm := List.mem_of_getElem? h1
    rw [hs, ← h2, h.role_some hm]
    obtain ⟨i, U, hi, hid, huniq⟩ := h.out
    unfold acceptOf
    rw [if_neg (Nat.succ_ne_zero k), hid, Nat.add_sub_cancel, h.range_at h1]
    simp only [Option.some.injEq]
    by_cases hk : k = i
    · subst hk
      rw [hi] at h1
      simp at h1
      rw [← h1]; simp [FWords.accOf]
    · have hki : (i + 1 = k + 1) = False := by simp; omega
      simp only [hki, if_false]
      obtain ⟨rw_, ro⟩ := r
      simp only at h2 ⊢
      cases ro with
      | none =>
        have := h.skipEnd rw_ hm
        rw [if_pos]
        · rfl
        · refine ⟨this, ?_⟩
          split <;> simp
      | some ro =>
        cases ro with
        | out => exact absurd (huniq k rw_ h1) hk
        | pred e ds =>
          have hg := h.range_pred hm
          rw [if_neg (by simp [hg])]
          obtain ⟨w', rfl⟩ := h.predEnd rw_ e ds hm
          have := h.byArray_all w'
          rw [← state_flat, h2] at this
          rw [← h2] at this
          unfold SCtx.state at this
          rw [this]; simp [FWords.accOf]
        | cond q =>
          have hg := h.range_cond hm
          rw [if_neg (by simp [hg])]
          obtain ⟨w', k', rfl⟩ := h.condEnd rw_ q hm
          have h3' : c.dfa.stop (c.state (w' ++ [.prop k'])) = k + 1 := by rw [← state_flat, h2]; exact h3
          have := h.byArray_prop h1 h3'
          rw [← state_flat] at this
          unfold SCtx.state at this
          rw [this]; simp [FWords.accOf]

theorem matched (h : STab Q c) {w : List Step} (hw : SimpleWord w) {n : Nat}
    (hn : (tableOf c).inRange (c.state w) n = true) : (tableOf c).matchedType (c.state w) n = FWords.accOf (roleOf (low Q) w) := by
  unfold QDfa.matchedType
  rw [h.accept hw, hn]
  cases roleOf (low Q) w with
  | none => rfl
  | some r => cases r <;> rfl

/-- Outside its range a word stands for nothing. -/
theorem matched_out (h : STab Q c) {w : List Step} (hw : SimpleWord w) {n : Nat}
    (hn : (tableOf c).inRange (c.state w) n = false) : (tableOf c).matchedType (c.state w) n = .none := by
  unfold QDfa.matchedType
  rw [h.accept hw, hn]
  rw [h.inRange hw] at hn
  rcases h.stop_state hw with ⟨h1, h2⟩ | ⟨k, r, h1, h2, h3⟩
  · rw [role_none h2]; rfl
  · have hm := List.mem_of_getElem? h1
    rw [← h2, h.rng_mem hm] at hn
    rw [← h2, h.role_some hm]
    obtain ⟨rw_, ro⟩ := r
    cases ro with
    | none => rfl
    | some ro =>
      cases ro with
      | out => rfl
      | pred e ds => rw [h.range_pred hm] at hn; cases hn
      | cond q => rw [h.range_cond hm] at hn; cases hn

/-! ### Outside a range nothing is emitted -/

theorem emitM_out (h : STab Q c) (hd : (tableOf c).Dead0) {w : List Step} {n : Nat}
    (hn : (tableOf c).inRange (c.state w) n = false) : ∀ ms : Members, emitM (tableOf c) (c.state w) n ms = []
  | .nil => by simp [emitM]
  | .cons pre k mid pre2 v post rest => by
    have hg : (tableOf c).go (c.state w) n (some k) = 0 := by unfold QDfa.go; rw [hn]; rfl
    simp only [emitM, hg, emit_dead hd, emitM_out h hd hn rest, List.append_nil]

theorem emit_out (h : STab Q c) (hd : (tableOf c).Dead0) {w : List Step} (hw : SimpleWord w) {n : Nat}
    (hn : (tableOf c).inRange (c.state w) n = false) (obs : Str → Str) (el : Bool) (v : J) :
    emit (tableOf c) obs el (c.state w) n v = [] := by
  have hm := h.matched_out hw hn
  cases v with
  | lit t => simp [emit, hm]
  | str t => simp [emit, hm]
  | arr a es =>
    have hg : (tableOf c).go (c.state w) n none = 0 := by unfold QDfa.go; rw [hn]; rfl
    simp [emit, hm, hg, emitE_dead hd]
  | obj a ms => simp [emit, hm, h.emitM_out hd hn]

/-! ### The context of the filter -/

/-- The stop value in the table of the query. -/
theorem stopQ (h : STab Q c) {i k : Nat} {r : SReg} (hi : i < c.dfa.rows.length + 1) (hs : c.dfa.stop i = k + 1)
    (hk : Q[k]? = some r) : (tableOf c).stop i = if r.role = none then 0 else k + 1 := by
  have e : (tableOf c).stop i = if i < c.dfa.rows.length + 1 then stopOf c (c.dfa.stop i) else 0 := rfl
  rw [e, if_pos hi, hs]
  unfold stopOf
  rw [Nat.add_sub_cancel, h.range_at hk]
  obtain ⟨j, U, hj, hid, huniq⟩ := h.out
  obtain ⟨w, ro⟩ := r
  have hm := List.mem_of_getElem? hk
  rw [hid]
  cases ro with
  | none =>
    have hne : k ≠ j := by rintro rfl; rw [hk] at hj; simp at hj
    rw [if_pos ⟨h.skipEnd w hm, by simp; omega⟩]; simp
  | some ro =>
    simp only [reduceCtorEq, if_false]
    cases ro with
    | out =>
      have := huniq k w hk
      subst this
      simp
    | pred e ds => simp [h.range_pred hm]
    | cond q => simp [h.range_cond hm]

theorem stopQ_zero {i : Nat} (hs : c.dfa.stop i = 0) : (tableOf c).stop i = 0 := by
  have e : (tableOf c).stop i = if i < c.dfa.rows.length + 1 then stopOf c (c.dfa.stop i) else 0 := rfl
  rw [e, hs]
  simp [stopOf]

theorem subtrees_of (h : STab Q c) {i k : Nat} {r : SReg} (hi : i < c.dfa.rows.length + 1) (hs : c.dfa.stop i = k + 1)
    (hk : Q[k]? = some r) : (contextOf c).subtrees i = r.tree := by
  have e : (contextOf c).subtrees i = if (tableOf c).stop i = 0 then none else c.trees.getD ((tableOf c).stop i - 1) none := rfl
  rw [e, h.stopQ hi hs hk]
  cases hr : r.role with
  | none => simp [SReg.tree, hr]
  | some ro =>
    simp only [reduceCtorEq, if_false, Nat.succ_ne_zero, Nat.add_sub_cancel]
    rw [h.inv.trees, List.getD_eq_getElem?_getD, List.getElem?_map, hk]
    rfl

theorem subtrees (h : STab Q c) {w : List Step} (hw : SimpleWord w) :
    (contextOf c).subtrees (c.state w) = (roleOf (low Q) w).bind Role.tree := by
  rcases h.stop_state hw with ⟨h1, h2⟩ | ⟨k, r, h1, h2, h3⟩
  · have e : (contextOf c).subtrees (c.state w) = if (tableOf c).stop (c.state w) = 0 then none
        else c.trees.getD ((tableOf c).stop (c.state w) - 1) none := rfl
    rw [e, stopQ_zero h1, role_none h2]; rfl
  · rw [h.subtrees_of (FWords.state_lt w) h3 h1, ← h2, h.role_some (List.mem_of_getElem? h1)]; rfl

/-- The state of a registered word is found by `acc_id2state`. -/
theorem accId (h : STab Q c) {x : Nat} {r : SReg} (hx : Q[x]? = some r) :
    ∃ i, accIdState c.dfa (x + 1) = some i ∧ (contextOf c).subtrees i = r.tree := by
  have hw : SimpleWord (flat r.w) := (h.inv.clean _ (List.mem_map_of_mem (List.mem_of_getElem? hx))).flat.simple
  have hs : c.dfa.stop (c.state (flat r.w)) = x + 1 := by
    rcases h.stop_state hw with ⟨_, h2⟩ | ⟨k, r', h1, h2, h3⟩
    · exact absurd rfl (h2 r (List.mem_of_getElem? hx))
    · rw [h3, h.unique h1 hx h2]
  unfold accIdState
  cases hf : (List.range (c.dfa.rows.length + 1)).find? fun i => c.dfa.stop i == x + 1 with
  | none =>
    have := List.find?_eq_none.1 hf (c.state (flat r.w)) (List.mem_range.2 (FWords.state_lt _))
    simp [hs] at this
  | some i =>
    refine ⟨i, rfl, ?_⟩
    have h1 := List.mem_range.1 (List.mem_of_find?_eq_some hf)
    have h2 := List.find?_some hf
    simp only [beq_iff_eq] at h2
    exact h.subtrees_of h1 h2 hx

/-- The condition names of a filter. -/
theorem condNames_of (h : STab Q c) {i k : Nat} {w : List Step} {e : Expr Num} {ds : List (List Str)}
    (hi : i < c.dfa.rows.length + 1) (hs : c.dfa.stop i = k + 1) (hk : Q[k]? = some ⟨w, some (.pred e ds)⟩) :
    ((contextOf c).mapping i).map (condName (contextOf c)) = ds.map fun q => some (joinPath q) := by
  obtain ⟨xs, m1, m2⟩ := h.maps k w e ds hk
  have e1 : (contextOf c).mapping i = if (tableOf c).stop i = 0 then [] else
      (((c.mapping.find? (fun p => p.1 == (tableOf c).stop i - 1)).map Prod.snd).getD []).map
        (fun x => accIdState c.dfa (x + 1)) := rfl
  have e2 : (tableOf c).stop i = k + 1 := by rw [h.stopQ hi hs hk]; simp
  rw [e1, e2, if_neg (Nat.succ_ne_zero k), Nat.add_sub_cancel, m1]
  simp only [Option.getD_some, List.map_map]
  have : ∀ (xs : List Nat) (ns : List Str), xs.map (fun x => (Q.map SReg.tree)[x]?) = ns.map (fun n => some (some (.var n))) →
      xs.map (condName (contextOf c) ∘ fun x => accIdState c.dfa (x + 1)) = ns.map some := by
    intro xs
    induction xs with
    | nil => intro ns hn; cases ns <;> simp at hn ⊢
    | cons x xs ih =>
      intro ns hn
      cases ns with
      | nil => simp at hn
      | cons n ns =>
        simp only [List.map_cons, List.cons.injEq] at hn ⊢
        refine ⟨?_, ih ns hn.2⟩
        have hx := hn.1
        rw [List.getElem?_map] at hx
        cases hg : Q[x]? with
        | none => rw [hg] at hx; cases hx
        | some r =>
          rw [hg] at hx
          simp only [Option.map_some, Option.some.injEq] at hx
          obtain ⟨i', a1, a2⟩ := h.accId hg
          simp only [Function.comp, condName, a1, Option.bind_some, a2, hx, Ast.str?]
  rw [this xs _ m2, List.map_map]
  rfl

/-- The entry of a word that stands for something. -/
theorem entry (h : STab Q c) {w : List Step} (hw : SimpleWord w) {ro : Role} (hr : roleOf (low Q) w = some ro) :
    ∃ k u, Q[k]? = some ⟨u, some ro⟩ ∧ flat u = w ∧ c.dfa.stop (c.state w) = k + 1 := by
  rcases h.stop_state hw with ⟨_, h2⟩ | ⟨k, r, h1, h2, h3⟩
  · rw [role_none h2] at hr; cases hr
  · rw [← h2, h.role_some (List.mem_of_getElem? h1)] at hr
    obtain ⟨u, o⟩ := r
    simp only at hr
    subst hr
    exact ⟨k, u, h1, h2, h3⟩

theorem predStates (h : STab Q c) {w : List Step} {e : Expr Num} {ds : List (List Str)}
    (hr : roleOf (low Q) w = some (.pred e ds)) (hw : SimpleWord w) : c.state w ∈ (contextOf c).predStates := by
  show c.state w ∈ ((List.range (tableOf c).statesNum).filter fun i =>
    (tableOf c).stop i ≠ 0 && (tableOf c).accept i == .predicate)
  rw [List.mem_filter, List.mem_range]
  refine ⟨FWords.state_lt w, ?_⟩
  obtain ⟨k, u, h1, h2, h3⟩ := h.entry hw hr
  rw [h.accept hw, hr, h.stopQ (FWords.state_lt w) h3 h1]
  simp [FWords.accOf]

theorem initConds (h : STab Q c) {w : List Step} {e : Expr Num} {ds : List (List Str)}
    (hr : roleOf (low Q) w = some (.pred e ds)) (hw : SimpleWord w) :
    (PF.init (contextOf c)).conds (c.state w) = some (condTable (ds.map joinPath) fun _ => none) := by
  show (if c.state w ∈ (contextOf c).predStates then
      some (((contextOf c).mapping (c.state w)).filterMap fun x => (condName (contextOf c) x).map fun n => (n, none))
    else none) = _
  rw [if_pos (h.predStates hr hw)]
  obtain ⟨k, u, h1, h2, h3⟩ := h.entry hw hr
  have := h.condNames_of (FWords.state_lt w) h3 h1
  congr 1
  generalize (contextOf c).mapping (c.state w) = M at *
  unfold condTable
  rw [List.map_map]
  clear h1 hr
  induction M generalizing ds with
  | nil => cases ds <;> simp at this ⊢
  | cons x M ih =>
    cases ds with
    | nil => simp at this
    | cons q ds =>
      simp only [List.map_cons, List.cons.injEq] at this
      rw [List.filterMap_cons, this.1]
      simp only [Option.map_some, List.map_cons, ih this.2]
      rfl

theorem sem (h : STab Q c) : FSem (low Q) c c.state where
  nodup := low_nodup h.nodup
  simple := by
    rintro ⟨w, ro⟩ hr
    obtain ⟨r, h1, h2, _⟩ := mem_low.1 hr
    rw [← h2]
    exact (h.inv.clean _ (List.mem_map_of_mem h1)).flat.simple
  subtrees := fun hw => h.subtrees hw
  names := by
    intro w hw e ds hr
    obtain ⟨k, u, h1, h2, h3⟩ := h.entry hw hr
    have := h.condNames_of (FWords.state_lt w) h3 h1
    exact filterMap_of_map _ _ _ (by rw [this, List.map_map]; rfl)
  state_inj := by
    intro w x hw hx r s hr hs he
    obtain ⟨k, u, h1, h2, h3⟩ := h.entry hw hr
    obtain ⟨j, t, g1, g2, g3⟩ := h.entry hx hs
    rw [he, g3] at h3
    have : j = k := by omega
    subst this
    rw [h1] at g1
    simp only [Option.some.injEq, SReg.mk.injEq] at g1
    rw [← h2, ← g2, g1.1]
  initConds := fun hr hw => h.initConds hr hw

theorem init_ub (h : STab Q c) (hs : (tableOf c).statesNum ≤ 100) : (PF.init (contextOf c)).ub = false := by
  have key : ∀ s ∈ (contextOf c).predStates, s < 100 ∧ ∀ x ∈ (contextOf c).mapping s, (condName (contextOf c) x).isSome = true := by
    intro s hm
    have hm' : s ∈ ((List.range (tableOf c).statesNum).filter fun i =>
      (tableOf c).stop i ≠ 0 && (tableOf c).accept i == .predicate) := hm
    rw [List.mem_filter, List.mem_range] at hm'
    obtain ⟨h1, h2⟩ := hm'
    simp only [ne_eq, decide_not, Bool.and_eq_true, Bool.not_eq_true', decide_eq_false_iff_not, beq_iff_eq] at h2
    refine ⟨by omega, ?_⟩
    have hlt : s < c.dfa.rows.length + 1 := h1
    have hst : c.dfa.stop s ≠ 0 := fun h0 => h2.1 (stopQ_zero h0)
    have h0 : s ≠ 0 := by rintro rfl; exact hst rfl
    obtain ⟨x, hx, hr⟩ := c.reach s (by omega) (by omega)
    rcases h.stop_of_word hx with ⟨h3, _⟩ | ⟨k, r, h3, h4, h5⟩
    · rw [hr] at h3; exact absurd h3 hst
    · have hrm := List.mem_of_getElem? h3
      have hrs : c.state (flat r.w) = s := by rw [state_flat, ← hr, h4]; rfl
      have hrw : SimpleWord (flat r.w) := (h.inv.clean r.w (List.mem_map_of_mem (f := SReg.w) hrm)).flat.simple
      have hacc := h.accept hrw
      rw [hrs, h2.2, h.role_some hrm] at hacc
      rw [hr] at h5
      obtain ⟨w, ro⟩ := r
      cases ro with
      | none => cases hacc
      | some ro =>
        cases ro with
        | cond q => cases hacc
        | out => cases hacc
        | pred e ds =>
          have := h.condNames_of hlt h5 h3
          intro y hy
          have hy' := List.mem_map_of_mem (f := condName (contextOf c)) hy
          rw [this] at hy'
          obtain ⟨q, _, hq⟩ := List.mem_map.1 hy'
          rw [← hq]; rfl
  show ((contextOf c).predStates.any (fun s => decide (s ≥ MAX_PREDICATE_STATE)) ||
      (contextOf c).predStates.any (fun s => ((contextOf c).mapping s).any fun x => (condName (contextOf c) x).isNone)) = false
  rw [Bool.or_eq_false_iff]
  constructor
  · rw [List.any_eq_false]
    intro s hm
    have := (key s hm).1
    rw [decide_eq_true_eq]
    unfold MAX_PREDICATE_STATE
    omega
  · rw [List.any_eq_false]
    intro s hm
    rw [Bool.not_eq_true, List.any_eq_false]
    intro x hx
    have := (key s hm).2 x hx
    cases hc : condName (contextOf c) x with
    | none => rw [hc] at this; cases this
    | some y => simp

/-! ### Number of states -/

theorem run_prefix (h : STab Q c) {x : List Nat} (hx : c.letters x) (hne : c.run x ≠ 0) :
    ∃ r ∈ low Q, x <+: c.word r.w := by
  have hz := buildDfa_zero c.rules h.ok.rules (c.names.length + 3) x hx
  have : ¬ ∀ r ∈ c.rules, x.foldl (createDFA r (c.names.length + 3)).next 1 = 0 := fun hall => hne (hz.2 hall)
  have : ∃ r ∈ c.rules, x.foldl (createDFA r (c.names.length + 3)).next 1 ≠ 0 := by
    apply Classical.byContradiction
    intro hno
    apply this
    intro r hr
    apply Classical.byContradiction
    intro hn; exact hno ⟨r, hr, hn⟩
  obtain ⟨items, hi, hn⟩ := this
  rw [h.inv.rules] at hi
  obtain ⟨w, hw, rfl⟩ := List.mem_map.1 hi
  obtain ⟨r, hr, rfl⟩ := List.mem_map.1 hw
  rw [ne_eq, createDFA_zero _ _ x hx, h.items hr] at hn
  cases ho : optRun (bNext ((c.word r.w).map litItem)) (some [((c.word r.w).map litItem).length]) x with
  | none => exact absurd ho hn
  | some S =>
    have hp := (optRun_lits (c.word r.w) x.length x rfl S ho).2
    have hfin : ∀ r ∈ Q, ∀ ro, r.role = some ro → x <+: c.word r.w → ∃ r ∈ low Q, x <+: c.word r.w := by
      intro r hr ro hro hp
      exact ⟨⟨flat r.w, ro⟩, mem_low.2 ⟨r, hr, rfl, hro⟩, by rw [word_flat]; exact hp⟩
    obtain ⟨u, o⟩ := r
    cases o with
    | some ro => exact hfin _ hr ro rfl hp
    | none =>
      obtain ⟨U, hU, y, rfl⟩ := h.skipPre u hr
      refine hfin _ hU .out rfl (hp.trans ?_)
      exact ⟨c.word y, by simp [SCtx.word]⟩

theorem states_le (h : STab Q c) {D : List (List Step)}
    (hD : ∀ r ∈ low Q, ∀ n, n < r.w.length → r.w.take (n + 1) ∈ D) : (tableOf c).statesNum ≤ 2 + D.length := by
  have e : (tableOf c).statesNum = c.dfa.rows.length + 1 := rfl
  rw [e]
  have hsub : List.range' 1 c.dfa.rows.length ⊆ ([] :: D).map fun v => c.run (c.word v) := by
    intro j hj
    rw [List.mem_range'] at hj
    obtain ⟨i, hi, rfl⟩ := hj
    obtain ⟨x, hx, hr⟩ := c.reach (1 + 1 * i) (by omega) (by omega)
    obtain ⟨r, hrq, hp⟩ := h.run_prefix hx (by omega)
    have hl := hp.length_le
    rw [show (c.word r.w).length = r.w.length by simp [SCtx.word]] at hl
    have hx' : c.word (r.w.take x.length) = x := by
      rw [show c.word (r.w.take x.length) = (c.word r.w).take x.length by simp [SCtx.word, List.map_take]]
      exact (List.prefix_iff_eq_take.1 hp).symm
    refine List.mem_map.2 ⟨r.w.take x.length, ?_, by rw [hx', hr]⟩
    cases hn : x.length with
    | zero => simp
    | succ n => exact List.mem_cons_of_mem _ (hD r hrq n (by omega))
  have := List.Nodup.length_le_of_subset List.nodup_range' hsub
  rw [List.length_range', List.length_map, List.length_cons] at this
  omega

end STab

end JPS
