import Verif.FilterRun
import Verif.Spec.Nest
/-!
# The buffers of the predicate filter
-/

set_option autoImplicit false

namespace Spec

/-- All results in a forest. -/
def Forest.cands : Forest → List (List Char)
  | .nil => []
  | .cand _ t rest => t :: rest.cands
  | .cond _ _ _ rest => rest.cands
  | .elem _ inner rest => inner.cands ++ rest.cands

/-- All recorded texts in a forest. -/
def Forest.condTexts : Forest → List (List Char)
  | .nil => []
  | .cand _ _ rest => rest.condTexts
  | .cond _ _ t rest => t :: rest.condTexts
  | .elem _ inner rest => inner.condTexts ++ rest.condTexts

/-- How deep elements are nested. -/
def Forest.nest : Forest → Nat
  | .nil => 0
  | .cand _ _ rest => rest.nest
  | .cond _ _ _ rest => rest.nest
  | .elem _ inner rest => max (inner.nest + 1) rest.nest

theorem Forest.released_sublist (holds : Nat → (List Char → Option (List Char)) → Bool) : ∀ f : Forest,
    (f.released holds).Sublist f.cands
  | .nil => by simp [Forest.released, Forest.cands]
  | .cand _ t rest => (Forest.released_sublist holds rest).cons_cons t
  | .cond _ _ _ rest => Forest.released_sublist holds rest
  | .elem s inner rest => by
    simp only [Forest.released, Forest.cands]
    refine List.Sublist.append ?_ (Forest.released_sublist holds rest)
    split
    · exact Forest.released_sublist holds inner
    · exact List.nil_sublist _

end Spec

namespace JPS
open Spec

theorem foldl_addOutput_fits : ∀ (ts : List Str) (p : PF), p.ub = false → p.output.length + ts.length ≤ MAX_OUTPUT →
    (∀ t ∈ ts, t.length ≤ 998) → (ts.foldl PF.addOutput p).ub = false
  | [], p, h, _, _ => h
  | t :: ts, p, h, h1, h2 => by
    rw [List.foldl_cons]
    simp only [List.length_cons] at h1
    refine foldl_addOutput_fits ts _ ?_ ?_ (fun t ht => h2 t (by simp [ht]))
    · have := h2 t (by simp)
      simp only [PF.addOutput, h, Bool.false_or, Bool.or_eq_false_iff, decide_eq_false_iff_not, strcopyBytes, MAX_STRING]
      exact ⟨by omega, decide_eq_false (by omega)⟩
    · simp only [PF.addOutput, List.length_append, List.length_cons, List.length_nil]; omega

theorem close_ub {O : NumOps} {ctx : QCtx} {names : Nat → List Str}
    {holds : Nat → (Str → Option Str) → Bool} {s fi : Nat}
    {p : PF} {c : Nat → Option Conds} {rest : List (Nat × Nat)} {b o : List Str} {r : Str → Option Str}
    (hj : Verdict O ctx names holds s r) (h : Is p c ((s, fi) :: rest) b o) (hc : c s = some (condTable (names s) r))
    (hub : p.ub = false) (hrel : rest = [] → o.length + (b.drop fi).length ≤ MAX_OUTPUT ∧ ∀ t ∈ b, t.length ≤ 998) :
    (pfStep O ctx p ⟨s, ['}']⟩).ub = false := by
  obtain ⟨e, he, hv⟩ := hj
  have hver : pfVerdict O ctx p s = some (holds s r) := by
    unfold pfVerdict
    rw [h.conds, hc, he]
    exact hv
  unfold pfStep
  rw [if_neg (by simp), if_pos rfl]
  unfold pfClose
  rw [h.stack]
  simp only [hver]
  unfold pfRelease
  cases holds s r with
  | false => exact hub
  | true =>
    cases hr : rest.isEmpty with
    | false => exact hub
    | true =>
      obtain ⟨h1, h2⟩ := hrel (List.isEmpty_iff.1 hr)
      simp only [if_true]
      refine foldl_addOutput_fits _ _ hub (by rw [h.buffer, h.output]; exact h1) ?_
      rw [h.buffer]
      intro t ht
      exact h2 t (List.mem_of_mem_drop ht)

theorem inner_ub {O : NumOps} {ctx : QCtx} {names : Nat → List Str}
    {holds : Nat → (Str → Option Str) → Bool} : ∀ (f : Forest) (p : PF) (c : Nat → Option Conds)
    (s fi : Nat) (rest : List (Nat × Nat)) (b o : List Str) (r : Str → Option Str),
    Decided O ctx names holds f → Fits ctx names (some s) f → f.unnested = true →
    Is p c ((s, fi) :: rest) b o → c s = some (condTable (names s) r) → (names s).Nodup →
    (∀ x ∈ f.preds, x ≠ s ∧ c x = some (condTable (names x) fun _ => none)) →
    p.ub = false → rest.length + 1 + f.nest ≤ MAX_STACK_ELEMENT → b.length + f.cands.length ≤ MAX_OUTPUT →
    (∀ t ∈ f.cands, t.length ≤ 998) →
    ((forestTuples f).foldl (pfStep O ctx) p).ub = false
  | .nil, p, c, s, fi, rest, b, o, r, _, _, _, _, _, _, _, hub, _, _, _ => hub
  | .cand st t f, p, c, s, fi, rest, b, o, r, hj, hf, hu, h, hc, hnd, hp, hub, hn, hl, ht => by
    obtain ⟨hs, h1, h2, hf⟩ := hf
    have hpf : pfStep O ctx p ⟨st, t⟩ = p.addBuffer t := by
      exact cand_step (hs s rfl) h1 h2 h.stack (by rw [h.conds]; exact hc)
    have hstep : Is (pfStep O ctx p ⟨st, t⟩) c ((s, fi) :: rest) (b ++ [t]) o := by
      rw [hpf]
      exact ⟨h.conds, h.stack, by simp [PF.addBuffer, h.buffer], h.output⟩
    simp only [Forest.cands, List.length_cons] at hl
    refine inner_ub f _ c s fi rest (b ++ [t]) o r hj hf hu hstep hc hnd hp ?_ hn ?_ (fun x hx => ht x (by simp [Forest.cands, hx]))
    · have := ht t (by simp [Forest.cands])
      rw [hpf]
      simp only [PF.addBuffer, hub, Bool.false_or, Bool.or_eq_false_iff, decide_eq_false_iff_not, strcopyBytes, MAX_STRING, h.buffer]
      exact ⟨by omega, decide_eq_false (by omega)⟩
    · simp only [List.length_append, List.length_cons, List.length_nil]; omega
  | .cond st n t f, p, c, s, fi, rest, b, o, r, hj, hf, hu, h, hc, hnd, hp, hub, hn', hl, ht => by
    obtain ⟨hs, hn, h1, h2, hf⟩ := hf
    have hn := hn s rfl
    have hpf : pfStep O ctx p ⟨st, t⟩ = { p with conds := setConds p.conds s (Conds.set n t (condTable (names s) r)) } := by
      unfold pfStep
      rw [if_neg h1, if_neg h2]
      unfold pfOther
      rw [h.stack]
      simp only [hs, h.conds, hc]
      have hne : ∃ a l, condTable (names s) r = a :: l := by
        cases hns : names s with
        | nil => rw [hns] at hn; simp at hn
        | cons a l => exact ⟨_, _, rfl⟩
      obtain ⟨a, l, hal⟩ := hne
      rw [hal]
      simp only [Ast.str?]
      rw [← hal]
      have hany : (condTable (names s) r).any (fun c => c.1 == n) = true := by
        rw [List.any_eq_true]
        exact ⟨(n, r n), by simp only [condTable, List.mem_map]; exact ⟨n, hn, rfl⟩, by simp⟩
      rw [if_pos hany, ← h.stack]
    have hstep : Is (pfStep O ctx p ⟨st, t⟩) (setConds c s (condTable (names s)
        (fun m => if n = m then some t else r m))) ((s, fi) :: rest) b o := by
      rw [hpf, condTable_set _ hnd _ _ _ hn]
      exact ⟨by simp only [h.conds], h.stack, h.buffer, h.output⟩
    exact inner_ub f _ _ s fi rest b o (fun m => if n = m then some t else r m) hj hf hu hstep
      (by simp [setConds]) hnd (fun x hx => ⟨(hp x hx).1, by
        unfold setConds; rw [if_neg (hp x hx).1]; exact (hp x hx).2⟩) (by rw [hpf]; exact hub) hn' hl ht
  | .elem s' inner f, p, c, s, fi, rest, b, o, r, hj, hf, hu, h, hc, hnd, hp, hub, hn, hl, ht => by
    obtain ⟨hfi, hf⟩ := hf
    obtain ⟨hns, hui, hu⟩ := unnested_elem hu
    have hs' := hp s' (by simp [Forest.preds])
    have hopen : Is (pfStep O ctx p ⟨s', ['{']⟩) c ((s', b.length) :: (s, fi) :: rest) b o := by
      unfold pfStep
      rw [if_pos rfl]
      exact ⟨h.conds, by simp [pfOpen, h.stack, h.buffer], h.buffer, h.output⟩
    simp only [Forest.nest] at hn
    simp only [Forest.cands, List.length_append] at hl
    have hub1 : (pfStep O ctx p ⟨s', ['{']⟩).ub = false := by
      unfold pfStep
      rw [if_pos rfl]
      simp only [pfOpen, hub, Bool.false_or, decide_eq_false_iff_not, h.stack, List.length_cons]
      omega
    obtain ⟨⟨hnd', hj'⟩, hji, hj⟩ := hj
    have hpi : ∀ x ∈ inner.preds, x ≠ s' ∧ c x = some (condTable (names x) fun _ => none) :=
      fun x hx => ⟨by rintro rfl; exact hns hx, (hp x (by simp [Forest.preds, hx])).2⟩
    have hin := inner_values inner _ c s' b.length ((s, fi) :: rest) b o (fun _ => none)
      hji hfi hui hopen hs'.2 hnd' hpi
    have hub2 := inner_ub inner _ c s' b.length ((s, fi) :: rest) b o (fun _ => none)
      hji hfi hui hopen hs'.2 hnd' hpi hub1 (by simp only [List.length_cons]; omega) (by omega)
      (fun x hx => ht x (by simp [Forest.cands, hx]))
    have hcc : over names c s' (fun n => (inner.recorded n).orElse fun _ => none) s' =
        some (condTable (names s') inner.recorded) := by
      simp only [over, setConds, if_true]
      congr 2
      funext m
      cases inner.recorded m <;> rfl
    have hcl := close_values hj' hin (r := inner.recorded) hcc
    have hub3 := close_ub hj' hin (r := inner.recorded) hcc hub2 (by intro h; cases h)
    have hcs : setConds (over names c s' (fun n => (inner.recorded n).orElse fun _ => none)) s'
        (condTable (names s') fun _ => none) = c := by
      unfold over
      rw [setConds_twice]
      exact setConds_same hs'.2
    rw [hcs] at hcl
    have hsub := (Forest.released_sublist holds inner).length_le
    have := inner_ub f _ c s fi rest _ _ r hj hf hu hcl hc
      hnd (fun x hx => hp x (by simp [Forest.preds, hx])) hub3 (by omega) (by
        split
        · simp only [List.length_append]; omega
        · simp only [List.length_take, List.length_append]; omega) (fun x hx => ht x (by simp [Forest.cands, hx]))
    simpa only [forestTuples, List.cons_append, List.foldl_cons, List.foldl_append] using this

theorem forest_ub {O : NumOps} {ctx : QCtx} {names : Nat → List Str}
    {holds : Nat → (Str → Option Str) → Bool} : ∀ (f : Forest) (p : PF) (c : Nat → Option Conds)
    (o : List Str), f.elemsOnly = true →
    Decided O ctx names holds f → Fits ctx names none f → f.unnested = true →
    Is p c [] [] o → (∀ x ∈ f.preds, c x = some (condTable (names x) fun _ => none)) →
    p.ub = false → f.nest ≤ MAX_STACK_ELEMENT → o.length + f.cands.length ≤ MAX_OUTPUT → (∀ t ∈ f.cands, t.length ≤ 998) →
    ((forestTuples f).foldl (pfStep O ctx) p).ub = false
  | .nil, p, c, o, _, _, _, _, _, _, hub, _, _, _ => hub
  | .cand _ _ _, _, _, _, he, _, _, _, _, _, _, _, _, _ => by simp [Forest.elemsOnly] at he
  | .cond _ _ _ _, _, _, _, he, _, _, _, _, _, _, _, _, _ => by simp [Forest.elemsOnly] at he
  | .elem s inner f, p, c, o, he, hj, hf, hu, h, hp, hub, hn, hl, ht => by
    obtain ⟨hfi, hf⟩ := hf
    obtain ⟨hns, hui, hu⟩ := unnested_elem hu
    have hs := hp s (by simp [Forest.preds])
    have hopen : Is (pfStep O ctx p ⟨s, ['{']⟩) c [(s, 0)] [] o := by
      unfold pfStep
      rw [if_pos rfl]
      exact ⟨h.conds, by simp [pfOpen, h.stack, h.buffer], h.buffer, h.output⟩
    simp only [Forest.nest] at hn
    simp only [Forest.cands, List.length_append] at hl
    have hub1 : (pfStep O ctx p ⟨s, ['{']⟩).ub = false := by
      unfold pfStep
      rw [if_pos rfl]
      simp only [pfOpen, hub, Bool.false_or, decide_eq_false_iff_not, h.stack, List.length_nil]
      omega
    obtain ⟨⟨hnd', hj'⟩, hji, hj⟩ := hj
    have hpi : ∀ x ∈ inner.preds, x ≠ s ∧ c x = some (condTable (names x) fun _ => none) :=
      fun x hx => ⟨by rintro rfl; exact hns hx, hp x (by simp [Forest.preds, hx])⟩
    have hin := inner_values inner _ c s 0 [] [] o (fun _ => none) hji hfi hui hopen hs hnd' hpi
    have hub2 := inner_ub inner _ c s 0 [] [] o (fun _ => none)
      hji hfi hui hopen hs hnd' hpi hub1 (by simp only [List.length_nil]; omega) (by simp only [List.length_nil]; omega)
      (fun x hx => ht x (by simp [Forest.cands, hx]))
    have hcc : over names c s (fun n => (inner.recorded n).orElse fun _ => none) s =
        some (condTable (names s) inner.recorded) := by
      simp only [over, setConds, if_true]
      congr 2
      funext m
      cases inner.recorded m <;> rfl
    have hsub := Forest.released_sublist holds inner
    have hcl := close_values hj' hin (r := inner.recorded) hcc
    have hub3 := close_ub hj' hin (r := inner.recorded) hcc hub2 (by
      intro _
      refine ⟨by have := hsub.length_le; simp only [List.nil_append, List.drop_zero]; omega, ?_⟩
      intro t ht'
      exact ht t (by simp only [Forest.cands, List.mem_append]; exact .inl (hsub.subset (by simpa using ht'))))
    have hcs : setConds (over names c s (fun n => (inner.recorded n).orElse fun _ => none)) s
        (condTable (names s) fun _ => none) = c := by
      unfold over
      rw [setConds_twice]
      exact setConds_same hs
    rw [hcs] at hcl
    have hcl' : Is (pfStep O ctx ((forestTuples inner).foldl (pfStep O ctx) (pfStep O ctx p ⟨s, ['{']⟩))
        ⟨s, ['}']⟩) c [] [] (o ++ if holds s inner.recorded then inner.released holds else []) := by
      refine ⟨hcl.conds, hcl.stack, ?_, ?_⟩
      · rw [hcl.buffer]; simp
      · rw [hcl.output]; simp
    have hsl := hsub.length_le
    have := forest_ub f _ c _ he hj hf hu hcl'
      (fun x hx => hp x (by simp [Forest.preds, hx])) hub3 (by omega) (by
        rw [List.length_append]
        split
        · omega
        · simp only [List.length_nil]; omega) (fun x hx => ht x (by simp [Forest.cands, hx]))
    simpa only [forestTuples, List.cons_append, List.foldl_cons, List.foldl_append] using this

/-! ### Bounds of the forest of a document -/

section
variable {Q : List Reg} {c : SCtx} {st : List Step → Nat} (h : FSem Q c st) (O : NumOps)
include h

/-- The values at result positions, whether or not their elements pass. -/
def candR (r : Res) (v : J) : List Str :=
  match r.rem with
  | none => []
  | some p => (v.select (arith O) O.atof (unfiltered p)).map J.render
def candE (r : Res) (es : Elems) : List Str :=
  match r.rem with
  | none => []
  | some p => (es.select (arith O) O.atof none (unfiltered p)).map J.render
def candM (r : Res) (ms : Members) : List Str :=
  match r.rem with
  | some (.prop k :: p) => (ms.select (arith O) O.atof k (unfiltered p)).map J.render
  | _ => []

omit h in
theorem candR_arr {r : Res} (hr : r.rem ≠ some []) (a : Str) (es : Elems) : candR O r (.arr a es) = candE O r.elem es := by
  unfold candR candE Res.elem
  cases hm : r.rem with
  | none => rfl
  | some p =>
    cases p with
    | nil => exact absurd hm hr
    | cons s p => cases s <;> simp [unfiltered, J.select, Res.dead]

omit h in
theorem candR_obj {r : Res} (hr : r.rem ≠ some []) (a : Str) (ms : Members) : candR O r (.obj a ms) = candM O r ms := by
  unfold candR candM
  cases hm : r.rem with
  | none => rfl
  | some p =>
    cases p with
    | nil => exact absurd hm hr
    | cons s p => cases s <;> simp [unfiltered, J.select]

omit h in
theorem candR_out {r : Res} (hr : r.rem = some []) (v : J) : candR O r v = [v.render] := by
  unfold candR
  rw [hr]
  cases v <;> simp [unfiltered, J.select]

omit h in
theorem candR_scalar {r : Res} (hr : r.rem ≠ some []) (v : J) (hv : v.isContainer = false) : candR O r v = [] := by
  unfold candR
  cases hm : r.rem with
  | none => rfl
  | some p =>
    cases p with
    | nil => exact absurd hm hr
    | cons s p =>
      cases v with
      | arr a es => cases hv
      | obj a ms => cases hv
      | lit t => cases s <;> simp [unfiltered, J.select]
      | str t => cases s <;> simp [unfiltered, J.select]

theorem cands_leaf {r : Res} {w : List Step} (ht : Track Q w r) (hg : Good r) {v : J} (hv : v.isContainer = false)
    {t : Str} (hx : t = v.render) (st : Nat) (rest : Forest) :
    (leafForest st r t rest).cands = candR O r v ++ rest.cands := by
  unfold leafForest
  cases hr : r.role with
  | none => rw [candR_scalar O (Res.role_none hr).2.2 v hv]; rfl
  | some ro =>
    cases ro with
    | pred e ds =>
      obtain ⟨_, _, k, p, hp⟩ := hg.tested e (Res.role_pred hr).1
      rw [candR_scalar O (by rw [hp]; simp) v hv]; rfl
    | cond q =>
      rw [candR_scalar O (ht.cond_not_out h.nodup (Res.role_cond hr).2.2) v hv]; rfl
    | out =>
      have := Res.role_out hr
      rw [candR_out O this.2.2, hx]; rfl

mutual
theorem cands_forest (r : Res) (w : List Step) (ht : Track Q w r) (hg : Good r) (obs : Str → Str) : ∀ (v : J),
    v.tidy = true → ExactObs obs v → ∀ (rest : Forest),
    (forest st r w obs v rest).cands = candR O r v ++ rest.cands
  | .lit t, _, hx, rest => by
    unfold forest
    exact cands_leaf h O ht hg (v := .lit t) rfl (by rw [hx t rfl]; rfl) _ _
  | .str t, _, _, rest => by
    unfold forest
    exact cands_leaf h O ht hg (v := .str t) rfl rfl _ _
  | .arr a es, htd, _, rest => by
    have ih := cands_forestE r.elem (w ++ [Step.all]) ht.elem hg.elem es htd
    unfold forest
    cases hr : r.role with
    | none =>
      simp only
      rw [ih, candR_arr O (Res.role_none hr).2.2]
    | some ro =>
      cases ro with
      | pred e ds =>
        obtain ⟨_, _, k, p, hp⟩ := hg.tested e (Res.role_pred hr).1
        simp only
        rw [ih, candR_arr O (by rw [hp]; simp)]
      | cond q =>
        simp only [Forest.cands]
        rw [ih, candR_arr O (ht.cond_not_out h.nodup (Res.role_cond hr).2.2)]
      | out =>
        have := Res.role_out hr
        simp only
        rw [ih, candR_out O this.2.2, elem_done this.2.2]
        simp [Forest.cands, candE, Res.dead]
  | .obj a ms, htd, _, rest => by
    have ih := cands_forestM r w ht hg ms htd
    unfold forest
    cases hr : r.role with
    | none =>
      simp only
      rw [ih, candR_obj O (Res.role_none hr).2.2]
    | some ro =>
      cases ro with
      | pred e ds =>
        obtain ⟨_, _, k, p, hp⟩ := hg.tested e (Res.role_pred hr).1
        simp only [Forest.cands]
        rw [ih, candR_obj O (by rw [hp]; simp)]
        simp [Forest.cands]
      | cond q =>
        simp only [Forest.cands]
        rw [ih, candR_obj O (ht.cond_not_out h.nodup (Res.role_cond hr).2.2)]
      | out =>
        have := Res.role_out hr
        simp only
        rw [ih, candR_out O this.2.2]
        simp [Forest.cands, candM, this.2.2]
theorem cands_forestE (r : Res) (w : List Step) (ht : Track Q w r) (hg : Good r) : ∀ (es : Elems),
    es.tidy = true → ∀ (rest : Forest), (forestE st r w es rest).cands = candE O r es ++ rest.cands
  | .nil, _, rest => by
    unfold forestE candE
    cases r.rem <;> simp [Elems.select]
  | .cons pre v post tail, htd, rest => by
    simp only [Elems.tidy, Bool.and_eq_true] at htd
    unfold forestE
    rw [cands_forest r w ht hg _ v htd.1.2 (exactE htd.1.1), cands_forestE r w ht hg tail htd.2, ← List.append_assoc]
    congr 1
    unfold candR candE
    cases r.rem with
    | none => rfl
    | some p => simp [Elems.select, passes]
theorem cands_forestM (r : Res) (w : List Step) (ht : Track Q w r) (hg : Good r) : ∀ (ms : Members),
    ms.tidy = true → ∀ (rest : Forest), (forestM st r w ms rest).cands = candM O r ms ++ rest.cands
  | .nil, _, rest => by
    unfold forestM candM
    split <;> simp [Members.select]
  | .cons pre k mid pre2 v post tail, htd, rest => by
    simp only [Members.tidy, Bool.and_eq_true] at htd
    unfold forestM
    rw [cands_forest (r.key k) (w ++ [Step.prop k]) (ht.key k) (hg.key k) _ v htd.1.2
      (exactM htd.1.1.1 htd.1.1.2), cands_forestM r w ht hg tail htd.2, ← List.append_assoc]
    congr 1
    unfold candR candM Res.key remProp
    cases hm : r.rem with
    | none => rfl
    | some p =>
      cases p with
      | nil => rfl
      | cons s p =>
        cases s with
        | all => rfl
        | filter e => rfl
        | prop k' =>
          simp only [Members.select, List.map_append]
          by_cases hk : k' = k
          · simp [hk]
          · simp [hk, Ne.symm hk]
end

end

theorem leaf_condTexts (st : Nat) (r : Res) (t : Str) (rest : Forest) :
    ∀ x ∈ (leafForest st r t rest).condTexts, x = t ∨ x ∈ rest.condTexts := by
  unfold leafForest
  cases hr : r.role with
  | none => intro x hx; exact .inr hx
  | some ro =>
    cases ro with
    | pred e ds => intro x hx; exact .inr hx
    | out => intro x hx; exact .inr hx
    | cond q => intro x hx; simpa [Forest.condTexts] using hx

mutual
theorem condTexts_forest (n : Nat) (st : List Step → Nat) (r : Res) (w : List Step) (obs : Str → Str) : ∀ (v : J),
    v.tidy = true → ExactObs obs v → v.within n = true → ∀ (rest : Forest),
    ∀ x ∈ (forest st r w obs v rest).condTexts, x.length ≤ n ∨ x ∈ rest.condTexts
  | .lit t, _, hx, hw, rest, x, hm => by
    unfold forest at hm
    rcases leaf_condTexts _ _ _ _ x hm with rfl | hm
    · rw [hx t rfl]; exact .inl (by simpa [J.within] using hw)
    · exact .inr hm
  | .str t, _, _, hw, rest, x, hm => by
    unfold forest at hm
    rcases leaf_condTexts _ _ _ _ x hm with rfl | hm
    · exact .inl (by simpa [J.within] using hw)
    · exact .inr hm
  | .arr a es, htd, _, hw, rest, x, hm => by
    have ih := condTexts_forestE n st r.elem (w ++ [Step.all]) es htd hw
    unfold forest at hm
    cases hr : r.role with
    | none => rw [hr] at hm; exact ih rest x hm
    | some ro =>
      rw [hr] at hm
      cases ro with
      | pred e ds => exact ih rest x hm
      | cond q =>
        simp only [Forest.condTexts, List.mem_cons] at hm
        rcases hm with rfl | hm
        · exact .inl (by simp)
        · exact ih rest x hm
      | out => exact ih (.cand _ _ rest) x hm
  | .obj a ms, htd, _, hw, rest, x, hm => by
    have ih := condTexts_forestM n st r w ms htd hw
    unfold forest at hm
    cases hr : r.role with
    | none => rw [hr] at hm; exact ih rest x hm
    | some ro =>
      rw [hr] at hm
      cases ro with
      | pred e ds =>
        simp only [Forest.condTexts, List.mem_append] at hm
        rcases hm with hm | hm
        · rcases ih .nil x hm with h | h
          · exact .inl h
          · simp [Forest.condTexts] at h
        · exact .inr hm
      | cond q =>
        simp only [Forest.condTexts, List.mem_cons] at hm
        rcases hm with rfl | hm
        · exact .inl (by simp)
        · exact ih rest x hm
      | out => exact ih (.cand _ _ rest) x hm
theorem condTexts_forestE (n : Nat) (st : List Step → Nat) (r : Res) (w : List Step) : ∀ (es : Elems),
    es.tidy = true → es.within n = true → ∀ (rest : Forest),
    ∀ x ∈ (forestE st r w es rest).condTexts, x.length ≤ n ∨ x ∈ rest.condTexts
  | .nil, _, _, rest, x, hm => by unfold forestE at hm; exact .inr hm
  | .cons pre v post tail, htd, hw, rest, x, hm => by
    simp only [Elems.tidy, Bool.and_eq_true] at htd
    simp only [Elems.within, Bool.and_eq_true] at hw
    unfold forestE at hm
    rcases condTexts_forest n st r w _ v htd.1.2 (exactE htd.1.1) hw.1 _ x hm with h | h
    · exact .inl h
    · exact condTexts_forestE n st r w tail htd.2 hw.2 rest x h
theorem condTexts_forestM (n : Nat) (st : List Step → Nat) (r : Res) (w : List Step) : ∀ (ms : Members),
    ms.tidy = true → ms.within n = true → ∀ (rest : Forest),
    ∀ x ∈ (forestM st r w ms rest).condTexts, x.length ≤ n ∨ x ∈ rest.condTexts
  | .nil, _, _, rest, x, hm => by unfold forestM at hm; exact .inr hm
  | .cons pre k mid pre2 v post tail, htd, hw, rest, x, hm => by
    simp only [Members.tidy, Bool.and_eq_true] at htd
    simp only [Members.within, Bool.and_eq_true] at hw
    unfold forestM at hm
    rcases condTexts_forest n st (r.key k) _ _ v htd.1.2 (exactM htd.1.1.1 htd.1.1.2) hw.1.2 _ x hm with h | h
    · exact .inl h
    · exact condTexts_forestM n st r w tail htd.2 hw.2 rest x h
end

theorem leaf_nest (st : Nat) (r : Res) (t : Str) (rest : Forest) : (leafForest st r t rest).nest = rest.nest := by
  unfold leafForest
  cases hr : r.role with
  | none => rfl
  | some ro => cases ro <;> rfl

mutual
theorem nest_forest (st : List Step → Nat) (r : Res) (w : List Step) (obs : Str → Str) : ∀ (v : J) (rest : Forest),
    (forest st r w obs v rest).nest ≤ max v.depth rest.nest
  | .lit t, rest => by unfold forest; rw [leaf_nest]; omega
  | .str t, rest => by unfold forest; rw [leaf_nest]; omega
  | .arr a es, rest => by
    have ih := nest_forestE st r.elem (w ++ [Step.all]) es
    unfold forest
    simp only [J.depth]
    cases hr : r.role with
    | none => have := ih rest; simp only; omega
    | some ro =>
      cases ro with
      | pred e ds => have := ih rest; simp only; omega
      | cond q => have := ih rest; simp only [Forest.nest]; omega
      | out => have := ih (.cand (st w) (J.arr a es).render rest); simp only [Forest.nest] at this ⊢; omega
  | .obj a ms, rest => by
    have ih := nest_forestM st r w ms
    unfold forest
    simp only [J.depth]
    cases hr : r.role with
    | none => have := ih rest; simp only; omega
    | some ro =>
      cases ro with
      | pred e ds => have := ih .nil; simp only [Forest.nest] at this ⊢; omega
      | cond q => have := ih rest; simp only [Forest.nest]; omega
      | out => have := ih (.cand (st w) (J.obj a ms).render rest); simp only [Forest.nest] at this ⊢; omega
theorem nest_forestE (st : List Step → Nat) (r : Res) (w : List Step) : ∀ (es : Elems) (rest : Forest),
    (forestE st r w es rest).nest ≤ max es.depth rest.nest
  | .nil, rest => by unfold forestE; omega
  | .cons pre v post tail, rest => by
    have h1 := nest_forest st r w (litObs false post (nextE tail)) v (forestE st r w tail rest)
    have h2 := nest_forestE st r w tail rest
    unfold forestE
    simp only [Elems.depth]
    omega
theorem nest_forestM (st : List Step → Nat) (r : Res) (w : List Step) : ∀ (ms : Members) (rest : Forest),
    (forestM st r w ms rest).nest ≤ max ms.depth rest.nest
  | .nil, rest => by unfold forestM; omega
  | .cons pre k mid pre2 v post tail, rest => by
    have h1 := nest_forest st (r.key k) (w ++ [Step.prop k]) (litObs pre2.isEmpty post (nextM tail)) v (forestM st r w tail rest)
    have h2 := nest_forestM st r w tail rest
    unfold forestM
    simp only [Members.depth]
    omega
end

/-! ### Sizes of tuples -/

theorem forestTuples_texts : ∀ (f : Forest), ∀ t ∈ forestTuples f,
    t.text = ['{'] ∨ t.text = ['}'] ∨ t.text ∈ f.cands ∨ t.text ∈ f.condTexts
  | .nil, t, h => by simp [forestTuples] at h
  | .cand s x f, t, h => by
    simp only [forestTuples, List.mem_cons] at h
    simp only [Forest.cands, Forest.condTexts, List.mem_cons]
    rcases h with rfl | h
    · exact .inr (.inr (.inl (.inl rfl)))
    · rcases forestTuples_texts f t h with h | h | h | h
      · exact .inl h
      · exact .inr (.inl h)
      · exact .inr (.inr (.inl (.inr h)))
      · exact .inr (.inr (.inr h))
  | .cond s n x f, t, h => by
    simp only [forestTuples, List.mem_cons] at h
    simp only [Forest.cands, Forest.condTexts, List.mem_cons]
    rcases h with rfl | h
    · exact .inr (.inr (.inr (.inl rfl)))
    · rcases forestTuples_texts f t h with h | h | h | h
      · exact .inl h
      · exact .inr (.inl h)
      · exact .inr (.inr (.inl h))
      · exact .inr (.inr (.inr (.inr h)))
  | .elem s inner f, t, h => by
    simp only [forestTuples, List.mem_cons, List.mem_append, List.cons_append] at h
    simp only [Forest.cands, Forest.condTexts, List.mem_append]
    rcases h with rfl | h | rfl | h
    · exact .inl rfl
    · rcases forestTuples_texts inner t h with h | h | h | h
      · exact .inl h
      · exact .inr (.inl h)
      · exact .inr (.inr (.inl (.inl h)))
      · exact .inr (.inr (.inr (.inl h)))
    · exact .inr (.inl rfl)
    · rcases forestTuples_texts f t h with h | h | h | h
      · exact .inl h
      · exact .inr (.inl h)
      · exact .inr (.inr (.inl (.inr h)))
      · exact .inr (.inr (.inr (.inr h)))

mutual
theorem emit_length (d : QDfa) (obs : Str → Str) (el : Bool) (st cnt : Nat) : ∀ v : J,
    (emit d obs el st cnt v).length ≤ v.tokenCount
  | .lit t => by
    unfold emit
    split <;> simp [J.tokenCount]
  | .str r => by unfold emit; split <;> simp [J.tokenCount]
  | .arr w es => by
    have ih := emitE_length d (d.go st cnt none) 0 es
    simp only [J.tokenCount]
    unfold emit
    split
    · simp only [List.length_append, List.length_cons, List.length_nil]; omega
    · simp only [List.length_cons]; omega
    · omega
  | .obj w ms => by
    have ih := emitM_length d st cnt ms
    simp only [J.tokenCount]
    unfold emit
    split
    · simp only [List.length_append, List.length_cons, List.length_nil]; omega
    · simp only [List.length_cons]; omega
    · simp only [List.length_cons, List.length_append]
      split <;> simp <;> omega
    · omega
theorem emitE_length (d : QDfa) (st cnt : Nat) : ∀ es : Elems,
    (emitE d st cnt es).length ≤ es.tokenCount
  | .nil => by simp [emitE]
  | .cons pre v post rest => by
    have h1 := emit_length d (litObs false post (nextE rest)) true st cnt v
    have h2 := emitE_length d st (cnt + 1) rest
    have h3 : v.tokenCount + rest.tokenCount ≤ (Elems.cons pre v post rest).tokenCount := by
      cases rest <;> simp [Elems.tokenCount] <;> omega
    simp only [emitE, List.length_append]
    omega
theorem emitM_length (d : QDfa) (st cnt : Nat) : ∀ ms : Members,
    (emitM d st cnt ms).length ≤ ms.tokenCount
  | .nil => by simp [emitM]
  | .cons pre k mid pre2 v post rest => by
    have h1 := emit_length d (litObs pre2.isEmpty post (nextM rest)) false (d.go st cnt (some k)) 0 v
    have h2 := emitM_length d st cnt rest
    have h3 : v.tokenCount + rest.tokenCount ≤ (Members.cons pre k mid pre2 v post rest).tokenCount := by
      cases rest <;> simp [Members.tokenCount] <;> omega
    simp only [emitM, List.length_append]
    omega
end

/-! ### The tables of the filter -/

theorem FTab.init_ub {Q : List Reg} {c : SCtx} (h : FTab Q c) (hs : (tableOf c).statesNum ≤ 100) :
    (PF.init (contextOf c)).ub = false := by
  have key : ∀ s ∈ (contextOf c).predStates, s < 100 ∧ ∀ x ∈ (contextOf c).mapping s, (condName (contextOf c) x).isSome = true := by
    intro s hm
    have hm' : s ∈ ((List.range (tableOf c).statesNum).filter fun i =>
      (tableOf c).stop i ≠ 0 && (tableOf c).accept i == .predicate) := hm
    rw [List.mem_filter, List.mem_range] at hm'
    obtain ⟨h1, h2⟩ := hm'
    simp only [ne_eq, decide_not, Bool.and_eq_true, Bool.not_eq_true', decide_eq_false_iff_not, beq_iff_eq] at h2
    refine ⟨by omega, ?_⟩
    have hlt : s < c.dfa.rows.length + 1 := h1
    have hst := h2.1
    rw [h.stopQ, if_pos hlt] at hst
    have h0 : s ≠ 0 := by rintro rfl; exact hst rfl
    obtain ⟨x, hx, hr⟩ := c.reach s (by omega) (by omega)
    rcases h.stop_of_word hx with ⟨h3, _⟩ | ⟨k, r, h3, h4, h5⟩
    · rw [hr] at h3; exact absurd h3 hst
    · have hrs : c.state r.w = s := by rw [← hr, h4]; rfl
      have hrw : SimpleWord r.w := (h.inv.clean r.w (List.mem_map_of_mem (f := Reg.w) (List.mem_of_getElem? h3))).simple
      have hacc := h.accept hrw
      rw [hrs, h2.2] at hacc
      have hro : roleOf Q r.w = some r.role := (roleOf_some h.nodup).2 (List.mem_of_getElem? h3)
      rw [hro] at hacc
      rw [hr] at h5
      obtain ⟨w, ro⟩ := r
      cases ro with
      | cond q => cases hacc
      | out => cases hacc
      | pred e ds =>
        have := h.condNames_of hlt h5 h3
        intro y hy
        have hy' := List.mem_map_of_mem (f := condName (contextOf c)) hy
        rw [this] at hy'
        obtain ⟨q, _, hq⟩ := List.mem_map.1 hy'
        rw [← hq]; rfl
  show ((contextOf c).predStates.any (fun s => decide (s ≥ MAX_PREDICATE_STATE)) ||
      (contextOf c).predStates.any (fun s => ((contextOf c).mapping s).any fun x => (condName (contextOf c) x).isNone)) = false
  rw [Bool.or_eq_false_iff]
  constructor
  · rw [List.any_eq_false]
    intro s hm
    have := (key s hm).1
    rw [decide_eq_true_eq]
    unfold MAX_PREDICATE_STATE
    omega
  · rw [List.any_eq_false]
    intro s hm
    rw [Bool.not_eq_true, List.any_eq_false]
    intro x hx
    have := (key s hm).2 x hx
    cases hc : condName (contextOf c) x with
    | none => rw [hc] at this; cases this
    | some y => simp

/-- The serial run of a path with filters stays in its buffers, if its tuples are those of the forest of a value `x`. -/
theorem FSem.serial_clean {p : List (QStep Num)} {c : SCtx} (h : FSem (pathRegs p) c c.state) (O : NumOps) (hp : CleanPath p)
    (hn : namedAfterFilter p = true) (hf : hasFilter p = true) (hst : (tableOf c).statesNum ≤ 100)
    (hiu : (PF.init (contextOf c)).ub = false) (pre trail : Str) (v x : J)
    (hpre : pre.all isWs = true) (htr : trail.all isWs = true) (hsp : pre.head? ≠ some ' ')
    (hc : v.isContainer = true) (hwf : v.wf = true) (hk : v.keysTight = true)
    (hdep : v.depth ≤ MAX_STACK)
    (hft : forestTuples (forest c.state (Res.init p) [] id x .nil) = emit (tableOf c) id false 1 0 v)
    (hxw : x.wf = true) (hxd : x.depth ≤ MAX_STACK) (htd : x.tidy = true) (hdec : x.decided (arith O) O.atof p = true)
    (htok : (toks id pre.length v).any tokUb = false) (hw : x.within 998 = true) (hlen : v.tokenCount ≤ MAX_TUPLE_LIST)
    (hcnt : (x.select (arith O) O.atof (unfiltered p)).length ≤ MAX_OUTPUT)
    (hsel : ∀ y ∈ x.select (arith O) O.atof (unfiltered p), y.render.length ≤ 998) :
    let r := serialPartialRun O (tableOf c) (contextOf c) none (pre ++ v.render ++ trail)
    r.sa.ub = false ∧ r.pf.ub = false := by
  obtain ⟨ms', he⟩ := execAutomaton_doc (tableOf c) pre trail v id SA.init hpre htr hsp hc hwf hk rfl
    hdep (by simpa [SA.init] using hdep)
  have htl : (execAutomaton (tableOf c) (pre ++ v.render ++ trail) SA.init).tl =
      emit (tableOf c) id false 1 0 v := by
    rw [he]
    show (SA.init.emitAll _).tl = _
    rw [emitAll_tl]; rfl
  have ht := track_init (p := p)
  have hg := good_init hp hn
  have ha := above_init hf
  have hx : ExactObs id x := by intro t _; rfl
  have hcands : (forest c.state (Res.init p) [] id x .nil).cands =
      (x.select (arith O) O.atof (unfiltered p)).map J.render := by
    rw [cands_forest h O (Res.init p) [] ht hg id x htd hx .nil]
    simp [Forest.cands, candR, Res.init]
  have hcl : ∀ t ∈ (forest c.state (Res.init p) [] id x .nil).cands, t.length ≤ 998 := by
    intro t ht
    rw [hcands] at ht
    obtain ⟨y, hy, rfl⟩ := List.mem_map.1 ht
    exact hsel y hy
  have hct : ∀ t ∈ (forest c.state (Res.init p) [] id x .nil).condTexts, t.length ≤ 998 := by
    intro t ht
    rcases condTexts_forest 998 c.state (Res.init p) [] id x htd hx hw .nil t ht with h | h
    · exact h
    · simp [Forest.condTexts] at h
  constructor
  · have hsa : (execAutomaton (tableOf c) (pre ++ v.render ++ trail) SA.init).ub =
        ((SA.emitAll SA.init (emit (tableOf c) id false 1 0 v)).ub || (toks id pre.length v).any tokUb) := by
      rw [he]; rfl
    show (execAutomaton (tableOf c) (pre ++ v.render ++ trail) SA.init).ub = false
    rw [hsa, htok, Bool.or_false, Bool.eq_false_iff, ne_eq, emitAll_ub]
    rintro (h1 | ⟨t, h1, h2⟩ | ⟨_, h1⟩)
    · cases h1
    · rw [← hft] at h1
      have : t.text.length ≤ 998 := by
        rcases forestTuples_texts _ t h1 with h | h | h | h
        · rw [h]; simp
        · rw [h]; simp
        · exact hcl _ h
        · exact hct _ h
      simp only [MAX_TEXT] at h2
      omega
    · have := emit_length (tableOf c) id false 1 0 v
      simp only [SA.init, List.length_nil] at h1
      omega
  · simp only [serialPartialRun]
    rw [htl, ← hft]
    obtain ⟨w, e, ds, hreg⟩ := hasFilter_pred p [] hf
    have hreg' : ⟨w, .pred e ds⟩ ∈ pathRegs p := List.mem_append_left _ hreg
    have hone : ∃ s < MAX_PREDICATE_STATE, ((PF.init (contextOf c)).conds s).isSome = true := by
      have hro : roleOf (pathRegs p) w = some (.pred e ds) := (roleOf_some h.nodup).2 hreg'
      have hw : SimpleWord w := h.simple _ hreg'
      refine ⟨c.state w, ?_, by rw [h.initConds hro hw]; rfl⟩
      have h1 := FWords.state_lt (c := c) w
      have e : (tableOf c).statesNum = c.dfa.rows.length + 1 := rfl
      simp only [MAX_PREDICATE_STATE]
      omega
    have hdr : DecR O (Res.init p) x := ⟨(by intro e he; cases he), by intro q hq; cases hq; exact hdec⟩
    have hgen : generate O (contextOf c) (PF.init (contextOf c)) (forestTuples (forest c.state (Res.init p) [] id x .nil)) =
        (forestTuples (forest c.state (Res.init p) [] id x .nil)).foldl (pfStep O (contextOf c)) (PF.init (contextOf c)) := by
      unfold generate
      rw [if_neg]
      intro hall
      obtain ⟨s, hs1, hs2⟩ := hone
      have := List.all_eq_true.1 hall s (List.mem_range.2 hs1)
      cases hc : (PF.init (contextOf c)).conds s with
      | none => rw [hc] at hs2; cases hs2
      | some _ => rw [hc] at this; cases this
    rw [hgen]
    refine forest_ub (names := condNames (contextOf c)) (holds := filterHolds O (contextOf c))
      (forest c.state (Res.init p) [] id x .nil) (PF.init (contextOf c)) (PF.init (contextOf c)).conds []
      (elemsOnly_forest c.state (Res.init p) [] hg ha id x .nil rfl)
      (decided_forest h O (Res.init p) [] ht hg id x hxw htd hdr .nil trivial)
      (fits_forest h (Res.init p) [] ht hg id none (by intro _ d hd; simp [Res.init] at hd) x hxw htd hx .nil trivial)
      (unnested_forest h (Res.init p) [] ht id x .nil rfl) ⟨rfl, rfl, rfl, rfl⟩ ?_ hiu ?_ ?_ hcl
    · intro y hy
      rcases preds_forest h (Res.init p) [] ht id x .nil y hy with hx | ⟨y, e, ds, h1, h2, rfl⟩
      · simp [Forest.preds] at hx
      · rw [h.initConds h2 h1, h.names h1 h2]
    · have := nest_forest c.state (Res.init p) [] id x .nil
      simp only [Forest.nest] at this
      simp only [MAX_STACK] at hxd
      simp only [MAX_STACK_ELEMENT]
      omega
    · rw [hcands]
      simpa using hcnt

/-- The serial run of a path with filters stays in its buffers. -/
theorem FTab.serial_clean {p : List (QStep Num)} {c : SCtx} (h : FTab (pathRegs p) c) (O : NumOps) (hp : CleanPath p)
    (hn : namedAfterFilter p = true) (hf : hasFilter p = true) (hsz : treeSize p ≤ 98) (pre trail : Str) (v : J)
    (hpre : pre.all isWs = true) (htr : trail.all isWs = true) (hsp : pre.head? ≠ some ' ')
    (hc : v.isContainer = true) (hwf : v.wf = true) (hk : v.keysTight = true)
    (hdep : v.depth ≤ MAX_STACK) (htd : v.tidy = true) (hdec : v.decided (arith O) O.atof p = true)
    (htok : (toks id pre.length v).any tokUb = false) (hw : v.within 998 = true) (hlen : v.tokenCount ≤ MAX_TUPLE_LIST)
    (hcnt : (v.select (arith O) O.atof (unfiltered p)).length ≤ MAX_OUTPUT)
    (hsel : ∀ x ∈ v.select (arith O) O.atof (unfiltered p), x.render.length ≤ 998) :
    let r := serialPartialRun O (tableOf c) (contextOf c) none (pre ++ v.render ++ trail)
    r.sa.ub = false ∧ r.pf.ub = false :=
  h.sem.serial_clean O hp hn hf (h.states hsz) (h.init_ub (h.states hsz)) pre trail v v hpre htr hsp hc hwf hk hdep (h.tuples v)
    hwf hdep htd hdec htok hw hlen hcnt hsel

end JPS
