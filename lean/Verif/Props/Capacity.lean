import Verif.FilterUb
import Verif.Props.FilterRun
/-!
# C35: fixed-size buffers
-/

set_option autoImplicit false

namespace JPS
open Spec

theorem any_sepE_iff (rest : Elems) (ts : List Tok) (h : rest = .nil → ts = []) :
    (rest.sep Tok.com ts).any tokUb = ts.any tokUb := by
  cases rest with
  | nil => rw [h rfl]; rfl
  | cons _ _ _ _ => simp [Elems.sep, tokUb]
theorem any_sepM_iff (rest : Members) (ts : List Tok) (h : rest = .nil → ts = []) :
    (rest.sep Tok.com ts).any tokUb = ts.any tokUb := by
  cases rest with
  | nil => rw [h rfl]; rfl
  | cons _ _ _ _ _ _ _ => simp [Members.sep, tokUb]

mutual
/-- Which tokens of a tidy document overrun the token buffer. -/
theorem toks_within (obs : Str → Str) (off : Nat) : ∀ v : J, v.tidy = true → ExactObs obs v →
    (toks obs off v).any tokUb = !v.within 3998
  | .lit t, _, hx => by
    simp only [toks, tokUb, List.any_cons, List.any_nil, Bool.or_false, hx t rfl, J.within, MAX_SIZE_PRIMITIVE]
    rw [← decide_not]; apply decide_eq_decide.2; omega
  | .str r, _, _ => by
    simp only [toks, tokUb, List.any_cons, List.any_nil, Bool.or_false, J.within, MAX_SIZE_PRIMITIVE, List.length_append,
      List.length_cons, List.length_nil]
    rw [← decide_not]; apply decide_eq_decide.2; omega
  | .arr w es, h, _ => by
    have := toksE_within (off + 1 + w.length) es h
    simp [toks, tokUb, this, J.within]
  | .obj w ms, h, _ => by
    have := toksM_within (off + 1 + w.length) ms h
    simp [toks, tokUb, this, J.within]
theorem toksE_within (off : Nat) : ∀ es : Elems, es.tidy = true → (toksE off es).any tokUb = !es.within 3998
  | .nil, _ => rfl
  | .cons pre v post rest, h => by
    simp only [Elems.tidy, Bool.and_eq_true] at h
    simp only [toksE, List.any_append, Elems.within, Bool.not_and]
    rw [toks_within _ _ v h.1.2 (exactE h.1.1), any_sepE_iff _ _ (by rintro rfl; rfl), toksE_within _ rest h.2]
theorem toksM_within (off : Nat) : ∀ ms : Members, ms.tidy = true → (toksM off ms).any tokUb = !ms.within 3998
  | .nil, _ => rfl
  | .cons pre k mid pre2 v post rest, h => by
    simp only [Members.tidy, Bool.and_eq_true] at h
    have hk : tokUb (.ky k) = !decide (k.length ≤ 3998) := by
      simp only [tokUb, MAX_SIZE_PRIMITIVE]
      rw [← decide_not]; apply decide_eq_decide.2; omega
    simp only [toksM, List.cons_append, List.any_cons, List.any_append, Members.within, Bool.not_and]
    rw [hk, toks_within _ _ v h.1.2 (exactM h.1.1.1 h.1.1.2), any_sepM_iff _ _ (by rintro rfl; rfl),
      toksM_within _ rest h.2, Bool.or_assoc]
end

/-- **C35** For a path of names, `[*]`, wildcards, descendant steps and slices (no slice below a descendant step)
and a tidy document that is loaded as a whole, the serial run stays in
its buffers exactly if keys and scalars have at most 3998 characters, at most 800000 values are selected, and
each selected value has at most 998 characters.

The statement for every document is false of the code: `c35_false_result`, `c35_false_key`. -/
theorem c35_exact_partial (O : NumOps) (p : List Step) (hp : p ≠ []) (hs : fewNames p)
    (hd : noDescBeforeSlice p = true) (hb : boundsOk p) (pre trail : Str) (v : J) (h : Readable pre trail v) (ht : v.tidy = true) :
    clean O (astOf p) (pre ++ v.render ++ trail) ↔
      v.within 3998 = true ∧ (selected p v).length ≤ MAX_OUTPUT ∧ ∀ x ∈ selected p v, x.render.length ≤ 998 := by
  obtain ⟨c, hbc, hpc⟩ := pathCtx_of_build p hp hs
  have hlen : (v.render.length : Int) ≤ intMax := by
    have := h.size
    simp only [List.length_append, MEMORY_FOOTPRINT] at this
    simp only [intMax]; omega
  have hrun := hpc.serial_ub O hd hb pre trail v h.preWs h.trailWs h.noBlank
    h.container h.wf h.tight h.depth hlen
  obtain ⟨h1, h2⟩ := hrun
  rw [tidy_texts p v ht] at h1
  rw [h1, toks_within id pre.length v ht (fun _ _ => rfl)] at h2
  unfold clean
  rw [serialRun_single O MEMORY_FOOTPRINT (astOf p) _ c hbc h.nonempty h.size]
  simp only [Option.some.injEq, forall_eq']
  rw [h2]
  simp

/-- The case `$.a[1:]` on `{"a": [1 ,2 ]}`. -/
example : Readable [] [] (.obj [] (.cons [] ['a'] [] [' ']
      (.arr [] (.cons [] (.lit ['1']) [' '] (.cons [] (.lit ['2']) [' '] .nil))) [] .nil)) ∧
    noDescBeforeSlice [.prop ['a'], .slice (some 1) none] = true ∧ boundsOk [.prop ['a'], .slice (some 1) none] := by
  refine ⟨⟨by decide, by decide, by decide, by decide, by decide, by decide, by decide, by decide⟩, rfl, ?_⟩
  intro a b hs
  simp at hs
  rw [hs.1, hs.2]; decide

/-- `{"k": "r"}` -/
def oneString (k r : Str) : J := .obj [] (.cons [] k [] [' '] (.str r) [] .nil)

theorem oneString_readable {k r : Str} (hk : rawOk false k = true) (hr : rawOk false r = true)
    (hl : k.length + r.length + 8 ≤ MEMORY_FOOTPRINT) : Readable [] [] (oneString k r) := by
  refine ⟨rfl, rfl, by simp, rfl, ?_, rfl, ?_, ?_⟩
  · simp [oneString, J.wf, Members.wf, hk, hr, isWs]
  · simp [oneString, J.depth, Members.depth, MAX_STACK]
  · simp only [oneString, J.render, Members.render, Members.sep, List.nil_append, List.append_nil, List.length_cons,
      List.length_append, List.length_nil]
    omega

/-- Any string of 997 characters or more overruns the buffers of a result. -/
theorem c35_false_result (O : NumOps) (r : Str) (hr : rawOk false r = true) (h1 : 997 ≤ r.length)
    (h2 : r.length + 9 ≤ MEMORY_FOOTPRINT) :
    ¬ clean O (astOf [.prop ['a']]) ((oneString ['a'] r).render) := by
  have hrd := oneString_readable (k := ['a']) rfl hr (by simpa [Nat.add_comm, Nat.add_assoc] using h2)
  have := c35_exact_partial O [.prop ['a']] (by simp) (by decide) rfl (by simp [boundsOk]) [] [] _ hrd rfl
  rw [List.nil_append, List.append_nil] at this
  rw [this]
  rintro ⟨_, _, h⟩
  have := h (.str r) (by
    simp [selected, oneString, J.parts, Members.parts, matches_prop, matches_nil])
  simp [J.render] at this
  omega

/-- Any key of 3999 characters or more overruns the buffer of the tokenizer, whatever the query. -/
theorem c35_false_key (O : NumOps) (p : List Step) (hp : p ≠ []) (hc : noSlices p) (hs : fewNames p)
    (k : Str) (hk : rawOk false k = true) (h1 : 3999 ≤ k.length) (h2 : k.length + 8 ≤ MEMORY_FOOTPRINT) :
    ¬ clean O (astOf p) ((oneString k []).render) := by
  have hrd := oneString_readable (k := k) (r := []) hk rfl (by simpa using h2)
  have := c35_exact_partial O p hp hs (noSlices_desc hc) (noSlices_bounds hc) [] [] _ hrd rfl
  rw [List.nil_append, List.append_nil] at this
  rw [this]
  rintro ⟨h, _, _⟩
  simp [oneString, J.within, Members.within] at h
  omega

theorem rawOk_xs (n : Nat) : rawOk false (List.replicate n 'x') = true := by
  induction n with
  | zero => rfl
  | succ n ih => exact ih

/-- A value of 1000 letters is a case of `c35_false_result`. -/
example : let r := List.replicate 1000 'x'
    rawOk false r = true ∧ 997 ≤ r.length ∧ r.length + 9 ≤ MEMORY_FOOTPRINT := by
  refine ⟨rawOk_xs _, ?_, ?_⟩ <;> rw [List.length_replicate] <;> simp [MEMORY_FOOTPRINT]

/-- A key of 4000 letters is a case of `c35_false_key`. -/
example : let k := List.replicate 4000 'x'
    rawOk false k = true ∧ 3999 ≤ k.length ∧ k.length + 8 ≤ MEMORY_FOOTPRINT := by
  refine ⟨rawOk_xs _, ?_, ?_⟩ <;> rw [List.length_replicate] <;> simp [MEMORY_FOOTPRINT]

/-! ### Filters -/

mutual
theorem within_mono {m n : Nat} (h : m ≤ n) : ∀ v : J, v.within m = true → v.within n = true
  | .lit t, hv => by simp only [J.within, decide_eq_true_eq] at hv ⊢; omega
  | .str t, hv => by simp only [J.within, decide_eq_true_eq] at hv ⊢; omega
  | .arr w es, hv => within_monoE h es hv
  | .obj w ms, hv => within_monoM h ms hv
theorem within_monoE {m n : Nat} (h : m ≤ n) : ∀ es : Elems, es.within m = true → es.within n = true
  | .nil, _ => rfl
  | .cons pre v post rest, hv => by
    simp only [Elems.within, Bool.and_eq_true] at hv ⊢
    exact ⟨within_mono h v hv.1, within_monoE h rest hv.2⟩
theorem within_monoM {m n : Nat} (h : m ≤ n) : ∀ ms : Members, ms.within m = true → ms.within n = true
  | .nil, _ => rfl
  | .cons pre k mid pre2 v post rest, hv => by
    simp only [Members.within, Bool.and_eq_true, decide_eq_true_eq] at hv ⊢
    exact ⟨⟨by omega, within_mono h v hv.1.2⟩, within_monoM h rest hv.2⟩
end

/-! ### Every query without filters -/

mutual
/-- No token overruns the token buffer if literals are short with the white space behind them. -/
theorem toks_pad (obs : Str → Str) (off m : Nat) : ∀ v : J, (∀ t, (obs t).length ≤ t.length + m + 1) → v.withinPad 3998 m = true →
    (toks obs off v).any tokUb = false
  | .lit t, ho, h => by
    have := ho t
    simp only [J.withinPad, decide_eq_true_eq] at h
    simp only [toks, tokUb, List.any_cons, List.any_nil, Bool.or_false, MAX_SIZE_PRIMITIVE]
    apply decide_eq_false; omega
  | .str r, _, h => by
    simp only [J.withinPad, decide_eq_true_eq] at h
    simp only [toks, tokUb, List.any_cons, List.any_nil, Bool.or_false, MAX_SIZE_PRIMITIVE, List.length_append, List.length_cons,
      List.length_nil]
    apply decide_eq_false; omega
  | .arr w es, _, h => by
    have := toksE_pad (off + 1 + w.length) es h
    simp [toks, tokUb, this]
  | .obj w ms, _, h => by
    have := toksM_pad (off + 1 + w.length) ms h
    simp [toks, tokUb, this]
theorem toksE_pad (off : Nat) : ∀ es : Elems, es.withinPad 3998 = true → (toksE off es).any tokUb = false
  | .nil, _ => rfl
  | .cons pre v post rest, h => by
    simp only [Elems.withinPad, Bool.and_eq_true] at h
    simp only [toksE, List.any_append]
    rw [toks_pad _ _ _ v (litObs_length _ _ _) h.1, any_sepE_iff _ _ (by rintro rfl; rfl), toksE_pad _ rest h.2]
    rfl
theorem toksM_pad (off : Nat) : ∀ ms : Members, ms.withinPad 3998 = true → (toksM off ms).any tokUb = false
  | .nil, _ => rfl
  | .cons pre k mid pre2 v post rest, h => by
    simp only [Members.withinPad, Bool.and_eq_true, decide_eq_true_eq] at h
    have hk : tokUb (.ky k) = false := by
      simp only [tokUb, MAX_SIZE_PRIMITIVE]; apply decide_eq_false; omega
    simp only [toksM, List.cons_append, List.any_cons, List.any_append]
    rw [hk, toks_pad _ _ _ v (litObs_length _ _ _) h.1.2, any_sepM_iff _ _ (by rintro rfl; rfl), toksM_pad _ rest h.2]
    rfl
end

/-- The serial run of a query whose context has no filters. -/
theorem serial_ub_any (O : NumOps) (d : QDfa) (ctx : QCtx) (hps : ctx.predStates = []) (pre trail : Str) (v : J) (h : Readable pre trail v) :
    let r := serialPartialRun O d ctx none (pre ++ v.render ++ trail)
    r.sa.ub = false ∧ r.pf.ub = false ↔ (toks id pre.length v).any tokUb = false ∧
      r.pf.output.length ≤ MAX_OUTPUT ∧ ∀ t ∈ r.pf.output, t.length ≤ 998 := by
  obtain ⟨ms', he⟩ := execAutomaton_doc d pre trail v id SA.init h.preWs h.trailWs h.noBlank h.container h.wf h.tight rfl
    h.depth (by simpa [SA.init] using h.depth)
  generalize hem : emit d id false SA.init.elt.st SA.init.elt.count v = ts at he
  have htl : (execAutomaton d (pre ++ v.render ++ trail) SA.init).tl = ts := by
    rw [he]
    show (SA.init.emitAll _).tl = _
    rw [emitAll_tl]; rfl
  have hsa : (execAutomaton d (pre ++ v.render ++ trail) SA.init).ub =
      ((SA.emitAll SA.init ts).ub || (toks id pre.length v).any tokUb) := by
    rw [he]; rfl
  simp only [serialPartialRun]
  rw [generate_none O _ hps, htl, foldl_addOutput, hsa, Bool.or_eq_false_iff]
  have hout : (PF.init ctx).output = [] := rfl
  have hpu : (PF.init ctx).ub = false := by simp [PF.init, hps]
  have hfo := foldl_addOutput_ub ts (PF.init ctx)
  have hem2 := emitAll_ub SA.init ts
  rw [hpu, hout] at hfo
  rw [hout, List.nil_append, List.length_map, Bool.eq_false_iff (b := (SA.emitAll _ _).ub), ne_eq (SA.emitAll _ _).ub, hem2,
    Bool.eq_false_iff (b := (List.foldl (fun (p : PF) (t : Tuple) => p.addOutput t.text) (PF.init ctx) ts).ub), ne_eq (PF.ub _), hfo]
  have hi : SA.init.ub = false ∧ SA.init.tl = [] := ⟨rfl, rfl⟩
  rw [hi.1, hi.2]
  simp only [Bool.false_eq_true, false_or, not_or, not_exists, not_and, List.length_nil, Nat.zero_add, MAX_TEXT, MAX_STRING, MAX_TUPLE_LIST,
    MAX_OUTPUT, List.mem_map, forall_exists_index, Nat.not_lt]
  constructor
  · rintro ⟨⟨⟨h1, _⟩, h2⟩, _, h3⟩
    refine ⟨h2, ?_, ?_⟩
    · by_cases h0 : ts = []
      · rw [h0]; simp
      · have := h3 h0; omega
    · rintro t x ⟨hx, rfl⟩
      have := h1 x hx; omega
  · rintro ⟨h2, h3, h4⟩
    refine ⟨⟨⟨fun x hx => ?_, fun _ => ?_⟩, h2⟩, fun x hx => ?_, fun _ => ?_⟩
    · have := h4 _ x ⟨hx, rfl⟩; omega
    · omega
    · have := h4 _ x ⟨hx, rfl⟩; omega
    · omega

/-- **C35 for every query without filters** (any steps, also `..` before slices and single indexes) and every layout: the serial run stays in
its buffers if its results are at most 800000 of at most 998 characters, keys and strings have at most 3998 characters, and so have literals
together with the white space behind them and one more character. -/
theorem c35_every_partial (O : NumOps) (a : Ast) (hf : ∀ q, buildQuery a = some q → q.2.predStates = []) (pre trail : Str) (v : J)
    (h : Readable pre trail v) (hw : v.withinPad 3998 0 = true) (rs : List Str)
    (hr : results O a (pre ++ v.render ++ trail) = some rs) (hn : rs.length ≤ MAX_OUTPUT) (hx : ∀ t ∈ rs, t.length ≤ 998) :
    clean O a (pre ++ v.render ++ trail) := by
  unfold results at hr
  cases hbc : buildCtx a with
  | none => 
    exfalso
    unfold serialRun buildQuery at hr
    rw [hbc] at hr
    cases hr
  | some c =>
    rw [serialRun_single O MEMORY_FOOTPRINT a _ c hbc h.nonempty h.size] at hr
    have hr : (serialPartialRun O (tableOf c) (contextOf c) none (pre ++ v.render ++ trail)).pf.output = rs := Option.some.inj hr
    unfold clean
    rw [serialRun_single O MEMORY_FOOTPRINT a _ c hbc h.nonempty h.size]
    simp only [Option.some.injEq, forall_eq']
    refine (serial_ub_any O (tableOf c) (contextOf c) (hf _ (by unfold buildQuery; rw [hbc]; rfl)) pre trail v h).2 ⟨?_, ?_, ?_⟩
    · refine toks_pad id _ 0 v (fun t => by simp only [id]; omega) hw
    · rw [hr]; exact hn
    · rw [hr]; exact hx

/-- **C35 for every query without filters**, exact condition on tidy documents. -/
theorem c35_every_exact_partial (O : NumOps) (a : Ast) (hf : ∀ q, buildQuery a = some q → q.2.predStates = []) (pre trail : Str) (v : J)
    (h : Readable pre trail v) (ht : v.tidy = true) (rs : List Str) (hr : results O a (pre ++ v.render ++ trail) = some rs) :
    clean O a (pre ++ v.render ++ trail) ↔ v.within 3998 = true ∧ rs.length ≤ MAX_OUTPUT ∧ ∀ t ∈ rs, t.length ≤ 998 := by
  unfold results at hr
  cases hbc : buildCtx a with
  | none =>
    exfalso
    unfold serialRun buildQuery at hr
    rw [hbc] at hr
    cases hr
  | some c =>
    rw [serialRun_single O MEMORY_FOOTPRINT a _ c hbc h.nonempty h.size] at hr
    have hr : (serialPartialRun O (tableOf c) (contextOf c) none (pre ++ v.render ++ trail)).pf.output = rs := Option.some.inj hr
    unfold clean
    rw [serialRun_single O MEMORY_FOOTPRINT a _ c hbc h.nonempty h.size]
    simp only [Option.some.injEq, forall_eq']
    have := serial_ub_any O (tableOf c) (contextOf c) (hf _ (by unfold buildQuery; rw [hbc]; rfl)) pre trail v h
    dsimp only at this
    rw [hr, toks_within id pre.length v ht (fun _ _ => rfl)] at this
    rw [this]
    simp

/-- Paths without filters have no filter states, whatever their steps, unless a slice is `[0:0]`. -/
theorem no_filters_path (p : List Step) (hp : p ≠ []) (hs : fewNames p) (hb : boundsOk p) :
    ∀ q, buildQuery (astOf p) = some q → q.2.predStates = [] := by
  intro q hq
  obtain ⟨c, hbc, hpc⟩ := pathCtx_of_build p hp hs
  unfold buildQuery at hq
  rw [hbc] at hq
  cases hq
  exact hpc.predStates hb

/-- Non-vacuity: `$..a[1:2]`, a slice below a descendant step, on `{"a": [1 ,2 ]}`. -/
example (O : NumOps) : clean O (astOf [.descProp ['a'], .slice (some 1) (some 2)]) ([] ++ (J.obj [] (.cons [] ['a'] [] [' ']
      (.arr [] (.cons [] (.lit ['1']) [' '] (.cons [] (.lit ['2']) [' '] .nil))) [] .nil)).render ++ []) :=
  (c35_every_exact_partial O _ (no_filters_path _ (by simp) (by decide) (by simp [boundsOk, sliceLo, sliceHi])) [] [] _
    ⟨by decide, by decide, by decide, by decide, by decide, by decide, by decide, by decide⟩ (by decide) [['2']]
    (by with_unfolding_all rfl)).2 ⟨by decide, by decide, by decide⟩

/-- Non-vacuity: the same with line breaks behind the literals and no blank behind the colon. -/
example (O : NumOps) : clean O (astOf [.descProp ['a'], .slice (some 1) (some 2)]) ([] ++ (J.obj [] (.cons [] ['a'] [] []
      (.arr [] (.cons [] (.lit ['1']) ['\n'] (.cons [] (.lit ['2']) ['\n', '\n'] .nil))) [] .nil)).render ++ []) :=
  c35_every_partial O _ (no_filters_path _ (by simp) (by decide) (by simp [boundsOk, sliceLo, sliceHi])) [] [] _
    ⟨by decide, by decide, by decide, by decide, by decide, by decide, by decide, by decide⟩ (by decide) [['2', '\n', '\n']]
    (by with_unfolding_all rfl) (by decide) (by decide)

/-- **C35** With filters: the serial run stays in its buffers if the document has at most 5000000 brackets, commas, keys and scalars, its
keys and scalars at most 998, and the values that would be selected without the filters are at most 800000 of at
most 998 characters. -/
theorem c35_filter_partial (O : NumOps) (p : List (QStep Num)) (hq : FilterQuery p) (pre trail : Str) (v : J)
    (h : Readable pre trail v) (ht : v.tidy = true) (hd : v.decided (arith O) O.atof p = true)
    (hw : v.within 998 = true) (hl : v.tokenCount ≤ MAX_TUPLE_LIST)
    (hn : (v.select (arith O) O.atof (unfiltered p)).length ≤ MAX_OUTPUT)
    (hx : ∀ x ∈ v.select (arith O) O.atof (unfiltered p), x.render.length ≤ 998) :
    clean O (fAst p) (pre ++ v.render ++ trail) := by
  obtain ⟨c, hc, hf⟩ := ftab_of_build p hq.ne hq.clean hq.named hq.fresh hq.names
  unfold clean
  rw [serialRun_single O MEMORY_FOOTPRINT (fAst p) _ c hc h.nonempty h.size]
  simp only [Option.some.injEq, forall_eq']
  exact hf.serial_clean O hq.clean hq.named hq.hasFilter hq.size pre trail v h.preWs h.trailWs h.noBlank h.container
    h.wf h.tight h.depth ht hd
    (by rw [toks_within id pre.length v ht (fun _ _ => rfl), within_mono (by omega) v hw]; rfl) hw hl hn hx

/-- The case of `c03_select_partial`, where three values would be selected without the filters. -/
example : C03.doc.within 998 = true ∧ C03.doc.tokenCount ≤ MAX_TUPLE_LIST ∧
    C03.doc.select (arith intOps) intOps.atof (unfiltered C03.path) = [C03.lit "1", C03.lit "2", C03.lit "3"] := by
  refine ⟨by decide, by decide, by with_unfolding_all rfl⟩

end JPS
