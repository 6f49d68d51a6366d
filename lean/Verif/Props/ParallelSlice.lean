import Verif.Props.FilterFootprint
import Verif.Props.ParallelPieces
import Verif.Props.PruneFilter
import Verif.Props.PiecesOpt
/-!
# C32, C42, C43, C45 and C51 for paths with filters and slices
-/

set_option autoImplicit false

namespace JPS
open Spec

/-- For a path with filters and slices: nothing that lies across a cut is reported or counted. -/
theorem STab.cutsOK {p : List (SStep Num)} {c : SCtx} (h : STab (pathSRegs p) c) (hd : (tableOf c).Dead0) (hb : slicesOk p)
    {pre trail : Str} {v : J} {k : Nat} (hlen : (v.render.length : Int) ≤ intMax)
    (hbef : ∃ u w c, ((pre ++ v.render ++ trail).take k).reverse = w ++ c :: u ∧ w.all isSkip = true ∧
      (c = ',' ∨ c = '{' ∨ c = '['))
    (hu : UntornPath (p.map ssk) pre v k) : CutsOK (tableOf c) pre trail v k := by
  have hi : ∀ l : Loc, idxLt v.render.length l → ∀ i, Label.elem i ∈ l → (i : Int) < intMax := by
    intro l hl i hi; have := hl i hi; omega
  refine ⟨hbef, fun y hy hc ha hz => hu.containers y hy hc ha (h.reported hd hb _ (hi _ (spans_idx hy).1) hz),
    fun y hy w es he ha j x hj hx => ⟨fun hz => hu.scalars y hy w es he ha j x hj hx
      (h.reported hd hb _ (hi _ (spans_elem_idx hy he hj)) hz), ?_⟩, fun y hy hc ha => ?_, fun y hy w es he ha j x hj hx => ?_⟩
  · intro hz
    have hw := wordOf_simple (y.1 ++ [.elem j])
    rcases h.root hd hb _ (hi _ (spans_elem_idx hy he hj)) with hr | ⟨hr, _⟩
    · rw [hr, hd.matched] at hz; cases hz
    · rw [hr] at hz
      generalize (JPS.locState (tableOf c) 1 0 (y.1 ++ [.elem j])).2 = n at hz
      cases hin : (tableOf c).inRange (c.state (wordOf (y.1 ++ [.elem j]))) n with
      | false => rw [h.matched_out hw hin] at hz; cases hz
      | true =>
        rw [h.matched hw hin] at hz
        cases hro : roleOf (low (pathSRegs p)) (wordOf (y.1 ++ [.elem j])) with
        | none => rw [hro] at hz; cases hz
        | some ro =>
          rw [hro] at hz
          cases ro with
          | pred e ds => cases hz
          | out => cases hz
          | cond q =>
            obtain ⟨⟨w', ro⟩, hr1, hr2, hr3⟩ := mem_low.1 ((roleOf_some (low_nodup h.nodup)).1 hro)
            simp only at hr2 hr3
            subst hr3
            obtain ⟨w'', k', hk⟩ := h.condEnd _ _ hr1
            rw [hk] at hr2
            have := congrArg List.getLast? hr2
            simp [wordOf, flat, unslice] at this
  · refine h.noIdx_loc hd hb _ (hi _ (spans_idx hy).1) fun l' i e => ?_
    obtain ⟨z, hz, w, es, e1, e2, e3⟩ := across_parent hy ha e
    rw [← e2]
    exact hu.sliced z hz w es e1 e3
  · refine h.noIdx_loc hd hb _ (hi _ (spans_elem_idx hy he hj)) fun l' i e => ?_
    rw [← (List.append_inj' e rfl).1]
    exact hu.sliced y hy w es he ha

theorem STab.noIdx_start {p : List (SStep Num)} {c : SCtx} (h : STab (pathSRegs p) c) : NoIdx (tableOf c) 1 := by
  obtain ⟨b1, b2⟩ := h.bounds (w := []) (by intro s hs; simp at hs)
  rw [h.rng_path, srng_nil] at b1 b2
  exact ⟨b1, b2⟩

/-- A filter of `p` tests the elements of the array at `l`. -/
def FilteredS (p : List (SStep Num)) (l : Loc) : Prop := ∃ q e r, p = q ++ .filter e :: r ∧ Matches (q.map ssk) l

/-- The filtered arrays of the document that lie across the cut at `k` begin before `b`. -/
def FilteredSEarly (p : List (SStep Num)) (pre : Str) (v : J) (b k : Nat) : Prop :=
  ∀ y ∈ allSpans pre v, ∀ w es, y.2.1 = .arr w es → FilteredS p y.1 → across y k → y.2.2 < b

theorem wholes_split : ∀ (p : List (SStep Num)) (q : List (QStep Num)) (e : Expr Num) (r : List (QStep Num)), wholes p = q ++ .filter e :: r →
    ∃ q' r', p = q' ++ .filter e :: r' ∧ wholes q' = q
  | [], q, e, r, h => by simp [wholes] at h
  | s :: p, [], e, r, h => by
    simp only [wholes, List.map_cons, List.nil_append, List.cons.injEq] at h
    cases s with
    | filter e' =>
      simp only [SStep.whole, QStep.filter.injEq] at h
      rw [h.1]
      exact ⟨[], p, rfl, rfl⟩
    | _ => simp [SStep.whole] at h
  | s :: p, x :: q, e, r, h => by
    simp only [wholes, List.map_cons, List.cons_append, List.cons.injEq] at h
    obtain ⟨q', r', h1, h2⟩ := wholes_split p q e r h.2
    exact ⟨s :: q', r', by rw [h1]; rfl, by rw [← h.1, ← h2]; rfl⟩

theorem STab.filtered {p : List (SStep Num)} {c : SCtx} (h : STab (pathSRegs p) c) (hd : (tableOf c).Dead0) (hb : slicesOk p) {l : Loc} {j : Nat}
    (hl : ∀ i, Label.elem i ∈ l → (i : Int) < intMax)
    (ha : (tableOf c).accept (JPS.locState (tableOf c) 1 0 (l ++ [.elem j])).1 = .predicate) : FilteredS p l := by
  obtain ⟨q, e, r, h1, h2⟩ := h.accept_pred hd _ ha
  obtain ⟨q', r', h3, h4⟩ := wholes_split p q e r h1
  have h5 : wordOf l = q.map sk := by
    have : wordOf (l ++ [.elem j]) = wordOf l ++ [.all] := by simp [wordOf]
    rw [this] at h2
    exact (List.append_inj' h2 rfl).1
  refine ⟨q', e, r', h3, ?_⟩
  have hne : (JPS.locState (tableOf c) 1 0 (l ++ [.elem j])).1 ≠ 0 := by
    intro hz; rw [hz, (c.dead h.ok).acc] at ha; cases ha
  rw [locState_append] at hne
  simp only [JPS.locState] at hne
  rcases h.root hd hb l hl with hr | ⟨hr, hp | hp⟩
  · rw [hr, hd.go] at hne; exact absurd rfl hne
  · exact matches_passes q' (.filter e :: r') l (by rw [h4]; exact h5) (by rw [← h3]; exact hp)
  · unfold QDfa.go at hne
    rw [hp] at hne; exact absurd rfl hne

/-- `tree_ct_safe` for a path with filters and slices, with a constraint table. -/
theorem slices_ct_safe (O : NumOps) (p : List (SStep Num)) (hb : slicesOk p) {c : SCtx} (hbc : buildCtx (sAst p) = some c)
    (hf : STab (pathSRegs p) c) (hd0 : (tableOf c).Dead0)
    (pre trail : Str) (v : J) (h : Readable pre trail v) (hpl : v.plainStrings = true) (h0 : NUL ∉ pre ++ v.render ++ trail)
    (cores : Nat) (hc : 0 < cores) (hcm : cores ≤ MAX_THREAD) (ct : Option CTable) (hnd : ct.NodupOK)
    (hin : ct.StatesIn (tableOf c).statesNum) (u : Nat → UState)
    (hpart : partition cores (pre ++ v.render ++ trail) ≠ none) (hsz : Sizes (tableOf c) v) (hkeys : ct = none ∨ v.keysWithin 98 = true)
    (hclean : clean O (sAst p) (pre ++ v.render ++ trail))
    (htorn : ∀ xs ys : List Str, partition cores (pre ++ v.render ++ trail) = some ((xs ++ ys).map some) → xs ≠ [] → ys ≠ [] →
      UntornPath (p.map ssk) pre v xs.flatten.length)
    (hearly : ∀ (x : Str) (xs ys : List Str), partition cores (pre ++ v.render ++ trail) = some ((x :: xs ++ ys).map some) → ys ≠ [] →
      FilteredSEarly p pre v x.length (x :: xs).flatten.length) :
    ∃ r, parallelPartialRun O (tableOf c) (contextOf c) ct u cores none (pre ++ v.render ++ trail) = some r ∧
      ((∀ ps : List Str, ps.flatten = pre ++ v.render ++ trail → pieceToks 0 ps = lexAll (pre ++ v.render ++ trail) →
        ctChunks (tableOf c) ct SA.init ps) ∨ r.k.re = false → r.k.bad = false ∧ r.pf.ub = false) := by
  have hd := c.dead hf.ok
  exact tree_ct_safe O (sAst p) hbc hd hf.noIdx_start pre trail v h hpl h0 cores hc hcm ct hnd
    hin u hpart hsz hkeys hclean (fun xs ys e hx hy hbf => hf.cutsOK hd0 hb h.len hbf (htorn xs ys e hx hy)) (by
      intro x cs hps hfl hne hcut
      refine doc_chunksPred (b0 := x.length) (ps := x :: cs) hd c.one_lt h.doc hfl hne hcut ?_ ?_ cs [x] _ _ rfl (by simp) (by simp)
        ?_ (Nat.le_refl _) ?_
      · intro l k ha
        obtain ⟨q, e, r, _, h3⟩ := hf.accept_pred hd0 _ ha
        have := congrArg List.getLast? h3
        simp [wordOf] at this
      · intro xs ys e hx hy y hy' w es hw hac ha
        obtain ⟨x', xs, rfl⟩ := List.exists_cons_of_ne_nil hx
        rw [List.cons_append] at e
        injection e with e1 e2
        subst e1
        have hl := h.len
        exact hearly x xs ys (by rw [hps, e2, List.cons_append]) hy y hy' w es hw
          (hf.filtered hd0 hb (fun i hi => by have := (spans_idx hy').1 i hi; omega) ha) hac
      · have := (show ({ SA.init with tl := [] } : SA).Is Ctl.init from Is.init).exec (d := tableOf c) (s := x) 0
        rw [pieceToks, pieceToks, List.append_nil]
        exact this
      · have := (show ({ SA.init with tl := [] } : SA).Is Ctl.init from Is.init).exec (d := tableOf c) (s := x) 0
        intro i b hi
        rw [← this.ss, pieceToks, pieceToks, List.append_nil] at hi
        omega)

/-- **C32 for paths with filters and slices.**  The query is one of `c03_slices_partial` (names, `[*]`, slices and filters); the document
is one the tokenizer reads, its strings do not end in `,`, `{` or `[`; it is cut into the chunks of `partition` for any number of
threads.  If no candidate for a result is torn apart by a cut, no sliced array lies across a cut and neither run meets undefined
behaviour, the parallel run prints what the serial run prints.  Filtered elements may lie across cuts. -/
theorem c32_filter_slices_partial (O : NumOps) (p : List (SStep Num)) (hq : SliceQuery p)
    (pre trail : Str) (v : J) (h : Readable pre trail v) (hpl : v.plainStrings = true) (h0 : NUL ∉ pre ++ v.render ++ trail)
    (cores : Nat) (hc : 0 < cores) (u : Nat → Nat → UState) (r : ParallelCtx)
    (hr : parallelRun O MEMORY_FOOTPRINT cores u (sAst p) (pre ++ v.render ++ trail) = some (some r))
    (hbad : r.k.bad = false) (hclean : clean O (sAst p) (pre ++ v.render ++ trail))
    (htorn : ∀ xs ys : List Str, partition cores (pre ++ v.render ++ trail) = some ((xs ++ ys).map some) → xs ≠ [] → ys ≠ [] →
      UntornPath (p.map ssk) pre v xs.flatten.length) :
    results O (sAst p) (pre ++ v.render ++ trail) = some r.pf.output := by
  obtain ⟨c, hbc, hf, hd0⟩ := hq.table
  exact (tree_ct O (sAst p) hbc (c.dead hf.ok) hf.noIdx_start pre trail v h hpl h0 cores hc none nodup_none (u 0) r
    (parallelRun_single O _ cores u _ _ c hbc h.nonempty h.size hr) hbad hclean
    (fun xs ys e hx hy hb => hf.cutsOK hd0 hq.bounds h.len hb (htorn xs ys e hx hy)) (.inl fun ps _ _ => ctChunks_none ps _)).1

/-- **C42 for paths with filters and slices.**  Whatever the constraint table says (as long as it lists no state twice for a key): if
the optimised parallel run meets no undefined behaviour and finds no unit to reprocess, it prints what the serial run prints, under the
conditions of `c32_filter_slices_partial`. -/
theorem c42_filter_slices_partial (O : NumOps) (p : List (SStep Num)) (hq : SliceQuery p)
    (pre trail : Str) (v : J) (h : Readable pre trail v) (hpl : v.plainStrings = true) (h0 : NUL ∉ pre ++ v.render ++ trail)
    (cores : Nat) (hc : 0 < cores) (ct : CTable) (hnd : ∀ k ks, ct.lookup k = some ks → ks.Nodup)
    (u : Nat → Nat → UState) (ru : Nat → Nat → Nat → UState) (r : ParallelCtx)
    (hr : parallelRunOpt O MEMORY_FOOTPRINT cores (some ct) u ru (sAst p) (pre ++ v.render ++ trail) = some (some r))
    (hbad : r.k.bad = false) (hre : r.k.re = false) (hclean : clean O (sAst p) (pre ++ v.render ++ trail))
    (htorn : ∀ xs ys : List Str, partition cores (pre ++ v.render ++ trail) = some ((xs ++ ys).map some) → xs ≠ [] → ys ≠ [] →
      UntornPath (p.map ssk) pre v xs.flatten.length) :
    results O (sAst p) (pre ++ v.render ++ trail) = some r.pf.output := by
  obtain ⟨c, hbc, hf, hd0⟩ := hq.table
  rw [parallelRunOpt_single O _ cores (some ct) u ru _ _ c hbc h.nonempty h.size] at hr
  obtain ⟨r', hr', e⟩ := Option.map_eq_some_iff.1 hr
  cases e
  exact (tree_ct O (sAst p) hbc (c.dead hf.ok) hf.noIdx_start pre trail v h hpl h0 cores hc (some ct)
    (fun c' e => by cases e; exact hnd) (u 0) r (parallelPartialRunOpt_inv hr' hre) hbad hclean
    (fun xs ys e hx hy hb => hf.cutsOK hd0 hq.bounds h.len hb (htorn xs ys e hx hy)) (.inr hre)).1

/-- **C43 for paths with filters and slices.**  With a constraint table that covers the file, no unit is reprocessed and the optimised
parallel run prints what the serial run prints, under the conditions of `c32_filter_slices_partial`; the undefined behaviour to be
excluded is that of the run without reprocessing. -/
theorem c43_filter_slices_partial (O : NumOps) (p : List (SStep Num)) (hq : SliceQuery p)
    (pre trail : Str) (v : J) (h : Readable pre trail v) (hpl : v.plainStrings = true) (h0 : NUL ∉ pre ++ v.render ++ trail)
    (cores : Nat) (hc : 0 < cores) (q : QDfa × QCtx) (hbq : buildQuery (sAst p) = some q)
    (ct : CTable) (hnd : ∀ k ks, ct.lookup k = some ks → ks.Nodup) (hcov : Covers ct q.1 (pre ++ v.render ++ trail))
    (u : Nat → Nat → UState) (ru : Nat → Nat → Nat → UState) (r : ParallelCtx)
    (hr : parallelPartialRun O q.1 q.2 (some ct) (u 0) cores none (pre ++ v.render ++ trail) = some r)
    (hbad : r.k.bad = false) (hclean : clean O (sAst p) (pre ++ v.render ++ trail))
    (htorn : ∀ xs ys : List Str, partition cores (pre ++ v.render ++ trail) = some ((xs ++ ys).map some) → xs ≠ [] → ys ≠ [] →
      UntornPath (p.map ssk) pre v xs.flatten.length) :
    r.k.re = false ∧
    parallelRunOpt O MEMORY_FOOTPRINT cores (some ct) u ru (sAst p) (pre ++ v.render ++ trail) = some (some r) ∧
    results O (sAst p) (pre ++ v.render ++ trail) = some r.pf.output := by
  obtain ⟨c, hbc, hf, hd0⟩ := hq.table
  have hq' : buildQuery (sAst p) = some (tableOf c, contextOf c) := by unfold buildQuery; rw [hbc]; rfl
  rw [hq'] at hbq
  cases hbq
  obtain ⟨h1, h2⟩ := tree_ct O (sAst p) hbc (c.dead hf.ok) hf.noIdx_start pre trail v h hpl h0 cores hc (some ct)
    (fun c' e => by cases e; exact hnd) (u 0) r hr hbad hclean
    (fun xs ys e hx hy hb => hf.cutsOK hd0 hq.bounds h.len hb (htorn xs ys e hx hy))
    (.inl fun ps _ ht => ctChunks_covers hcov ht ps [] SA.init rfl Is.init)
  refine ⟨h2, ?_, h1⟩
  rw [parallelRunOpt_single O _ cores (some ct) u ru _ _ c hbc h.nonempty h.size, parallelPartialRunOpt_eq hr h2]
  rfl

/-- **C45 for paths with filters and slices.**  With the sizes of `Sizes` and `c35_filter_slices_partial`, no candidate for a result
torn by a cut, no sliced array across a cut, and each filtered array that lies across a cut begun in the first chunk, the parallel run
meets no undefined behaviour and prints exactly the selected values.

Missing for the full statement: as for `c45_filters_partial` and `c03_slices_partial`. -/
theorem c45_filter_slices_partial (O : NumOps) (p : List (SStep Num)) (hq : SliceQuery p)
    (pre trail : Str) (v : J) (h : Readable pre trail v) (ht : v.tidy = true) (hd : v.settled (arith O) O.atof p = true)
    (hw : v.within 998 = true) (hl : v.tokenCount ≤ MAX_TUPLE_LIST)
    (hn : (v.choose (arith O) O.atof (unfilteredS p)).length ≤ MAX_OUTPUT)
    (hx : ∀ x ∈ v.choose (arith O) O.atof (unfilteredS p), x.render.length ≤ 998)
    (hpl : v.plainStrings = true) (h0 : NUL ∉ pre ++ v.render ++ trail)
    (cores : Nat) (hc : 0 < cores) (hcm : cores ≤ MAX_THREAD) (u : Nat → Nat → UState)
    (hpart : partition cores (pre ++ v.render ++ trail) ≠ none) (hsz : ∀ q, buildQuery (sAst p) = some q → Sizes q.1 v)
    (htorn : ∀ xs ys : List Str, partition cores (pre ++ v.render ++ trail) = some ((xs ++ ys).map some) → xs ≠ [] → ys ≠ [] →
      UntornPath (p.map ssk) pre v xs.flatten.length)
    (hearly : ∀ (x : Str) (xs ys : List Str), partition cores (pre ++ v.render ++ trail) = some ((x :: xs ++ ys).map some) → ys ≠ [] →
      FilteredSEarly p pre v x.length (x :: xs).flatten.length) :
    ∃ r, parallelRun O MEMORY_FOOTPRINT cores u (sAst p) (pre ++ v.render ++ trail) = some (some r) ∧
      r.k.bad = false ∧ r.pf.ub = false ∧ r.pf.output = (v.choose (arith O) O.atof p).map J.render := by
  have hclean := c35_filter_slices_partial O p hq pre trail v h ht hd hw hl hn hx
  obtain ⟨c, hbc, hf, hd0⟩ := hq.table
  have hbq : buildQuery (sAst p) = some (tableOf c, contextOf c) := by unfold buildQuery; rw [hbc]; rfl
  obtain ⟨r, h1, h2⟩ := slices_ct_safe O p hq.bounds hbc hf hd0 pre trail v h hpl h0 cores hc hcm none nodup_none (statesIn_none _) (u 0)
    hpart (hsz _ hbq) (.inl rfl) hclean htorn hearly
  obtain ⟨h3, h4⟩ := h2 (.inl fun ps _ _ => ctChunks_none ps _)
  have hr : parallelRun O MEMORY_FOOTPRINT cores u (sAst p) (pre ++ v.render ++ trail) = some (some r) := by
    rw [parallelRun_single_eq O _ cores u _ _ c hbc h.nonempty h.size, h1]; rfl
  have h5 := c32_filter_slices_partial O p hq pre trail v h hpl h0 cores hc u r hr h3 hclean htorn
  rw [c03_slices_partial O p hq pre trail v h ht hd] at h5
  exact ⟨r, hr, h3, h4, (Option.some.inj h5).symm⟩

/-- **C45 for paths with filters and slices, optimised runs on the file learned from.**  With the table learned from the file itself,
whatever the memory of the table held before, the optimised parallel run ends without undefined behaviour, reprocesses nothing and
prints exactly the selected values. -/
theorem c45_same_file_filter_slices_partial (O : NumOps) (p : List (SStep Num)) (hq : SliceQuery p)
    (pre trail : Str) (v : J) (h : Readable pre trail v) (ht : v.tidy = true) (hd : v.settled (arith O) O.atof p = true)
    (hw : v.within 998 = true) (hl : v.tokenCount ≤ MAX_TUPLE_LIST)
    (hn : (v.choose (arith O) O.atof (unfilteredS p)).length ≤ MAX_OUTPUT)
    (hx : ∀ x ∈ v.choose (arith O) O.atof (unfilteredS p), x.render.length ≤ 998)
    (hpl : v.plainStrings = true) (h0 : NUL ∉ pre ++ v.render ++ trail)
    (cores : Nat) (hc : 0 < cores) (hcm : cores ≤ MAX_THREAD) (g : Nat → Str)
    (u : Nat → Nat → UState) (ru : Nat → Nat → Nat → UState)
    (hpart : partition cores (pre ++ v.render ++ trail) ≠ none)
    (q : QDfa × QCtx) (hbq : buildQuery (sAst p) = some q) (hsz : Sizes q.1 v) (hkeys : v.keysWithin 98 = true)
    (htorn : ∀ xs ys : List Str, partition cores (pre ++ v.render ++ trail) = some ((xs ++ ys).map some) → xs ≠ [] → ys ≠ [] →
      UntornPath (p.map ssk) pre v xs.flatten.length)
    (hearly : ∀ (x : Str) (xs ys : List Str), partition cores (pre ++ v.render ++ trail) = some ((x :: xs ++ ys).map some) → ys ≠ [] →
      FilteredSEarly p pre v x.length (x :: xs).flatten.length) :
    ∃ r, parallelRunOpt O MEMORY_FOOTPRINT cores (some (collectConstraints g q.1 (pre ++ v.render ++ trail))) u ru (sAst p)
        (pre ++ v.render ++ trail) = some (some r) ∧
      r.k.re = false ∧ r.k.bad = false ∧ r.pf.ub = false ∧ r.pf.output = (v.choose (arith O) O.atof p).map J.render := by
  obtain ⟨c, hbc, hf, hd0⟩ := hq.table
  have hq' : buildQuery (sAst p) = some (tableOf c, contextOf c) := by unfold buildQuery; rw [hbc]; rfl
  rw [hq'] at hbq
  cases hbq
  have hclean := c35_filter_slices_partial O p hq pre trail v h ht hd hw hl hn hx
  obtain ⟨r, a1, a2⟩ := slices_ct_safe O p hq.bounds hbc hf hd0 pre trail v h hpl h0 cores hc hcm
    (some (collectConstraints g (tableOf c) (pre ++ v.render ++ trail)))
    (fun c' e => by cases e; exact learned_nodup g _ _) (learned_statesIn g (c.dead hf.ok) c.one_lt _) (u 0) hpart hsz (.inr hkeys) hclean
    htorn hearly
  obtain ⟨a3, a4⟩ := a2 (.inl fun ps _ ht => ctChunks_covers (covers_learned g _ _) ht ps [] SA.init rfl Is.init)
  obtain ⟨b1, b2, b3⟩ := c43_filter_slices_partial O p hq pre trail v h hpl h0 cores hc _ hq' _ (learned_nodup g _ _)
    (covers_learned g _ _) u ru r a1 a3 hclean htorn
  refine ⟨r, b2, b1, a3, a4, ?_⟩
  rw [c03_slices_partial O p hq pre trail v h ht hd] at b3
  exact (Option.some.inj b3).symm

/-- **C51 for paths with filters and slices.** -/
theorem c51_filter_slices_partial (O : NumOps) (p : List (SStep Num)) (hq : SliceQuery p)
    (pre trail : Str) (v : J) (h : DocOK pre trail v) (hsp : pre.head? ≠ some ' ') (hint : (v.render.length : Int) ≤ intMax)
    (hpl : v.plainStrings = true) (h0 : NUL ∉ pre ++ v.render ++ trail) (hff : ∀ c ∈ pre ++ v.render ++ trail, c.toNat ≠ 255)
    (N cores : Nat) (hN : 0 < N) (hc : 0 < cores) (u : Nat → Nat → UState) (r : ParallelCtx)
    (hr : parallelRun O N cores u (sAst p) (pre ++ v.render ++ trail) = some (some r))
    (hdef : piecesDefined O N cores u (sAst p) (pre ++ v.render ++ trail))
    (hub : ∀ N' s, (pre ++ v.render ++ trail).length ≤ N' → serialRun O N' (sAst p) (pre ++ v.render ++ trail) = some s → s.sa.ub = false)
    (htorn : ∀ xs ys : List Str, fileChunks N cores (pre ++ v.render ++ trail) = xs ++ ys → xs ≠ [] → ys ≠ [] →
      UntornPath (p.map ssk) pre v xs.flatten.length) :
    (serialRun O N (sAst p) (pre ++ v.render ++ trail)).map (·.pf.output) = some r.pf.output ∧
    ∀ N', (pre ++ v.render ++ trail).length ≤ N' →
      (serialRun O N' (sAst p) (pre ++ v.render ++ trail)).map (·.pf.output) = some r.pf.output := by
  obtain ⟨c, hbc, hf, hd0⟩ := hq.table
  exact tree_pieces O (sAst p) hbc (c.dead hf.ok) hf.noIdx_start pre trail v h hsp hpl h0 hff N cores hN hc u r hr
    hdef hub (fun xs ys e hx hy hb => hf.cutsOK hd0 hq.bounds hint hb (htorn xs ys e hx hy))

/-- **C51 for paths with filters and slices, optimised runs.** -/
theorem c51_opt_filter_slices_partial (O : NumOps) (p : List (SStep Num)) (hq : SliceQuery p)
    (pre trail : Str) (v : J) (h : DocOK pre trail v) (hsp : pre.head? ≠ some ' ') (hint : (v.render.length : Int) ≤ intMax)
    (hpl : v.plainStrings = true) (h0 : NUL ∉ pre ++ v.render ++ trail) (hff : ∀ c ∈ pre ++ v.render ++ trail, c.toNat ≠ 255)
    (N cores : Nat) (hN : 0 < N) (hc : 0 < cores) (q : QDfa × QCtx) (hb : buildQuery (sAst p) = some q)
    (ct : CTable) (hnd : ∀ k ks, ct.lookup k = some ks → ks.Nodup) (hcov : Covers ct q.1 (pre ++ v.render ++ trail))
    (u : Nat → Nat → UState) (ru : Nat → Nat → Nat → UState) (r : ParallelCtx)
    (hr : PrunedRun O q.1 q.2 ct N cores u (pre ++ v.render ++ trail) r)
    (hub : ∀ N' s, (pre ++ v.render ++ trail).length ≤ N' → serialRun O N' (sAst p) (pre ++ v.render ++ trail) = some s → s.sa.ub = false)
    (htorn : ∀ xs ys : List Str, fileChunks N cores (pre ++ v.render ++ trail) = xs ++ ys → xs ≠ [] → ys ≠ [] →
      UntornPath (p.map ssk) pre v xs.flatten.length) :
    parallelRunOpt O N cores (some ct) u ru (sAst p) (pre ++ v.render ++ trail) = some (some r) ∧
    (serialRun O N (sAst p) (pre ++ v.render ++ trail)).map (·.pf.output) = some r.pf.output ∧
    ∀ N', (pre ++ v.render ++ trail).length ≤ N' →
      (serialRun O N' (sAst p) (pre ++ v.render ++ trail)).map (·.pf.output) = some r.pf.output := by
  obtain ⟨c, hbc, hf, hd0⟩ := hq.table
  have hbq : buildQuery (sAst p) = some (tableOf c, contextOf c) := by unfold buildQuery; rw [hbc]; rfl
  rw [hbq] at hb
  cases hb
  obtain ⟨h1, h2⟩ := tree_pieces_ct O (sAst p) hbc (c.dead hf.ok) hf.noIdx_start pre trail v h hsp hpl h0 hff N
    cores hN hc (some ct) (fun c' e => by cases e; exact hnd) u r hr.run hr.defined
    (fun ps _ ht => ctChunks_covers hcov ht ps [] SA.init rfl Is.init) hub
    (fun xs ys e hx hy hb => hf.cutsOK hd0 hq.bounds hint hb (htorn xs ys e hx hy))
  refine ⟨?_, h1⟩
  unfold parallelRunOpt
  rw [hbq]
  exact parallelPiecesOpt_eq _ _ _ _ hr.run h2

/-! ### Cases -/

/-- `$.a[?(@.c > 3)].b[1:]` -/
def exFilterSlice : List (SStep Num) :=
  [.prop ['a'], .filter (.bin .gt (.prop [['c']]) (.num ⟨false, 3, []⟩)), .prop ['b'], .slice (some 1) none]

theorem exFilterSlice_query : SliceQuery exFilterSlice := by
  refine ⟨⟨rfl, rfl, rfl, ⟨rfl, by unfold cleanName; decide⟩, by decide, by decide⟩, ?_, ?_⟩
  · intro a b h
    simp [exFilterSlice] at h
    obtain ⟨rfl, rfl⟩ := h
    decide
  · intro a b h
    simp [exFilterSlice] at h
    obtain ⟨rfl, rfl⟩ := h
    simp [intMin, intMax]

theorem exFilterSlice_all : exParSlice.choose (arith intOps) intOps.atof (unfilteredS exFilterSlice) =
    [.lit ['2'], .lit ['3'], .lit ['5']] := by
  with_unfolding_all rfl

theorem exFilterSlice_states : ∀ q, buildQuery (sAst exFilterSlice) = some q → q.1.statesNum = 7 := by
  have e : (buildQuery (sAst exFilterSlice)).map (·.1.statesNum) = some 7 := by decide +kernel
  intro q hq
  rw [hq] at e
  exact Option.some.inj e

/-- The hypotheses of `c45_filter_slices_partial` and `c45_same_file_filter_slices_partial`, and so those of
`c32_filter_slices_partial`, hold for `$.a[?(@.c > 3)].b[1:]` and a document cut into three chunks whose filtered array lies across both
cuts; both cuts lie inside filtered elements. -/
example : SliceQuery exFilterSlice ∧ Readable [] [] exParSlice ∧ exParSlice.tidy = true ∧
    exParSlice.settled (arith intOps) intOps.atof exFilterSlice = true ∧
    exParSlice.within 998 = true ∧ exParSlice.tokenCount ≤ MAX_TUPLE_LIST ∧
    (∀ x ∈ exParSlice.choose (arith intOps) intOps.atof (unfilteredS exFilterSlice), x.render.length ≤ 998) ∧
    exParSlice.plainStrings = true ∧ NUL ∉ [] ++ exParSlice.render ++ [] ∧ partition 3 ([] ++ exParSlice.render ++ []) ≠ none ∧
    (∀ q, buildQuery (sAst exFilterSlice) = some q → Sizes q.1 exParSlice) ∧
    (∀ xs ys : List Str, partition 3 ([] ++ exParSlice.render ++ []) = some ((xs ++ ys).map some) → xs ≠ [] → ys ≠ [] →
      UntornPath (exFilterSlice.map ssk) [] exParSlice xs.flatten.length) ∧
    (∀ (x : Str) (xs ys : List Str), partition 3 ([] ++ exParSlice.render ++ []) = some ((x :: xs ++ ys).map some) → ys ≠ [] →
      FilteredSEarly exFilterSlice [] exParSlice x.length (x :: xs).flatten.length) ∧
    FilteredS exFilterSlice [.key ['a']] ∧
    exParSlice.choose (arith intOps) intOps.atof exFilterSlice = [.lit ['5']] := by
  refine ⟨exFilterSlice_query, ⟨by decide, by decide, by decide, by decide, by decide, by decide, by decide, by decide⟩, by decide,
    by with_unfolding_all rfl, by decide, by decide, ?_, by decide, by decide, ?_, ?_, exParSlice_untorn, ?_,
    ⟨[.prop ['a']], _, _, rfl, .prop _ .nil⟩, by with_unfolding_all rfl⟩
  · rw [exFilterSlice_all]; decide
  · rw [List.nil_append, List.append_nil, exParSlice_partition]; nofun
  · intro q hq
    have e := exFilterSlice_states q hq
    exact ⟨by decide, by decide, by rw [e]; decide, by rw [e]; decide, by rw [e]; decide⟩
  · rintro x xs ys e _ y hy w es hw ⟨q, e1, r, h1, h2⟩ _
    have e' := exParSlice_partition
    rw [List.nil_append, List.append_nil] at e
    rw [e] at e'
    have e'' : x :: xs ++ ys = exParSliceChunks := map_some_inj (by simpa using e')
    have hx : x.length = 32 := by
      rw [List.cons_append] at e''
      injection e'' with h1 _
      rw [h1]; decide
    have hq : q = [.prop ['a']] := by
      match q, h1 with
      | [], h1 => simp [exFilterSlice] at h1
      | [_], h1 => simp [exFilterSlice] at h1; rw [h1.1]
      | [_, _], h1 => simp [exFilterSlice] at h1
      | [_, _, _], h1 => simp [exFilterSlice] at h1
      | _ :: _ :: _ :: _ :: q, h1 => simp [exFilterSlice] at h1
    subst hq
    have hy1 : y.1 = [.key ['a']] := by
      generalize y.1 = l at h2
      cases h2 with
      | prop k h2 => cases h2; rfl
    have hall : (allSpans [] exParSlice).all (fun y => !(y.1 == [.key ['a']]) || decide (y.2.2 < 32)) = true := by decide
    have := List.all_eq_true.1 hall y hy
    rw [hy1] at this
    rw [hx]
    simpa using this

/-- Cuts that tear neither results nor sliced arrays of the example, decided by the locations across them. -/
theorem exParSlice_cut {k : Nat} (h : (allSpans [] exParSlice).all (fun y => decide (y.1.length < 3) ||
    !(decide (y.2.2 < k) && decide (k < y.2.2 + y.2.1.render.length))) = true) : UntornPath exParSlicePath [] exParSlice k := by
  have hs : ∀ y ∈ allSpans [] exParSlice, across y k → y.1.length < 3 := by
    intro y hy ha
    have := List.all_eq_true.1 h y hy
    rw [decide_eq_true ha.1, decide_eq_true ha.2] at this
    simpa using this
  refine ⟨⟨fun y hy _ ha hm => ?_, fun y hy w es _ ha j x _ _ hm => ?_⟩, fun y hy w es _ ha => ?_⟩
  · have := matches_length_le hm
    have := hs y hy ha
    simp [exParSlicePath] at *; omega
  · have := matches_length_le hm
    have := hs y hy ha
    simp [exParSlicePath] at *; omega
  · rintro ⟨q, a, b, r, he, hm⟩
    have h1 := matches_length_le hm
    have h2 := hs y hy ha
    match q, he with
    | [], he => simp [exParSlicePath] at he
    | [_], he => simp [exParSlicePath] at he
    | [_, _], he => simp [exParSlicePath] at he
    | _ :: _ :: _ :: q, he => simp at h1; omega

/-- The chunks of the example, loaded in two pieces for two threads. -/
def exParSlicePieces : List Str := ["{\"x\": 1, \"a\": [{\"b\": [1, 2, 3], ".toList, "\"c\": 2}, {\"c\": 5, ".toList,
  "\"b\": [4, 5]}, {\"c\": 5, ".toList, "\"b\": [7]}], \"z\": 2}".toList]

theorem exParSlice_chunks : fileChunks 45 2 ([] ++ exParSlice.render ++ []) = exParSlicePieces := by decide +kernel

/-- The hypotheses of `c51_filter_slices_partial` and `c51_opt_filter_slices_partial` beyond those shown above, for
`$.a[?(@.c > 3)].b[1:]` on the document loaded in two pieces for two threads, with the table learned from it.  Every cut lies inside a
filtered element.  That the serial run is clean follows from `c35_filter_slices_partial`. -/
example : (∀ xs ys : List Str, fileChunks 45 2 ([] ++ exParSlice.render ++ []) = xs ++ ys → xs ≠ [] → ys ≠ [] →
      UntornPath (exFilterSlice.map ssk) [] exParSlice xs.flatten.length) ∧
    (∀ c ∈ [] ++ exParSlice.render ++ [], c.toNat ≠ 255) ∧ (exParSlice.render.length : Int) ≤ intMax ∧
    piecesDefined intOps 45 2 (fun _ _ => .other) (sAst exFilterSlice) ([] ++ exParSlice.render ++ []) ∧
    (parallelRun intOps 45 2 (fun _ _ => .other) (sAst exFilterSlice) ([] ++ exParSlice.render ++ [])).map
      (·.map fun r => (r.pf.output, r.k.bad)) = some (some (["5".toList], false)) ∧
    ∃ q r, buildQuery (sAst exFilterSlice) = some q ∧
      (∀ k ks, (collectConstraints (fun _ => []) q.1 ([] ++ exParSlice.render ++ [])).lookup k = some ks → ks.Nodup) ∧
      Covers (collectConstraints (fun _ => []) q.1 ([] ++ exParSlice.render ++ [])) q.1 ([] ++ exParSlice.render ++ []) ∧
      PrunedRun intOps q.1 q.2 (collectConstraints (fun _ => []) q.1 ([] ++ exParSlice.render ++ [])) 45 2 (fun _ _ => .other)
        ([] ++ exParSlice.render ++ []) r ∧
      r.pf.output = ["5".toList] := by
  refine ⟨?_, by decide, by decide, piecesDefined_of (by decide +kernel), by decide +kernel, ?_⟩
  · intro xs ys h hx hy
    rw [exParSlice_chunks] at h
    show UntornPath exParSlicePath [] exParSlice xs.flatten.length
    have hlen : xs.length < 4 := by
      have := congrArg List.length h
      have h4 : exParSlicePieces.length = 4 := rfl
      rw [h4, List.length_append] at this
      have : 0 < ys.length := List.length_pos_iff.2 hy
      omega
    have hpos : 0 < xs.length := List.length_pos_iff.2 hx
    have hxs : xs = exParSlicePieces.take xs.length := by rw [h]; simp
    rcases (show xs.length = 1 ∨ xs.length = 2 ∨ xs.length = 3 by omega) with e | e | e <;> rw [e] at hxs <;> rw [hxs] <;>
      exact exParSlice_cut (by decide +kernel)
  · have h1 : (buildQuery (sAst exFilterSlice)).map (fun q => (parallelPieces intOps q.1 q.2
        (some (collectConstraints (fun _ => []) q.1 ([] ++ exParSlice.render ++ []))) (fun _ _ => .other) 2 0 none
        (pieces 45 ([] ++ exParSlice.render ++ []) (([] ++ exParSlice.render ++ []).length + 1) 0)).map (·.map (·.pf.output))) =
        some (some (some ["5".toList])) := by decide +kernel
    have h2 : (buildQuery (sAst exFilterSlice)).map (fun q => prunedDefinedB intOps q.1 q.2
        (collectConstraints (fun _ => []) q.1 ([] ++ exParSlice.render ++ [])) 45 2 (fun _ _ => .other) ([] ++ exParSlice.render ++ [])) =
        some true := by decide +kernel
    cases hq : buildQuery (sAst exFilterSlice) with
    | none => rw [hq] at h2; cases h2
    | some q =>
      rw [hq] at h1 h2
      simp only [Option.map_some, Option.some.injEq] at h1 h2
      obtain ⟨z, hz, e⟩ := Option.map_eq_some_iff.1 h1
      obtain ⟨r, rfl, e⟩ := Option.map_eq_some_iff.1 e
      exact ⟨q, r, rfl, learned_nodup _ _ _, covers_learned _ _ _, prunedRun_of hz h2, Option.some.inj e⟩

/-- The run assumed by `c42_filter_slices_partial` and `c43_filter_slices_partial`. -/
example : (buildCtx (sAst exFilterSlice)).map (fun c =>
      (parallelRunOpt intOps MEMORY_FOOTPRINT 3 (some (collectConstraints (fun _ => []) (tableOf c) exParSlice.render))
        (fun _ _ => .other) (fun _ _ _ => .other) (sAst exFilterSlice) exParSlice.render).map
        (·.map fun r => (r.pf.output, r.k.bad, r.k.re))) = some (some (some (["5".toList], false, false))) := by
  decide +kernel

end JPS
