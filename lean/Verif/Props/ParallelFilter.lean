import Verif.Props.Parallel
import Verif.Props.FilterRun
import Verif.Props.Capacity
import Verif.Props.ParallelSafe
import Verif.DocFrames
/-!
# C32 for queries with filters
-/

set_option autoImplicit false

namespace JPS
open Spec

/-- The word of a location. -/
def wordOf (l : Loc) : List Step := l.map fun
  | .key k => .prop k
  | .elem _ => .all

theorem wordOf_simple (l : Loc) : SimpleWord (wordOf l) := by
  intro s hs
  obtain ⟨x, _, rfl⟩ := List.mem_map.1 hs
  cases x with
  | key k => exact .inr ⟨k, rfl⟩
  | elem i => exact .inl rfl

/-- The automaton of a path with filters at a location. -/
theorem FWords.locState {Q : List Reg} {T : List (Option Ast)} {c : SCtx} (h : FWords Q T c) :
    ∀ (l : Loc) (w : List Step) (n : Nat), (JPS.locState (tableOf c) (c.state w) n l).1 = c.state (w ++ wordOf l)
  | [], w, n => by simp [wordOf, JPS.locState]
  | .key k :: l, w, n => by
    simp only [JPS.locState, labelKey, h.goKey]
    rw [h.locState l]
    simp [wordOf]
  | .elem i :: l, w, n => by
    simp only [JPS.locState, labelKey, h.goArr]
    rw [h.locState l]
    simp [wordOf]

theorem FWords.noIdx {Q : List Reg} {T : List (Option Ast)} {c : SCtx} (h : FWords Q T c) (s : Nat) : NoIdx (tableOf c) s := by
  refine c.noIdx (fun r hr => ?_) s
  obtain ⟨k, hk⟩ := List.getElem?_of_mem hr
  have := h.ranges_zero k
  rw [List.getD_eq_getElem?_getD, hk] at this
  exact this

/-- A path of names, `[*]` and filters leads to the locations whose word is that of its steps. -/
theorem matches_words : ∀ (p : List (QStep Num)) (l : Loc), wordOf l = p.map sk → Matches (p.map sk) l
  | [], l, h => by
    cases l with
    | nil => exact .nil
    | cons x l => simp [wordOf] at h
  | s :: p, [], h => by simp [wordOf] at h
  | s :: p, x :: l, h => by
    simp only [wordOf, List.map_cons, List.cons.injEq] at h
    have ih := matches_words p l h.2
    cases s with
    | prop k =>
      cases x with
      | key k' =>
        simp only [sk, Step.prop.injEq] at h
        rw [h.1]
        exact .prop k ih
      | elem i => simp [sk] at h
    | all =>
      cases x with
      | key k' => simp [sk] at h
      | elem i => exact .all i ih
    | filter e =>
      cases x with
      | key k' => simp [sk] at h
      | elem i => exact .all i ih

/-- For a path with filters, what its steps without their tests do not lead to is not reported. -/
theorem FTab.cutsOK {p : List (QStep Num)} {c : SCtx} (h : FTab (pathRegs p) c) {pre trail : Str} {v : J} {k : Nat}
    (hbef : ∃ u w c, ((pre ++ v.render ++ trail).take k).reverse = w ++ c :: u ∧ w.all isSkip = true ∧
      (c = ',' ∨ c = '{' ∨ c = '['))
    (hu : Untorn (Matches (p.map sk)) pre v k) : CutsOK (tableOf c) pre trail v k := by
  have hloc : ∀ (l : Loc) (n : Nat), (tableOf c).matchedType (locState (tableOf c) 1 0 l).1 n = FWords.accOf (roleOf (pathRegs p) (wordOf l)) := by
    intro l n
    have e : (1 : Nat) = c.state [] := rfl
    have := h.toFWords.locState l [] 0
    rw [← e, List.nil_append] at this
    rw [this, h.matched (wordOf_simple l)]
  have hout : ∀ (l : Loc) (n : Nat), ¬ Matches (p.map sk) l → (tableOf c).matchedType (locState (tableOf c) 1 0 l).1 n ≠ .output := by
    intro l n hm hz
    rw [hloc] at hz
    cases hr : roleOf (pathRegs p) (wordOf l) with
    | none => rw [hr] at hz; cases hz
    | some ro =>
      rw [hr] at hz
      cases ro with
      | pred e ds => cases hz
      | cond q => cases hz
      | out =>
        obtain ⟨i, U, h1, _, h3⟩ := h.out
        have hm' := (roleOf_some h.nodup).1 hr
        obtain ⟨j, hj⟩ := List.getElem?_of_mem hm'
        have e1 := h3 j _ hj
        have hlast : (pathRegs p)[(regs [] p).length]? = some ⟨p.map sk, .out⟩ := by simp [pathRegs]
        have e2 := h3 _ _ hlast
        rw [e1, ← e2, hlast] at hj
        simp only [Option.some.injEq, Reg.mk.injEq, and_true] at hj
        exact hm (matches_words p l hj.symm)
  refine ⟨hbef, fun y hy hc ha => hout _ _ (hu.containers y hy hc ha), fun y hy w es he ha j x hj hx =>
    ⟨hout _ _ (hu.scalars y hy w es he ha j x hj hx), ?_⟩, fun _ _ _ _ => h.toFWords.noIdx _,
    fun _ _ _ _ _ _ _ _ _ _ => h.toFWords.noIdx _⟩
  intro hz
  rw [hloc] at hz
  cases hr : roleOf (pathRegs p) (wordOf (y.1 ++ [.elem j])) with
  | none => rw [hr] at hz; cases hz
  | some ro =>
    rw [hr] at hz
    cases ro with
    | pred e ds => cases hz
    | out => cases hz
    | cond q =>
      obtain ⟨w', k', hk⟩ := h.condEnd _ _ ((roleOf_some h.nodup).1 hr)
      have := congrArg List.getLast? hk
      simp [wordOf] at this

/-- **C32 for paths with filters.**  The query is one of C03 (names, `[*]` and filters, every filter directly followed by a
name, the result is not tested); the document is one the tokenizer reads, its strings do not end in `,`, `{` or `[`; it is cut
into the chunks of `partition` for any number of threads.  If no candidate for a result is torn apart by a cut and neither
run meets undefined behaviour, the parallel run prints what the serial run prints.  Filtered elements may lie across cuts. -/
theorem c32_filters_partial (O : NumOps) (p : List (QStep Num)) (hq : FilterQuery p)
    (pre trail : Str) (v : J) (h : Readable pre trail v) (hpl : v.plainStrings = true) (h0 : NUL ∉ pre ++ v.render ++ trail)
    (cores : Nat) (hc : 0 < cores) (u : Nat → Nat → UState) (r : ParallelCtx)
    (hr : parallelRun O MEMORY_FOOTPRINT cores u (fAst p) (pre ++ v.render ++ trail) = some (some r))
    (hbad : r.k.bad = false) (hclean : clean O (fAst p) (pre ++ v.render ++ trail))
    (htorn : ∀ xs ys : List Str, partition cores (pre ++ v.render ++ trail) = some ((xs ++ ys).map some) → xs ≠ [] → ys ≠ [] →
      Untorn (Matches (p.map sk)) pre v xs.flatten.length) :
    results O (fAst p) (pre ++ v.render ++ trail) = some r.pf.output := by
  obtain ⟨c, hbc, hf⟩ := ftab_of_build p hq.ne hq.clean hq.named hq.fresh hq.names
  exact (tree_ct O (fAst p) hbc (c.dead hf.ok) (hf.toFWords.noIdx 1) pre trail v h hpl h0 cores hc none nodup_none (u 0) r
    (parallelRun_single O _ cores u _ _ c hbc h.nonempty h.size hr) hbad hclean
    (fun xs ys e hx hy hb => hf.cutsOK hb (htorn xs ys e hx hy)) (.inl fun ps _ _ => ctChunks_none ps _)).1

/-- The printed results are the selected values, if moreover the sizes are those of `c35_filter_partial`. -/
theorem c32_filters_exact_partial (O : NumOps) (p : List (QStep Num)) (hq : FilterQuery p)
    (pre trail : Str) (v : J) (h : Readable pre trail v) (ht : v.tidy = true) (hd : v.decided (arith O) O.atof p = true)
    (hw : v.within 998 = true) (hl : v.tokenCount ≤ MAX_TUPLE_LIST)
    (hn : (v.select (arith O) O.atof (unfiltered p)).length ≤ MAX_OUTPUT)
    (hx : ∀ x ∈ v.select (arith O) O.atof (unfiltered p), x.render.length ≤ 998)
    (hpl : v.plainStrings = true) (h0 : NUL ∉ pre ++ v.render ++ trail)
    (cores : Nat) (hc : 0 < cores) (u : Nat → Nat → UState) (r : ParallelCtx)
    (hr : parallelRun O MEMORY_FOOTPRINT cores u (fAst p) (pre ++ v.render ++ trail) = some (some r))
    (hbad : r.k.bad = false)
    (htorn : ∀ xs ys : List Str, partition cores (pre ++ v.render ++ trail) = some ((xs ++ ys).map some) → xs ≠ [] → ys ≠ [] →
      Untorn (Matches (p.map sk)) pre v xs.flatten.length) :
    r.pf.output = (v.select (arith O) O.atof p).map J.render := by
  have h1 := c32_filters_partial O p hq pre trail v h hpl h0 cores hc u r hr hbad
    (c35_filter_partial O p hq pre trail v h ht hd hw hl hn hx) htorn
  rw [c03_select_partial O p hq pre trail v h ht hd] at h1
  exact (Option.some.inj h1).symm

/-- `$.a[?(@.c > 3)].b` -/
def exParFilter : List (QStep Num) := [.prop ['a'], .filter (.bin .gt (.prop [['c']]) (.num ⟨false, 3, []⟩)), .prop ['b']]

set_option maxRecDepth 100000 in
/-- The parallel run of the example. -/
theorem exParFilter_run : (parallelRun intOps MEMORY_FOOTPRINT 3 (fun _ _ => .other) (fAst exParFilter) exParTidy.render).map
      (·.map fun r => (r.pf.output, r.k.bad)) =
    some (some (["{\"q\": 1}".toList, "7".toList], false)) := by
  with_unfolding_all rfl

set_option maxRecDepth 100000 in
/-- The hypotheses of `c32_filters_exact_partial`, and so those of `c32_filters_partial`, hold for this query and the example
document on three threads.  Both cuts lie inside filtered elements. -/
example : FilterQuery exParFilter ∧ Readable [] [] exParTidy ∧ exParTidy.tidy = true ∧
    exParTidy.decided (arith intOps) intOps.atof exParFilter = true ∧ exParTidy.within 998 = true ∧
    exParTidy.tokenCount ≤ MAX_TUPLE_LIST ∧
    (exParTidy.select (arith intOps) intOps.atof (unfiltered exParFilter)).map J.render = ["1".toList, "{\"q\": 1}".toList, "7".toList] ∧
    (∀ x ∈ exParTidy.select (arith intOps) intOps.atof (unfiltered exParFilter), x.render.length ≤ 998) ∧
    exParTidy.plainStrings = true ∧ NUL ∉ [] ++ exParTidy.render ++ [] ∧
    (∃ r, parallelRun intOps MEMORY_FOOTPRINT 3 (fun _ _ => .other) (fAst exParFilter) ([] ++ exParTidy.render ++ []) =
      some (some r) ∧ r.k.bad = false ∧ r.pf.output = ["{\"q\": 1}".toList, "7".toList]) ∧
    (∀ xs ys : List Str, partition 3 ([] ++ exParTidy.render ++ []) = some ((xs ++ ys).map some) → xs ≠ [] → ys ≠ [] →
      Untorn (Matches (exParFilter.map sk)) [] exParTidy xs.flatten.length) := by
  have e : (exParTidy.select (arith intOps) intOps.atof (unfiltered exParFilter)).map J.render =
      ["1".toList, "{\"q\": 1}".toList, "7".toList] := by with_unfolding_all rfl
  refine ⟨⟨rfl, rfl, rfl, ⟨rfl, by unfold cleanName; decide⟩, by decide, by decide⟩,
    ⟨by decide, by decide, by decide, by decide, by decide, by decide, by decide, by decide⟩, by decide,
    by with_unfolding_all rfl, by decide, by decide, e, ?_, by decide, by decide, ?_, exParTidy_untorn⟩
  · intro x hx
    have := List.mem_map_of_mem (f := J.render) hx
    rw [e] at this
    revert this
    generalize x.render = y
    intro h
    simp only [List.mem_cons, List.not_mem_nil, or_false] at h
    rcases h with rfl | rfl | rfl <;> decide
  · have := exParFilter_run
    rw [List.nil_append, List.append_nil]
    revert this
    generalize parallelRun intOps MEMORY_FOOTPRINT 3 (fun _ _ => .other) (fAst exParFilter) exParTidy.render = z
    rcases z with _ | _ | r
    · intro h; cases h
    · intro h; cases h
    · intro h
      simp only [Option.map_some, Option.some.injEq, Prod.mk.injEq] at h
      exact ⟨r, rfl, h.2, h.1⟩

/-! ## C45 for queries with filters -/

/-- A filter of `p` tests the elements of the array at `l`. -/
def Filtered (p : List (QStep Num)) (l : Loc) : Prop := ∃ q e r, p = q ++ .filter e :: r ∧ Matches (q.map sk) l

/-- The filtered arrays of the document that lie across the cut at `k` begin before `b`. -/
def FilteredEarly (p : List (QStep Num)) (pre : Str) (v : J) (b k : Nat) : Prop :=
  ∀ y ∈ allSpans pre v, ∀ w es, y.2.1 = .arr w es → Filtered p y.1 → across y k → y.2.2 < b

theorem regs_filter : ∀ (p : List (QStep Num)) (u w : List Step) (e : Expr Num) (ds : List (List Str)), ⟨w, .pred e ds⟩ ∈ regs u p →
    ∃ q e' r, p = q ++ .filter e' :: r ∧ w = u ++ q.map sk ++ [.all]
  | [], _, _, _, _, h => by cases h
  | .prop k :: p, u, w, e, ds, h => by
    obtain ⟨q, e', r, h1, h2⟩ := regs_filter p (u ++ [.prop k]) w e ds h
    exact ⟨.prop k :: q, e', r, by rw [h1]; rfl, by rw [h2]; simp [sk]⟩
  | .all :: p, u, w, e, ds, h => by
    obtain ⟨q, e', r, h1, h2⟩ := regs_filter p (u ++ [.all]) w e ds h
    exact ⟨.all :: q, e', r, by rw [h1]; rfl, by rw [h2]; simp [sk]⟩
  | .filter x :: p, u, w, e, ds, h => by
    rw [regs, List.mem_append] at h
    rcases h with h | h
    · rw [block, List.mem_cons] at h
      rcases h with h | h
      · exact ⟨[], x, p, rfl, by injection h with h _; rw [h]; simp⟩
      · obtain ⟨_, _, h⟩ := List.mem_map.1 h
        injection h with _ h; cases h
    · obtain ⟨q, e', r, h1, h2⟩ := regs_filter p (u ++ [.all]) w e ds h
      exact ⟨.filter x :: q, e', r, by rw [h1]; rfl, by rw [h2]; simp [sk]⟩

/-- Which locations are in a state that accepts a filter. -/
theorem FTab.accept_pred {p : List (QStep Num)} {c : SCtx} (h : FTab (pathRegs p) c) {l : Loc}
    (ha : (tableOf c).accept (locState (tableOf c) 1 0 l).1 = .predicate) :
    ∃ q e r, p = q ++ .filter e :: r ∧ wordOf l = q.map sk ++ [.all] := by
  have e : (1 : Nat) = c.state [] := rfl
  have hl := h.toFWords.locState l [] 0
  rw [← e, List.nil_append] at hl
  have hm := h.matched (wordOf_simple l) 0
  rw [← hl, (h.toFWords.noIdx _).matchedType, ha] at hm
  cases hr : roleOf (pathRegs p) (wordOf l) with
  | none => rw [hr] at hm; cases hm
  | some ro =>
    rw [hr] at hm
    cases ro with
    | out => cases hm
    | cond q => cases hm
    | pred e' ds =>
      have := (roleOf_some h.nodup).1 hr
      rw [pathRegs, List.mem_append] at this
      rcases this with h1 | h1
      · obtain ⟨q, e', r, h2, h3⟩ := regs_filter p [] _ _ _ h1
        exact ⟨q, e', r, h2, by simpa using h3⟩
      · simp at h1

/-- `tree_ct_safe` for a path with filters, with a constraint table. -/
theorem filters_ct_safe (O : NumOps) (p : List (QStep Num)) {c : SCtx} (hbc : buildCtx (fAst p) = some c) (hf : FTab (pathRegs p) c)
    (pre trail : Str) (v : J) (h : Readable pre trail v) (hpl : v.plainStrings = true) (h0 : NUL ∉ pre ++ v.render ++ trail)
    (cores : Nat) (hc : 0 < cores) (hcm : cores ≤ MAX_THREAD) (ct : Option CTable) (hnd : ct.NodupOK)
    (hin : ct.StatesIn (tableOf c).statesNum) (u : Nat → UState)
    (hpart : partition cores (pre ++ v.render ++ trail) ≠ none) (hsz : Sizes (tableOf c) v) (hkeys : ct = none ∨ v.keysWithin 98 = true)
    (hclean : clean O (fAst p) (pre ++ v.render ++ trail))
    (htorn : ∀ xs ys : List Str, partition cores (pre ++ v.render ++ trail) = some ((xs ++ ys).map some) → xs ≠ [] → ys ≠ [] →
      Untorn (Matches (p.map sk)) pre v xs.flatten.length)
    (hearly : ∀ (x : Str) (xs ys : List Str), partition cores (pre ++ v.render ++ trail) = some ((x :: xs ++ ys).map some) → ys ≠ [] →
      FilteredEarly p pre v x.length (x :: xs).flatten.length) :
    ∃ r, parallelPartialRun O (tableOf c) (contextOf c) ct u cores none (pre ++ v.render ++ trail) = some r ∧
      ((∀ ps : List Str, ps.flatten = pre ++ v.render ++ trail → pieceToks 0 ps = lexAll (pre ++ v.render ++ trail) →
        ctChunks (tableOf c) ct SA.init ps) ∨ r.k.re = false → r.k.bad = false ∧ r.pf.ub = false) := by
  have hd := c.dead hf.ok
  exact tree_ct_safe O (fAst p) hbc hd (hf.toFWords.noIdx 1) pre trail v h hpl h0 cores hc hcm ct hnd
    hin u hpart hsz hkeys hclean (fun xs ys e hx hy hb => hf.cutsOK hb (htorn xs ys e hx hy)) (by
      intro x cs hps hfl hne hcut
      refine doc_chunksPred (b0 := x.length) (ps := x :: cs) hd c.one_lt h.doc hfl hne hcut ?_ ?_ cs [x] _ _ rfl (by simp) (by simp)
        ?_ (Nat.le_refl _) ?_
      · intro l k ha
        obtain ⟨q, e, r, _, h3⟩ := hf.accept_pred ha
        have := congrArg List.getLast? h3
        simp [wordOf] at this
      · intro xs ys e hx hy y hy' w es hw hac ha
        obtain ⟨x', xs, rfl⟩ := List.exists_cons_of_ne_nil hx
        rw [List.cons_append] at e
        injection e with e1 e2
        subst e1
        obtain ⟨q, e', r, h3, h4⟩ := hf.accept_pred ha
        have h5 : wordOf y.1 = q.map sk := by
          have : wordOf (y.1 ++ [.elem 0]) = wordOf y.1 ++ [.all] := by simp [wordOf]
          rw [this] at h4
          exact (List.append_inj' h4 rfl).1
        exact hearly x xs ys (by rw [hps, e2, List.cons_append]) hy y hy' w es hw ⟨q, e', r, h3, matches_words q _ h5⟩ hac
      · have := (show ({ SA.init with tl := [] } : SA).Is Ctl.init from Is.init).exec (d := tableOf c) (s := x) 0
        rw [pieceToks, pieceToks, List.append_nil]
        exact this
      · have := (show ({ SA.init with tl := [] } : SA).Is Ctl.init from Is.init).exec (d := tableOf c) (s := x) 0
        intro i b hi
        rw [← this.ss, pieceToks, pieceToks, List.append_nil] at hi
        omega)

/-- **C45 for paths with filters.**  The query is one of C03 (names, `[*]` and filters, every filter directly followed by a name, the
result is not tested); a document the tokenizer reads whose strings do not end in `,`, `{` or `[`; the chunks of `partition` for at most
100 threads; the sizes within `Sizes`; no candidate for a result torn apart by a cut; a serial run without undefined behaviour.  If
moreover each filtered array that lies across a cut begins in the first chunk, the parallel run meets no undefined behaviour and prints what
the serial run prints.  Filtered elements may lie across any cut. -/
theorem c45_filters_partial (O : NumOps) (p : List (QStep Num)) (hq : FilterQuery p)
    (pre trail : Str) (v : J) (h : Readable pre trail v) (hpl : v.plainStrings = true) (h0 : NUL ∉ pre ++ v.render ++ trail)
    (cores : Nat) (hc : 0 < cores) (hcm : cores ≤ MAX_THREAD) (u : Nat → Nat → UState)
    (hpart : partition cores (pre ++ v.render ++ trail) ≠ none) (hsz : ∀ q, buildQuery (fAst p) = some q → Sizes q.1 v)
    (hclean : clean O (fAst p) (pre ++ v.render ++ trail))
    (htorn : ∀ xs ys : List Str, partition cores (pre ++ v.render ++ trail) = some ((xs ++ ys).map some) → xs ≠ [] → ys ≠ [] →
      Untorn (Matches (p.map sk)) pre v xs.flatten.length)
    (hearly : ∀ (x : Str) (xs ys : List Str), partition cores (pre ++ v.render ++ trail) = some ((x :: xs ++ ys).map some) → ys ≠ [] →
      FilteredEarly p pre v x.length (x :: xs).flatten.length) :
    ∃ r, parallelRun O MEMORY_FOOTPRINT cores u (fAst p) (pre ++ v.render ++ trail) = some (some r) ∧
      r.k.bad = false ∧ r.pf.ub = false ∧ results O (fAst p) (pre ++ v.render ++ trail) = some r.pf.output := by
  obtain ⟨c, hbc, hf⟩ := ftab_of_build p hq.ne hq.clean hq.named hq.fresh hq.names
  have hbq : buildQuery (fAst p) = some (tableOf c, contextOf c) := by unfold buildQuery; rw [hbc]; rfl
  have hd := c.dead hf.ok
  obtain ⟨r, h1, h2⟩ := filters_ct_safe O p hbc hf pre trail v h hpl h0 cores hc hcm none nodup_none (statesIn_none _) (u 0) hpart
    (hsz _ hbq) (.inl rfl) hclean htorn hearly
  obtain ⟨h3, h4⟩ := h2 (.inl fun ps _ _ => ctChunks_none ps _)
  exact ⟨r, by rw [parallelRun_single_eq O _ cores u _ _ c hbc h.nonempty h.size, h1]; rfl, h3, h4,
    (tree_ct O (fAst p) hbc hd (hf.toFWords.noIdx 1) pre trail v h hpl h0 cores hc none nodup_none (u 0) r h1 h3 hclean
      (fun xs ys e hx hy hb => hf.cutsOK hb (htorn xs ys e hx hy)) (.inl fun ps _ _ => ctChunks_none ps _)).1⟩

/-- **C45 for paths with filters, exact results.**  With the sizes of `c35_filter_partial` the serial run needs no assumption, and the
parallel run prints exactly the selected values. -/
theorem c45_filters_exact_partial (O : NumOps) (p : List (QStep Num)) (hq : FilterQuery p)
    (pre trail : Str) (v : J) (h : Readable pre trail v) (ht : v.tidy = true) (hd : v.decided (arith O) O.atof p = true)
    (hw : v.within 998 = true) (hl : v.tokenCount ≤ MAX_TUPLE_LIST)
    (hn : (v.select (arith O) O.atof (unfiltered p)).length ≤ MAX_OUTPUT)
    (hx : ∀ x ∈ v.select (arith O) O.atof (unfiltered p), x.render.length ≤ 998)
    (hpl : v.plainStrings = true) (h0 : NUL ∉ pre ++ v.render ++ trail)
    (cores : Nat) (hc : 0 < cores) (hcm : cores ≤ MAX_THREAD) (u : Nat → Nat → UState)
    (hpart : partition cores (pre ++ v.render ++ trail) ≠ none) (hsz : ∀ q, buildQuery (fAst p) = some q → Sizes q.1 v)
    (htorn : ∀ xs ys : List Str, partition cores (pre ++ v.render ++ trail) = some ((xs ++ ys).map some) → xs ≠ [] → ys ≠ [] →
      Untorn (Matches (p.map sk)) pre v xs.flatten.length)
    (hearly : ∀ (x : Str) (xs ys : List Str), partition cores (pre ++ v.render ++ trail) = some ((x :: xs ++ ys).map some) → ys ≠ [] →
      FilteredEarly p pre v x.length (x :: xs).flatten.length) :
    ∃ r, parallelRun O MEMORY_FOOTPRINT cores u (fAst p) (pre ++ v.render ++ trail) = some (some r) ∧
      r.k.bad = false ∧ r.pf.ub = false ∧ r.pf.output = (v.select (arith O) O.atof p).map J.render := by
  obtain ⟨r, a1, a2, a3, a4⟩ := c45_filters_partial O p hq pre trail v h hpl h0 cores hc hcm u hpart hsz
    (c35_filter_partial O p hq pre trail v h ht hd hw hl hn hx) htorn hearly
  refine ⟨r, a1, a2, a3, ?_⟩
  rw [c03_select_partial O p hq pre trail v h ht hd] at a4
  exact (Option.some.inj a4).symm

set_option maxRecDepth 100000 in
/-- The hypotheses of `c45_filters_exact_partial` beyond those of `c32_filters_exact_partial` hold for the example above: its filtered
array lies across both cuts and begins in the first chunk. -/
example : partition 3 ([] ++ exParTidy.render ++ []) ≠ none ∧ (∀ q, buildQuery (fAst exParFilter) = some q → Sizes q.1 exParTidy) ∧
    (∀ (x : Str) (xs ys : List Str), partition 3 ([] ++ exParTidy.render ++ []) = some ((x :: xs ++ ys).map some) → ys ≠ [] →
      FilteredEarly exParFilter [] exParTidy x.length (x :: xs).flatten.length) ∧
    Filtered exParFilter [.key ['a']] ∧
    ((allSpans [] exParTidy).filter fun y => decide (y.1 = [.key ['a']]) && decide (y.2.2 < exParTidyChunks[0].length) &&
      decide ((exParTidyChunks.take 2).flatten.length < y.2.2 + y.2.1.render.length)).map (·.1) = [[.key ['a']]] := by
  refine ⟨?_, ?_, ?_, ⟨[.prop ['a']], _, _, rfl, .prop _ .nil⟩, by decide⟩
  · rw [List.nil_append, List.append_nil, exParTidy_partition]; nofun
  · intro q hq
    have e : (buildQuery (fAst exParFilter)).map (·.1.statesNum) = some 6 := by decide
    rw [hq] at e
    have e : q.1.statesNum = 6 := Option.some.inj e
    exact ⟨by decide, by decide, by rw [e]; decide, by rw [e]; decide, by rw [e]; decide⟩
  · intro x xs ys e _ y hy w es hw _ _
    have e' := exParTidy_partition
    rw [List.nil_append, List.append_nil] at e
    rw [e] at e'
    have e'' : x :: xs ++ ys = exParTidyChunks := map_some_inj (by simpa using e')
    have hx : x.length = 34 := by
      rw [List.cons_append] at e''
      injection e'' with h1 _
      rw [h1]; decide
    have hall : (allSpans [] exParTidy).all (fun y => match y.2.1 with
        | .arr _ _ => decide (y.2.2 < 34)
        | _ => true) = true := by decide
    have := List.all_eq_true.1 hall y hy
    rw [hw] at this
    rw [hx]
    simpa using this

set_option maxRecDepth 100000 in
/-- **C45 is false for filters**: `$.a[?(@.c > 3)].b` on `{"x": 1, "y": 2, "a": [{"c": 5, "b": 7}]}` with three threads.  The array
begins in the second chunk and its element ends in the third.  The entry of the array was copied by `combineQueryStacks`, which
leaves its ranges of roots unset, and `addTupleInfo` for the `}` reads them.  All sizes are small, nothing selected is torn. -/
theorem c45_false_filter : ¬ C45Full :=
  not_C45Full (t := fAst exParFilter) (file := "{\"x\": 1, \"y\": 2, \"a\": [{\"c\": 5, \"b\": 7}]}".toList) (cores := 3)
    (u := fun _ _ => .other) (by decide) (by decide) (by decide +kernel) (by decide +kernel) (by decide +kernel)

end JPS
