import Verif.Props.Footprint
import Verif.Props.ParallelFilter
import Verif.Props.FilterBelow
import Verif.Props.FilterSlice
import Verif.FilterSliceLoc
/-!
# C03 and C57 for files of any size: the footprint does not matter to queries with filters
-/

set_option autoImplicit false

namespace JPS
open Spec

/-- The run over a document that is loaded in pieces of any size, for any compiled query. -/
theorem tree_footprint (O : NumOps) (t : Ast) {c : SCtx} (hbc : buildCtx t = some c) (pre trail : Str) (v : J)
    (h : DocOK pre trail v) (hsp : pre.head? ≠ some ' ') (hpl : v.plainStrings = true)
    (hff : ∀ c ∈ pre ++ v.render ++ trail, c.toNat ≠ 255) (B : Nat) (hB : 0 < B)
    (hub : (execAutomaton (tableOf c) (pre ++ v.render ++ trail) SA.init).ub = false)
    (hok : ∀ xs ys, pieces B (pre ++ v.render ++ trail) ((pre ++ v.render ++ trail).length + 1) 0 = xs ++ ys →
      xs ≠ [] → ys ≠ [] → ∀ y ∈ allSpans pre v, y.2.1.isContainer = true → across y xs.flatten.length →
      (tableOf c).matchedType (locState (tableOf c) 1 0 y.1).1 (locState (tableOf c) 1 0 y.1).2 ≠ .output) :
    (serialRun O B t (pre ++ v.render ++ trail)).map (·.pf) =
      some (serialPartialRun O (tableOf c) (contextOf c) none (pre ++ v.render ++ trail)).pf := by
  have hwhole := serialRun_single O _ t (pre ++ v.render ++ trail) c hbc h.nonempty (Nat.le_refl _)
  have hflat := c19_lossless B hB (pre ++ v.render ++ trail)
  have hne := (c19_terminates B hB (pre ++ v.render ++ trail)).2.2
  have hcut : CutsAtStrings pre v (pieces B (pre ++ v.render ++ trail) ((pre ++ v.render ++ trail).length + 1) 0) := by
    intro xs ys e hx hy
    refine c21_load_partial B pre trail v h.preWs h.trailWs h.wf hpl hff _ xs ys e hx ?_
    intro hz
    rw [e] at hflat hne
    rw [List.flatten_append, hz] at hflat
    have hy0 : ys.flatten = [] := by
      have := congrArg List.length hflat
      rw [List.length_append] at this
      exact List.length_eq_zero_iff.1 (by omega)
    obtain ⟨z, ys, rfl⟩ := List.exists_cons_of_ne_nil hy
    have : z = [] := by
      rw [List.flatten_cons] at hy0
      exact (List.append_eq_nil_iff.1 hy0).1
    exact hne (by simp [this])
  have hcl := doc_cleanCuts (tableOf c) h hsp hflat hne hcut hok _ [] SA.init rfl Is.init
  have key := (c22_text_partial O (tableOf c) (contextOf c) pre trail v h hsp _ hflat hne hcut hcl hub).2
  rw [serialRun_pf O B hB _ _ c hbc h.nonempty, key]
  rfl

/-! ### Where something is reported -/

/-- For a path with filters, what its steps without their tests do not lead to is not reported. -/
theorem FTab.reported {p : List (QStep Num)} {c : SCtx} (h : FTab (pathRegs p) c) (l : Loc) (n : Nat)
    (hm : (tableOf c).matchedType (locState (tableOf c) 1 0 l).1 n = .output) : Matches (p.map sk) l := by
  have e : (1 : Nat) = c.state [] := rfl
  have := h.toFWords.locState l [] 0
  rw [← e, List.nil_append] at this
  rw [this, h.matched (wordOf_simple l)] at hm
  cases hr : roleOf (pathRegs p) (wordOf l) with
  | none => rw [hr] at hm; cases hm
  | some ro =>
    rw [hr] at hm
    cases ro with
    | pred e ds => cases hm
    | cond q => cases hm
    | out => exact matches_words p l (pathRegs_out ((roleOf_some h.nodup).1 hr))

namespace FPre
variable {B : List Step} {Q : List Reg} {c : SCtx}

theorem locState (h : FPre B Q c) : ∀ (l m : Loc) (n : Nat),
    (JPS.locState (tableOf c) (c.run (m.map c.col)) n l).1 = c.run ((m ++ l).map c.col)
  | [], m, n => by simp [JPS.locState]
  | .key k :: l, m, n => by
    simp only [JPS.locState, labelKey, h.goKey]
    rw [h.locState l]; simp
  | .elem i :: l, m, n => by
    simp only [JPS.locState, labelKey, h.goArr m n i]
    rw [h.locState l]; simp

theorem accept_loc (h : FPre B Q c) (hB : ∀ s ∈ B, isSlice s = false) (l : Loc) :
    ((tableOf c).accept (c.run (l.map c.col)) = .none ∧ ∀ r ∈ Q, ¬ Matches (B ++ r.w) l) ∨
    ∃ r ∈ Q, Matches (B ++ r.w) l ∧ (tableOf c).accept (c.run (l.map c.col)) = FWords.accOf (some r.role) := by
  have hlt := c.run_lt (l.map c.col) (c.letters_map l)
  rcases h.stop_loc hB l with ⟨h1, h2⟩ | ⟨k, r, h1, h2, h3, _⟩
  · refine .inl ⟨?_, h2⟩
    have e : (tableOf c).accept (c.run (l.map c.col)) =
      if c.run (l.map c.col) < c.dfa.rows.length + 1 then acceptOf c (c.dfa.stop (c.run (l.map c.col)))
        (c.byArray (c.run (l.map c.col))) else .none := rfl
    rw [e, if_pos hlt, h1]; rfl
  · have hm := List.mem_of_getElem? h1
    have hro : roleOf Q r.w = some r.role := (roleOf_some h.nodup).2 hm
    exact .inr ⟨r, hm, h3, by rw [h.accept ⟨hlt, .inr ⟨k, _, h1, hro, h2⟩⟩, hro]⟩

end FPre

/-- The same below other steps. -/
theorem FPre.reported {B : List Step} {p : List (QStep Num)} {c : SCtx} (h : FPre B (pathRegs p) c)
    (hB : ∀ s ∈ B, isSlice s = false) (l : Loc) (n : Nat)
    (hm : (tableOf c).matchedType (JPS.locState (tableOf c) 1 0 l).1 n = .output) : Matches (B ++ p.map sk) l := by
  have e : (1 : Nat) = c.run (([] : Loc).map c.col) := rfl
  have := h.locState l [] 0
  rw [← e, List.nil_append] at this
  rw [this] at hm
  unfold QDfa.matchedType at hm
  rcases h.accept_loc hB l with ⟨h1, _⟩ | ⟨r, h1, h2, h3⟩
  · rw [h1] at hm; cases hm
  · rw [h3] at hm
    obtain ⟨w, ro⟩ := r
    cases ro with
    | pred e ds => cases hm
    | cond q => cases hm
    | out => rw [pathRegs_out h1] at h2; exact h2

/-! ### The properties -/

theorem footprint_exact {O : NumOps} {B : Nat} {t : Ast} {file : Str} {q : PF} {out : List Str}
    (h : (serialRun O B t file).map (·.pf) = some q) (hu : q.ub = false) (ho : q.output = out) :
    ∃ r, serialRun O B t file = some r ∧ r.pf.ub = false ∧ r.pf.output = out := by
  cases hr : serialRun O B t file with
  | none => rw [hr] at h; cases h
  | some r =>
    rw [hr] at h
    simp only [Option.map_some, Option.some.injEq] at h
    exact ⟨r, rfl, by rw [h]; exact hu, by rw [h]; exact ho⟩

/-- **C03 for files of any size.**  Loaded in pieces of any size, a document gives exactly the values that satisfy every filter on
the way, verbatim and in order, if no container that the path without its filters leads to lies across the end of a piece, no string
ends in `,`, `{` or `[`, there is no byte 0xFF, and the sizes are those of `c35_filter_partial`.  Filtered elements and the members
they are tested by may lie across the ends of pieces.

Missing for the full statement: as for `c03_select_partial`; candidates for a result that lie across the end of a piece. -/
theorem c03_footprint_partial (O : NumOps) (p : List (QStep Num)) (hq : FilterQuery p) (pre trail : Str) (v : J)
    (h : DocOK pre trail v) (hsp : pre.head? ≠ some ' ') (hpl : v.plainStrings = true)
    (hff : ∀ c ∈ pre ++ v.render ++ trail, c.toNat ≠ 255) (ht : v.tidy = true) (hd : v.decided (arith O) O.atof p = true)
    (hw : v.within 998 = true) (hl : v.tokenCount ≤ MAX_TUPLE_LIST)
    (hn : (v.select (arith O) O.atof (unfiltered p)).length ≤ MAX_OUTPUT)
    (hx : ∀ x ∈ v.select (arith O) O.atof (unfiltered p), x.render.length ≤ 998) (B : Nat) (hB : 0 < B)
    (htorn : ∀ xs ys, pieces B (pre ++ v.render ++ trail) ((pre ++ v.render ++ trail).length + 1) 0 = xs ++ ys →
      xs ≠ [] → ys ≠ [] → UntornC (Matches (p.map sk)) pre v xs.flatten.length) :
    ∃ r, serialRun O B (fAst p) (pre ++ v.render ++ trail) = some r ∧ r.pf.ub = false ∧
      r.pf.output = (v.select (arith O) O.atof p).map J.render := by
  obtain ⟨c, hbc, hf⟩ := ftab_of_build p hq.ne hq.clean hq.named hq.fresh hq.names
  obtain ⟨u1, u2⟩ := hf.serial_clean O hq.clean hq.named hq.hasFilter hq.size pre trail v h.preWs h.trailWs hsp h.container
    h.wf h.tight h.depth ht hd
    (by rw [toks_within id pre.length v ht (fun _ _ => rfl), within_mono (by omega) v hw]; rfl) hw hl hn hx
  exact footprint_exact (tree_footprint O (fAst p) hbc pre trail v h hsp hpl hff B hB u1
    (fun xs ys e hx hy y hy' hyc ha hz => htorn xs ys e hx hy y hy' hyc ha (hf.reported _ _ hz))) u2
    (hf.serial O hq.clean hq.named hq.hasFilter hq.size pre trail v h.preWs h.trailWs hsp h.container h.wf h.tight h.depth ht hd)

/-- **C03 for files of any size, with slices.**  As `c03_footprint_partial`, for paths that also have slices; no container that the
path without its filters leads to lies across the end of a piece. -/
theorem c03_footprint_slices_partial (O : NumOps) (p : List (SStep Num)) (hq : SliceQuery p) (pre trail : Str) (v : J)
    (h : DocOK pre trail v) (hsp : pre.head? ≠ some ' ') (hpl : v.plainStrings = true)
    (hff : ∀ c ∈ pre ++ v.render ++ trail, c.toNat ≠ 255) (hint : (v.render.length : Int) ≤ intMax)
    (ht : v.tidy = true) (hd : v.settled (arith O) O.atof p = true)
    (hw : v.within 998 = true) (hl : v.tokenCount ≤ MAX_TUPLE_LIST)
    (hn : (v.choose (arith O) O.atof (unfilteredS p)).length ≤ MAX_OUTPUT)
    (hx : ∀ x ∈ v.choose (arith O) O.atof (unfilteredS p), x.render.length ≤ 998) (B : Nat) (hB : 0 < B)
    (htorn : ∀ xs ys, pieces B (pre ++ v.render ++ trail) ((pre ++ v.render ++ trail).length + 1) 0 = xs ++ ys →
      xs ≠ [] → ys ≠ [] → UntornC (Matches (p.map ssk)) pre v xs.flatten.length) :
    ∃ r, serialRun O B (sAst p) (pre ++ v.render ++ trail) = some r ∧ r.pf.ub = false ∧
      r.pf.output = (v.choose (arith O) O.atof p).map J.render := by
  obtain ⟨c, hc, hf, hdead⟩ := hq.table
  have hs : FSem (pathRegs (wholes p)) c c.state := by rw [← low_pathSRegs]; exact hf.sem
  obtain ⟨k1, k2, k3, k4⟩ := prune_kept 998 v p
  have e : (v.prune p).select (arith O) O.atof (unfiltered (wholes p)) = v.choose (arith O) O.atof (unfilteredS p) := by
    rw [← wholes_unfiltered, ← select_prune, prune_unfiltered]
  obtain ⟨u1, u2⟩ := hs.serial_clean O hq.whole.clean hq.whole.named hq.whole.hasFilter (hf.states hq.whole.size)
    (hf.init_ub (hf.states hq.whole.size)) pre trail v (v.prune p)
    h.preWs h.trailWs hsp h.container h.wf h.tight h.depth (hf.tuples hdead hq.bounds v ht hint)
    (k1 h.wf) (Nat.le_trans k3 h.depth) (k2 ht) (by rw [decided_prune]; exact hd)
    (by rw [toks_within id pre.length v ht (fun _ _ => rfl), within_mono (by omega) v hw]; rfl) (k4 hw) hl
    (by rw [e]; exact hn) (by rw [e]; exact hx)
  have hser := hs.serial O hq.whole.clean hq.whole.named hq.whole.hasFilter (hf.states hq.whole.size) pre trail v (v.prune p)
    h.preWs h.trailWs hsp h.container h.wf h.tight h.depth (hf.tuples hdead hq.bounds v ht hint)
    (k1 h.wf) (k2 ht) (by rw [decided_prune]; exact hd)
  rw [select_prune] at hser
  exact footprint_exact (tree_footprint O (sAst p) hc pre trail v h hsp hpl hff B hB u1
    (fun xs ys e hx hy y hy' hyc ha hz => htorn xs ys e hx hy y hy' hyc ha
      (hf.reported hdead hq.bounds _ (fun i hi => by have := (spans_idx hy').1 i hi; omega) hz))) u2 hser

/-- **C57 for files of any size.**  As `c03_footprint_partial`, for filter queries below names, wildcards and descendant steps. -/
theorem c57_footprint_partial (O : NumOps) (B : List Step) (p : List (QStep Num)) (hq : BelowQuery B p) (pre trail : Str) (v : J)
    (h : DocOK pre trail v) (hsp : pre.head? ≠ some ' ') (hpl : v.plainStrings = true)
    (hff : ∀ c ∈ pre ++ v.render ++ trail, c.toNat ≠ 255) (ht : v.tidy = true) (ha : Apart B v)
    (hd : ∀ x ∈ selected B v, x.decided (arith O) O.atof p = true)
    (hw : v.within 998 = true) (hl : v.tokenCount ≤ MAX_TUPLE_LIST)
    (hn : ((selected B v).flatMap fun x => x.select (arith O) O.atof (unfiltered p)).length ≤ MAX_OUTPUT)
    (hx : ∀ x ∈ selected B v, ∀ y ∈ x.select (arith O) O.atof (unfiltered p), y.render.length ≤ 998) (N : Nat) (hN : 0 < N)
    (htorn : ∀ xs ys, pieces N (pre ++ v.render ++ trail) ((pre ++ v.render ++ trail).length + 1) 0 = xs ++ ys →
      xs ≠ [] → ys ≠ [] → UntornC (Matches (B ++ p.map sk)) pre v xs.flatten.length) :
    ∃ r, serialRun O N (belowAst B p) (pre ++ v.render ++ trail) = some r ∧ r.pf.ub = false ∧
      r.pf.output = ((selected B v).flatMap fun x => x.select (arith O) O.atof p).map J.render := by
  obtain ⟨c, hc, hf, hs⟩ := hq.table
  obtain ⟨u1, u2⟩ := hf.serial_clean hq.noSlices hq.nonempty O hq.clean hq.named hq.hasFilter hs pre trail v h.preWs h.trailWs hsp
    h.container h.wf h.tight h.depth ht ha (fun z hz => hd _ (partsOf_mem hz))
    (by rw [toks_within id pre.length v ht (fun _ _ => rfl), within_mono (by omega) v hw]; rfl) hw hl
    (by rw [partsOf_selected B v (fun x => x.select (arith O) O.atof (unfiltered p))]; exact hn)
    (fun z hz => hx _ (partsOf_mem hz))
  have hser := hf.serial hq.noSlices hq.nonempty O hq.clean hq.named hq.hasFilter hs pre trail v h.preWs h.trailWs hsp
    h.container h.wf h.tight h.depth ht ha (fun z hz => hd _ (partsOf_mem hz))
  rw [partsOf_selected B v (fun x => x.select (arith O) O.atof p)] at hser
  exact footprint_exact (tree_footprint O (belowAst B p) hc pre trail v h hsp hpl hff N hN u1
    (fun xs ys e hx hy y hy' hyc ha hz => htorn xs ys e hx hy y hy' hyc ha (hf.reported hq.noSlices _ _ hz))) u2 hser

/-! ### Cases -/

/-- If a path selects scalars only, no selected container is torn. -/
theorem untornC_scalars {q : List Step} (hq : q ≠ []) {v : J} (h : ∀ x ∈ selected q v, x.isContainer = false) (pre : Str) (k : Nat) :
    UntornC (Matches q) pre v k := by
  intro y hy hc _ hm
  rcases List.mem_cons.1 hy with rfl | hy
  · have := matches_length_le hm
    exact hq (List.length_eq_zero_iff.1 (by simpa using this))
  · have hx : y.2.1 ∈ selected q v := by
      unfold selected
      exact List.mem_map.2 ⟨(y.1, y.2.1), List.mem_filter.2 ⟨spans_part hy, by simpa using hm⟩, rfl⟩
    rw [h _ hx] at hc; cases hc

/-- `{"x": 1, "a": [ {"c": 1, "b": 1}, {"c": 2, "b": 2}, {"c": 3, "b": 3}, {"c": 4, "b": 4}]}`. -/
def exLongF : J :=
  let e (c : Char) (es : Elems) : Elems := .cons [' '] (.obj [] (.cons [] ['c'] [] [' '] (.lit [c]) []
    (.cons [' '] ['b'] [] [' '] (.lit [c]) [] .nil))) [] es
  .obj [] (.cons [] ['x'] [] [' '] (.lit ['1']) [] (.cons [' '] ['a'] [] [' '] (.arr []
    (e '1' (e '2' (e '3' (e '4' .nil))))) [] .nil))

theorem exLongF_ok : DocOK [] [] exLongF ∧ exLongF.plainStrings = true ∧ (∀ c ∈ [] ++ exLongF.render ++ [], c.toNat ≠ 255) ∧
    exLongF.tidy = true ∧ exLongF.within 998 = true ∧ exLongF.tokenCount ≤ MAX_TUPLE_LIST :=
  ⟨⟨by decide, by decide, by decide, by decide, by decide, by decide⟩, by decide, by decide, by decide, by decide, by decide⟩

/-- With footprint 40 the second element lies across the end of the first piece: its member `c` is in the first piece, its member `b`
in the second. -/
theorem exLongF_pieces : pieces 40 ([] ++ exLongF.render ++ []) (([] ++ exLongF.render ++ []).length + 1) 0 =
    ["{\"x\": 1, \"a\": [ {\"c\": 1, \"b\": 1}, {\"c\": 2, ".toList,
      "\"b\": 2}, {\"c\": 3, \"b\": 3}, {\"c\": 4, \"b\": 4}]}".toList] := by
  decide +kernel

/-- `$.a[?(@.c > 1)].b` -/
def exAbove : List (QStep Num) := [.prop ['a'], .filter (.bin .gt (.prop [['c']]) (.num ⟨false, 1, []⟩)), .prop ['b']]

/-- `[?(@.c > 1)].b` -/
def exAboveTail : List (QStep Num) := [.filter (.bin .gt (.prop [['c']]) (.num ⟨false, 1, []⟩)), .prop ['b']]

theorem exLongF_all : exLongF.select (arith intOps) intOps.atof (unfiltered exAbove) = [.lit ['1'], .lit ['2'], .lit ['3'], .lit ['4']] := by
  with_unfolding_all rfl

/-- The hypotheses of `c03_footprint_partial` hold for `$.a[?(@.c > 1)].b` and this document loaded in two pieces.  The element across
the end of a piece passes its test. -/
example : FilterQuery exAbove ∧ exLongF.decided (arith intOps) intOps.atof exAbove = true ∧
    (∀ x ∈ exLongF.select (arith intOps) intOps.atof (unfiltered exAbove), x.render.length ≤ 998) ∧
    (∀ xs : List Str, UntornC (Matches (exAbove.map sk)) [] exLongF xs.flatten.length) ∧
    exLongF.select (arith intOps) intOps.atof exAbove = [.lit ['2'], .lit ['3'], .lit ['4']] := by
  refine ⟨⟨rfl, rfl, rfl, ⟨rfl, by unfold cleanName; decide⟩, by decide, by decide⟩, by with_unfolding_all rfl, ?_, ?_,
    by with_unfolding_all rfl⟩
  · rw [exLongF_all]; decide
  · intro xs
    refine untornC_scalars (by simp [exAbove]) ?_ _ _
    have : selected (exAbove.map sk) exLongF = [.lit ['1'], .lit ['2'], .lit ['3'], .lit ['4']] := by
      simp [selected, exAbove, sk, exLongF, J.parts, Members.parts, Elems.parts, matches_prop, matches_all, matches_nil, matches_nil_left]
    rw [this]; decide

theorem exLongF_below : selected [.descProp ['a']] exLongF = [match exLongF with
    | .obj _ (.cons _ _ _ _ _ _ (.cons _ _ _ _ a _ _)) => a
    | _ => .lit []] := by
  simp [selected, exLongF, J.parts, Members.parts, Elems.parts, matches_descProp, matches_nil, matches_nil_left]

/-- The hypotheses of `c57_footprint_partial` hold for `$..a[?(@.c > 1)].b` and the same pieces. -/
example : BelowQuery [.descProp ['a']] exAboveTail ∧ Apart [.descProp ['a']] exLongF ∧
    (∀ x ∈ selected [.descProp ['a']] exLongF, x.decided (arith intOps) intOps.atof exAboveTail = true) ∧
    (∀ x ∈ selected [.descProp ['a']] exLongF, ∀ y ∈ x.select (arith intOps) intOps.atof (unfiltered exAboveTail), y.render.length ≤ 998) ∧
    (∀ xs : List Str, UntornC (Matches ([.descProp ['a']] ++ exAboveTail.map sk)) [] exLongF xs.flatten.length) ∧
    ((selected [.descProp ['a']] exLongF).flatMap fun x => x.select (arith intOps) intOps.atof exAboveTail) =
      [.lit ['2'], .lit ['3'], .lit ['4']] := by
  refine ⟨⟨by simp, by simp [JPS.noSlices, isSlice], rfl, rfl, rfl, ⟨rfl, by unfold cleanName; decide⟩, by decide, ?_⟩, ?_, ?_, ?_, ?_, ?_⟩
  · have : (buildQuery (belowAst [.descProp ['a']] exAboveTail)).map (·.1.statesNum) = some 7 := by decide +kernel
    intro q hq
    rw [hq] at this
    have e : q.1.statesNum = 7 := Option.some.inj this
    omega
  · simp [Apart, exLongF, J.parts, Elems.parts, Members.parts, matches_descProp, matches_nil, matches_nil_left]
    intro a b h
    rcases h with ⟨rfl, _⟩ | ⟨rfl, _⟩ | ⟨rfl, _⟩ | ⟨rfl, _⟩ | ⟨rfl, _⟩ | ⟨rfl, _⟩ | ⟨rfl, _⟩ | ⟨rfl, _⟩ | ⟨rfl, _⟩ | ⟨rfl, _⟩ | ⟨rfl, _⟩ | ⟨rfl, _⟩ <;>
      simp [matches_descProp, matches_nil, matches_nil_left]
  · rw [exLongF_below]; simp only [List.mem_singleton, forall_eq]; with_unfolding_all rfl
  · rw [exLongF_below]; simp only [List.mem_singleton, forall_eq]; decide
  · intro xs
    refine untornC_scalars (by simp) ?_ _ _
    have : selected ([.descProp ['a']] ++ exAboveTail.map sk) exLongF = [.lit ['1'], .lit ['2'], .lit ['3'], .lit ['4']] := by
      simp [selected, exAboveTail, sk, exLongF, J.parts, Members.parts, Elems.parts, matches_prop, matches_descProp, matches_all, matches_nil,
        matches_nil_left]
    rw [this]; decide
  · rw [exLongF_below]; with_unfolding_all rfl

/-- The hypotheses of `c03_footprint_slices_partial` beyond those of `c03_slices_partial` and `c35_filter_slices_partial` hold for
the case of these (Props/FilterSlice.lean) with footprint 40: three pieces. -/
example : C03.sdoc.plainStrings = true ∧ (∀ c ∈ [] ++ C03.sdoc.render ++ ['\n'], c.toNat ≠ 255) ∧
    (C03.sdoc.render.length : Int) ≤ intMax ∧
    (pieces 40 ([] ++ C03.sdoc.render ++ ['\n']) (([] ++ C03.sdoc.render ++ ['\n']).length + 1) 0).length = 3 ∧
    (∀ x ∈ C03.sdoc.choose (arith intOps) intOps.atof (unfilteredS C03.spath), x.render.length ≤ 998) ∧
    (∀ xs : List Str, UntornC (Matches (C03.spath.map ssk)) [] C03.sdoc xs.flatten.length) := by
  refine ⟨by decide, by decide, by decide, by decide +kernel, ?_, ?_⟩
  · have : C03.sdoc.choose (arith intOps) intOps.atof (unfilteredS C03.spath) = [C03.lit "2", C03.lit "4", C03.lit "6"] := by
      with_unfolding_all rfl
    rw [this]; decide
  · intro xs
    refine untornC_scalars (by simp [C03.spath]) ?_ _ _
    have : selected (C03.spath.map ssk) C03.sdoc = [C03.lit "2", C03.lit "4", C03.lit "6"] := by
      simp [selected, C03.spath, ssk, C03.sdoc, C03.item, C03.key, C03.lit, J.parts, Members.parts, Elems.parts,
        matches_prop, matches_all, matches_slice, inSlice, matches_nil, matches_nil_left]
    rw [this]; decide

end JPS
