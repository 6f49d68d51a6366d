import Verif.FilterSliceForest
import Verif.Props.FilterRun
import Verif.Props.Capacity
/-!
# C03, C35: filters and slices in one path
-/

set_option autoImplicit false

namespace JPS
open Spec

/-- The bounds of the slices are C `int`s, so that dfa_builder.cpp:240-243 is defined. -/
def slicesInt (p : List (SStep Num)) : Prop :=
  ∀ a b, SStep.slice a b ∈ p → (∀ x, a = some x → intMin ≤ x ∧ x ≤ intMax) ∧ (∀ x, b = some x → intMin ≤ x ∧ x ≤ intMax)

/-- The paths covered: with `[*]` for every slice a `FilterQuery`, and no slice `[0:0]`. -/
structure SliceQuery (p : List (SStep Num)) : Prop where
  whole : FilterQuery (wholes p)
  bounds : slicesOk p
  ints : slicesInt p

theorem SliceQuery.ne {p : List (SStep Num)} (h : SliceQuery p) : p ≠ [] := by
  rintro rfl; exact h.whole.ne rfl

theorem SliceQuery.table {p : List (SStep Num)} (h : SliceQuery p) :
    ∃ c, buildCtx (sAst p) = some c ∧ STab (pathSRegs p) c ∧ (tableOf c).Dead0 := by
  obtain ⟨c, hc, hf⟩ := stab_of_build p h.ne h.whole.clean h.whole.named h.whole.fresh h.whole.names h.bounds
  exact ⟨c, hc, hf, c40_compiled_dead (sAst p) (tableOf c, contextOf c) (by simp [buildQuery, hc])⟩

theorem Readable.len {pre trail : Str} {v : J} (h : Readable pre trail v) : (v.render.length : Int) ≤ intMax := by
  have := h.size
  simp only [List.length_append, MEMORY_FOOTPRINT] at this
  simp only [intMax]; omega

/-- **C03** For a path of names, `[*]`, slices `[a:b]` and filters, the serial run returns exactly the values that
lie in elements whose index is in the slice, for every slice on the way, and that satisfy every filter on the way,
in document order, each rendered as in the document.

Missing for the full statement: as for `c03_select_partial`; a slice directly after a filter
(`c03_false_slice`); the slice `[0:0]` (`c03_false_empty`). -/
theorem c03_slices_partial (O : NumOps) (p : List (SStep Num)) (hq : SliceQuery p) (pre trail : Str) (v : J)
    (h : Readable pre trail v) (ht : v.tidy = true) (hd : v.settled (arith O) O.atof p = true) :
    results O (sAst p) (pre ++ v.render ++ trail) = some ((v.choose (arith O) O.atof p).map J.render) := by
  obtain ⟨c, hc, hf, hdead⟩ := hq.table
  have hs : FSem (pathRegs (wholes p)) c c.state := by rw [← low_pathSRegs]; exact hf.sem
  obtain ⟨k1, k2, _, _⟩ := prune_kept 0 v p
  have := hs.serial O hq.whole.clean hq.whole.named hq.whole.hasFilter (hf.states hq.whole.size) pre trail v (v.prune p)
    h.preWs h.trailWs h.noBlank h.container h.wf h.tight h.depth (hf.tuples hdead hq.bounds v ht h.len)
    (k1 h.wf) (k2 ht) (by rw [decided_prune]; exact hd)
  rw [select_prune] at this
  unfold results
  rw [serialRun_single O MEMORY_FOOTPRINT (sAst p) _ c hc h.nonempty h.size]
  simp only [Option.map_some, this]

/-- **C35** With filters and slices: the serial run stays in its buffers if the document has at most 5000000
brackets, commas, keys and scalars, its keys and scalars at most 998, and the values that would be selected without the filters are at most
800000 of at most 998 characters. -/
theorem c35_filter_slices_partial (O : NumOps) (p : List (SStep Num)) (hq : SliceQuery p) (pre trail : Str) (v : J)
    (h : Readable pre trail v) (ht : v.tidy = true) (hd : v.settled (arith O) O.atof p = true)
    (hw : v.within 998 = true) (hl : v.tokenCount ≤ MAX_TUPLE_LIST)
    (hn : (v.choose (arith O) O.atof (unfilteredS p)).length ≤ MAX_OUTPUT)
    (hx : ∀ x ∈ v.choose (arith O) O.atof (unfilteredS p), x.render.length ≤ 998) :
    clean O (sAst p) (pre ++ v.render ++ trail) := by
  obtain ⟨c, hc, hf, hdead⟩ := hq.table
  have hs : FSem (pathRegs (wholes p)) c c.state := by rw [← low_pathSRegs]; exact hf.sem
  obtain ⟨k1, k2, k3, k4⟩ := prune_kept 998 v p
  have e : (v.prune p).select (arith O) O.atof (unfiltered (wholes p)) = v.choose (arith O) O.atof (unfilteredS p) := by
    rw [← wholes_unfiltered, ← select_prune, prune_unfiltered]
  unfold clean
  rw [serialRun_single O MEMORY_FOOTPRINT (sAst p) _ c hc h.nonempty h.size]
  simp only [Option.some.injEq, forall_eq']
  exact hs.serial_clean O hq.whole.clean hq.whole.named hq.whole.hasFilter (hf.states hq.whole.size)
    (hf.init_ub (hf.states hq.whole.size)) pre trail v (v.prune p)
    h.preWs h.trailWs h.noBlank h.container h.wf h.tight h.depth (hf.tuples hdead hq.bounds v ht h.len)
    (k1 h.wf) (Nat.le_trans k3 h.depth) (k2 ht) (by rw [decided_prune]; exact hd)
    (by rw [toks_within id pre.length v ht (fun _ _ => rfl), within_mono (by omega) v hw]; rfl) (k4 hw) hl
    (by rw [e]; exact hn) (by rw [e]; exact hx)

/-! ### A case -/

namespace C03

/-- `$.a[0:2][?(@.x)].b[1:]` -/
def spath : List (SStep Num) :=
  [.prop (key "a"), .slice (some 0) (some 2), .filter (ref "x"), .prop (key "b"), .slice (some 1) none]

/-- `{"b": [b1,b2],"x": x }` -/
def item (b1 b2 x : String) : J :=
  .obj [] (.cons [] (key "b") [] [' '] (.arr [] (.cons [] (lit b1) [] (.cons [] (lit b2) [] .nil))) []
    (.cons [] (key "x") [] [' '] (lit x) [' '] .nil))

/-- `{"a": [[{"b": [1,2],"x": true },{"b": [3,4],"x": false }],[{"b": [5,6],"x": true }],[{"b": [7,8],"x": true }]]}` -/
def sdoc : J :=
  .obj [] (.cons [] (key "a") [] [' '] (.arr [] (
    .cons [] (.arr [] (.cons [] (item "1" "2" "true") [] (.cons [] (item "3" "4" "false") [] .nil))) []
    (.cons [] (.arr [] (.cons [] (item "5" "6" "true") [] .nil)) []
    (.cons [] (.arr [] (.cons [] (item "7" "8" "true") [] .nil)) [] .nil)))) [] .nil)

theorem squery : SliceQuery spath := by
  refine ⟨⟨rfl, rfl, rfl, ⟨rfl, by unfold cleanName; decide⟩, by decide, by decide⟩, ?_, ?_⟩
  · intro a b h
    simp [spath] at h
    rcases h with ⟨rfl, rfl⟩ | ⟨rfl, rfl⟩ <;> decide
  · intro a b h
    simp [spath] at h
    rcases h with ⟨rfl, rfl⟩ | ⟨rfl, rfl⟩ <;> simp [intMin, intMax]

theorem sreadable : Readable [] ['\n'] sdoc :=
  ⟨by decide, by decide, by decide, by decide, by decide, by decide, by decide, by decide⟩

end C03

/-- The hypotheses hold for a slice before and a slice after a filter; 1, 5, 7 and 8 fail a slice, 4 the filter. -/
example : SliceQuery C03.spath ∧ Readable [] ['\n'] C03.sdoc ∧ C03.sdoc.tidy = true ∧
    C03.sdoc.settled (arith intOps) intOps.atof C03.spath = true ∧
    C03.sdoc.choose (arith intOps) intOps.atof C03.spath = [C03.lit "2", C03.lit "6"] ∧
    C03.sdoc.within 998 = true ∧ C03.sdoc.tokenCount ≤ MAX_TUPLE_LIST ∧
    C03.sdoc.choose (arith intOps) intOps.atof (unfilteredS C03.spath) = [C03.lit "2", C03.lit "4", C03.lit "6"] :=
  ⟨C03.squery, C03.sreadable, by decide, by with_unfolding_all rfl, by with_unfolding_all rfl, by decide, by decide,
    by with_unfolding_all rfl⟩

/-- An empty slice below a filter selects everything: `$.a[?(@.x)].b[0:0]` on `{"a": [{"b": [1,2],"x": true }]}`
returns 1 and 2. -/
theorem c03_false_empty (O : NumOps) :
    let p : List (SStep Num) := [.prop (C03.key "a"), .filter (C03.ref "x"), .prop (C03.key "b"), .slice (some 0) (some 0)]
    let v : J := .obj [] (.cons [] (C03.key "a") [] [' '] (.arr [] (.cons [] (C03.item "1" "2" "true") [] .nil)) [] .nil)
    FilterQuery (wholes p) ∧ v.choose (arith O) O.atof p = [] ∧
    results O (sAst p) v.render = some [['1'], ['2']] := by
  refine ⟨⟨rfl, rfl, rfl, ⟨rfl, by unfold cleanName; decide⟩, by decide, by decide⟩, by with_unfolding_all rfl,
    by with_unfolding_all rfl⟩

/-- A slice directly after a filter: `$.a[?(@.x)].b[?(@.y)][0:1]` on `{"a": [{"x": true ,"b": [[7]]}]}` returns 7,
although the array `[7]` does not satisfy `@.y`. -/
theorem c03_false_slice (O : NumOps) :
    let p : List (SStep Num) := [.prop (C03.key "a"), .filter (C03.ref "x"), .prop (C03.key "b"), .filter (C03.ref "y"),
      .slice (some 0) (some 1)]
    let v : J := .obj [] (.cons [] (C03.key "a") [] [' '] (.arr [] (.cons [] (.obj [] (
      .cons [] (C03.key "x") [] [' '] (C03.lit "true") [' '] (.cons [] (C03.key "b") [] [' ']
        (.arr [] (.cons [] (.arr [] (.cons [] (C03.lit "7") [] .nil)) [] .nil)) [] .nil))) [] .nil)) [] .nil)
    v.wf = true ∧ v.tidy = true ∧ v.choose (arith O) O.atof p = [] ∧
    results O (sAst p) v.render = some [['7']] := by
  refine ⟨by decide, by decide, by with_unfolding_all rfl, by with_unfolding_all rfl⟩

end JPS
