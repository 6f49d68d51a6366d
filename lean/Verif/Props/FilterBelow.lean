import Verif.FilterBelow
import Verif.Props.FilterRun
import Verif.Props.Capacity
/-!
# C57: filters below wildcard and descendant steps
-/

set_option autoImplicit false

namespace JPS
open Spec

/-- The queries covered: steps `B` of any kind but slices, then a path with filters as in C03, with at most 253
names together and a table of at most 100 states. -/
structure BelowQuery (B : List Step) (p : List (QStep Num)) : Prop where
  nonempty : B ≠ []
  noSlices : noSlices B
  hasFilter : hasFilter p = true
  named : namedAfterFilter p = true
  fresh : returnsTested p = false
  clean : CleanPath p
  names : (B.filterMap stepName ++ pathNames p).length ≤ 253
  states : ∀ q, buildQuery (belowAst B p) = some q → q.1.statesNum ≤ 100

theorem BelowQuery.ne {B : List Step} {p : List (QStep Num)} (h : BelowQuery B p) : p ≠ [] := by
  rintro rfl; cases h.hasFilter

theorem BelowQuery.table {B : List Step} {p : List (QStep Num)} (h : BelowQuery B p) :
    ∃ c, buildCtx (belowAst B p) = some c ∧ FPre B (pathRegs p) c ∧ (tableOf c).statesNum ≤ 100 := by
  obtain ⟨c, hc, hf⟩ := below_build B h.noSlices p h.ne h.clean h.named h.fresh h.names
  exact ⟨c, hc, hf, h.states (tableOf c, contextOf c) (by unfold buildQuery; rw [hc]; rfl)⟩

theorem partsOf_selected {β : Type} (B : List Step) (v : J) (f : J → List β) :
    ((partsOf B v).flatMap fun z => f z.2) = (selected B v).flatMap f := by
  unfold partsOf selected
  rw [List.flatMap_map]

theorem partsOf_mem {B : List Step} {v : J} {z : Loc × J} (h : z ∈ partsOf B v) : z.2 ∈ selected B v :=
  List.mem_map_of_mem h

/-- **C57** A path of names, wildcards and descendant steps followed by a path with filters returns, for each part
of the document that the first path selects, in document order, what the second path selects in that part.

Missing for the full statement: parts that lie in each other (`Apart`; false of the code, `c57_false_nested`);
wildcards after a filter (`c57_false_wildcard`); what C03 leaves out. -/
theorem c57_prefix_partial (O : NumOps) (B : List Step) (p : List (QStep Num)) (hq : BelowQuery B p) (pre trail : Str) (v : J)
    (h : Readable pre trail v) (ht : v.tidy = true) (ha : Apart B v)
    (hd : ∀ x ∈ selected B v, x.decided (arith O) O.atof p = true) :
    results O (belowAst B p) (pre ++ v.render ++ trail) =
      some (((selected B v).flatMap fun x => x.select (arith O) O.atof p).map J.render) := by
  obtain ⟨c, hc, hf, hs⟩ := hq.table
  have := hf.serial hq.noSlices hq.nonempty O hq.clean hq.named hq.hasFilter hs pre trail v h.preWs h.trailWs h.noBlank
    h.container h.wf h.tight h.depth ht ha (fun z hz => hd _ (partsOf_mem hz))
  rw [partsOf_selected B v (fun x => x.select (arith O) O.atof p)] at this
  unfold results
  rw [serialRun_single O MEMORY_FOOTPRINT (belowAst B p) _ c hc h.nonempty h.size]
  simp only [Option.map_some, this]

mutual
theorem parts_loc : ∀ (v : J) (l : Loc), ∀ z ∈ v.parts l, l.length < z.1.length
  | .lit t, l, z, hz => by simp [J.parts] at hz
  | .str t, l, z, hz => by simp [J.parts] at hz
  | .arr a es, l, z, hz => parts_locE es l 0 z hz
  | .obj a ms, l, z, hz => parts_locM ms l z hz
theorem parts_locE : ∀ (es : Elems) (l : Loc) (i : Nat), ∀ z ∈ es.parts l i, l.length < z.1.length
  | .nil, l, i, z, hz => by simp [Elems.parts] at hz
  | .cons pre v post tail, l, i, z, hz => by
    simp only [Elems.parts, List.append_assoc, List.mem_append, List.mem_singleton] at hz
    rcases hz with hz | rfl | hz
    · have := parts_loc v (l ++ [.elem i]) z hz
      simp at this; omega
    · simp
    · exact parts_locE tail l (i + 1) z hz
theorem parts_locM : ∀ (ms : Members) (l : Loc), ∀ z ∈ ms.parts l, l.length < z.1.length
  | .nil, l, z, hz => by simp [Members.parts] at hz
  | .cons pre k mid pre2 v post tail, l, z, hz => by
    simp only [Members.parts, List.append_assoc, List.mem_append, List.mem_singleton] at hz
    rcases hz with hz | rfl | hz
    · have := parts_loc v (l ++ [.key k]) z hz
      simp at this; omega
    · simp
    · exact parts_locM tail l z hz
end

/-- Without descendant steps, selected parts never lie in each other. -/
theorem apart_of_levels (B : List Step) (hB : ∀ s ∈ B, isDesc s = false) (v : J) : Apart B v := by
  intro x _ hx y hy hm
  have h1 := matches_length hx hB
  have h2 := matches_length hm hB
  have h3 := parts_loc x.2 x.1 y hy
  omega

/-- **C57** Without descendant steps, for every document. -/
theorem c57_levels_partial (O : NumOps) (B : List Step) (p : List (QStep Num)) (hq : BelowQuery B p)
    (hB : ∀ s ∈ B, isDesc s = false) (pre trail : Str) (v : J) (h : Readable pre trail v) (ht : v.tidy = true)
    (hd : ∀ x ∈ selected B v, x.decided (arith O) O.atof p = true) :
    results O (belowAst B p) (pre ++ v.render ++ trail) =
      some (((selected B v).flatMap fun x => x.select (arith O) O.atof p).map J.render) :=
  c57_prefix_partial O B p hq pre trail v h ht (apart_of_levels B hB v) hd

/-- **C57** The run stays in its buffers if the document has at most 5000000 brackets, commas, keys and scalars, its keys and scalars at most
998, and the values that would be selected without the filters are at most 800000 of at most 998 characters. -/
theorem c57_clean_partial (O : NumOps) (B : List Step) (p : List (QStep Num)) (hq : BelowQuery B p) (pre trail : Str) (v : J)
    (h : Readable pre trail v) (ht : v.tidy = true) (ha : Apart B v)
    (hd : ∀ x ∈ selected B v, x.decided (arith O) O.atof p = true)
    (hw : v.within 998 = true) (hl : v.tokenCount ≤ MAX_TUPLE_LIST)
    (hn : ((selected B v).flatMap fun x => x.select (arith O) O.atof (unfiltered p)).length ≤ MAX_OUTPUT)
    (hx : ∀ x ∈ selected B v, ∀ y ∈ x.select (arith O) O.atof (unfiltered p), y.render.length ≤ 998) :
    clean O (belowAst B p) (pre ++ v.render ++ trail) := by
  obtain ⟨c, hc, hf, hs⟩ := hq.table
  unfold clean
  rw [serialRun_single O MEMORY_FOOTPRINT (belowAst B p) _ c hc h.nonempty h.size]
  simp only [Option.some.injEq, forall_eq']
  exact hf.serial_clean hq.noSlices hq.nonempty O hq.clean hq.named hq.hasFilter hs pre trail v h.preWs h.trailWs h.noBlank
    h.container h.wf h.tight h.depth ht ha (fun z hz => hd _ (partsOf_mem hz))
    (by rw [toks_within id pre.length v ht (fun _ _ => rfl), within_mono (by omega) v hw]; rfl) hw hl
    (by rw [partsOf_selected B v (fun x => x.select (arith O) O.atof (unfiltered p))]; exact hn)
    (fun z hz => hx _ (partsOf_mem hz))

/-! ### A case -/

namespace C57

/-- `..a[?(@.x)].b` -/
def path : List (QStep Num) := [.filter (C03.ref "x"), .prop (C03.key "b")]

/-- `{"b": b ,"x": x }` -/
def elt (b x : String) : J :=
  .obj [] (.cons [] (C03.key "b") [] [' '] (C03.lit b) [' '] (.cons [] (C03.key "x") [] [' '] (C03.lit x) [' '] .nil))

/-- `{"z": {"a": [{"b": 1 ,"x": true },{"b": 2 ,"x": false }]},"a": [{"b": 3 ,"x": true }]}` -/
def doc : J :=
  .obj [] (.cons [] (C03.key "z") [] [' '] (.obj [] (.cons [] (C03.key "a") [] [' ']
      (.arr [] (.cons [] (elt "1" "true") [] (.cons [] (elt "2" "false") [] .nil))) [] .nil)) []
    (.cons [] (C03.key "a") [] [' '] (.arr [] (.cons [] (elt "3" "true") [] .nil)) [] .nil))

theorem query : BelowQuery [.descProp (C03.key "a")] path := by
  refine ⟨by simp, by simp [noSlices, isSlice], rfl, rfl, rfl, ⟨rfl, by unfold cleanName; decide⟩, by decide, ?_⟩
  have : (buildQuery (belowAst [.descProp (C03.key "a")] path)).map (·.1.statesNum) = some 7 := by decide +kernel
  intro q hq
  rw [hq] at this
  have e : q.1.statesNum = 7 := Option.some.inj this
  omega

theorem selected_doc : selected [.descProp (C03.key "a")] doc =
    [.arr [] (.cons [] (elt "1" "true") [] (.cons [] (elt "2" "false") [] .nil)), .arr [] (.cons [] (elt "3" "true") [] .nil)] := by
  simp [selected, doc, elt, C03.lit, C03.key, J.parts, Elems.parts, Members.parts, matches_descProp, matches_nil, matches_nil_left]

theorem apart_doc : Apart [.descProp (C03.key "a")] doc := by
  simp [Apart, doc, elt, C03.lit, C03.key, J.parts, Elems.parts, Members.parts, matches_descProp, matches_nil, matches_nil_left]
  constructor
  all_goals
    intro a b h
    rcases h with ⟨rfl, _⟩ | ⟨rfl, _⟩ | ⟨rfl, _⟩ | ⟨rfl, _⟩ | ⟨rfl, _⟩ | ⟨rfl, _⟩ <;>
      simp [matches_descProp, matches_nil, matches_nil_left]

end C57

/-- The hypotheses hold for `$..a[?(@.x)].b` and a document with arrays `a` at two depths, one of whose elements
fails the test. -/
example : BelowQuery [.descProp (C03.key "a")] C57.path ∧ Readable [] [] C57.doc ∧ C57.doc.tidy = true ∧
    Apart [.descProp (C03.key "a")] C57.doc ∧
    (∀ x ∈ selected [.descProp (C03.key "a")] C57.doc, x.decided (arith intOps) intOps.atof C57.path = true) ∧
    ((selected [.descProp (C03.key "a")] C57.doc).flatMap fun x => x.select (arith intOps) intOps.atof C57.path) =
      [C03.lit "1", C03.lit "3"] := by
  refine ⟨C57.query, ⟨by decide, by decide, by decide, by decide, by decide, by decide, by decide, by decide⟩, by decide,
    C57.apart_doc, ?_, ?_⟩
  · rw [C57.selected_doc]
    intro x hx
    simp only [List.mem_cons, List.not_mem_nil, or_false] at hx
    rcases hx with rfl | rfl <;> with_unfolding_all rfl
  · rw [C57.selected_doc]; with_unfolding_all rfl

/-- The same for `$.*[?(@.x)].b`, which has no descendant step. -/
example : BelowQuery [.dotAll] C57.path := by
  refine ⟨by simp, by simp [noSlices, isSlice], rfl, rfl, rfl, ⟨rfl, by unfold cleanName; decide⟩, by decide, ?_⟩
  have : (buildQuery (belowAst [.dotAll] C57.path)).map (·.1.statesNum) = some 6 := by decide +kernel
  intro q hq
  rw [hq] at this
  have e : q.1.statesNum = 6 := Option.some.inj this
  omega

/-! ### Where the statement fails -/

/-- A selected part in another one: `$..a[?(@.x)].b` on
`{"a": [{"x": true ,"c": {"a": [{"b": 1 ,"x": true }]},"b": 2 }]}` returns nothing instead of 1 and 2.  The end of
the inner element clears what the outer one has recorded, and the outer verdict discards both results. -/
theorem c57_false_nested :
    let inner : J := .arr [] (.cons [] (C57.elt "1" "true") [] .nil)
    let outer : J := .arr [] (.cons [] (.obj [] (.cons [] (C03.key "x") [] [' '] (C03.lit "true") [' ']
      (.cons [] (C03.key "c") [] [' '] (.obj [] (.cons [] (C03.key "a") [] [' '] inner [] .nil)) []
        (.cons [] (C03.key "b") [] [' '] (C03.lit "2") [' '] .nil)))) [] .nil)
    let v : J := .obj [] (.cons [] (C03.key "a") [] [' '] outer [] .nil)
    v.render = "{\"a\": [{\"x\": true ,\"c\": {\"a\": [{\"b\": 1 ,\"x\": true }]},\"b\": 2 }]}".toList ∧
    Readable [] [] v ∧ v.tidy = true ∧ selected [.descProp (C03.key "a")] v = [inner, outer] ∧
    inner.select (arith intOps) intOps.atof C57.path = [C03.lit "1"] ∧
    outer.select (arith intOps) intOps.atof C57.path = [C03.lit "2"] ∧
    results intOps (belowAst [.descProp (C03.key "a")] C57.path) v.render = some [] := by
  refine ⟨by decide, ⟨by decide, by decide, by decide, by decide, by decide, by decide, by decide, by decide⟩, by decide,
    ?_, by with_unfolding_all rfl, by with_unfolding_all rfl, by decide +kernel⟩
  simp [selected, C57.elt, C03.lit, C03.key, J.parts, Elems.parts, Members.parts, matches_descProp, matches_nil, matches_nil_left]

/-- A wildcard after a filter: for `$.a[?(@.x)].*` the rule of the results covers that of the condition `@.x`.  No
state is left for the condition, its number stays -1, and `initPredicateFilter` reads the table of subtrees at -1
(predicate.h:66-91).  Nothing is returned for `{"a": [{"x": true ,"b": 1 }]}`. -/
theorem c57_false_wildcard :
    let t := astStep (belowAst [.prop (C03.key "a")] [.filter (C03.ref "x")]) .dotAll
    (buildQuery t).map (fun q => (PF.init q.2).ub) = some true ∧
    ¬ clean intOps t "{\"a\": [{\"x\": true ,\"b\": 1 }]}".toList ∧
    results intOps t "{\"a\": [{\"x\": true ,\"b\": 1 }]}".toList = some [] := by
  refine ⟨by decide +kernel, ?_, by decide +kernel⟩
  intro h
  have e : ((serialRun intOps MEMORY_FOOTPRINT (astStep (belowAst [.prop (C03.key "a")] [.filter (C03.ref "x")]) .dotAll)
    "{\"a\": [{\"x\": true ,\"b\": 1 }]}".toList).map (·.pf.ub)) = some true := by with_unfolding_all rfl
  unfold clean at h
  cases hr : serialRun intOps MEMORY_FOOTPRINT (astStep (belowAst [.prop (C03.key "a")] [.filter (C03.ref "x")]) .dotAll)
    "{\"a\": [{\"x\": true ,\"b\": 1 }]}".toList with
  | none => rw [hr] at e; cases e
  | some r =>
    have := (h r hr).2
    rw [hr] at e
    simp only [Option.map_some, Option.some.injEq] at e
    rw [this] at e; cases e

end JPS
