import Verif.FilterRun
import Verif.Props.Query
/-!
# C03: filters keep exactly the elements whose predicate holds
-/

set_option autoImplicit false

namespace JPS
open Spec

/-- The paths covered: at least one filter, every filter directly followed by a name, the result is not the
very property the last filter tests, names without the separators of path texts, and at most 253 names and
98 steps, those of the tested properties included. -/
structure FilterQuery (p : List (QStep Num)) : Prop where
  hasFilter : hasFilter p = true
  named : namedAfterFilter p = true
  fresh : returnsTested p = false
  clean : CleanPath p
  names : (pathNames p).length ≤ 253
  size : treeSize p ≤ 98

theorem FilterQuery.ne {p : List (QStep Num)} (h : FilterQuery p) : p ≠ [] := by
  rintro rfl; cases h.hasFilter

/-- **C03** For a path of names, `[*]` and filters, the serial run returns exactly the values that lie in
elements that satisfy every filter on the way, in document order, each rendered as in the document.  The verdict
on an element is that of its own properties, wherever they stand in it.

Missing for the full statement: filters that are last or followed by another array step and results that are
also tested (false of the code: `c03_false_array`, `c03_false_returned`, `c03_false_last`); documents on which
a filter's value is undefined (`decided`) or whose literals are not read exactly (`tidy`, see C14). -/
theorem c03_select_partial (O : NumOps) (p : List (QStep Num)) (hq : FilterQuery p) (pre trail : Str) (v : J)
    (h : Readable pre trail v) (ht : v.tidy = true) (hd : v.decided (arith O) O.atof p = true) :
    results O (fAst p) (pre ++ v.render ++ trail) = some ((v.select (arith O) O.atof p).map J.render) := by
  obtain ⟨c, hc, hf⟩ := ftab_of_build p hq.ne hq.clean hq.named hq.fresh hq.names
  have := hf.serial O hq.clean hq.named hq.hasFilter hq.size pre trail v h.preWs h.trailWs h.noBlank h.container
    h.wf h.tight h.depth ht hd
  unfold results
  rw [serialRun_single O MEMORY_FOOTPRINT (fAst p) _ c hc h.nonempty h.size]
  simp only [Option.map_some, this]

/-! ### A case -/

namespace C03

def key (s : String) : Str := s.toList
def lit (s : String) : J := .lit s.toList
def ref (s : String) : Expr Num := .prop [s.toList]

/-- `$.a[?(@.x)].b[?(@.y < 5)].c` -/
def path : List (QStep Num) :=
  [.prop (key "a"), .filter (ref "x"), .prop (key "b"), .filter (.bin .lt (ref "y") (.num ⟨false, 5, []⟩)), .prop (key "c")]

/-- `{"c": c ,"y": y }`: the result before the tested property. -/
def inner (c y : String) : J :=
  .obj [] (.cons [] (key "c") [] [' '] (lit c) [' '] (.cons [] (key "y") [] [' '] (lit y) [' '] .nil))

/-- `{"a": [{"b": [{"c": 1 ,"y": 4 },{"c": 2 ,"y": 7 }],"x": true },{"b": [{"c": 3 ,"y": 4 }],"x": false }]}` -/
def doc : J :=
  .obj [] (.cons [] (key "a") [] [' '] (.arr [] (
    .cons [] (.obj [] (.cons [] (key "b") [] [' '] (.arr [] (.cons [] (inner "1" "4") [] (.cons [] (inner "2" "7") [] .nil))) []
      (.cons [] (key "x") [] [' '] (lit "true") [' '] .nil))) []
    (.cons [] (.obj [] (.cons [] (key "b") [] [' '] (.arr [] (.cons [] (inner "3" "4") [] .nil)) []
      (.cons [] (key "x") [] [' '] (lit "false") [' '] .nil))) [] .nil))) [] .nil)

theorem query : FilterQuery path := by
  refine ⟨rfl, rfl, rfl, ⟨rfl, by unfold cleanName; decide⟩, by decide, by decide⟩

theorem readable : Readable [] ['\n'] doc :=
  ⟨by decide, by decide, by decide, by decide, by decide, by decide, by decide, by decide⟩

end C03

/-- The hypotheses hold for two nested filters and a document with one result in two satisfied elements, one
result in a satisfied element whose inner element fails, and one the other way round. -/
example : FilterQuery C03.path ∧ Readable [] ['\n'] C03.doc ∧ C03.doc.tidy = true ∧
    C03.doc.decided (arith intOps) intOps.atof C03.path = true ∧
    C03.doc.select (arith intOps) intOps.atof C03.path = [C03.lit "1"] :=
  ⟨C03.query, C03.readable, by decide, by with_unfolding_all rfl, by with_unfolding_all rfl⟩

/-! ### Where the statement fails -/

/-- An element that is an array is not tested, and what lies in it counts for the filter further out:
`$.a[?(@.x)].b[?(@.y)][*]` on `{"a": [{"x": true ,"b": [[7]]}]}` returns 7, although the array `[7]` does not
satisfy `@.y`. -/
theorem c03_false_array (O : NumOps) :
    let p : List (QStep Num) := [.prop (C03.key "a"), .filter (C03.ref "x"), .prop (C03.key "b"), .filter (C03.ref "y"), .all]
    let v : J := .obj [] (.cons [] (C03.key "a") [] [' '] (.arr [] (.cons [] (.obj [] (
      .cons [] (C03.key "x") [] [' '] (C03.lit "true") [' '] (.cons [] (C03.key "b") [] [' ']
        (.arr [] (.cons [] (.arr [] (.cons [] (C03.lit "7") [] .nil)) [] .nil)) [] .nil))) [] .nil)) [] .nil)
    v.wf = true ∧ v.tidy = true ∧ v.render = "{\"a\": [{\"x\": true ,\"b\": [[7]]}]}".toList ∧
    v.select (arith O) O.atof p = [] ∧
    results O (fAst p) v.render = some [['7']] := by
  refine ⟨by decide, by decide, by decide, by with_unfolding_all rfl, by with_unfolding_all rfl⟩

/-- A result that is the property its filter tests: `$.a[?(@.b < 2)].b` on `{"a": [{"b": 1},{"b": 3}]}` returns
every `b` and every element. -/
theorem c03_false_returned (O : NumOps) :
    let p : List (QStep Num) := [.prop (C03.key "a"), .filter (.bin .lt (C03.ref "b") (.num ⟨false, 2, []⟩)), .prop (C03.key "b")]
    results O (fAst p) "{\"a\": [{\"b\": 1 },{\"b\": 3 }]}".toList =
      some ["1".toList, "{\"b\": 1 }".toList, "3".toList, "{\"b\": 3 }".toList] := by
  with_unfolding_all rfl

/-- A filter at the end: `$.a[?(@.b < 2)]` on `{"a": [{"b": 1 },{"b": 3 }]}` does the same. -/
theorem c03_false_last (O : NumOps) :
    let p : List (QStep Num) := [.prop (C03.key "a"), .filter (.bin .lt (C03.ref "b") (.num ⟨false, 2, []⟩))]
    results O (fAst p) "{\"a\": [{\"b\": 1 },{\"b\": 3 }]}".toList =
      some ["1".toList, "{\"b\": 1 }".toList, "3".toList, "{\"b\": 3 }".toList] := by
  with_unfolding_all rfl

end JPS
