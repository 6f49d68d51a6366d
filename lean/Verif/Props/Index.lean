import Verif.Props.Query
import Verif.Props.Expr
import Verif.Props.Filter
/-!
# C04, and refutations of C05, C06, C25
-/

set_option autoImplicit false

namespace JPS
open Spec

/-! ## C04 a single index -/

/-- Steps with single indexes `[n]`. -/
inductive XStep where
  | step (s : Step)
  | index (n : Nat)
deriving DecidableEq, Repr

/-- The meaning of `[n]`: the slice that contains exactly `n`. -/
def XStep.meaning : XStep → Step
  | .step s => s
  | .index n => .slice (some n) (some (n + 1))

/-- The tree of one more step; `[n]` is a predicate with a number (parser_j.y:57, 70, 73). -/
def astXStep (t : Ast) : XStep → Ast
  | .step s => astStep t s
  | .index n => .predicate t (.number ⟨false, n, []⟩)

/-- The tree of a path with single indexes. -/
def astX (p : List XStep) : Ast := p.foldl astXStep .root

/-- The path without its single indexes. -/
def dropIndex (p : List XStep) : List Step := p.filterMap fun
  | .step s => some s
  | .index _ => none

theorem construct_astX : ∀ (p : List XStep) (t : Ast) (c : SCtx),
    construct (p.foldl astXStep t) c = (dropIndex p).foldl ctxStep (construct t c)
  | [], _, _ => rfl
  | .step s :: p, t, c => by
    rw [List.foldl_cons, construct_astX p]
    simp only [astXStep, construct_astStep, dropIndex, List.filterMap_cons, List.foldl_cons]
  | .index n :: p, t, c => by
    rw [List.foldl_cons, construct_astX p]
    simp only [astXStep, construct, constructRight, dropIndex, List.filterMap_cons]

/-- The full claim of C04. -/
def C04Full : Prop := ∀ (O : NumOps) (p : List XStep) (pre trail : Str) (v : J), p ≠ [] → fewNames (p.map XStep.meaning) →
  boundsInt (p.map XStep.meaning) → Readable pre trail v → v.tidy = true →
  results O (astX p) (pre ++ v.render ++ trail) = some ((selected (p.map XStep.meaning) v).map J.render)

/-- **C04, what holds instead** A single index has no effect at all: the query runs, on every file and
with every number format, as if its `[n]` steps were not written. -/
theorem c04_ignored_partial (O : NumOps) (p : List XStep) (file : Str) :
    results O (astX p) file = results O (astOf (dropIndex p)) file := by
  have h : buildQuery (astX p) = buildQuery (astOf (dropIndex p)) := by
    unfold buildQuery buildCtx
    rw [construct_astOf, astX, construct_astX]
    rfl
  unfold results serialRun
  rw [h]

/-- **C04, what holds instead** The slice that means the same, `[n:n+1]`, does select exactly that element
(if no descendant step precedes it). -/
theorem c04_slice_partial (O : NumOps) (p : List XStep) (hp : p ≠ []) (hs : fewNames (p.map XStep.meaning))
    (hd : noDescBeforeSlice (p.map XStep.meaning) = true) (hb : boundsOk (p.map XStep.meaning))
    (hi : boundsInt (p.map XStep.meaning)) (pre trail : Str) (v : J) (h : Readable pre trail v)
    (ht : v.tidy = true) :
    results O (astOf (p.map XStep.meaning)) (pre ++ v.render ++ trail) =
      some ((selected (p.map XStep.meaning) v).map J.render) :=
  (c02_slices_exact_partial O _ (by simpa using hp) hd hb hi hs pre trail v h ht).1

/-- `$.b[1].a` on `exDoc`: hypotheses of `c04_slice_partial`, and a value is selected. -/
example : (selected ([XStep.step (.prop ['b']), .index 1, .step (.prop ['a'])].map XStep.meaning) exDoc).map
    J.render = ["\"x\"".toList] := by
  simp [selected, exDoc, XStep.meaning, J.parts, Members.parts, Elems.parts, matches_prop, matches_slice,
    matches_nil, matches_nil_left, J.render, inSlice]

/-- **C04 is false**: `$.a[1]` returns the whole array. -/
theorem c04_false : ¬ C04Full := by
  intro h
  have h1 := h intOps [.step (.prop ['a']), .index 1] [] []
    (.obj [] (.cons [] ['a'] [] [' '] (.arr [] (.cons [] (.lit ['5']) [] (.cons [' '] (.lit ['6']) [] .nil))) [] .nil))
    (by simp) (by decide) (by
      intro a b hm
      simp [XStep.meaning] at hm
      obtain ⟨rfl, rfl⟩ := hm
      simp [intMin, intMax])
    ⟨by decide, by decide, by decide, by decide, by decide, by decide, by decide, by decide⟩ (by decide)
  rw [c04_ignored_partial] at h1
  have h2 : results intOps (astOf (dropIndex [.step (.prop ['a']), .index 1]))
    ([] ++ (J.obj [] (.cons [] ['a'] [] [' '] (.arr [] (.cons [] (.lit ['5']) [] (.cons [' '] (.lit ['6']) []
      .nil))) [] .nil)).render ++ []) = some ["[5, 6]".toList] := by with_unfolding_all rfl
  rw [h2] at h1
  simp [selected, XStep.meaning, J.parts, Members.parts, Elems.parts, matches_prop, matches_slice, matches_nil,
    matches_nil_left, J.render, inSlice] at h1

/-- A query that consists of single indexes only reads an uninitialised flag
(dfa_builder.cpp:371), so no result is defined. -/
example (n : Nat) : buildCtx (astX [.index n]) = none := rfl

/-! ## C05 and C06: refutations -/

/-- `$.a[?(@.x)]`. -/
def exEndFilter : Ast := .predicate (.concat .root (.id ['a'])) (.filter (exprTree (.prop [['x']])))

/-- **C05 is false**: `$.a[?(@.x)]` on `{"a": [{"x": 1}, {"y": 1}]}` returns the tested property and both
elements: the rule of the filter is also the last rule, so its state is an output state
(dfa_builder.cpp:303-306) and no predicate remains. -/
theorem c05_false (O : NumOps) :
    results O exEndFilter "{\"a\": [{\"x\": 1}, {\"y\": 1}]}".toList =
      some ["1".toList, "{\"x\": 1}".toList, "{\"y\": 1}".toList] := by
  with_unfolding_all rfl

/-- `$.a[?(@.b)].b`. -/
def exSameProp : Ast :=
  .concat (.predicate (.concat .root (.id ['a'])) (.filter (exprTree (.prop [['b']])))) (.id ['b'])

/-- **C06 is false**: `$.a[?(@.b)].b` on `{"a": [{"b": 1}, {"y": 1}]}` returns the elements as well: the
path `$.a[*].b` is already registered as a condition, so no rule for the result is created
(dfa_builder.cpp:129-131). -/
theorem c06_false (O : NumOps) :
    results O exSameProp "{\"a\": [{\"b\": 1}, {\"y\": 1}]}".toList =
      some ["1".toList, "{\"b\": 1}".toList, "{\"y\": 1}".toList] := by
  with_unfolding_all rfl

/-! ## C25: refutation -/

/-- `$..a[?(@.x)].b`. -/
def exRec : Ast :=
  .concat (.predicate (.parentConcat .root (.id ['a'])) (.filter (exprTree (.prop [['x']])))) (.id ['b'])

set_option maxRecDepth 100000 in
/-- **C25 is false**: with `$..a[?(@.x)].b` the end of an inner element clears the conditions recorded for
the outer one, so an element with `x` loses its result when it contains another tested element, although
the same element without the inner one keeps it. -/
theorem c25_false (O : NumOps) :
    results O exRec "{\"a\": [{\"x\": \"s\", \"a\": [{\"x\": \"s\", \"b\": 2 }], \"b\": 3 }]}".toList = some [] ∧
    results O exRec "{\"a\": [{\"x\": \"s\", \"a\": [], \"b\": 3 }]}".toList = some ["3".toList] := by
  constructor <;> with_unfolding_all rfl

/-- **C25, what does hold** In a forest in which elements of the same filter are not nested, the values
recorded for an element are untouched by the elements inside it: the verdict on the element is that on
the properties directly in it. -/
theorem c25_unnested_partial (O : NumOps) (ctx : QCtx) (names : Nat → List Str)
    (holds : Nat → (Str → Option Str) → Bool) (s : Nat) (f : Forest) (p : PF)
    (c : Nat → Option Conds) (fi : Nat) (rest : List (Nat × Nat)) (b o : List Str)
    (hj : Decided O ctx names holds f) (hf : Fits ctx names (some s) f)
    (hu : (Forest.elem s f .nil).unnested = true) (h : Is p c ((s, fi) :: rest) b o)
    (hc : c s = some (condTable (names s) fun _ => none)) (hn : (names s).Nodup)
    (hp : ∀ x ∈ f.preds, c x = some (condTable (names x) fun _ => none)) :
    ((forestTuples f).foldl (pfStep O ctx) p).conds s = some (condTable (names s) f.recorded) := by
  obtain ⟨hns, hui, _⟩ := unnested_elem hu
  have := inner_values f p c s fi rest b o (fun _ => none) hj hf hui h hc hn
    (fun x hx => ⟨by rintro rfl; exact hns hx, hp x hx⟩)
  rw [this.conds]
  simp only [over, setConds, if_true]
  congr 2
  funext m
  cases f.recorded m <;> rfl

/-! ### An instance of the hypotheses of C24 -/

/-- Predicates 1 and 2 test a property `x`; states 3 and 4 report it inside them, state 5 is a result.  Predicate 6 is a
constant and tests nothing. -/
def exCtx : QCtx where
  statesNum := 7
  subtrees s := if s = 1 ∨ s = 2 then some (.var ['x']) else if s = 3 ∨ s = 4 then some (.var ['x'])
    else if s = 6 then some (.not (.var [])) else none
  mapping s := if s = 1 then [some 3] else if s = 2 then [some 4] else []
  predStates := [1, 2, 6]

/-- A result outside elements, an element of filter 1 with a result, and an element of filter 2 inside it, and an element
of the constant filter in which a property tested elsewhere is found. -/
def exForest : Forest :=
  .cand 5 ['q'] (
  .elem 1 (.cand 5 ['r'] (.elem 2 (.cand 5 ['s'] (.cond 4 ['x'] "true".toList .nil)) (.cond 3 ['x'] "true".toList .nil)))
    (.elem 1 (.cand 5 ['t'] .nil) (.elem 6 (.cand 4 ['u'] .nil) .nil)))

/-- The hypotheses of `c24_nested` hold for `exForest`: three results are released, one in an element and one outside
elements are not. -/
example (O : NumOps) :
    (generate O exCtx (PF.init exCtx) (forestTuples exForest)).output = [['r'], ['s'], ['u']] := by
  let names : Nat → List Str := fun s => if s = 6 then [] else [['x']]
  let holds : Nat → (Str → Option Str) → Bool := fun s r => if s = 6 then true else (stringToValue O (r ['x'])).truth
  have hj : ∀ x, x = 1 ∨ x = 2 ∨ x = 6 → Judged O exCtx names holds x := by
    rintro x (rfl | rfl | rfl)
    · exact ⟨by simp [names], .var ['x'], rfl, fun r => by simp [evaluate, calculate, Conds.value, condTable, names, holds]⟩
    · exact ⟨by simp [names], .var ['x'], rfl, fun r => by simp [evaluate, calculate, Conds.value, condTable, names, holds]⟩
    · exact ⟨by simp [names], .not (.var []), rfl, fun r => rfl⟩
  have := (c24_nested O exCtx names holds exForest (PF.init exCtx) ⟨1, by decide, rfl⟩
    (decided_of_judged _ (by intro x hx; exact hj x (by simp [exForest, Forest.preds] at hx; omega))) (by
      simp [exForest, Fits, CandState, exCtx, names])
    (by decide) rfl rfl (by
      intro x hx
      have : x = 1 ∨ x = 2 ∨ x = 6 := by simp [exForest, Forest.preds] at hx; omega
      rcases this with rfl | rfl | rfl <;> rfl)).1
  rw [this]
  rfl

end JPS
