import Verif.FilterLast
import Verif.Props.FilterRun
/-!
# C05, C06: queries that end in a filter or in a tested property
-/

set_option autoImplicit false

namespace JPS
open Spec

/-- The paths covered: one filter, at the end; names without the separators of path texts, at most 253 of them. -/
structure LastFilter (p : List (QStep Num)) (e : Expr Num) : Prop where
  only : hasFilter p = false
  clean : CleanPath (p ++ [.filter e])
  names : (pathNames (p ++ [.filter e])).length ≤ 253

/-- **C05** What a query that ends in its only filter returns: for every element of the filtered arrays, in document
order and whatever the filter says, the texts of the properties the filter tests, then the element.

The full statement - only the elements that satisfy the filter - is false of the code (`c05_false`). -/
theorem c05_listing_partial {N : Type} (A : Arith N Num) (num : Str → N) (O : NumOps) (p : List (QStep Num)) (e : Expr Num)
    (hq : LastFilter p e) (pre trail : Str) (v : J) (h : Readable pre trail v) (ht : v.tidy = true) :
    results O (fAst (p ++ [.filter e])) (pre ++ v.render ++ trail) =
      some ((v.select A num (p ++ [.all])).flatMap fun x => x.shown e.props ++ [x.render]) := by
  have := lastCtx_serial A num O p e hq.clean hq.only hq.names pre trail v h.preWs h.trailWs h.noBlank h.container
    h.wf h.tight h.depth ht
  unfold results
  rw [serialRun_single O MEMORY_FOOTPRINT _ _ _ (lastCtx_build p e hq.clean) h.nonempty h.size]
  simp only [Option.map_some, this]
  rfl

section
variable {N : Type} (A : Arith N Num) (num : Str → N)

mutual
theorem select_last (e : Expr Num) : ∀ (v : J) (p : List (QStep Num)),
    (v.select A num (p ++ [.filter e])).Sublist (v.select A num (p ++ [.all]))
  | .lit _, [] => by simp [J.select]
  | .str _, [] => by simp [J.select]
  | .obj _ _, [] => by simp [J.select]
  | .arr _ es, [] => by
    simp only [List.nil_append, J.select]
    exact elems_last e es
  | .lit _, s :: p => by cases s <;> exact .slnil
  | .str _, s :: p => by cases s <;> exact .slnil
  | .obj _ ms, s :: p => by
    cases s with
    | prop k => simp only [List.cons_append, J.select]; exact selectM_last e k ms p
    | all => exact .slnil
    | filter _ => exact .slnil
  | .arr _ es, s :: p => by
    cases s with
    | prop k => exact .slnil
    | all => simp only [List.cons_append, J.select]; exact selectE_last e none es p
    | filter e' => simp only [List.cons_append, J.select]; exact selectE_last e (some e') es p
theorem elems_last (e : Expr Num) : ∀ es : Elems, (es.select A num (some e) []).Sublist (es.select A num none [])
  | .nil => .slnil
  | .cons _ v _ rest => by
    simp only [Elems.select]
    refine List.Sublist.append ?_ (elems_last e rest)
    rw [show passes A num (none : Option (Expr Num)) v = true from rfl, if_pos rfl]
    cases passes A num (some e) v with
    | true => rw [if_pos rfl]; exact .refl _
    | false => rw [if_neg (by simp)]; exact List.nil_sublist _
theorem selectE_last (e : Expr Num) (t : Option (Expr Num)) : ∀ (es : Elems) (p : List (QStep Num)),
    (es.select A num t (p ++ [.filter e])).Sublist (es.select A num t (p ++ [.all]))
  | .nil, p => .slnil
  | .cons _ v _ rest, p => by
    simp only [Elems.select]
    refine List.Sublist.append ?_ (selectE_last e t rest p)
    split
    · exact select_last e v p
    · exact .slnil
theorem selectM_last (e : Expr Num) (k : Str) : ∀ (ms : Members) (p : List (QStep Num)),
    (ms.select A num k (p ++ [.filter e])).Sublist (ms.select A num k (p ++ [.all]))
  | .nil, p => .slnil
  | .cons _ m _ _ v _ rest, p => by
    simp only [Members.select]
    refine List.Sublist.append ?_ (selectM_last e k rest p)
    split
    · exact select_last e v p
    · exact .slnil
end

end

theorem sublist_flatMap_last {α β : Type} (f : α → β) (g : α → List β) : ∀ {l m : List α}, l.Sublist m →
    (l.map f).Sublist (m.flatMap fun x => g x ++ [f x])
  | _, _, .slnil => .slnil
  | _, _, .cons x h => by
    rw [List.flatMap_cons]
    exact (sublist_flatMap_last f g h).trans (List.sublist_append_right _ _)
  | _, _, .cons_cons x h => by
    rw [List.flatMap_cons, List.map_cons]
    have := sublist_flatMap_last f g h
    exact List.Sublist.append (l₁ := [f x]) (List.sublist_append_right _ _) this

/-- **C05** No element that satisfies the filter is lost, and they keep their order. -/
theorem c05_kept_partial (O : NumOps) (p : List (QStep Num)) (e : Expr Num) (hq : LastFilter p e) (pre trail : Str) (v : J)
    (h : Readable pre trail v) (ht : v.tidy = true) :
    ∃ rs, results O (fAst (p ++ [.filter e])) (pre ++ v.render ++ trail) = some rs ∧
      ((v.select (arith O) O.atof (p ++ [.filter e])).map J.render).Sublist rs := by
  refine ⟨_, c05_listing_partial (arith O) O.atof O p e hq pre trail v h ht, ?_⟩
  exact sublist_flatMap_last J.render (J.shown e.props) (select_last (arith O) O.atof e v p)

/-- **C05** A final filter without tested properties returns every element: it equals `[*]`, also when its constant
is false. -/
theorem c05_constant_partial {N : Type} (A : Arith N Num) (num : Str → N) (O : NumOps) (p : List (QStep Num)) (e : Expr Num)
    (hq : LastFilter p e) (he : e.props = []) (pre trail : Str) (v : J) (h : Readable pre trail v) (ht : v.tidy = true) :
    results O (fAst (p ++ [.filter e])) (pre ++ v.render ++ trail) =
      some ((v.select A num (p ++ [.all])).map J.render) := by
  rw [c05_listing_partial A num O p e hq pre trail v h ht, he]
  have none : ∀ x : J, x.shown [] = [] := by
    intro x
    have m : ∀ ms : Members, ms.shown [] = [] := by
      intro ms
      exact Members.rec (motive_1 := fun v => v.shown [] = []) (motive_2 := fun _ => True) (motive_3 := fun ms => ms.shown [] = [])
        (fun _ => rfl) (fun _ => rfl) (fun _ _ _ => rfl) (fun _ ms ih => by simp [J.shown, ih]) trivial (fun _ _ _ _ _ _ => trivial)
        rfl (fun _ k _ _ v _ rest hv hr => by
          rw [Members.shown, show below k [] = [] from rfl, hv, hr]; rfl) ms
    cases x <;> simp [J.shown, m]
  congr 1
  generalize v.select A num (p ++ [.all]) = l
  induction l with
  | nil => rfl
  | cons x l ih => rw [List.flatMap_cons, ih, none]; rfl

namespace C05

/-- `$.a[?(@.b < 2 && @.c)]` -/
def pred : Expr Num := .bin .and (.bin .lt (C03.ref "b") (.num ⟨false, 2, []⟩)) (C03.ref "c")
def path : List (QStep Num) := [.prop (C03.key "a")]

/-- `{"a": [{"c": {"b": 5 },"b": 1 },{"b": 3 },7 ]}` -/
def doc : J :=
  .obj [] (.cons [] (C03.key "a") [] [' '] (.arr [] (
    .cons [] (.obj [] (.cons [] (C03.key "c") [] [' ']
        (.obj [] (.cons [] (C03.key "b") [] [' '] (C03.lit "5") [' '] .nil)) []
      (.cons [] (C03.key "b") [] [' '] (C03.lit "1") [' '] .nil))) []
    (.cons [] (.obj [] (.cons [] (C03.key "b") [] [' '] (C03.lit "3") [' '] .nil)) []
    (.cons [] (C03.lit "7") [' '] .nil)))) [] .nil)

theorem query : LastFilter path pred := by
  refine ⟨rfl, ⟨rfl, by unfold cleanName; decide⟩, by decide⟩

theorem readable : Readable [] ['\n'] doc :=
  ⟨by decide, by decide, by decide, by decide, by decide, by decide, by decide, by decide⟩

end C05

/-- The hypotheses hold for a filter with two tested properties, one of them an object; the filter rejects
the last two elements, all three are returned. -/
example : LastFilter C05.path C05.pred ∧ Readable [] ['\n'] C05.doc ∧ C05.doc.tidy = true ∧
    (C05.doc.select (arith intOps) intOps.atof (C05.path ++ [.filter C05.pred])).length = 1 ∧
    results intOps (fAst (C05.path ++ [.filter C05.pred])) (C05.doc.render ++ ['\n']) =
      some ["".toList, "1".toList, "{\"c\": {\"b\": 5 },\"b\": 1 }".toList, "3".toList, "{\"b\": 3 }".toList,
        "7".toList] := by
  refine ⟨C05.query, C05.readable, by decide, by with_unfolding_all rfl, ?_⟩
  have := c05_listing_partial (arith intOps) intOps.atof intOps _ _ C05.query [] ['\n'] C05.doc C05.readable (by decide)
  rw [List.nil_append] at this
  rw [this]
  with_unfolding_all rfl

/-! ### C06 -/

theorem foldl_props (q : List Str) : ∀ c : SCtx, (q.map (QStep.prop (L := Num))).foldl fctxStep c =
    { c with st := c.st ++ q.map SE.dotProp, lastGen := if q = [] then c.lastGen else some false } := by
  induction q with
  | nil => intro c; simp
  | cons k q ih =>
    intro c
    rw [List.map_cons, List.foldl_cons, ih]
    simp only [fctxStep, SCtx.push]
    congr 1
    · simp
    · simp

/-- **C06** A query that returns the very property `q` its last filter tests is compiled to the table of the query
without the `.q`: the property is registered as a condition, and no rule for the result is added.  So every
run - serial or parallel, on any input - is that of the query that ends in the filter.

The full statement - the property of the satisfying elements - is false of the code (`c06_false`). -/
theorem c06_ignored_partial (p : List (QStep Num)) (e : Expr Num) (q : List Str)
    (hp : CleanPath (p ++ [.filter e])) (hq : q ∈ e.props) :
    buildQuery (fAst (p ++ .filter e :: q.map .prop)) = buildQuery (fAst (p ++ [.filter e])) := by
  have ha := lastCtx_all p e hp
  have e1 : p ++ QStep.filter e :: q.map .prop = (p ++ [.filter e]) ++ q.map .prop := by simp
  have hr : refsNamed (p ++ .filter e :: q.map .prop) = true := by
    rw [e1]
    have : ∀ p : List (QStep Num), refsNamed p = true → refsNamed (p ++ q.map .prop) = true := by
      intro p
      induction p with
      | nil =>
        intro _
        clear hq e1
        induction q with
        | nil => rfl
        | cons k q ih => exact ih
      | cons s p ih =>
        intro h
        cases s <;> simp only [List.cons_append, refsNamed, Bool.and_eq_true] at h ⊢
        · exact ih h
        · exact ih h
        · exact ⟨h.1, ih h.2⟩
    exact this _ hp.1
  have hc : construct (fAst (p ++ .filter e :: q.map .prop)) .init = (q.map QStep.prop).foldl fctxStep (lastCtx p e) := by
    rw [construct_fAst _ hr, e1, List.foldl_append]; rfl
  rw [foldl_props] at hc
  have hb := buildCtx_known hc (by
      show (if q = [] then _ else _ : Option Bool).isSome = true
      split
      · exact lastCtx_gen p e
      · rfl) (by
      show getOutput ((lastCtx p e).st ++ q.map SE.dotProp) ∈ (lastCtx p e).check
      rw [ha.st, ha.inv.check]
      refine List.mem_map.2 ⟨p.map sk ++ [.all] ++ q.map .prop, ?_, ?_⟩
      · rw [List.map_append]
        refine List.mem_append_right _ (List.mem_map.2 ⟨⟨_, .cond q⟩, ?_, rfl⟩)
        exact List.mem_cons_of_mem _ (List.mem_map.2 ⟨q, mem_testedPaths.2 hq, rfl⟩)
      · congr 1
        simp [seOf, Function.comp_def])
  unfold buildQuery
  rw [hb, lastCtx_build p e hp]
  rfl

/-- **C06** What such a query returns: the listing of `c05_listing_partial`. -/
theorem c06_listing_partial {N : Type} (A : Arith N Num) (num : Str → N) (O : NumOps) (p : List (QStep Num)) (e : Expr Num)
    (hq : LastFilter p e) (q : List Str) (hm : q ∈ e.props) (pre trail : Str) (v : J) (h : Readable pre trail v)
    (ht : v.tidy = true) :
    results O (fAst (p ++ .filter e :: q.map .prop)) (pre ++ v.render ++ trail) =
      some ((v.select A num (p ++ [.all])).flatMap fun x => x.shown e.props ++ [x.render]) := by
  rw [← c05_listing_partial A num O p e hq pre trail v h ht]
  unfold results serialRun
  rw [c06_ignored_partial p e q hq.clean hm]

/-- A tested property of the example. -/
example : LastFilter C05.path C05.pred ∧ [C03.key "c"] ∈ C05.pred.props := ⟨C05.query, by decide⟩

set_option maxRecDepth 100000 in
/-- **C05** A query that ends in a filter below another filter, `$.a[?(@.x)].b[?(@.y < 5)]`: the element of the last filter is a candidate
of the other one, and its state is mapped to the expression `@.y < 5`, whose operator is read as a string (predicate.c:76-100). -/
theorem c05_false_nested :
    (serialRun intOps MEMORY_FOOTPRINT (fAst [.prop ['a'], .filter (.prop [['x']]), .prop ['b'],
        .filter (.bin .lt (.prop [['y']]) (.num ⟨false, 5, []⟩))]) "{\"a\": [{\"x\": 1 ,\"b\": [{\"y\": 2 }]}]}".toList).map
      (fun r => (r.sa.ub, r.pf.ub)) = some (false, true) := by
  decide +kernel

end JPS
