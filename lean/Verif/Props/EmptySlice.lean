import Verif.Props.ParallelActual
/-!
# C02: the slice `[0:0]`
-/

set_option autoImplicit false

namespace JPS
open Spec

/-- The parts of a context that table and query context depend on. -/
theorem tables_congr {c1 c2 : SCtx} (h1 : c1.rules = c2.rules) (h2 : c1.lastId = c2.lastId) (h3 : c1.names = c2.names)
    (h4 : c1.ranges = c2.ranges) (h5 : c1.trees = c2.trees) (h6 : c1.mapping = c2.mapping) :
    (tableOf c1, contextOf c1) = (tableOf c2, contextOf c2) := by
  obtain ⟨r1, s1, g1, l1, n1, k1, a1, t1, m1⟩ := c1
  obtain ⟨r2, s2, g2, l2, n2, k2, a2, t2, m2⟩ := c2
  dsimp only at h1 h2 h3 h4 h5 h6
  subst h1 h2 h3 h4 h5 h6
  rfl

/-- The slice `[0:0]` at the end of a path compiles to what `[*]` compiles to. -/
theorem build_empty (p : List Step) : buildQuery (astOf (p ++ [.slice (some 0) (some 0)])) = buildQuery (astOf (p ++ [.all])) := by
  obtain ⟨c, h1, h2, _, _⟩ := foldl_ctxStep p
  have fresh : ∀ s, ∀ q ∈ slicePrefs [] p, q ≠ p ++ [s] := by
    intro s q hq he
    obtain ⟨_, q', r, e1, e2, _⟩ := mem_slicePrefs hq
    rw [List.nil_append] at e2
    rw [← e2, he] at e1
    have := congrArg List.length e1
    simp at this
  have hnot : ∀ s, ¬ getOutput (c.push (seOf s)).st ∈ (c.push (seOf s)).check := by
    intro s hm
    have := ((h2.push s).create (fresh s)).1
    unfold SCtx.createDfa at this
    rw [if_pos hm] at this
    cases this
  have f0 : (c.push (seOf (.slice (some 0) (some 0)))).createDfa false =
      ({ c.push (seOf (.slice (some 0) (some 0))) with
          check := c.check ++ [getOutput (c.push (seOf (.slice (some 0) (some 0)))).st]
          lastGen := some true
          names := (c.push (seOf (.slice (some 0) (some 0)))).st.foldl addName c.names
          rules := c.rules ++ [(c.push (seOf (.slice (some 0) (some 0)))).st.flatMap
            (SE.items ((c.push (seOf (.slice (some 0) (some 0)))).st.foldl addName c.names))]
          lastId := some (c.rules.length + 1)
          ranges := c.ranges ++ [(0, 0)]
          trees := c.trees ++ [none] }, false) := by
    unfold SCtx.createDfa
    rw [if_neg (hnot _)]
    rfl
  have f1 : (c.push (seOf .all)).createDfa false =
      ({ c.push (seOf .all) with
          check := c.check ++ [getOutput (c.push (seOf .all)).st]
          lastGen := some true
          names := (c.push (seOf .all)).st.foldl addName c.names
          rules := c.rules ++ [(c.push (seOf .all)).st.flatMap (SE.items ((c.push (seOf .all)).st.foldl addName c.names))]
          lastId := some (c.rules.length + 1)
          ranges := c.ranges ++ [(0, 0)]
          trees := c.trees ++ [none] }, false) := by
    unfold SCtx.createDfa
    rw [if_neg (hnot _)]
    rfl
  have b0 : buildCtx (astOf (p ++ [.slice (some 0) (some 0)])) =
      some { ((c.push (seOf (.slice (some 0) (some 0)))).createDfa false).1 with
        ranges := ((c.push (seOf (.slice (some 0) (some 0)))).createDfa false).1.ranges.set
          (((c.push (seOf (.slice (some 0) (some 0)))).createDfa false).1.rules.length - 1) (0, 0) } := by
    simp only [buildCtx, construct_astOf, List.foldl_append, h1, List.foldl_cons, List.foldl_nil, ctxStep]
    rw [show SE.arrayIndex (sliceLo (some 0)) (sliceHi (some 0)) = seOf (.slice (some 0) (some 0)) from rfl, f0]
    rfl
  have b1 : buildCtx (astOf (p ++ [.all])) = some ((c.push (seOf .all)).createDfa false).1 := by
    simp only [buildCtx, construct_astOf, List.foldl_append, h1, List.foldl_cons, List.foldl_nil, ctxStep]
    rfl
  unfold buildQuery
  rw [b0, b1, f0, f1]
  simp only [Option.map_some, Option.some.injEq]
  have hlen : c.ranges.length = c.rules.length := by rw [h2.ranges, h2.rules]; simp
  apply tables_congr
  · simp [SCtx.push, seOf, addName, SE.items]
  · rfl
  · simp [SCtx.push, seOf, addName]
  · simp only [List.length_append, List.length_cons, List.length_nil, Nat.zero_add, Nat.add_sub_cancel]
    rw [List.set_append_right _ _ (by omega)]
    simp [hlen]
  · rfl
  · rfl

/-- C02, what `[0:0]` at the end of a path does: serial and parallel runs over any text are those of the path with `[*]` instead. -/
theorem c02_empty_last (O : NumOps) (p : List Step) (B cores : Nat) (u : Nat → Nat → UState) (file : Str) :
    serialRun O B (astOf (p ++ [.slice (some 0) (some 0)])) file = serialRun O B (astOf (p ++ [.all])) file ∧
    parallelRun O B cores u (astOf (p ++ [.slice (some 0) (some 0)])) file = parallelRun O B cores u (astOf (p ++ [.all])) file := by
  unfold serialRun parallelRun
  rw [build_empty]
  exact ⟨rfl, rfl⟩

/-- The results of a path that ends in `[0:0]`: those of the path with `[*]` instead. -/
theorem c02_empty_exact_partial (O : NumOps) (p : List Step) (hb : boundsOk p) (hs : fewNames (p ++ [.all]))
    (pre trail : Str) (v : J) (h : Readable pre trail v) (ht : v.tidy = true) :
    results O (astOf (p ++ [.slice (some 0) (some 0)])) (pre ++ v.render ++ trail) = some ((chosen (p ++ [.all]) v).map J.render) := by
  have hb' : boundsOk (p ++ [.all]) := by
    intro a b hm
    rcases List.mem_append.1 hm with hm | hm
    · exact hb a b hm
    · simp at hm
  rw [← (c02_actual_partial O (p ++ [Step.all]) (by simp) hb' hs pre trail v h ht).1]
  unfold results
  rw [(c02_empty_last O p MEMORY_FOOTPRINT 1 (fun _ _ => .other) _).1]

/-- `$.a[0:0]` meets the hypotheses and reports the element of the array. -/
example (O : NumOps) : results O (astOf ([.prop ['a']] ++ [.slice (some 0) (some 0)])) ([] ++ exThreeDeep.render ++ []) =
      some ((chosen ([.prop ['a']] ++ [.all]) exThreeDeep).map J.render) ∧
    (chosen ([.prop ['a']] ++ [.all]) exThreeDeep).map J.render = ["{\"a\": [0 ,{\"a\": [1 ]}]}".toList] := by
  refine ⟨c02_empty_exact_partial O _ (by intro a b h; simp at h) (by decide) [] [] exThreeDeep exThreeDeep_readable (by decide), ?_⟩
  rw [chosen_selected (flat_noDesc (by decide) _)]
  simp [selected, exThreeDeep, J.parts, Elems.parts, Members.parts, matches_prop, matches_all, matches_nil, matches_nil_left, J.render,
    Members.render, Elems.render]
  decide

set_option maxRecDepth 100000 in
/-- Before other steps the slice `[0:0]` is worse: its state is taken for that of a filter (dfa_builder.cpp:296-311, the bounds (0,0) do not
reset it), and at the end of an object the missing expression is evaluated (predicate.c:50-53, jsonpath_evaluator.h:214-215). -/
theorem c02_false_empty_inner (O : NumOps) :
    (serialRun O MEMORY_FOOTPRINT (astOf [.slice (some 0) (some 0), .prop ['a']]) "[{\"a\": 1 }]".toList).map (fun r => r.pf.ub) = some true := by
  with_unfolding_all rfl

end JPS
