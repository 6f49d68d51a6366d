import Verif.StateBlowup
import Verif.FilterStates
import Verif.ParMerge
import Verif.Props.FilterBelow
/-!
# C58: how many states the automaton of a query has
-/

set_option autoImplicit false

namespace JPS
open Spec

/-- C58 in full: the automaton of a path of at most 98 steps fits the arrays for 100 states. -/
def C58Full : Prop :=
  ∀ p : List Step, p ≠ [] → fewNames p → p.length ≤ 98 → ∀ q, buildQuery (astOf p) = some q → q.1.statesNum ≤ MAX_STATE

/-- **C58** A path without descendant steps has one state per step, a start state and a dead state.

Missing for the full statement: paths with descendant steps (false of the code, `c58_false`). -/
theorem c58_levels_partial (p : List Step) (hp : p ≠ []) (hs : fewNames p) (hd : ∀ s ∈ p, isDesc s = false) :
    (buildQuery (astOf p)).map (·.1.statesNum) = some (p.length + 2) := by
  obtain ⟨c, hc, h⟩ := pathCtx_of_build p hp hs
  unfold buildQuery
  rw [hc]
  exact congrArg some (h.levels_states hd)

/-- **C58** So it fits the arrays for 100 states exactly if it has at most 98 steps. -/
theorem c58_fits_partial (p : List Step) (hp : p ≠ []) (hs : fewNames p) (hd : ∀ s ∈ p, isDesc s = false) :
    ∃ q, buildQuery (astOf p) = some q ∧ (q.1.statesNum ≤ MAX_STATE ↔ p.length ≤ 98) := by
  have := c58_levels_partial p hp hs hd
  cases hq : buildQuery (astOf p) with
  | none => rw [hq] at this; cases this
  | some q =>
    rw [hq] at this
    have e : q.1.statesNum = p.length + 2 := Option.some.inj this
    refine ⟨q, rfl, ?_⟩
    rw [e]; simp only [MAX_STATE]; omega

/-- Non-vacuity: `$.a.*[0:2].b`. -/
example : (buildQuery (astOf [.prop ['a'], .dotAll, .slice (some 0) (some 2), .prop ['b']])).map (·.1.statesNum) = some 6 :=
  c58_levels_partial _ (by simp) (by unfold fewNames; decide) (by simp [isDesc])

/-- **C58** A path whose first descendant step is `d`: one state per step before it, and behind it one state for each set of
the items behind the repeated one at most (`..a` has two items, other steps one).  Slices are allowed. -/
theorem c58_desc_partial (B R : List Step) (d : Step) (hs : fewNames (B ++ d :: R)) (hB : ∀ s ∈ B, isDesc s = false)
    (hd : isDesc d = true) :
    ∃ q, buildQuery (astOf (B ++ d :: R)) = some q ∧ q.1.statesNum ≤ B.length + 2 + 2 ^ (((d :: R).map stepItems).sum - 1) := by
  obtain ⟨c, hc, h⟩ := pathCtx_of_build (B ++ d :: R) (by simp) hs
  exact ⟨(tableOf c, contextOf c), by unfold buildQuery; rw [hc]; rfl, h.desc_states hB hd⟩

/-- Non-vacuity: `$.x..a.*[0:2].b` has at most 19 states. -/
example : ∃ q, buildQuery (astOf ([.prop ['x']] ++ .descProp ['a'] :: [.dotAll, .slice (some 0) (some 2), .prop ['b']])) = some q ∧
    q.1.statesNum ≤ 19 :=
  c58_desc_partial [.prop ['x']] [.dotAll, .slice (some 0) (some 2), .prop ['b']] (.descProp ['a']) (by unfold fewNames; decide)
    (by simp [isDesc]) rfl

/-- **C58** So a path fits the arrays for 100 states if at most seven items come from its first descendant step on and at most
34 steps before it. -/
theorem c58_desc_fits_partial (B R : List Step) (d : Step) (hs : fewNames (B ++ d :: R)) (hB : ∀ s ∈ B, isDesc s = false)
    (hd : isDesc d = true) (h1 : ((d :: R).map stepItems).sum ≤ 7) (h2 : B.length ≤ 34) :
    ∃ q, buildQuery (astOf (B ++ d :: R)) = some q ∧ q.1.statesNum ≤ MAX_STATE := by
  obtain ⟨q, h3, h4⟩ := c58_desc_partial B R d hs hB hd
  refine ⟨q, h3, ?_⟩
  have : 2 ^ (((d :: R).map stepItems).sum - 1) ≤ 2 ^ 6 := Nat.pow_le_pow_right (by omega) (by omega)
  simp only [MAX_STATE]
  omega

/-- Non-vacuity: `$.x..a..b[*].c`. -/
example : ∃ q, buildQuery (astOf ([.prop ['x']] ++ .descProp ['a'] :: [.descProp ['b'], .all, .prop ['c']])) = some q ∧
    q.1.statesNum ≤ MAX_STATE :=
  c58_desc_fits_partial [.prop ['x']] [.descProp ['b'], .all, .prop ['c']] (.descProp ['a']) (by unfold fewNames; decide)
    (by simp [isDesc]) rfl (by decide) (by decide)

/-- **C58** A path with filters below steps that are not descendant steps has at most one state for each step and each step of a tested
property path, a start state and a dead state. -/
theorem c58_filters_partial (B : List Step) (p : List (QStep Num)) (hB : noSlices B) (hd : ∀ s ∈ B, isDesc s = false)
    (h0 : p ≠ []) (hn : namedAfterFilter p = true) (hr : returnsTested p = false) (hp : CleanPath p)
    (hl : (B.filterMap stepName ++ pathNames p).length ≤ 253) :
    ∃ q, buildQuery (belowAst B p) = some q ∧ q.1.statesNum ≤ B.length + 2 + treeSize p := by
  obtain ⟨c, hc, hf⟩ := below_build B hB p h0 hp hn hr hl
  refine ⟨(tableOf c, contextOf c), by unfold buildQuery; rw [hc]; rfl, ?_⟩
  have h1 := hf.levels_states hd (pathRegs_stepTree p)
  rwa [length_stepTree] at h1

/-- **C58** The exact number for a path with filters: one state for each node of the tree of its steps and of the properties its filters
test, a start state and a dead state; it fits the arrays for 100 states exactly if the tree has at most 98 nodes. -/
theorem c58_filters_exact_partial (p : List (QStep Num)) (h0 : p ≠ []) (hn : namedAfterFilter p = true) (hr : returnsTested p = false)
    (hp : CleanPath p) (hl : (pathNames p).length ≤ 253) :
    ∃ q, buildQuery (fAst p) = some q ∧ q.1.statesNum = 2 + (different (stepTree [] p)).length ∧
      (q.1.statesNum ≤ MAX_STATE ↔ (different (stepTree [] p)).length ≤ 98) := by
  obtain ⟨c, hc, hf⟩ := ftab_of_build p h0 hp hn hr hl
  refine ⟨(tableOf c, contextOf c), by unfold buildQuery; rw [hc]; rfl, hf.states_exact, ?_⟩
  show (tableOf c).statesNum ≤ _ ↔ _
  rw [hf.states_exact]
  simp only [MAX_STATE]
  omega

/-- Non-vacuity: `$.a[?(@.x)].b[?(@.y < 5)].c` has nine states: five for its steps, two for the tested properties and two more. -/
example : ∃ q, buildQuery (fAst C03.path) = some q ∧ q.1.statesNum = 9 := by
  obtain ⟨q, h1, h2, _⟩ := c58_filters_exact_partial C03.path (by simp [C03.path]) rfl rfl ⟨rfl, by unfold cleanName; decide⟩ (by decide)
  exact ⟨q, h1, by rw [h2]; decide⟩

/-- Non-vacuity: in `$[?(@.x > 1 && @.x < 5)].b` the tested property counts once. -/
example : let p : List (QStep Num) := [.filter (.bin .and (.bin .gt (C03.ref "x") (.num ⟨false, 1, []⟩))
      (.bin .lt (C03.ref "x") (.num ⟨false, 5, []⟩))), .prop ['b']]
    ∃ q, buildQuery (fAst p) = some q ∧ q.1.statesNum = 5 := by
  intro p
  obtain ⟨q, h1, h2, _⟩ := c58_filters_exact_partial p (by simp [p]) rfl rfl ⟨rfl, by unfold cleanName; decide⟩ (by decide)
  exact ⟨q, h1, by rw [h2]; decide⟩

/-- **C58** A path with filters below steps the first descendant step of which is `d`: one state per step before it, and behind it one
state for each set of the items behind the repeated one, of the steps of the path and of the steps of tested properties at most. -/
theorem c58_below_desc_partial (B R : List Step) (d : Step) (p : List (QStep Num)) (hB : noSlices (B ++ d :: R))
    (hBd : ∀ s ∈ B, isDesc s = false) (hd : isDesc d = true)
    (h0 : p ≠ []) (hn : namedAfterFilter p = true) (hr : returnsTested p = false) (hp : CleanPath p)
    (hl : ((B ++ d :: R).filterMap stepName ++ pathNames p).length ≤ 253) :
    ∃ q, buildQuery (belowAst (B ++ d :: R) p) = some q ∧
      q.1.statesNum ≤ B.length + 2 + 2 ^ (((d :: R).map stepItems).sum - 1 + treeSize p) := by
  obtain ⟨c, hc, hf⟩ := below_build _ hB p h0 hp hn hr hl
  refine ⟨(tableOf c, contextOf c), by unfold buildQuery; rw [hc]; rfl, ?_⟩
  have h1 := hf.desc_states hBd hd (pathRegs_stepTree p)
  rwa [length_stepTree] at h1

/-- The queries of C57 without descendant steps need no condition on their table but the length of the query. -/
theorem BelowQuery.of_levels {B : List Step} {p : List (QStep Num)} (hne : B ≠ []) (hB : JPS.noSlices B) (hd : ∀ s ∈ B, isDesc s = false)
    (hf : Spec.hasFilter p = true) (hn : namedAfterFilter p = true) (hr : returnsTested p = false) (hp : CleanPath p)
    (hl : (B.filterMap stepName ++ pathNames p).length ≤ 253) (hz : B.length + treeSize p ≤ 98) : BelowQuery B p := by
  refine ⟨hne, hB, hf, hn, hr, hp, hl, ?_⟩
  intro q hq
  obtain ⟨q', h1, h2⟩ := c58_filters_partial B p hB hd (by rintro rfl; cases hf) hn hr hp hl
  rw [hq] at h1
  cases h1
  omega

/-- Non-vacuity: `$.*.*[?(@.x)].b`. -/
example : BelowQuery [.dotAll, .dotAll] C57.path :=
  .of_levels (by simp) (by simp [noSlices, isSlice]) (by simp [isDesc]) rfl rfl rfl ⟨rfl, by unfold cleanName; decide⟩ (by decide)
    (by decide)

/-- The queries of C57 with descendant steps need no condition on their table if at most 34 steps come before the first descendant step and
at most six items behind its repeated one, counting the steps of the path and of tested properties. -/
theorem BelowQuery.of_desc {B R : List Step} {d : Step} {p : List (QStep Num)} (hB : JPS.noSlices (B ++ d :: R))
    (hBd : ∀ s ∈ B, isDesc s = false) (hd : isDesc d = true)
    (hf : Spec.hasFilter p = true) (hn : namedAfterFilter p = true) (hr : returnsTested p = false) (hp : CleanPath p)
    (hl : ((B ++ d :: R).filterMap stepName ++ pathNames p).length ≤ 253) (h1 : ((d :: R).map stepItems).sum + treeSize p ≤ 7)
    (h2 : B.length ≤ 34) : BelowQuery (B ++ d :: R) p := by
  refine ⟨by simp, hB, hf, hn, hr, hp, hl, ?_⟩
  intro q hq
  obtain ⟨q', h3, h4⟩ := c58_below_desc_partial B R d p hB hBd hd (by rintro rfl; cases hf) hn hr hp hl
  rw [hq] at h3
  cases h3
  have hle : ((d :: R).map stepItems).sum - 1 + treeSize p ≤ 6 := by
    have : 1 ≤ ((d :: R).map stepItems).sum := by
      rw [List.map_cons, List.sum_cons]
      cases d <;> simp [stepItems] <;> omega
    omega
  have : 2 ^ (((d :: R).map stepItems).sum - 1 + treeSize p) ≤ 2 ^ 6 := Nat.pow_le_pow_right (by omega) hle
  omega

/-- Non-vacuity: `$.y..a[?(@.x)].b`. -/
example : BelowQuery ([.prop ['y']] ++ .descProp ['a'] :: []) C57.path :=
  .of_desc (by simp [noSlices, isSlice]) (by simp [isDesc]) rfl rfl rfl rfl ⟨rfl, by unfold cleanName; decide⟩ (by decide) (by decide)
    (by decide)

/-! ### Where the statement fails -/

theorem deep_fewNames (a : Str) (n : Nat) : fewNames (deepPath a n) := by
  unfold fewNames
  have : (deepPath a n).filterMap stepName = [a] := by
    unfold deepPath
    rw [List.filterMap_cons]
    have : (List.replicate n Step.dotAll).filterMap stepName = [] := by
      rw [List.filterMap_eq_nil_iff]
      intro s hs
      rw [(List.mem_replicate.1 hs).2]; rfl
    rw [this]; rfl
  rw [this]
  simp [distinct]

/-- `..a` followed by `n` times `.*` has at least `2 ^ (n + 1)` states: after any word the automaton knows which of the
last `n + 1` names were `a`. -/
theorem c58_exponential (a : Str) (n : Nat) :
    ∃ q, buildQuery (astOf (deepPath a n)) = some q ∧ 2 ^ (n + 1) ≤ q.1.statesNum := by
  obtain ⟨c, hc, h⟩ := pathCtx_of_build (deepPath a n) (by simp [deepPath]) (deep_fewNames a n)
  exact ⟨(tableOf c, contextOf c), by unfold buildQuery; rw [hc]; rfl, h.deep_states⟩

/-- The bound of `c58_desc_partial` is met: `..a` followed by `n` times `.*` has `2 ^ (n + 1) + 2` states, so it fits the
arrays for 100 states exactly if `n` is at most 5. -/
theorem c58_deep_exact (a : Str) (n : Nat) :
    ∃ q, buildQuery (astOf (deepPath a n)) = some q ∧ q.1.statesNum = 2 ^ (n + 1) + 2 ∧ (q.1.statesNum ≤ MAX_STATE ↔ n ≤ 5) := by
  obtain ⟨c, hc, h⟩ := pathCtx_of_build (deepPath a n) (by simp [deepPath]) (deep_fewNames a n)
  refine ⟨(tableOf c, contextOf c), by unfold buildQuery; rw [hc]; rfl, h.deep_states_exact, ?_⟩
  show (tableOf c).statesNum ≤ _ ↔ _
  rw [h.deep_states_exact]
  simp only [MAX_STATE]
  constructor
  · intro hle
    apply Classical.byContradiction
    intro hn
    have : 2 ^ 7 ≤ 2 ^ (n + 1) := Nat.pow_le_pow_right (by omega) (by omega)
    omega
  · intro hn
    have : 2 ^ (n + 1) ≤ 2 ^ 6 := Nat.pow_le_pow_right (by omega) (by omega)
    omega

/-- Non-vacuity: `$..a.*.*` has ten states. -/
example : (buildQuery (astOf (deepPath ['a'] 2))).map (·.1.statesNum) = some 10 := by
  obtain ⟨q, h1, h2, _⟩ := c58_deep_exact ['a'] 2
  rw [h1]
  exact congrArg some h2

/-- **C58 is false**: `$..a.*.*.*.*.*.*` has at least 128 states. -/
theorem c58_false : ¬ C58Full := by
  intro h
  obtain ⟨q, h1, h2⟩ := c58_exponential ['a'] 6
  have := h _ (by simp [deepPath]) (deep_fewNames _ _) (by simp [deepPath]) q h1
  simp only [MAX_STATE] at this
  omega

/-- A parallel run with a table of more than 100 states overruns the array of start states of the second worker, whatever
the chunks. -/
theorem par_overrun (d : QDfa) (hd : MAX_STATE < d.statesNum) (ct : Option CTable) (u : Nat → UState) (old : Option K)
    (x y : Str) (cs : List Str) (k : K) (h : executeParallel d ct u old (x :: y :: cs) = some k) : k.bad = true := by
  have hw : (runWorker d ct (u 1) 1 y).bad = true := by
    have h0 : (W.init (startStates d 1) (u 1)).bad = true := by
      simp only [W.bad, W.init, startStates, Nat.one_ne_zero, if_false, List.length_range, Bool.or_eq_true, decide_eq_true_eq]
      exact .inl hd
    have h1 := W.run_bad (E := ⟨d, 1 == 0, y, ct, some (startStates d 1)⟩) (ts := lexAll y) h0
    unfold runWorker
    simp only [W.bad, W.orUb, W.finish, Bool.or_eq_true] at h1 ⊢
    rcases h1 with h1 | h1
    · exact .inl (.inl (.inl (.inl h1)))
    · exact .inr h1
  cases h
  refine K.orUb_bad ?_
  simp only [workersFrom, combineLoop]
  refine combineLoop_bad _ ?_
  simp only [W.bad] at hw
  unfold K.chunk
  rw [hw]
  exact K.orUb_true _

/-- **C58** The parallel run of `$..a.*.*.*.*.*.*`, or with more `.*`, writes past the array of start states of a worker on every
file that is divided in at least two chunks. -/
theorem c58_false_parallel (O : NumOps) (a : Str) (n : Nat) (hn : 6 ≤ n) (ct : Option CTable) (u : Nat → UState) (cores : Nat)
    (file x y : Str) (cs : List Str) (hpart : partition cores file = some ((x :: y :: cs).map some)) :
    ∃ q r, buildQuery (astOf (deepPath a n)) = some q ∧ parallelPartialRun O q.1 q.2 ct u cores none file = some r ∧ r.k.bad = true := by
  obtain ⟨q, h1, h2⟩ := c58_exponential a n
  have hbig : MAX_STATE < q.1.statesNum := by
    have : 2 ^ 7 ≤ 2 ^ (n + 1) := Nat.pow_le_pow_right (by omega) (by omega)
    simp only [MAX_STATE]
    omega
  obtain ⟨k, hk⟩ : ∃ k, executeParallel q.1 ct u none (x :: y :: cs) = some k := ⟨_, rfl⟩
  refine ⟨q, ⟨k, generate O q.2 (PF.init q.2) k.tuples⟩, h1, ?_, par_overrun q.1 hbig ct u none x y cs k hk⟩
  unfold parallelPartialRun
  rw [hpart]
  have e : ((x :: y :: cs).map some).any Option.isNone = false := by simp
  have e2 : ((x :: y :: cs).map some).filterMap id = x :: y :: cs := by simp [List.filterMap_map]
  simp only [e, e2, Option.map_none, hk]
  rfl

/-- Non-vacuity: a file divided in two chunks. -/
example : ∃ x y, partition 2 "{\"x\": 1, \"y\": 2, \"z\": 3}".toList = some ([x, y].map some) :=
  ⟨"{\"x\": 1, \"y\": 2, ".toList, "\"z\": 3}".toList, by decide⟩

theorem addOutput_ub {p : PF} {t : Str} (h : p.ub = true) : (p.addOutput t).ub = true := by simp [PF.addOutput, h]

theorem addBuffer_ub {p : PF} {t : Str} (h : p.ub = true) : (p.addBuffer t).ub = true := by simp [PF.addBuffer, h]

theorem foldl_ub {α : Type} {f : PF → α → PF} (hf : ∀ p t, p.ub = true → (f p t).ub = true) : ∀ (l : List α) (p : PF), p.ub = true →
    (l.foldl f p).ub = true
  | [], _, h => h
  | t :: l, p, h => foldl_ub hf l _ (hf p t h)

theorem pfStep_ub {O : NumOps} {ctx : QCtx} {p : PF} {t : Tuple} (h : p.ub = true) : (pfStep O ctx p t).ub = true := by
  unfold pfStep
  split
  · simp [pfOpen, h]
  · split
    · unfold pfClose
      split
      · rfl
      · split
        · rfl
        · show (pfRelease _ _ _ _).ub = true
          unfold pfRelease
          split
          · split
            · exact foldl_ub (fun _ _ => addOutput_ub) _ _ h
            · exact h
          · exact h
    · unfold pfOther
      split
      · exact h
      · split
        · exact addBuffer_ub h
        · split
          · rfl
          · exact addBuffer_ub h
          · split
            · rfl
            · split
              · exact h
              · exact addBuffer_ub h

theorem generate_ub {O : NumOps} {ctx : QCtx} {p : PF} (ts : List Tuple) (h : p.ub = true) : (generate O ctx p ts).ub = true := by
  unfold generate
  split
  · exact foldl_ub (fun _ _ => addOutput_ub) _ _ h
  · exact foldl_ub (fun _ _ => pfStep_ub) _ _ h

/-- **C58** The serial run of a filter after `..a` and seven or more `.*`, say `$..a.*.*.*.*.*.*.*[?(@.x)].b`, has a filter
state for which `predicate_conditions` has no room, and writes past that array on every file. -/
theorem c58_false_serial (O : NumOps) (a : Str) (n : Nat) (hn : 7 ≤ n) (e : Expr Num) (k : Str)
    (hnm : namedAfterFilter [QStep.filter e, .prop k] = true) (hr : returnsTested [QStep.filter e, .prop k] = false)
    (hp : CleanPath [QStep.filter e, .prop k]) (hl : ([a] ++ pathNames [QStep.filter e, .prop k]).length ≤ 253)
    (file : Str) (h0 : file ≠ []) (hsz : file.length ≤ MEMORY_FOOTPRINT) :
    (∃ q, buildQuery (belowAst (deepPath a n) [.filter e, .prop k]) = some q ∧ ∃ s ∈ q.2.predStates, MAX_PREDICATE_STATE ≤ s) ∧
    ¬ clean O (belowAst (deepPath a n) [.filter e, .prop k]) file := by
  have hnames : (deepPath a n).filterMap stepName = [a] := by
    unfold deepPath
    rw [List.filterMap_cons]
    have : (List.replicate n Step.dotAll).filterMap stepName = [] := by
      rw [List.filterMap_eq_nil_iff]
      intro s hs
      rw [(List.mem_replicate.1 hs).2]; rfl
    rw [this]; rfl
  obtain ⟨c, hc, hf⟩ := below_build (deepPath a n) (deep_noSlices a n) [.filter e, .prop k] (by simp) hp hnm hr (by rw [hnames]; exact hl)
  have hbig := hf.deep_preds
  have : 2 ^ 7 ≤ 2 ^ n := Nat.pow_le_pow_right (by omega) hn
  obtain ⟨s, hs, hge⟩ := preds_overrun (c := c) (n := MAX_PREDICATE_STATE) (by simp only [MAX_PREDICATE_STATE]; omega)
  refine ⟨⟨(tableOf c, contextOf c), by unfold buildQuery; rw [hc]; rfl, s, hs, hge⟩, ?_⟩
  intro hcl
  have hrun := serialRun_single O MEMORY_FOOTPRINT (belowAst (deepPath a n) [.filter e, .prop k]) file c hc h0 hsz
  have hub := (hcl _ hrun).2
  have hi : (PF.init (contextOf c)).ub = true := by
    show (_ || _) = true
    rw [Bool.or_eq_true]
    exact .inl (List.any_eq_true.2 ⟨s, hs, by simpa using hge⟩)
  have hg : (serialPartialRun O (tableOf c) (contextOf c) none file).pf.ub = true := generate_ub _ hi
  rw [hg] at hub
  cases hub

/-- Non-vacuity: `$..a.*.*.*.*.*.*.*[?(@.x)].b` meets the conditions. -/
example : namedAfterFilter C57.path = true ∧ returnsTested C57.path = false ∧ CleanPath C57.path ∧
    ([['a']] ++ pathNames C57.path).length ≤ 253 :=
  ⟨rfl, rfl, ⟨rfl, by unfold cleanName; decide⟩, by decide⟩

end JPS
