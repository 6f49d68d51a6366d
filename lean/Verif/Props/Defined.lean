import Verif.Props.Parser
import Verif.Props.Index
/-!
# C56: every query that can be written is compiled
-/

set_option autoImplicit false

namespace JPS
open Spec

/-- Steps of every kind: steps without filters, filters and single indexes. -/
inductive AnyStep where
  | plain (s : Step)
  | filter (e : Expr Num)
  | index (n : Nat)

/-- The step is a single index `[n]`. -/
def AnyStep.isIndex : AnyStep → Bool
  | .index _ => true
  | _ => false

/-- The tree of one more step (parser_j.y:54-73). -/
def astAnyStep (t : Ast) : AnyStep → Ast
  | .plain s => astStep t s
  | .filter e => .predicate t (.filter (exprTree e))
  | .index n => .predicate t (.number ⟨false, n, []⟩)

/-- The tree of a path. -/
def astAny (p : List AnyStep) : Ast := p.foldl astAnyStep .root

theorem createDfa_gen (c : SCtx) (b : Bool) (h : c.lastGen ≠ none) : (c.createDfa b).1.lastGen ≠ none := by
  unfold SCtx.createDfa
  split
  · exact h
  · simp

theorem push_gen (c : SCtx) (e : SE) : (c.push e).lastGen ≠ none := by simp [SCtx.push]

theorem pushes_gen : ∀ (l : List Str) (c : SCtx), c.lastGen ≠ none →
    (l.foldl (fun c t => c.push (.dotProp t)) c).lastGen ≠ none
  | [], _, h => h
  | t :: l, c, _ => pushes_gen l _ (push_gen c _)

theorem constructFilter_gen (h : Nat) : ∀ (t : Ast) (c : SCtx), c.lastGen ≠ none →
    (constructFilter h t c).lastGen ≠ none
  | .var s, c, hc => by
    have h1 := createDfa_gen _ true (pushes_gen (splitDots s) c hc)
    unfold constructFilter
    dsimp only
    split <;> exact h1
  | .concat l r, c, hc => constructFilter_gen h r _ (constructFilter_gen h l c hc)
  | .parentConcat l r, c, hc => constructFilter_gen h r _ (constructFilter_gen h l c hc)
  | .predicate l r, c, hc => constructFilter_gen h r _ (constructFilter_gen h l c hc)
  | .script l, c, hc => constructFilter_gen h l c hc
  | .filter l, c, hc => constructFilter_gen h l c hc
  | .not l, c, hc => constructFilter_gen h l c hc
  | .bin _ l r, c, hc => constructFilter_gen h r _ (constructFilter_gen h l c hc)
  | .root, _, hc => hc
  | .id _, _, hc => hc
  | .wildcard, _, hc => hc
  | .range _ _, _, hc => hc
  | .number _, _, hc => hc
  | .string _, _, hc => hc
  | .ref, _, hc => hc

theorem construct_any_gen (t : Ast) (s : AnyStep) (c : SCtx) (hs : s.isIndex = false) :
    (construct (astAnyStep t s) c).lastGen ≠ none := by
  cases s with
  | index n => cases hs
  | filter e =>
    exact constructFilter_gen _ _ _ (createDfa_gen _ false (push_gen _ _))
  | plain s =>
    cases s with
    | slice a b => exact createDfa_gen _ false (push_gen _ _)
    | _ => exact push_gen _ _

theorem construct_any : ∀ (p : List AnyStep) (t : Ast) (c : SCtx),
    (construct (p.foldl astAnyStep t) c).lastGen = none ↔
      (∀ s ∈ p, s.isIndex = true) ∧ (construct t c).lastGen = none
  | [], t, c => by simp
  | s :: p, t, c => by
    rw [List.foldl_cons, construct_any p]
    cases s with
    | index n => simp only [astAnyStep, construct, constructRight, List.mem_cons, forall_eq_or_imp, AnyStep.isIndex, true_and]
    | plain s =>
      have := construct_any_gen t (.plain s) c rfl
      simp [this, AnyStep.isIndex]
    | filter e =>
      have := construct_any_gen t (.filter e) c rfl
      simp [this, AnyStep.isIndex]

/-- The full claim of C56. -/
def C56Full : Prop := ∀ p : List AnyStep, buildQuery (astAny p) ≠ none

/-- **C56** Compiling a path reads an uninitialised member of its context exactly if the path has no step other than
single indexes.  Every other path, with any steps and filters, is compiled. -/
theorem c56_exact (p : List AnyStep) : buildQuery (astAny p) = none ↔ ∀ s ∈ p, s.isIndex = true := by
  have h : buildQuery (astAny p) = none ↔ (construct (astAny p) .init).lastGen = none := by
    unfold buildQuery buildCtx
    dsimp only
    cases (construct (astAny p) SCtx.init).lastGen with
    | none => simp
    | some b => cases b <;> simp
  rw [h, astAny, construct_any]
  simp [construct, SCtx.init]

/-- **C56** From the text: a path of at least one step, of any kind but single indexes, with filters in any place and
any blanks, is read and compiled. -/
theorem c56_text_partial (p : List (FStep Num)) (hp : ∀ x ∈ p, x.Writable NumOk) (h0 : p ≠ []) (s : Str)
    (hs : Written ([['$']] ++ p.flatMap (FStep.words numWords)) s) :
    ∃ t q, analysisJSONPath s = some t ∧ buildQuery t = some q := by
  refine ⟨astFOf p, ?_⟩
  let f : FStep Num → AnyStep := fun x => match x with | .plain s => .plain s | .filter e => .filter e
  have e : ∀ (p : List (FStep Num)) (t : Ast), p.foldl astFStep t = (p.map f).foldl astAnyStep t := by
    intro p
    induction p with
    | nil => intro t; rfl
    | cons x p ih =>
      intro t
      rw [List.foldl_cons, ih, List.map_cons, List.foldl_cons]
      cases x <;> rfl
  have hne : buildQuery (astFOf p) ≠ none := by
    have := c56_exact (p.map f)
    unfold astAny at this
    rw [← e] at this
    unfold astFOf
    rw [Ne, this]
    cases p with
    | nil => exact absurd rfl h0
    | cons x p =>
      intro hall
      have := hall (f x) (by simp)
      cases x <;> cases this
  cases hq : buildQuery (astFOf p) with
  | none => exact absurd hq hne
  | some q => exact ⟨q, c37_levels p hp s hs, rfl⟩

/-- **C56 is false**: the path `$`, which is read, and the path `$[5]` have no automaton: `last_st_generated` is read
without having been written (dfa_builder.cpp:369, 92). -/
theorem c56_false : ¬ C56Full ∧ analysisJSONPath "$".toList = some (astAny []) ∧ buildQuery (astAny []) = none ∧
    analysisJSONPath "$[5]".toList = some (astAny [.index 5]) ∧ buildQuery (astAny [.index 5]) = none :=
  ⟨fun h => h [] rfl, by decide, rfl, by decide, rfl⟩

/-- A path with a filter, a single index and a name is compiled. -/
example : ∃ q, buildQuery (astAny [.filter (.prop [['x']]), .index 2, .plain (.prop ['b'])]) = some q := ⟨_, rfl⟩

/-- The hypotheses of `c56_text_partial` hold for `$.a[?(@.x-1-2*@.y<=3&&!@.z)]..b`. -/
example : let p : List (FStep Num) := [.plain (.prop ['a']), .filter exExpr, .plain (.descProp ['b'])]
    (∀ x ∈ p, x.Writable NumOk) ∧ p ≠ [] ∧
    Written ([['$']] ++ p.flatMap (FStep.words numWords)) "$.a[?(@.x-1-2*@.y<=3&&!@.z)]..b".toList := by
  refine ⟨?_, by simp, written_tight _ (by decide)⟩
  intro x hx
  simp at hx
  rcases hx with rfl | rfl | rfl
  · exact ident_of _ 'a' [] rfl (by decide) rfl
  · exact exExpr_writable
  · exact ident_of _ 'b' [] rfl (by decide) rfl

end JPS
