import Verif.IndexList
import Verif.Props.Parser
import Verif.Props.Index
/-!
# C37 and C04 for lists in brackets
-/

set_option autoImplicit false

namespace JPS
open Spec

/-- **C37** A path with filters, lists `[i, "k", …]` and scripts `[(e)]`, with any blanks between the words, is
read as that path; the entries of a list keep their order. -/
theorem c37_lists (p : List (LStep Num)) (hp : ∀ x ∈ p, x.Writable NumOk) (s : Str)
    (hs : Written ([['$']] ++ p.flatMap (LStep.words numWords)) s) : analysisJSONPath s = some (astLOf p) := by
  have h : All2 ReadsWord ([['$']] ++ p.flatMap (LStep.words numWords)) (.dollar :: p.flatMap lstepToks) :=
    All2.append (All2.one (reads_char _ _ fun _ => rfl)) (reads_flatMap _ _ _ fun x hx => reads_lstep x (hp x hx))
  unfold analysisJSONPath
  rw [scan_written h hs]
  exact stepsLoop_list p hp _ _ (Nat.le_refl _)

/-- **C04 from the path text, what holds instead** Lists and scripts in brackets have no effect at all: the text is
accepted and the query runs, on every file and with every number format, as if they were not written. -/
theorem c04_lists_partial (O : NumOps) (p : List (LStep Num)) (hp : ∀ x ∈ p, x.Writable NumOk) (s : Str)
    (hs : Written ([['$']] ++ p.flatMap (LStep.words numWords)) s) :
    ∃ t, analysisJSONPath s = some t ∧ ∀ file, results O t file = results O (astFOf (dropLists p)) file := by
  refine ⟨_, c37_lists p hp s hs, fun file => ?_⟩
  have h : buildQuery (astLOf p) = buildQuery (astFOf (dropLists p)) := by
    unfold buildQuery buildCtx astLOf astFOf
    rw [construct_dropLists p .root .root _ rfl]
  unfold results serialRun
  rw [h]

/-- `$.b["a", -1][(@.n)].a`. -/
def exLists : List (LStep Num) :=
  [.step (.plain (.prop ['b'])), .list (.key ['a']) [.index (-1)], .script (.prop [['n']]),
    .step (.plain (.prop ['a']))]

/-- The text of `exLists`: hypotheses of `c37_lists` and `c04_lists_partial`, and the results. -/
example : (∀ x ∈ exLists, x.Writable NumOk) ∧
    Written ([['$']] ++ exLists.flatMap (LStep.words numWords)) "$.b[\"a\" ,-1][(@.n)].a".toList ∧
    results intOps (astFOf (dropLists exLists)) "{\"b\": {\"a\": 7}}".toList = some [['7']] := by
  have id1 : ∀ c : Char, c.isAlpha = true → Identifier [c] := fun c h => ⟨c, [], rfl, by simp [h], by simp⟩
  refine ⟨?_, ?_, by with_unfolding_all rfl⟩
  · intro x hx
    simp only [exLists, List.mem_cons, List.not_mem_nil, or_false] at hx
    rcases hx with rfl | rfl | rfl | rfl
    · exact id1 'b' (by decide)
    · exact ⟨.char _ _ (by decide) (by decide) .nil, by simp [Entry.Writable]⟩
    · intro k hk
      rw [List.mem_singleton.1 hk]
      exact id1 'n' (by decide)
    · exact id1 'a' (by decide)
  · exact .cons [] ['$'] _ _ (by simp) (.cons [] ['.'] _ _ (by simp) (.cons [] ['b'] _ _ (by simp)
      (.cons [] ['['] _ _ (by simp) (.cons [] ['"', 'a', '"'] _ _ (by simp) (.cons [' '] [','] _ _ (by simp)
      (.cons [] ['-'] _ _ (by simp) (.cons [] ['1'] _ _ (by simp) (.cons [] [']'] _ _ (by simp)
      (.cons [] ['['] _ _ (by simp) (.cons [] ['('] _ _ (by simp) (.cons [] ['@'] _ _ (by simp)
      (.cons [] ['.'] _ _ (by simp) (.cons [] ['n'] _ _ (by simp) (.cons [] [')'] _ _ (by simp)
      (.cons [] [']'] _ _ (by simp) (.cons [] ['.'] _ _ (by simp) (.cons [] ['a'] _ _ (by simp)
      (.nil [] (by simp)) rfl) rfl) rfl) rfl) rfl) rfl) rfl) rfl) rfl) rfl) rfl) rfl) rfl) rfl) rfl) rfl) rfl) rfl

/-- The claim of C04 for lists: each value reported is the text of a value selected by a reading of the path. -/
def C04Lists : Prop := ∀ (O : NumOps) (p : List (LStep Num)) (ps : List (List Step)) (s pre trail : Str) (v : J) (t : Ast)
  (r : List Str), (∀ x ∈ p, x.Writable NumOk) → Written ([['$']] ++ p.flatMap (LStep.words numWords)) s →
  readings p = some ps → (∀ q ∈ ps, fewNames q) → Readable pre trail v → v.tidy = true →
  analysisJSONPath s = some t → results O t (pre ++ v.render ++ trail) = some r →
  ∀ x ∈ r, ∃ q ∈ ps, x ∈ (selected q v).map J.render

/-- **C04 is false for names in brackets**: `$.b["a"]` on `{"b": {"a": 7}}` returns the object `{"a": 7}`, which no
reading of the path selects. -/
theorem c04_false_names : ¬ C04Lists := by
  intro h
  have id1 : Identifier ['b'] := ⟨'b', [], rfl, by decide, by simp⟩
  have hp : ∀ x ∈ [LStep.step (L := Num) (.plain (.prop ['b'])), .list (.key ['a']) []], x.Writable NumOk := by
    intro x hx
    simp only [List.mem_cons, List.not_mem_nil, or_false] at hx
    rcases hx with rfl | rfl
    · exact id1
    · exact ⟨.char _ _ (by decide) (by decide) .nil, by simp⟩
  have hs : Written ([['$']] ++ [LStep.step (L := Num) (.plain (.prop ['b'])), .list (.key ['a']) []].flatMap
      (LStep.words numWords)) "$.b[\"a\"]".toList :=
    .cons [] ['$'] _ _ (by simp) (.cons [] ['.'] _ _ (by simp) (.cons [] ['b'] _ _ (by simp)
      (.cons [] ['['] _ _ (by simp) (.cons [] ['"', 'a', '"'] _ _ (by simp) (.cons [] [']'] _ _ (by simp)
      (.nil [] (by simp)) rfl) rfl) rfl) rfl) rfl) rfl
  obtain ⟨t, ht, hr⟩ := c04_lists_partial intOps _ hp _ hs
  have h0 : results intOps t ([] ++ (J.obj [] (.cons [] ['b'] [] [' '] (.obj [] (.cons [] ['a'] [] [' '] (.lit ['7']) []
      .nil)) [] .nil)).render ++ []) = some ["{\"a\": 7}".toList] := by
    rw [hr]
    with_unfolding_all rfl
  have h1 := h intOps _ [[.prop ['b'], .prop ['a']]] _ [] []
    (.obj [] (.cons [] ['b'] [] [' '] (.obj [] (.cons [] ['a'] [] [' '] (.lit ['7']) [] .nil)) [] .nil))
    t ["{\"a\": 7}".toList] hp hs rfl
    (by intro q hq; simp only [List.mem_singleton] at hq; subst hq; decide)
    ⟨by decide, by decide, by decide, by decide, by decide, by decide, by decide, by decide⟩ (by decide) ht
    h0 _ (List.mem_singleton.2 rfl)
  obtain ⟨q, hq, h2⟩ := h1
  rw [List.mem_singleton] at hq
  subst hq
  simp [selected, J.parts, Members.parts, Elems.parts, matches_prop, matches_slice, matches_nil,
    matches_nil_left, J.render, Members.render] at h2

end JPS
