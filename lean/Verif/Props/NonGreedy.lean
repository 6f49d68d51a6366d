import Verif.Props.RegexTree
/-!
# C53: non-greedy expressions
-/

set_option autoImplicit false

namespace JPS
open Spec

/-- **C53.**  If the items marked as non-greedy are items of the outermost list, the automaton
stops after exactly the shortest words of the expression: the nonempty words of its language with
no shorter nonempty beginning in the language. -/
theorem c53_shortest_partial (o : ROpt) (items : RList (List Nat)) (g : Bool)
    (hm : someMark items) (hin : innerNoMarks items) (m : Nat) (w : List Nat)
    (hw : ∀ a ∈ w, 1 ≤ a ∧ a < m) (hne : w ≠ []) :
    ((RTree.node false o items g).build.dfa m).stop
        (w.foldl ((RTree.node false o items g).build.dfa m).next 1) = 1 ↔
      Shortest (reLang (fun cs x => cs.contains x) (.node false o items g)) w := by
  have hk : (RTree.node false o items g).keep 0 = (RTree.node false o items g).last 0 := by
    rw [RTree.keep, RTree.last, (RList.anyMarked_iff items).2 hm, RList.keep_inner items hin]; rfl
  rw [automaton_stops _ m w hw hne, hk, Shortest]
  refine and_congr Iff.rfl ⟨fun h u v e hu hv => ?_, fun h u v e hu hv => ?_⟩
  · rw [(RTree.acc _ 0 (posEdge_agree _)).1 u hu]; exact h u v e hu hv
  · rw [← (RTree.acc (RTree.node false o items g) 0 (posEdge_agree _)).1 u hu]
    exact h u v e hu hv

/-- The comment `/` `x*?` `/` over the characters 1 (`/`) and 2, where `x` is any character. -/
def exComment : RList (List Nat) :=
  .cons (.leaf [1] .none) (.cons (.leaf [1, 2] .star true) (.cons (.leaf [1] .none) .nil))

/-- The shorter comment is accepted, the longer one is not. -/
example : someMark exComment ∧ innerNoMarks exComment ∧
    [[1, 2, 1], [1, 2, 1, 2, 1]].map (fun w =>
      ((RTree.node false .none exComment).build.dfa 3).stop
        (w.foldl ((RTree.node false .none exComment).build.dfa 3).next 1)) = [1, 0] := by
  refine ⟨by simp [exComment, someMark, RTree.marked], by simp [exComment, innerNoMarks, noMarks], by decide +kernel⟩

mutual
theorem RTree.copy_lang {α : Type} {edge : α → Nat → Bool} : ∀ (t : RTree α),
    reLang edge t.copy = reLang edge t
  | .leaf a o g => by funext w; rw [RTree.copy, reLang, reLang]
  | .node or o items g => by
    funext w
    rw [RTree.copy, reLang, reLang, (RList.copy_lang items).1, (RList.copy_lang items).2]
theorem RList.copy_lang {α : Type} {edge : α → Nat → Bool} : ∀ (r : RList α),
    orLang edge r.copy = orLang edge r ∧ andLang edge r.copy = andLang edge r
  | .nil => ⟨rfl, rfl⟩
  | .cons t r => by
    refine ⟨?_, ?_⟩ <;> funext w
    · rw [RList.copy, orLang, orLang, RTree.copy_lang t, (RList.copy_lang r).1]
    · rw [RList.copy, andLang, andLang, RTree.copy_lang t, (RList.copy_lang r).2]
end

theorem RTree.copy_marked {α : Type} (t : RTree α) : t.copy.marked = false := by
  cases t <;> simp [RTree.copy, RTree.marked]

mutual
theorem RTree.copy_marks {α : Type} : ∀ (t : RTree α), noMarks t.copy
  | .leaf a o g => by simp [RTree.copy, noMarks]
  | .node or o items g => by rw [RTree.copy, noMarks]; exact RList.copy_marks items
theorem RList.copy_marks {α : Type} : ∀ (r : RList α) {or : Bool}, itemsNoMarks or r.copy
  | .nil, or => by simp [RList.copy, itemsNoMarks]
  | .cons t r, or => by
    rw [RList.copy, itemsNoMarks]
    exact ⟨fun _ => t.copy_marked, RTree.copy_marks t, RList.copy_marks r⟩
end

/-- **Copies are greedy**: the automaton of a copy (`deepCopy`, used for every reference to a named
expression) accepts all nonempty words of the language, whatever is marked in the original. -/
theorem c53_copies (t : RTree (List Nat)) (m : Nat) (w : List Nat)
    (hw : ∀ a ∈ w, 1 ≤ a ∧ a < m) (hne : w ≠ []) :
    (t.copy.build.dfa m).stop (w.foldl (t.copy.build.dfa m).next 1) = 1 ↔
      reLang (fun cs x => cs.contains x) t w := by
  rw [c48_automaton_partial _ t.copy_marks m w hw hne, RTree.copy_lang]

/-- `(a*?b)c` over the characters 1, 2, 3. -/
def exInnerMark : RTree (List Nat) :=
  .node false .none (.cons (.node false .none (.cons (.leaf [1] .star true)
    (.cons (.leaf [2] .none) .nil))) (.cons (.leaf [3] .none) .nil))

/-- **The mark in an inner list** makes the automaton stop at the end of the inner list: `bc` is a
shortest word of `(a*?b)c`, but the automaton does not accept it; it accepts no word at all. -/
theorem c53_false_inner :
    Shortest (reLang (fun cs x => cs.contains x) exInnerMark) [2, 3] ∧
    ∀ w : List Nat, (∀ a ∈ w, 1 ≤ a ∧ a < 4) →
      (exInnerMark.build.dfa 4).stop (w.foldl (exInnerMark.build.dfa 4).next 1) ≠ 1 := by
  refine ⟨⟨?_, ?_⟩, ?_⟩
  · rw [← c53_copies _ 4 _ (by decide) (by simp)]; decide +kernel
  · intro u v e hu hv h
    have hu1 : u = [2] := by
      match u, e with
      | [], _ => exact absurd rfl hu
      | [x], e => simp at e; rw [e.1]
      | x :: y :: u, e =>
        have := congrArg List.length e
        simp only [List.length_append, List.length_cons, List.length_nil] at this
        exact absurd (List.length_eq_zero_iff.1 (by omega)) hv
    subst hu1
    rw [← c53_copies _ 4 _ (by decide) (by simp)] at h
    exact absurd h (by decide +kernel)
  · have step : ∀ s < 4, ∀ a < 4, (exInnerMark.build.dfa 4).next s a < 4 := by decide +kernel
    have stop : ∀ s < 4, (exInnerMark.build.dfa 4).stop s ≠ 1 := by decide +kernel
    intro w hw
    refine stop _ ?_
    have : ∀ (w : List Nat) (s : Nat), s < 4 → (∀ a ∈ w, 1 ≤ a ∧ a < 4) →
        w.foldl (exInnerMark.build.dfa 4).next s < 4 := by
      intro w
      induction w with
      | nil => exact fun s hs _ => hs
      | cons a w ih =>
        intro s hs hw
        exact ih _ (step s hs a (hw a (by simp)).2) fun b hb => hw b (by simp [hb])
    exact this w 1 (by decide) hw


/-- `a|b+?` over the characters 1 and 2. -/
def exOrMark : RTree (List Nat) :=
  .node true .none (.cons (.leaf [1] .none) (.cons (.leaf [2] .plus true) .nil))

/-- **The mark on an alternative** has no effect: `bb` is accepted although `b` is a shorter word;
more generally (C48) marks on alternatives never change the automaton. -/
theorem c53_false_or : someMark (.cons (.leaf [1] .none) (.cons (.leaf [2] .plus true) .nil)) ∧
    ¬ Shortest (reLang (fun cs x => cs.contains x) exOrMark) [2, 2] ∧
    (exOrMark.build.dfa 3).stop ([2, 2].foldl (exOrMark.build.dfa 3).next 1) = 1 := by
  refine ⟨by simp [someMark, RTree.marked], fun h => h.2 [2] [2] rfl (by simp) (by simp) ?_,
    by decide +kernel⟩
  rw [← c53_copies _ 3 _ (by decide) (by simp)]
  decide +kernel

/-- The copy of the comment accepts the longer comment too. -/
theorem c53_false_copy :
    ¬ Shortest (reLang (fun cs x => cs.contains x) (.node false .none exComment)) [1, 2, 1, 2, 1] ∧
    ((RTree.node false .none exComment).copy.build.dfa 3).stop
      ([1, 2, 1, 2, 1].foldl ((RTree.node false .none exComment).copy.build.dfa 3).next 1) = 1 := by
  refine ⟨fun h => h.2 [1, 2, 1] [2, 1] rfl (by simp) (by simp) ?_, by decide +kernel⟩
  rw [← c53_copies _ 3 _ (by decide) (by simp)]
  decide +kernel

end JPS
