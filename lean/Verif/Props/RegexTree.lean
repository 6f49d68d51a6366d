import Verif.RegexTreeProofs
import Verif.Props.EquivClass
/-!
# C48, C49: the automaton of a regular expression
-/

set_option autoImplicit false

namespace JPS
open Spec

/-! ### `CreateDFA` on the position sets -/

/-- Positions reached by reading a word after position `p`. -/
inductive Reach (A : PosAut) : Nat → List Nat → Nat → Prop
  | nil {p} : Reach A p [] p
  | cons {p f q a w} : f ∈ A.succs p → f < A.edges.length → A.edge f a = true → Reach A f w q →
      Reach A p (a :: w) q

theorem PosAut.mem_nextSet {A : PosAut} {S : List Nat} {a f : Nat} :
    f ∈ A.nextSet S a ↔ f < A.edges.length ∧ A.edge f a = true ∧ ∃ p ∈ S, f ∈ A.succs p := by
  simp [PosAut.nextSet]

theorem PosAut.optRun_none {A : PosAut} : ∀ w : List Nat, optRun A.next none w = none
  | [] => rfl
  | _ :: w => PosAut.optRun_none w

/-- No position with `keepout` is reached before the end of a word. -/
def Clear (A : PosAut) (S : List Nat) (w : List Nat) : Prop :=
  ∀ u v, w = u ++ v → v ≠ [] → ∀ p ∈ S, ∀ k, Reach A p u k → k ∉ A.keep

theorem PosAut.stuck_iff {A : PosAut} {S : List Nat} :
    A.stuck S = true ↔ ∃ p ∈ S, p ∈ A.keep := by
  simp [PosAut.stuck]

theorem PosAut.reach_cons {A : PosAut} {S : List Nat} {a q : Nat} {w : List Nat} :
    (∃ p ∈ S, Reach A p (a :: w) q) ↔ ∃ f ∈ A.nextSet S a, Reach A f w q := by
  constructor
  · rintro ⟨p, hp, h⟩
    cases h with
    | cons h1 h2 h3 h4 => exact ⟨_, PosAut.mem_nextSet.2 ⟨h2, h3, p, hp, h1⟩, h4⟩
  · rintro ⟨f, hf, h⟩
    obtain ⟨h2, h3, p, hp, h1⟩ := PosAut.mem_nextSet.1 hf
    exact ⟨p, hp, .cons h1 h2 h3 h⟩

theorem Clear.cons {A : PosAut} {S : List Nat} {a : Nat} {w : List Nat} :
    Clear A S (a :: w) ↔ A.stuck S = false ∧ Clear A (A.nextSet S a) w := by
  constructor
  · intro h
    refine ⟨?_, ?_⟩
    · cases hs : A.stuck S with
      | false => rfl
      | true =>
        obtain ⟨p, h1, h2⟩ := PosAut.stuck_iff.1 hs
        exact absurd h2 (h [] (a :: w) rfl (by simp) p h1 p .nil)
    · intro u v e hv f hf k hk
      obtain ⟨p, hp, h1⟩ := PosAut.reach_cons.2 ⟨f, hf, hk⟩
      exact h (a :: u) v (by rw [e]; rfl) hv p hp k h1
  · rintro ⟨h1, h2⟩ u v e hv p hp k hk
    cases u with
    | nil =>
      cases hk
      intro hk
      rw [PosAut.stuck_iff.2 ⟨p, hp, hk⟩] at h1
      cases h1
    | cons b u =>
      rw [List.cons_append] at e
      injection e with e1 e2
      subst e1
      obtain ⟨f, hf, h3⟩ := PosAut.reach_cons.1 ⟨p, hp, hk⟩
      exact h2 u v e2 hv f hf k h3

/-- The set reached from a set. -/
theorem PosAut.run_set {A : PosAut} : ∀ (w : List Nat) (S : List Nat) (q : Nat),
    (∃ S', optRun A.next (some S) w = some S' ∧ q ∈ S') ↔
      (∃ p ∈ S, Reach A p w q) ∧ Clear A S w
  | [], S, q => by
    constructor
    · rintro ⟨S', h, hq⟩
      cases h
      refine ⟨⟨q, hq, .nil⟩, fun u v e hv => ?_⟩
      have := congrArg List.length e
      simp only [List.length_nil, List.length_append] at this
      exact absurd (List.length_eq_zero_iff.1 (by omega)) hv
    · rintro ⟨⟨p, hp, h⟩, _⟩
      cases h
      exact ⟨S, rfl, hp⟩
  | a :: w, S, q => by
    have e : optRun A.next (some S) (a :: w) = optRun A.next (A.next S a) w := rfl
    rw [e, PosAut.reach_cons, Clear.cons]
    cases hs : A.stuck S with
    | true =>
      have e2 : A.next S a = none := by rw [PosAut.next, hs]; rfl
      rw [e2, PosAut.optRun_none]; simp
    | false =>
      by_cases hn : A.nextSet S a = []
      · have e2 : A.next S a = none := by rw [PosAut.next, hs, if_neg (by simp), if_pos hn]
        rw [e2, hn, PosAut.optRun_none]; simp
      · have e2 : A.next S a = some (A.nextSet S a) := by
          rw [PosAut.next, hs, if_neg (by simp), if_neg hn]
        rw [e2]
        have := PosAut.run_set (A := A) w (A.nextSet S a) q
        rw [this]; simp

theorem PosAut.explored (A : PosAut) (m : Nat) :
    Explored A.next m [A.edges.length]
      (wlLoop A.next m (2 ^ A.edges.length + 2) 0 [[A.edges.length]] []).1 (A.dfa m).rows := by
  refine wl_explored A.next m [A.edges.length] ([A.edges.length] :: subs (List.range A.edges.length))
    (by simp) ?_ _ ?_
  · intro s a t h
    unfold PosAut.next at h
    split at h
    · cases h
    split at h
    · cases h
    · cases h
      exact List.mem_cons_of_mem _ (filter_mem_subs _ _)
  · simp [length_subs]

/-- Stop value of a state. -/
theorem PosAut.dfa_stop (A : PosAut) (m : Nat) (w : List Nat) (hw : ∀ a ∈ w, 1 ≤ a ∧ a < m) :
    (A.dfa m).stop (w.foldl (A.dfa m).next 1) =
      match optRun A.next (some [A.edges.length]) w with
      | some S => if A.term S then 1 else 0
      | none => 0 := by
  obtain ⟨h1, h2⟩ := (A.explored m).run1 w hw
  have hfold : w.foldl (A.dfa m).next 1 = w.foldl (rowsNext (A.dfa m).rows) 1 := rfl
  rw [hfold, h2]
  have hget := numOf_get h1
  cases ho : optRun A.next (some [A.edges.length]) w with
  | none => simp [SDfa.stop, numOf]
  | some S =>
    rw [ho] at hget
    have hpos : numOf (wlLoop A.next m (2 ^ A.edges.length + 2) 0 [[A.edges.length]] []).1
        (some S) ≠ 0 := by simp [numOf]
    rw [if_neg hpos] at hget
    rw [SDfa.stop, if_neg hpos]
    have : (A.dfa m).stops =
        (wlLoop A.next m (2 ^ A.edges.length + 2) 0 [[A.edges.length]] []).1.map
          fun S => if A.term S then 1 else 0 := rfl
    rw [this, List.getElem?_map, hget]
    rfl

/-- The characters accepted at a position. -/
def posEdge (ls : List (List Nat)) (p x : Nat) : Prop :=
  ∃ cs, ls[p]? = some cs ∧ cs.contains x = true

theorem posEdge_agree (ls : List (List Nat)) :
    Agree (fun cs x => cs.contains x) ls 0 (posEdge ls) := by
  intro k a hk x
  rw [Nat.zero_add]
  constructor
  · rintro ⟨cs, h1, h2⟩
    rw [hk] at h1; cases h1; exact h2
  · intro h; exact ⟨a, hk, h⟩

theorem PosAut.edge_iff {A : PosAut} {p x : Nat} : A.edge p x = true ↔ posEdge A.edges p x := by
  unfold PosAut.edge posEdge
  cases A.edges[p]? <;> simp

theorem mem_succs {t : RTree (List Nat)} {p f : Nat} (hp : p < t.size) :
    f ∈ t.build.succs p ↔ (p, f) ∈ t.follow 0 := by
  have hne : p ≠ t.build.edges.length := by
    show p ≠ t.letters.length
    have : p < t.letters.length := hp
    omega
  rw [PosAut.succs, if_neg hne]
  simp only [List.mem_map, List.mem_filter, beq_iff_eq]
  constructor
  · rintro ⟨⟨a, b⟩, ⟨h1, h2⟩, h3⟩
    simp only at h2 h3
    subst h2; subst h3
    exact h1
  · intro h; exact ⟨(p, f), ⟨h, rfl⟩, rfl⟩

theorem path_reach {t : RTree (List Nat)} : ∀ {w : List Nat} {p q x : Nat}, p < t.size →
    (PPath (fun a b => (a, b) ∈ t.follow 0) (posEdge t.letters) p q (x :: w) ↔
      posEdge t.letters p x ∧ Reach t.build p w q) := by
  intro w
  induction w with
  | nil =>
    intro p q x _
    constructor
    · intro h
      cases h with
      | one h => exact ⟨h, .nil⟩
      | cons _ _ h => exact absurd rfl h.ne_nil
    · rintro ⟨h1, h2⟩
      cases h2
      exact .one h1
  | cons y w ih =>
    intro p q x hp
    constructor
    · intro h
      cases h with
      | cons h1 h2 h3 =>
        have hb := ((t.bounds 0).2.2 _ _ h2).2.2
        rw [Nat.zero_add] at hb
        obtain ⟨i1, i2⟩ := (ih hb).1 h3
        exact ⟨h1, .cons ((mem_succs hp).2 h2) hb (PosAut.edge_iff.2 i1) i2⟩
    · rintro ⟨h1, h2⟩
      cases h2 with
      | cons g1 g2 g3 g4 =>
        exact .cons h1 ((mem_succs hp).1 g1) ((ih g2).2 ⟨PosAut.edge_iff.1 g3, g4⟩)

/-- The sets of an expression: paths from a first position. -/
theorem start_reach {t : RTree (List Nat)} {x q : Nat} {w : List Nat} :
    Reach t.build t.build.edges.length (x :: w) q ↔
      ∃ p ∈ t.first 0, PPath (fun a b => (a, b) ∈ t.follow 0) (posEdge t.letters) p q (x :: w) := by
  constructor
  · intro h
    cases h with
    | @cons _ f _ _ _ g1 g2 g3 g4 =>
      rw [PosAut.succs, if_pos rfl] at g1
      exact ⟨f, g1, (path_reach g2).2 ⟨PosAut.edge_iff.1 g3, g4⟩⟩
  · rintro ⟨p, h1, h3⟩
    have hb := ((t.bounds 0).1 p h1).2
    rw [Nat.zero_add] at hb
    obtain ⟨g1, g2⟩ := (path_reach hb).1 h3
    exact .cons (f := p) (by rw [PosAut.succs, if_pos rfl]; exact h1) hb (PosAut.edge_iff.2 g1) g2

/-- The automaton of an expression with any marks: it stops after the words of the language that
do not reach a position with `keepout` before their end. -/
theorem automaton_stops (t : RTree (List Nat)) (m : Nat) (w : List Nat)
    (hw : ∀ a ∈ w, 1 ≤ a ∧ a < m) (hne : w ≠ []) :
    (t.build.dfa m).stop (w.foldl (t.build.dfa m).next 1) = 1 ↔
      reLang (fun cs x => cs.contains x) t w ∧
      ∀ u v, w = u ++ v → u ≠ [] → v ≠ [] →
        ¬ PAcc (· ∈ t.first 0) (· ∈ t.keep 0) (fun a b => (a, b) ∈ t.follow 0)
          (posEdge t.letters) u := by
  rw [((RTree.acc t 0 (posEdge_agree t.letters)).1 w hne), PosAut.dfa_stop _ _ _ hw]
  have hclear : Clear t.build [t.build.edges.length] w ↔ ∀ u v, w = u ++ v → u ≠ [] → v ≠ [] →
        ¬ PAcc (· ∈ t.first 0) (· ∈ t.keep 0) (fun a b => (a, b) ∈ t.follow 0)
          (posEdge t.letters) u := by
    constructor
    · rintro h (_ | ⟨x, u⟩) v e hu hv ⟨p, k, h1, h2, h3⟩
      · exact hu rfl
      · exact h (x :: u) v e hv _ (List.mem_singleton_self _) k (start_reach.2 ⟨p, h1, h3⟩) h2
    · rintro h (_ | ⟨x, u⟩) v e hv p hp k hk hk'
      · cases hk
        simp only [List.mem_singleton] at hp
        subst hp
        have hb := ((t.keep_bounds 0) _ hk').2
        rw [Nat.zero_add] at hb
        exact absurd hb (Nat.lt_irrefl _)
      · simp only [List.mem_singleton] at hp
        subst hp
        obtain ⟨p, h1, h3⟩ := start_reach.1 hk
        exact h (x :: u) v e (by simp) hv ⟨p, k, h1, hk', h3⟩
  rw [← hclear]
  have key : PAcc (· ∈ t.first 0) (· ∈ t.last 0) (fun a b => (a, b) ∈ t.follow 0)
      (posEdge t.letters) w ∧ Clear t.build [t.build.edges.length] w ↔
      ∃ S, optRun t.build.next (some [t.build.edges.length]) w = some S ∧
        t.build.term S = true := by
    constructor
    · rintro ⟨⟨p, q, h1, h2, h3⟩, hc⟩
      obtain ⟨x, w, rfl⟩ : ∃ x w', w = x :: w' := by
        cases w with
        | nil => exact absurd rfl hne
        | cons a w => exact ⟨a, w, rfl⟩
      obtain ⟨S, i1, i2⟩ := (PosAut.run_set (A := t.build) (x :: w) [t.build.edges.length] q).2
        ⟨⟨_, List.mem_singleton_self _, start_reach.2 ⟨p, h1, h3⟩⟩, hc⟩
      refine ⟨S, i1, ?_⟩
      simp only [PosAut.term, List.any_eq_true, List.contains_iff_mem]
      exact ⟨q, i2, h2⟩
    · rintro ⟨S, h1, h2⟩
      simp only [PosAut.term, List.any_eq_true, List.contains_iff_mem] at h2
      obtain ⟨q, h2, h3⟩ := h2
      obtain ⟨⟨p0, hp0, h4⟩, h5⟩ :=
        (PosAut.run_set (A := t.build) w [t.build.edges.length] q).1 ⟨S, h1, h2⟩
      simp only [List.mem_singleton] at hp0
      subst hp0
      obtain ⟨x, w, rfl⟩ : ∃ x w', w = x :: w' := by
        cases w with
        | nil => exact absurd rfl hne
        | cons a w => exact ⟨a, w, rfl⟩
      obtain ⟨f, g1, g2⟩ := start_reach.1 h4
      exact ⟨⟨f, q, g1, h3, g2⟩, h5⟩
  rw [key]
  cases ho : optRun t.build.next (some [t.build.edges.length]) w with
  | none => simp
  | some S =>
    simp only [Option.some.injEq, exists_eq_left']
    cases t.build.term S <;> simp

/-- **C48.**  For every regular expression of lists with and without alternatives and the
operators `?`, `*`, `+` in any nesting, the automaton made by `CreateDFA` stops after a nonempty
word exactly if the word belongs to the language. -/
theorem c48_automaton_partial (t : RTree (List Nat)) (hg : noMarks t) (m : Nat) (w : List Nat)
    (hw : ∀ a ∈ w, 1 ≤ a ∧ a < m) (hne : w ≠ []) :
    (t.build.dfa m).stop (w.foldl (t.build.dfa m).next 1) = 1 ↔
      reLang (fun cs x => cs.contains x) t w := by
  rw [automaton_stops t m w hw hne, t.keep_nil hg]
  refine ⟨fun h => h.1, fun h => ⟨h, ?_⟩⟩
  rintro u v _ _ _ ⟨p, k, _, h2, _⟩
  cases h2

/-- The expression `(a|b+)*c?` over the characters 1, 2, 3. -/
def exTree : RTree (List Nat) :=
  .node false .none (.cons (.node true .star (.cons (.leaf [1] .none) (.cons (.leaf [2] .plus) .nil)))
    (.cons (.leaf [3] .optional) .nil))

example : (exTree.build.dfa 4).stop ([1, 2, 2, 1, 3].foldl (exTree.build.dfa 4).next 1) = 1 ∧
    (exTree.build.dfa 4).stop ([1, 3, 1].foldl (exTree.build.dfa 4).next 1) = 0 ∧
    (∀ a ∈ [1, 2, 2, 1, 3], 1 ≤ a ∧ a < 4) := by decide +kernel

example : noMarks exTree := by simp [exTree, noMarks, itemsNoMarks, RTree.marked]

/-- **The empty word** is never accepted, although it belongs to the language of `exTree`: the
first state is not made a stop state. -/
theorem c48_false_empty : reLang (fun cs x => cs.contains x) exTree [] ∧
    (exTree.build.dfa 4).stop 1 = 0 :=
  ⟨(RTree.acc exTree 0 (posEdge_agree _)).2.2 (by decide), by decide +kernel⟩

/-! ### Replacing the letters -/

section
variable {α β : Type}

mutual
/-- The expression with other letters. -/
def RTree.mapL (h : α → β) : RTree α → RTree β
  | .leaf a o g => .leaf (h a) o g
  | .node or o items g => .node or o (items.mapL h) g
/-- The items with other letters. -/
def RList.mapL (h : α → β) : RList α → RList β
  | .nil => .nil
  | .cons t r => .cons (t.mapL h) (r.mapL h)
end

mutual
theorem RTree.mapM_eq {f : α → Option β} {h : α → β} : ∀ (t : RTree α),
    (∀ a ∈ t.letters, f a = some (h a)) → t.mapM f = some (t.mapL h)
  | .leaf a o g, hf => by
    rw [RTree.mapM, hf a (by simp [RTree.letters])]; rfl
  | .node or o items g, hf => by
    rw [RTree.mapM, RList.mapM_eq items (fun a ha => hf a (by rw [RTree.letters]; exact ha))]; rfl
theorem RList.mapM_eq {f : α → Option β} {h : α → β} : ∀ (r : RList α),
    (∀ a ∈ r.letters, f a = some (h a)) → r.mapM f = some (r.mapL h)
  | .nil, _ => rfl
  | .cons t r, hf => by
    rw [RList.mapM, RTree.mapM_eq t (fun a ha => hf a (by rw [RList.letters]; simp [ha])),
      RList.mapM_eq r (fun a ha => hf a (by rw [RList.letters]; simp [ha]))]
    rfl
end

mutual
theorem RTree.mapM_mapL {γ : Type} {f : β → Option γ} {h : α → β} : ∀ (t : RTree α),
    (t.mapL h).mapM f = t.mapM fun a => f (h a)
  | .leaf a o g => rfl
  | .node or o items g => by
    rw [RTree.mapL, RTree.mapM, RTree.mapM, RList.mapM_mapL items]
theorem RList.mapM_mapL {γ : Type} {f : β → Option γ} {h : α → β} : ∀ (r : RList α),
    (r.mapL h).mapM f = r.mapM fun a => f (h a)
  | .nil => rfl
  | .cons t r => by
    rw [RList.mapL, RList.mapM, RList.mapM, RTree.mapM_mapL t, RList.mapM_mapL r]
end

mutual
theorem RTree.mapL_letters {h : α → β} : ∀ (t : RTree α), (t.mapL h).letters = t.letters.map h
  | .leaf a o g => rfl
  | .node or o items g => by rw [RTree.mapL, RTree.letters, RTree.letters, RList.mapL_letters items]
theorem RList.mapL_letters {h : α → β} : ∀ (r : RList α), (r.mapL h).letters = r.letters.map h
  | .nil => rfl
  | .cons t r => by
    rw [RList.mapL, RList.letters, RList.letters, RTree.mapL_letters t, RList.mapL_letters r,
      List.map_append]
end

theorem RTree.mapL_size {h : α → β} (t : RTree α) : (t.mapL h).size = t.size := by
  rw [RTree.size, RTree.mapL_letters, List.length_map]; rfl

mutual
theorem RTree.mapL_nullable {h : α → β} : ∀ (t : RTree α), (t.mapL h).nullable = t.nullable
  | .leaf a o g => rfl
  | .node or o items g => by
    rw [RTree.mapL, RTree.nullable, RTree.nullable, (RList.mapL_nullable items).1,
      (RList.mapL_nullable items).2]
theorem RList.mapL_nullable {h : α → β} : ∀ (r : RList α),
    (r.mapL h).anyNullable = r.anyNullable ∧ (r.mapL h).allNullable = r.allNullable
  | .nil => ⟨rfl, rfl⟩
  | .cons t r => by
    rw [RList.mapL, RList.anyNullable, RList.anyNullable, RList.allNullable, RList.allNullable,
      RTree.mapL_nullable t, (RList.mapL_nullable r).1, (RList.mapL_nullable r).2]
    exact ⟨rfl, rfl⟩
end

mutual
theorem RTree.mapL_sets {h : α → β} : ∀ (t : RTree α) (i : Nat),
    (t.mapL h).first i = t.first i ∧ (t.mapL h).last i = t.last i ∧
      (t.mapL h).follow i = t.follow i
  | .leaf a o g, i => ⟨rfl, rfl, rfl⟩
  | .node or o items g, i => by
    obtain ⟨h1, h2, h3, h4, h5, h6⟩ := RList.mapL_sets (h := h) items i
    rw [RTree.mapL, RTree.first, RTree.first, RTree.last, RTree.last, RTree.follow, RTree.follow,
      h1, h2, h3, h4, h5, h6]
    exact ⟨rfl, rfl, rfl⟩
theorem RList.mapL_sets {h : α → β} : ∀ (r : RList α) (i : Nat),
    (r.mapL h).firstOr i = r.firstOr i ∧ (r.mapL h).firstAnd i = r.firstAnd i ∧
      (r.mapL h).lastOr i = r.lastOr i ∧ (r.mapL h).lastAnd i = r.lastAnd i ∧
      (r.mapL h).follow i = r.follow i ∧ (r.mapL h).seq i = r.seq i
  | .nil, i => ⟨rfl, rfl, rfl, rfl, rfl, rfl⟩
  | .cons t r, i => by
    obtain ⟨t1, t2, t3⟩ := RTree.mapL_sets (h := h) t i
    obtain ⟨h1, h2, h3, h4, h5, h6⟩ := RList.mapL_sets (h := h) r (i + t.size)
    rw [RList.mapL, RList.firstOr, RList.firstOr, RList.firstAnd, RList.firstAnd, RList.lastOr,
      RList.lastOr, RList.lastAnd, RList.lastAnd, RList.follow, RList.follow, RList.seq, RList.seq,
      RTree.mapL_size, RTree.mapL_nullable, (RList.mapL_nullable r).2, t1, t2, t3, h1, h2, h3, h4,
      h5, h6]
    exact ⟨rfl, rfl, rfl, rfl, rfl, rfl⟩
end

theorem RTree.mapL_marked {h : α → β} (t : RTree α) : (t.mapL h).marked = t.marked := by
  cases t <;> simp [RTree.mapL, RTree.marked]

mutual
theorem RTree.mapL_marks {h : α → β} : ∀ (t : RTree α), noMarks (t.mapL h) ↔ noMarks t
  | .leaf a o g => by simp [RTree.mapL, noMarks]
  | .node or o items g => by rw [RTree.mapL, noMarks, noMarks, RList.mapL_marks items]
theorem RList.mapL_marks {h : α → β} : ∀ (r : RList α) {or : Bool},
    itemsNoMarks or (r.mapL h) ↔ itemsNoMarks or r
  | .nil, or => by simp [RList.mapL, itemsNoMarks]
  | .cons t r, or => by
    rw [RList.mapL, itemsNoMarks, itemsNoMarks, RTree.mapL_marked, RTree.mapL_marks t,
      RList.mapL_marks r]
end

/-- Which characters the letter at a position accepts. -/
def atPos (edge : α → Nat → Bool) (ls : List α) (p x : Nat) : Prop :=
  ∃ a, ls[p]? = some a ∧ edge a x = true

theorem atPos_agree (edge : α → Nat → Bool) (ls : List α) :
    Agree edge ls 0 (atPos edge ls) := by
  intro k a hk x
  rw [Nat.zero_add]
  constructor
  · rintro ⟨cs, h1, h2⟩
    rw [hk] at h1; cases h1; exact h2
  · intro h; exact ⟨a, hk, h⟩

theorem PPath.convert {Φ E E' : Nat → Nat → Prop} {g : Nat → Nat} {D : Nat → Prop}
    (hE : ∀ p x, D x → (E' p (g x) ↔ E p x)) : ∀ {w : List Nat} {p q : Nat}, (∀ x ∈ w, D x) →
    (PPath Φ E' p q (w.map g) ↔ PPath Φ E p q w) := by
  intro w
  induction w with
  | nil =>
    intro p q _
    exact ⟨fun h => absurd rfl h.ne_nil, fun h => absurd rfl h.ne_nil⟩
  | cons x w ih =>
    intro p q hD
    have hx := hE p x (hD x (by simp))
    have hD' : ∀ x ∈ w, D x := fun y hy => hD y (by simp [hy])
    constructor
    · intro h
      rw [List.map_cons] at h
      generalize hl : w.map g = l at h
      cases h with
      | one h1 =>
        have : w = [] := by simpa using hl
        subst this
        exact .one (hx.1 h1)
      | cons h1 h2 h3 =>
        subst hl
        exact .cons (hx.1 h1) h2 ((ih hD').1 h3)
    · intro h
      cases h with
      | one h1 => exact .one (hx.2 h1)
      | cons h1 h2 h3 => exact .cons (hx.2 h1) h2 ((ih hD').2 h3)

/-- Replacing the letters and the characters together keeps the language. -/
theorem lang_convert {edge : α → Nat → Bool} {edge' : β → Nat → Bool} {h : α → β} {g : Nat → Nat}
    {D : Nat → Prop} (t : RTree α)
    (hl : ∀ a ∈ t.letters, ∀ x, D x → edge' (h a) (g x) = edge a x) {w : List Nat}
    (hw : ∀ x ∈ w, D x) : reLang edge' (t.mapL h) (w.map g) ↔ reLang edge t w := by
  obtain ⟨a1, a2⟩ := RTree.acc t 0 (atPos_agree edge t.letters)
  obtain ⟨b1, b2⟩ := RTree.acc (t.mapL h) 0 (atPos_agree edge' (t.mapL h).letters)
  obtain ⟨s1, s2, s3⟩ := RTree.mapL_sets (h := h) t 0
  by_cases hne : w = []
  · subst hne
    rw [a2, List.map_nil, b2, RTree.mapL_nullable]
  · rw [a1 w hne, b1 (w.map g) (by simpa using hne), s1, s2, s3]
    have hE : ∀ p x, D x →
        (atPos edge' (t.mapL h).letters p (g x) ↔ atPos edge t.letters p x) := by
      intro p x hx
      unfold atPos
      rw [RTree.mapL_letters, List.getElem?_map]
      cases hp : t.letters[p]? with
      | none => simp
      | some a =>
        have := hl a (List.mem_of_getElem? hp) x hx
        simp [this]
    constructor
    · rintro ⟨p, q, h1, h2, h3⟩
      exact ⟨p, q, h1, h2, (PPath.convert hE hw).1 h3⟩
    · rintro ⟨p, q, h1, h2, h3⟩
      exact ⟨p, q, h1, h2, (PPath.convert hE hw).2 h3⟩

end

/-- **C49, first part.**  With the set converter: the automaton of an expression whose sets are
written as texts accepts exactly the nonempty words of characters 1 to 255 that the expression
describes. -/
theorem c49_sets_partial (lf : Bool) (t : RTree CLetter) (hg : noMarks t)
    (hok : ∀ l ∈ t.letters, letterOk lf l)
    (w : List Nat) (hw : ∀ x ∈ w, 1 ≤ x ∧ x < 256) (hne : w ≠ []) :
    ∃ t', (t.mapL ltr).mapM (setLetter lf) = some t' ∧
      ((t'.build.dfa 256).stop (w.foldl (t'.build.dfa 256).next 1) = 1 ↔
        reLang CLetter.has t w) := by
  let h : CLetter → List Nat := fun l => (setLetter lf (ltr l)).getD []
  have key : ∀ l ∈ t.letters, setLetter lf (ltr l) = some (h l) ∧
      ∀ x, (1 ≤ x ∧ x < 256) → (h l).contains (id x) = l.has x := by
    intro l hl
    have := hok l hl
    cases l with
    | chr c =>
      refine ⟨rfl, fun x _ => ?_⟩
      show [c].contains x = (x == c)
      rw [Bool.eq_iff_iff]; simp
    | set s =>
      have hs := c46_set_partial lf s this.1 this.2
      have e : setLetter lf (ltr (.set s)) = some ((List.range 256).filter s.has) := hs
      refine ⟨by simp only [h]; rw [e]; rfl, fun x hx => ?_⟩
      have : h (.set s) = (List.range 256).filter s.has := by simp only [h]; rw [e]; rfl
      rw [this, Bool.eq_iff_iff, List.contains_iff_mem, List.mem_filter, List.mem_range]
      simp only [id, CLetter.has]
      exact ⟨fun h => h.2, fun h => ⟨hx.2, h⟩⟩
  have hcomp : (t.mapL ltr).mapM (setLetter lf) = some (t.mapL h) := by
    have : (t.mapL ltr).mapM (setLetter lf) = t.mapM fun l => setLetter lf (ltr l) :=
      RTree.mapM_mapL t
    rw [this]
    exact RTree.mapM_eq t fun a ha => (key a ha).1
  refine ⟨t.mapL h, hcomp, ?_⟩
  rw [c48_automaton_partial _ ((RTree.mapL_marks t).2 hg) _ _ hw hne]
  have := lang_convert (edge := CLetter.has) (edge' := fun cs x => List.contains cs x) (h := h)
    (g := id) (D := fun x => 1 ≤ x ∧ x < 256) t (fun a ha => (key a ha).2) hw
  rwa [List.map_id] at this

theorem list_mapM_eq {α β : Type} {f : α → Option β} {h : α → β} : ∀ {l : List α},
    (∀ a ∈ l, f a = some (h a)) → l.mapM f = some (l.map h)
  | [], _ => rfl
  | a :: l, hf => by
    rw [List.mapM_cons, hf a (by simp), list_mapM_eq (l := l) (fun b hb => hf b (by simp [hb]))]
    rfl

/-- **C49, second part.**  With equivalence classes: for every model of rules, the automaton of a
converted rule, made over the numbers below `getSum()` (equivalence_class.hpp:32), accepts the
classes of a nonempty text of characters 1 to 255 exactly if the rule describes the text. -/
theorem c49_classes_partial (lf : Bool) (ts : List (RTree CLetter)) (hg : ∀ t ∈ ts, noMarks t)
    (hok : ∀ t ∈ ts, ∀ l ∈ t.letters, letterOk lf l) :
    ∃ (e : EClass) (ts' : List (RTree (List Nat))), ecExecute lf (ts.map (RTree.mapL ltr)) = some (e, ts') ∧ ts'.length = ts.length ∧
      ∀ (i : Nat) (t : RTree CLetter) (t' : RTree (List Nat)), ts[i]? = some t → ts'[i]? = some t' →
        ∀ w : List Nat, (∀ x ∈ w, 1 ≤ x ∧ x < 256) → w ≠ [] →
          ((t'.build.dfa (e.sum + 1)).stop
              ((w.map e.getClass).foldl (t'.build.dfa (e.sum + 1)).next 1) = 1 ↔
            reLang CLetter.has t w) := by
  obtain ⟨e, h1, h2, h3, h4⟩ := c47_classes lf (ts.flatMap RTree.letters) (by
    intro l hl
    obtain ⟨t, ht, hl⟩ := List.mem_flatMap.1 hl
    exact hok t ht l hl)
  let h : CLetter → List Nat := fun l => ((ltr l).convert lf e).getD []
  have key : ∀ t ∈ ts, ∀ l ∈ t.letters, (ltr l).convert lf e = some (h l) ∧
      ∀ x, (1 ≤ x ∧ x < 256) → (h l).contains (e.getClass x) = l.has x := by
    intro t ht l hl
    obtain ⟨cs, g1, g2⟩ := h4 l (List.mem_flatMap.2 ⟨t, ht, hl⟩)
    have : h l = cs := by simp only [h]; rw [g1]; rfl
    rw [this]
    exact ⟨g1, fun x hx => g2 x hx.1 hx.2⟩
  have hl : (ts.map (RTree.mapL ltr)).flatMap RTree.letters =
      (ts.flatMap RTree.letters).map ltr := by
    rw [List.flatMap_map, List.map_flatMap]
    congr 1
    funext t
    exact RTree.mapL_letters t
  have hm : (ts.map (RTree.mapL ltr)).mapM (RTree.mapM (Letter.convert lf e)) =
      some (ts.map (RTree.mapL h)) := by
    rw [List.mapM_map]
    refine list_mapM_eq fun t ht => ?_
    rw [Function.comp_apply, RTree.mapM_mapL]
    exact RTree.mapM_eq t fun a ha => (key t ht a ha).1
  refine ⟨e, ts.map (RTree.mapL h), ?_, by simp, ?_⟩
  · rw [ecExecute, hl, h1]
    simp only [Option.bind_some]
    rw [hm]; rfl
  · intro i t t' hi hi' w hw hne
    rw [List.getElem?_map, hi] at hi'
    cases hi'
    rw [c48_automaton_partial _ ((RTree.mapL_marks t).2 (hg t (List.mem_of_getElem? hi))) _ _ (by
      intro a ha
      obtain ⟨x, hx, rfl⟩ := List.mem_map.1 ha
      have := h3 x (hw x hx).1 (hw x hx).2
      omega) (by simpa using hne)]
    exact lang_convert t (fun a ha => (key t (List.mem_of_getElem? hi) a ha).2) hw

/-- `[a-f]+x?` and `[^0-9]`. -/
def exRules : List (RTree CLetter) :=
  [.node false .none (.cons (.leaf (.set ⟨false, [.range (.plain 97) (.plain 102)]⟩) .plus)
      (.cons (.leaf (.chr 120) .optional) .nil)),
    .leaf (.set ⟨true, [.range (.plain 48) (.plain 57)]⟩) .none]

theorem exRules_ok (lf : Bool) : ∀ t ∈ exRules, ∀ l ∈ t.letters, letterOk lf l := by
  intro t ht l hl
  simp only [exRules, List.mem_cons, List.not_mem_nil, or_false] at ht
  rcases ht with rfl | rfl
  · simp only [RTree.letters, RList.letters, List.append_nil, List.cons_append, List.nil_append,
      List.mem_cons, List.not_mem_nil, or_false] at hl
    rcases hl with rfl | rfl
    · exact ⟨by decide, fun _ x hx => by simp [partsHave] at hx, trivial⟩
    · exact (by decide : (120 : Nat) < 256)
  · simp only [RTree.letters, List.mem_cons, List.not_mem_nil, or_false] at hl
    subst hl
    exact ⟨by decide, fun _ x hx => by simp [partsHave] at hx, trivial⟩

theorem exRules_plain : ∀ t ∈ exRules, noMarks t := by
  intro t ht
  simp only [exRules, List.mem_cons, List.not_mem_nil, or_false] at ht
  rcases ht with rfl | rfl <;> simp [noMarks, itemsNoMarks, RTree.marked]

/-- "fax" is described by the first rule, "ax7" and "xa" are not. -/
example : ((ecExecute true (exRules.map (RTree.mapL ltr))).map fun r =>
    (r.1.sum, r.2.length, [[102, 97, 120], [97, 120, 55], [120, 97]].map fun w =>
      r.2.head?.map fun t => (t.build.dfa (r.1.sum + 1)).stop
        ((w.map r.1.getClass).foldl (t.build.dfa (r.1.sum + 1)).next 1))) =
    some (4, 2, [some 1, some 0, some 0]) := by decide +kernel

/-- The same with the set converter. -/
example : (((exRules.map (RTree.mapL ltr)).head?.bind (RTree.mapM (setLetter true))).map fun t =>
    [[102, 97, 120], [97, 120, 55], [120, 97]].map fun w =>
      (t.build.dfa 256).stop (w.foldl (t.build.dfa 256).next 1)) = some [1, 0, 0] := by
  decide +kernel

end JPS
