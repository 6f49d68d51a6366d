import Verif.Combine
import Verif.Spec.Slice
/-!
# Merging the tuples of a sliced array that began before the chunk
-/

set_option autoImplicit false

namespace JPS
open Spec

/-- The mark a worker leaves at the end of an element that is an object, worker_automaton.c:296-303 (and `]` for an array,
396-401). -/
def MTuple.isMark (t : MTuple) : Prop := t.text = some ['}'] ∨ t.text = some [']']

/-- A tuple with the text `x` of a result (tuple_list.h:41-49), short enough to be copied. -/
def MTuple.Result (t : MTuple) (s : Nat) (x : Str) : Prop :=
  t.st = s ∧ t.text = some x ∧ t.span = none ∧ x ≠ ['}'] ∧ x ≠ [']'] ∧ strcopyBytes x.length ≤ MAX_TEXT

/-- The tuples `ts` are the results `gs` of consecutive elements, a mark after each (what
parallel_automata_execution.h:308-345 walks over). -/
inductive Marked : List (List (Nat × Str)) → List MTuple → Prop
  | nil : Marked [] []
  | mark (gs : List (List (Nat × Str))) (t : MTuple) (ts : List MTuple) : t.isMark → Marked gs ts → Marked ([] :: gs) (t :: ts)
  | res (s : Nat) (x : Str) (g : List (Nat × Str)) (gs : List (List (Nat × Str))) (t : MTuple) (ts : List MTuple) :
      t.Result s x → Marked (g :: gs) ts → Marked (((s, x) :: g) :: gs) (t :: ts)

/-- The tuples of results (tuple_list.h:41-49). -/
def resultTuples (l : List (Nat × Str)) : List MTuple := l.map fun x => MTuple.ofText x.1 x.2

theorem inSliceOf_cons {α : Type} (lo up : Int) (n : Nat) (g : List α) (gs : List (List α)) :
    inSliceOf lo up n (g :: gs) =
      (if lo ≤ (n : Int) ∧ (n : Int) < up then g else []) ++ inSliceOf lo up (n + 1) gs := by
  unfold inSliceOf
  rw [List.zipIdx_cons, List.filter_cons]
  by_cases h1 : lo ≤ (n : Int) <;> by_cases h2 : (n : Int) < up <;> simp [h1, h2]

theorem inSliceOf_above {α : Type} (lo up : Int) : ∀ (gs : List (List α)) (n : Nat), up ≤ (n : Int) →
    inSliceOf lo up n gs = []
  | [], _, _ => rfl
  | g :: gs, n, h => by
    rw [inSliceOf_cons, inSliceOf_above lo up gs (n + 1) (by omega)]
    simp; omega

/-- The state of the merge is that of the current entry `c`, and nothing else than the list and this entry differ from `k0`. -/
structure MergeAt (k0 k : K) (c : Node) (added : List MTuple) : Prop where
  cur : k.cur = some c
  elt : k.elt = k0.elt
  ss : k.ss = k0.ss
  tl : k.q.tl = k0.q.tl ++ added
  ub : k.ub = k0.ub
  re : k.re = k0.re
  len : k.q.nodes.length = k0.q.nodes.length

theorem cur_lt {k : K} {c : Node} (h : k.cur = some c) : k.elt.s < k.q.nodes.length :=
  (List.getElem?_eq_some_iff.1 h).1

theorem MergeAt.incr {k0 k : K} {c : Node} {a : List MTuple} (h : MergeAt k0 k c a) :
    MergeAt k0 k.incr { c with count := c.count + 1 } a := by
  have hc : k.q.nodes[k.elt.s]? = some c := h.cur
  have hl := cur_lt h.cur
  have e : k.incr = { k with q := { k.q with nodes := k.q.nodes.set k.elt.s { c with count := c.count + 1 } } } := by
    simp [K.incr, QS.incr, hc]
  rw [e]
  exact ⟨by simp [K.cur, List.getElem?_set_self hl], h.elt, h.ss, h.tl, h.ub, h.re, by simp [h.len]⟩

theorem MergeAt.expire {k0 k : K} {c : Node} {a : List MTuple} (d : QDfa) (st : Nat) (h : MergeAt k0 k c a) :
    MergeAt k0 (k.expire d st) (if (c.count : Int) ≥ d.upper st then { c with st := 0 } else c) a := by
  have hl := cur_lt h.cur
  unfold K.expire
  rw [h.cur]
  dsimp only
  by_cases hu : (c.count : Int) ≥ d.upper st
  · rw [if_pos hu, if_pos hu]
    exact ⟨by simp [K.cur, List.getElem?_set_self hl], h.elt, h.ss, h.tl, h.ub, h.re, by simp [h.len]⟩
  · rw [if_neg hu, if_neg hu]; exact h

theorem K.orUb_false (k : K) : k.orUb false = k := by simp [K.orUb]

theorem MergeAt.add {k0 k : K} {c : Node} {a : List MTuple} (right : Str) {t : MTuple} {s : Nat} {x : Str}
    (h : MergeAt k0 k c a) (ht : t.Result s x) (hroom : k.q.tl.length < MAX_TUPLE_LIST) :
    MergeAt k0 (k.addTuple right t) c (a ++ [MTuple.ofText s x]) := by
  obtain ⟨h1, h2, h3, h4, h5, h6⟩ := ht
  have hu : (decide (t.text = none) || decide (strcopyBytes (t.text.getD []).length > MAX_TEXT) ||
      decide (k.q.tl.length ≥ MAX_TUPLE_LIST)) = false := by
    simp [h2]
    omega
  unfold K.addTuple
  rw [h3]
  dsimp only
  rw [hu, K.orUb_false, h1, h2]
  exact ⟨h.cur, h.elt, h.ss, by simp [h.tl], h.ub, h.re, h.len⟩

/-- Once the entry has lost its state nothing is added any more. -/
theorem collect_dead (d : QDfa) (right : Str) : ∀ (ts : List MTuple) (k : K) (c : Node), k.cur = some c → c.st = 0 →
    ts.foldl (K.collect d right) k = k
  | [], _, _, _, _ => rfl
  | t :: ts, k, c, hc, h0 => by
    rw [List.foldl_cons]
    have : K.collect d right k t = k := by simp [K.collect, hc, h0]
    rw [this]
    exact collect_dead d right ts k c hc h0

/-- What one tuple does while the entry has its state. -/
theorem collect_mark {k0 k : K} {c : Node} {a : List MTuple} (d : QDfa) (right : Str) {t : MTuple} (h : MergeAt k0 k c a)
    (hs : c.st ≠ 0) (hr : ¬ (d.lower c.st = 0 ∧ d.upper c.st = 0)) (ht : t.isMark) :
    MergeAt k0 (k.collect d right t)
      (if ((c.count + 1 : Nat) : Int) ≥ d.upper c.st then { c with count := c.count + 1, st := 0 }
        else { c with count := c.count + 1 }) a := by
  have hn : decide (t.text = none) = false := by rcases ht with h | h <;> simp [h]
  have e : k.collect d right t = k.incr.expire d c.st := by
    unfold K.collect
    rw [h.cur]
    dsimp only
    rw [if_neg hs, if_neg hr, hn, K.orUb_false, if_pos (show t.text = some ['}'] ∨ t.text = some [']'] from ht)]
  rw [e]
  exact h.incr.expire d c.st

theorem collect_out {k0 k : K} {c : Node} {a : List MTuple} (d : QDfa) (right : Str) {t : MTuple} {s : Nat} {x : Str}
    (h : MergeAt k0 k c a) (hs : c.st ≠ 0) (hr : ¬ (d.lower c.st = 0 ∧ d.upper c.st = 0)) (ht : t.Result s x)
    (ho : ¬ (d.lower c.st ≤ (c.count : Int) ∧ (c.count : Int) < d.upper c.st)) :
    MergeAt k0 (k.collect d right t) (if (c.count : Int) ≥ d.upper c.st then { c with st := 0 } else c) a := by
  have hm : ¬ (t.text = some ['}'] ∨ t.text = some [']']) := by
    rw [ht.2.1]; simp [ht.2.2.2.1, ht.2.2.2.2.1]
  have hi : d.inRange c.st c.count = false := by
    unfold QDfa.inRange
    rw [Bool.or_eq_false_iff]
    constructor
    · simpa using hr
    · simpa using ho
  have e : k.collect d right t = k.expire d c.st := by
    unfold K.collect
    rw [h.cur]
    dsimp only
    rw [if_neg hs, if_neg hr, ht.2.1, if_neg (by rw [ht.2.1] at hm; exact hm), if_pos hi]
    simp [K.orUb_false]
  rw [e]
  exact h.expire d c.st

theorem collect_in {k0 k : K} {c : Node} {a : List MTuple} (d : QDfa) (right : Str) {t : MTuple} {s : Nat} {x : Str}
    (h : MergeAt k0 k c a) (hs : c.st ≠ 0) (hr : ¬ (d.lower c.st = 0 ∧ d.upper c.st = 0)) (ha : d.accept c.st ≠ .output)
    (ht : t.Result s x) (hi : d.lower c.st ≤ (c.count : Int) ∧ (c.count : Int) < d.upper c.st)
    (hroom : k.q.tl.length < MAX_TUPLE_LIST) :
    MergeAt k0 (k.collect d right t) c (a ++ [MTuple.ofText s x]) := by
  have hm : ¬ (t.text = some ['}'] ∨ t.text = some [']']) := by
    rw [ht.2.1]; simp [ht.2.2.2.1, ht.2.2.2.2.1]
  have hi' : d.inRange c.st c.count = true := by
    unfold QDfa.inRange
    simp [hi.1, hi.2]
  have hmt : d.matchedType c.st c.count ≠ .output := by
    unfold QDfa.matchedType
    cases h : d.accept c.st <;> simp_all
  have e : k.collect d right t = k.addTuple right t := by
    unfold K.collect
    rw [h.cur]
    dsimp only
    rw [if_neg hs, if_neg hr, ht.2.1, if_neg (by rw [ht.2.1] at hm; exact hm), if_neg (by simp [hi']), if_neg hmt]
    simp [K.orUb_false]
  rw [e]
  exact h.add right ht hroom

/-- The merge of a marked list: results of the elements in the slice are added, the count goes on, and the entry loses its
state with the last element of the slice. -/
theorem collect_marked (d : QDfa) (right : Str) {gs : List (List (Nat × Str))} {ts : List MTuple} (hm : Marked gs ts) :
    ∀ (k0 k : K) (c : Node) (a : List MTuple), MergeAt k0 k c a → c.st ≠ 0 →
    ¬ (d.lower c.st = 0 ∧ d.upper c.st = 0) → d.accept c.st ≠ .output →
    k.q.tl.length + (inSliceOf (d.lower c.st) (d.upper c.st) c.count gs).length ≤ MAX_TUPLE_LIST →
    ∃ c', MergeAt k0 (ts.foldl (K.collect d right) k) c'
        (a ++ resultTuples (inSliceOf (d.lower c.st) (d.upper c.st) c.count gs)) ∧
      (if gs = [] then c' = c
       else if ((c.count + gs.length : Nat) : Int) < d.upper c.st then c' = { c with count := c.count + gs.length }
       else c'.st = 0 ∧ c'.ms = c.ms ∧ c'.roots = c.roots) := by
  induction hm with
  | nil => intro k0 k c a h _ _ _ _; exact ⟨c, by simpa [inSliceOf, resultTuples] using h, by simp⟩
  | mark gs t ts ht hm ih =>
    intro k0 k c a h hs hr ha hroom
    have h1 := collect_mark d right h hs hr ht
    rw [List.foldl_cons]
    rw [inSliceOf_cons] at hroom ⊢
    simp only [ite_self, List.nil_append] at hroom ⊢
    by_cases hu : ((c.count + 1 : Nat) : Int) ≥ d.upper c.st
    · rw [if_pos hu] at h1
      rw [collect_dead d right ts _ _ h1.cur rfl, inSliceOf_above _ _ _ _ hu]
      refine ⟨_, by simpa [resultTuples] using h1, ?_⟩
      rw [if_neg (by simp), if_neg (by simp only [List.length_cons]; omega)]
      exact ⟨rfl, rfl, rfl⟩
    · rw [if_neg hu] at h1
      obtain ⟨c', h2, h3⟩ := ih k0 _ _ a h1 hs hr ha (by
        have := h1.tl; have := h.tl; rw [h1.tl, ← h.tl]; exact hroom)
      refine ⟨c', h2, ?_⟩
      rw [if_neg (by simp)]
      by_cases hg : gs = []
      · rw [if_pos hg] at h3
        subst hg
        rw [if_pos (by simp only [List.length_cons, List.length_nil]; omega)]
        exact h3
      · rw [if_neg hg] at h3
        have e : c.count + (([] : List (Nat × Str)) :: gs).length = (c.count + 1) + gs.length := by
          simp only [List.length_cons]; omega
        rw [e]
        exact h3
  | res s x g gs t ts ht hm ih =>
    intro k0 k c a h hs hr ha hroom
    rw [List.foldl_cons]
    by_cases hi : d.lower c.st ≤ (c.count : Int) ∧ (c.count : Int) < d.upper c.st
    · rw [inSliceOf_cons, if_pos hi] at hroom ⊢
      have h1 := collect_in d right h hs hr ha ht hi (by simp at hroom; omega)
      obtain ⟨c', h2, h3⟩ := ih k0 _ _ _ h1 hs hr ha (by
        have e1 := h1.tl; have e2 := h.tl
        rw [inSliceOf_cons, if_pos hi]
        have : (k.collect d right t).q.tl.length = k.q.tl.length + 1 := by rw [e1, e2]; simp; omega
        simp at hroom ⊢
        omega)
      refine ⟨c', ?_, ?_⟩
      · rw [inSliceOf_cons, if_pos hi] at h2
        simpa [resultTuples] using h2
      · simpa using h3
    · have h1 := collect_out d right h hs hr ht hi
      rw [inSliceOf_cons, if_neg hi] at hroom ⊢
      by_cases hu : (c.count : Int) ≥ d.upper c.st
      · rw [if_pos hu] at h1
        rw [collect_dead d right ts _ _ h1.cur rfl, inSliceOf_above _ _ _ _ (by omega)]
        refine ⟨_, by simpa [resultTuples] using h1, ?_⟩
        rw [if_neg (by simp), if_neg (by simp only [List.length_cons]; omega)]
        exact ⟨rfl, rfl, rfl⟩
      · rw [if_neg hu] at h1
        obtain ⟨c', h2, h3⟩ := ih k0 _ _ a h1 hs hr ha (by
          rw [h1.tl, ← h.tl, inSliceOf_cons, if_neg hi]; exact hroom)
        refine ⟨c', ?_, ?_⟩
        · rw [inSliceOf_cons, if_neg hi] at h2
          exact h2
        · simpa using h3

end JPS
