import Verif.Combine
/-!
# The linked tuples of a worker

What `addTo` does to the tuple list and the tuple pointers, told by the log of the additions.
-/

set_option autoImplicit false

namespace JPS

/-- A tuple without its link. -/
def MTuple.strip (t : MTuple) : MTuple := { t with next := none }

/-- Positions of the entries for `r` in a log that starts at position `b`. -/
def idx (r : Nat) : Nat → List (Nat × MTuple) → List Nat
  | _, [] => []
  | b, x :: l => if x.1 = r then b :: idx r (b + 1) l else idx r (b + 1) l

/-- The tuples found for `r`. -/
def emits (r : Nat) (log : List (Nat × MTuple)) : List MTuple := (log.filter fun x => x.1 == r).map (·.2)

theorem emits_append (r : Nat) (a b : List (Nat × MTuple)) : emits r (a ++ b) = emits r a ++ emits r b := by
  simp [emits]

theorem idx_snoc (r : Nat) (x : Nat × MTuple) : ∀ (l : List (Nat × MTuple)) (b : Nat),
    idx r b (l ++ [x]) = idx r b l ++ if x.1 = r then [b + l.length] else []
  | [], b => by simp [idx]
  | y :: l, b => by
    simp only [List.cons_append, idx, idx_snoc r x l (b + 1), List.length_cons]
    have : b + 1 + l.length = b + (l.length + 1) := by omega
    split <;> simp [this]

theorem idx_mem {r i : Nat} : ∀ {l : List (Nat × MTuple)} {b : Nat}, i ∈ idx r b l →
    b ≤ i ∧ i < b + l.length ∧ ∃ t, l[i - b]? = some (r, t)
  | [], b, h => by simp [idx] at h
  | x :: l, b, h => by
    have hrec : i ∈ idx r (b + 1) l → b ≤ i ∧ i < b + (x :: l).length ∧ ∃ t, (x :: l)[i - b]? = some (r, t) := by
      intro h
      obtain ⟨h1, h2, t, h3⟩ := idx_mem h
      refine ⟨by omega, by simp; omega, t, ?_⟩
      rw [show i - b = (i - (b + 1)) + 1 by omega]; simpa using h3
    simp only [idx] at h
    split at h
    · rename_i hx
      rcases List.mem_cons.1 h with h | h
      · subst h; exact ⟨Nat.le_refl _, by simp, x.2, by simp [← hx]⟩
      · exact hrec h
    · exact hrec h

theorem idx_sorted (r : Nat) : ∀ (l : List (Nat × MTuple)) (b : Nat), (idx r b l).Pairwise (· < ·)
  | [], b => by simp [idx]
  | x :: l, b => by
    simp only [idx]
    split
    · refine List.Pairwise.cons (fun j hj => ?_) (idx_sorted r l (b + 1))
      have := (idx_mem hj).1; omega
    · exact idx_sorted r l (b + 1)

theorem idx_length (r : Nat) : ∀ (l : List (Nat × MTuple)) (b : Nat), (idx r b l).length ≤ l.length
  | [], b => by simp [idx]
  | x :: l, b => by
    have := idx_length r l (b + 1)
    simp only [idx]
    split <;> simp <;> omega

/-- The links of the entries at the given positions lead from each to the next, and end. -/
def Linked (tl : List MTuple) : List Nat → Prop
  | [] => True
  | [i] => ∃ t, tl[i]? = some t ∧ t.next = none
  | i :: j :: l => (∃ t, tl[i]? = some t ∧ t.next = some j) ∧ Linked tl (j :: l)

theorem Linked.congr {tl tl' : List MTuple} : ∀ {is : List Nat}, Linked tl is →
    (∀ i ∈ is, tl'[i]? = tl[i]?) → Linked tl' is
  | [], _, _ => trivial
  | [i], h, hc => by
    obtain ⟨t, h1, h2⟩ := h
    exact ⟨t, by rw [hc i (by simp), h1], h2⟩
  | i :: j :: l, h, hc => by
    obtain ⟨⟨t, h1, h2⟩, h3⟩ := h
    exact ⟨⟨t, by rw [hc i (by simp), h1], h2⟩, h3.congr fun k hk => hc k (List.mem_cons_of_mem _ hk)⟩

theorem getElem?_link {tl : List MTuple} {l n i : Nat} (h : i ≠ l) : (linkTuples tl l n)[i]? = tl[i]? := by
  unfold linkTuples
  cases tl[l]? with
  | none => rfl
  | some t => simp [List.getElem?_set_ne (Ne.symm h)]

theorem link_length (tl : List MTuple) (l n : Nat) : (linkTuples tl l n).length = tl.length := by
  unfold linkTuples
  cases tl[l]? <;> simp

theorem strip_link (tl : List MTuple) (l n : Nat) : (linkTuples tl l n).map MTuple.strip = tl.map MTuple.strip := by
  unfold linkTuples
  cases h : tl[l]? with
  | none => rfl
  | some t =>
    rw [List.map_set]
    apply List.ext_getElem?
    intro i
    by_cases hi : i = l
    · subst hi
      have hl : i < tl.length := (List.getElem?_eq_some_iff.1 h).1
      rw [List.getElem?_set_self (by simpa using hl)]
      simp [h, MTuple.strip]
    · rw [List.getElem?_set_ne (Ne.symm hi)]

/-- The chain grows at its end. -/
theorem Linked.snoc {tl : List MTuple} {t : MTuple} (ht : t.next = none) : ∀ {is : List Nat} {l : Nat},
    Linked tl (is ++ [l]) → (is ++ [l]).Pairwise (· < ·) → l < tl.length →
    Linked (linkTuples (tl ++ [t]) l tl.length) (is ++ [l] ++ [tl.length])
  | [], l, h, _, hl => by
    obtain ⟨u, h1, h2⟩ := h
    refine ⟨⟨{ u with next := some tl.length }, ?_, rfl⟩, t, ?_, ht⟩
    · unfold linkTuples
      rw [List.getElem?_append_left hl, h1]
      simp [List.getElem?_set]; omega
    · rw [getElem?_link (by omega)]; simp
  | [i], l, h, hs, hl => by
    obtain ⟨⟨u, h1, h2⟩, h3⟩ := h
    have hil : i < l := by simpa using hs
    refine ⟨⟨u, ?_, h2⟩, ?_⟩
    · rw [getElem?_link (by omega), List.getElem?_append_left (by omega), h1]
    · exact Linked.snoc (is := []) ht h3 (by simp) hl
  | i :: j :: is, l, h, hs, hl => by
    obtain ⟨⟨u, h1, h2⟩, h3⟩ := h
    have hs' : (i :: ((j :: is) ++ [l])).Pairwise (· < ·) := hs
    have hil : i < l := (List.pairwise_cons.1 hs').1 l (by simp)
    refine ⟨⟨u, ?_, h2⟩, ?_⟩
    · rw [getElem?_link (by omega), List.getElem?_append_left (by omega), h1]
    · exact Linked.snoc (is := j :: is) ht h3 (List.pairwise_cons.1 hs').2 hl

/-- Tuple pointers of a chain. -/
def headOf : List Nat → Head
  | [] => .empty
  | f :: l => .chain f ((f :: l).getLast (by simp))

theorem headOf_snoc_nil (n : Nat) : headOf [n] = .chain n n := rfl

theorem headOf_snoc (f : Nat) (is : List Nat) (n : Nat) : headOf (f :: is ++ [n]) = .chain f n := by
  simp only [headOf, List.cons_append, Head.chain.injEq, true_and]
  rw [List.getLast_cons (by simp)]; simp

/-- Since `base` the tuples of the log were added, and the pointers of the `R` roots are their chains. -/
structure Logged (base : List MTuple) (q : QS) (R : Nat) (log : List (Nat × MTuple)) : Prop where
  tl : ∃ rest, q.tl = base ++ rest ∧ rest.map MTuple.strip = log.map (·.2)
  dom : ∀ x ∈ log, x.2.next = none
  heads : ∀ r < R, q.heads r = headOf (idx r base.length log)
  linked : ∀ r < R, Linked q.tl (idx r base.length log)

theorem Logged.length {base : List MTuple} {q : QS} {R : Nat} {log : List (Nat × MTuple)}
    (h : Logged base q R log) : q.tl.length = base.length + log.length := by
  obtain ⟨rest, h1, h2⟩ := h.tl
  have := congrArg List.length h2
  simp at this
  rw [h1, List.length_append, this]

theorem snoc_cases {α : Type} (l : List α) : l = [] ∨ ∃ i x, l = i ++ [x] := by
  cases h : l.reverse with
  | nil => left; simpa using h
  | cons x i => right; refine ⟨i.reverse, x, ?_⟩; rw [← List.reverse_reverse l, h]; simp

theorem Logged.addTo {base : List MTuple} {q : QS} {R : Nat} {log : List (Nat × MTuple)}
    (h : Logged base q R log) {t : MTuple} (ht : t.next = none) {r : Nat} (hr : r < R) :
    Logged base (q.addTo t r) R (log ++ [(r, t)]) := by
  obtain ⟨rest, h1, h2⟩ := h.tl
  have hlen := h.length
  have hst : t.strip = t := by cases t; simp only [MTuple.strip]; simp only at ht; rw [ht]
  have hdom : ∀ x ∈ log ++ [(r, t)], x.2.next = none := by
    intro x hx
    rcases List.mem_append.1 hx with hx | hx
    · exact h.dom x hx
    · simp at hx; subst hx; exact ht
  rcases snoc_cases (idx r base.length log) with hi | ⟨is, l, hi⟩
  · have hh : q.heads r = .empty := by rw [h.heads r hr, hi]; rfl
    have hq : q.addTo t r = { q with
        tl := q.tl ++ [t]
        heads := fun i => if i = r then .chain q.tl.length q.tl.length else q.heads i
        ub := q.ub || decide (q.tl.length ≥ MAX_TUPLE_LIST) } := by
      simp only [QS.addTo, hh]
    rw [hq]
    refine ⟨⟨rest ++ [t], ?_, ?_⟩, hdom, ?_, ?_⟩
    · simp [h1]
    · simp [h2, hst]
    · intro r' hr'
      simp only [idx_snoc]
      by_cases he : r' = r
      · subst he; rw [hi]; simp [headOf_snoc_nil, hlen]
      · rw [if_neg he, if_neg (fun e => he e.symm), List.append_nil]; exact h.heads r' hr'
    · intro r' hr'
      simp only [idx_snoc]
      by_cases he : r' = r
      · subst he; rw [hi]; simp only [if_pos, List.nil_append]
        exact ⟨t, by simp [← hlen], ht⟩
      · rw [if_neg (fun e => he e.symm), List.append_nil]
        refine (h.linked r' hr').congr fun i hi => ?_
        rw [List.getElem?_append_left]
        have := (idx_mem hi).2.1; omega
  · have hm : l ∈ idx r base.length log := by rw [hi]; simp
    obtain ⟨m1, m2, u, m3⟩ := idx_mem hm
    have hh : ∃ f, q.heads r = .chain f l ∧ ∀ n, headOf (idx r base.length log ++ [n]) = .chain f n := by
      cases is with
      | nil => exact ⟨l, by rw [h.heads r hr, hi]; rfl, fun n => by rw [hi]; rfl⟩
      | cons f is =>
        refine ⟨f, by rw [h.heads r hr, hi, headOf_snoc], fun n => ?_⟩
        rw [hi, List.cons_append, headOf_snoc]
    obtain ⟨f, hh, hh'⟩ := hh
    have hq : q.addTo t r = { q with
        tl := linkTuples (q.tl ++ [t]) l q.tl.length
        heads := fun i => if i = r then .chain f q.tl.length else q.heads i
        ub := q.ub || decide (q.tl.length ≥ MAX_TUPLE_LIST) } := by
      simp only [QS.addTo, hh]
    rw [hq]
    refine ⟨?_, hdom, ?_, ?_⟩
    · have hl' : l < (q.tl ++ [t]).length := by simp; omega
      refine ⟨(linkTuples (q.tl ++ [t]) l q.tl.length).drop base.length, ?_, ?_⟩
      · show linkTuples (q.tl ++ [t]) l q.tl.length = _
        conv => lhs; rw [← List.take_append_drop base.length (linkTuples (q.tl ++ [t]) l q.tl.length)]
        congr 1
        apply List.ext_getElem?
        intro i
        rw [List.getElem?_take]
        split
        · rename_i hib
          rw [getElem?_link (by omega), List.getElem?_append_left (by omega), h1,
            List.getElem?_append_left hib]
        · rename_i hib
          rw [List.getElem?_eq_none (by omega)]
      · rw [List.map_drop, strip_link, h1]
        simp [h2, hst]
    · intro r' hr'
      simp only [idx_snoc]
      by_cases he : r' = r
      · subst he; rw [if_pos rfl, if_pos rfl, hh', hlen]
      · rw [if_neg he, if_neg (fun e => he e.symm), List.append_nil]; exact h.heads r' hr'
    · intro r' hr'
      simp only [idx_snoc]
      by_cases he : r' = r
      · subst he
        rw [if_pos rfl, ← hlen, hi]
        refine Linked.snoc ht ?_ ?_ (by omega)
        · rw [← hi]; exact h.linked r' hr'
        · rw [← hi]; exact idx_sorted _ _ _
      · rw [if_neg (fun e => he e.symm), List.append_nil]
        refine (h.linked r' hr').congr fun i hi' => ?_
        obtain ⟨a1, a2, v, a3⟩ := idx_mem hi'
        have hil : i ≠ l := by
          intro e; subst e
          rw [m3] at a3; simp at a3; exact he a3.1.symm
        rw [getElem?_link hil, List.getElem?_append_left (by omega)]

theorem addTo_nodes (q : QS) (t : MTuple) (r : Nat) :
    (q.addTo t r).nodes = q.nodes ∧ (q.addTo t r).items = q.items := by
  unfold QS.addTo
  simp only
  split <;> exact ⟨rfl, rfl⟩

theorem Logged.addAll {base : List MTuple} {R : Nat} {t : MTuple} (ht : t.next = none) : ∀ (rs : List Nat) {q : QS}
    {log : List (Nat × MTuple)}, Logged base q R log → (∀ r ∈ rs, r < R) →
    Logged base (rs.foldl (fun q r => q.addTo t r) q) R (log ++ rs.map fun r => (r, t)) ∧
      (rs.foldl (fun q r => q.addTo t r) q).nodes = q.nodes ∧ (rs.foldl (fun q r => q.addTo t r) q).items = q.items
  | [], q, log, h, _ => ⟨by simpa using h, rfl, rfl⟩
  | r :: rs, q, log, h, hr => by
    have h1 := h.addTo ht (hr r (by simp))
    obtain ⟨h2, h3, h4⟩ := Logged.addAll ht rs h1 fun x hx => hr x (List.mem_cons_of_mem _ hx)
    have h5 := addTo_nodes q t r
    refine ⟨?_, ?_, ?_⟩
    · simpa [List.append_assoc] using h2
    · simp only [List.foldl_cons]; rw [h3, h5.1]
    · simp only [List.foldl_cons]; rw [h4, h5.2]

/-- The root nodes a node stands for. -/
def Node.org (n : Node) (i : Nat) : List Nat := (n.origins i).getD []

theorem Logged.addInfo {base : List MTuple} {R : Nat} {t : MTuple} (ht : t.next = none) {q : QS}
    {log : List (Nat × MTuple)} (h : Logged base q R log) {i : Nat} {n : Node} (hn : q.nodes[i]? = some n)
    (hj : n.roots ≠ none) (hr : ∀ r ∈ n.org i, r < R) :
    Logged base (q.addInfo i t) R (log ++ (n.org i).map fun r => (r, t)) ∧
      (q.addInfo i t).nodes = q.nodes ∧ (q.addInfo i t).items = q.items := by
  unfold QS.addInfo
  rw [hn]
  simp only
  cases hro : n.roots with
  | none => exact absurd hro hj
  | some rs =>
    cases rs with
    | nil =>
      simp only
      have ho : n.org i = [i] := by simp [Node.org, Node.origins, hro]
      rw [ho] at hr ⊢
      have := addTo_nodes q t i
      exact ⟨by simpa using h.addTo ht (hr i (by simp)), this⟩
    | cons a rs =>
      simp only
      have ho : n.org i = a :: rs := by simp [Node.org, Node.origins, hro]
      rw [ho] at hr ⊢
      exact Logged.addAll ht _ h hr

/-- Following the links of a chain. -/
theorem walk_linked {tl : List MTuple} : ∀ {is : List Nat} (fuel : Nat), Linked tl is → is.length ≤ fuel →
    chainFrom tl fuel is.head? = some (is.filterMap fun i => tl[i]?)
  | [], fuel, _, _ => by cases fuel <;> simp [chainFrom]
  | [i], fuel, h, hf => by
    obtain ⟨t, h1, h2⟩ := h
    cases fuel with
    | zero => simp at hf
    | succ f => cases f <;> simp [chainFrom, h1, h2]
  | i :: j :: l, fuel, h, hf => by
    obtain ⟨⟨t, h1, h2⟩, h3⟩ := h
    cases fuel with
    | zero => simp at hf
    | succ f =>
      have := walk_linked f h3 (by simpa using hf)
      simp only [List.head?_cons] at this
      simp [chainFrom, h1, h2, this]

theorem filterMap_congr' {α β : Type} {f g : α → Option β} : ∀ {l : List α}, (∀ x ∈ l, f x = g x) →
    l.filterMap f = l.filterMap g
  | [], _ => rfl
  | x :: l, h => by
    simp only [List.filterMap_cons, h x (by simp), filterMap_congr' fun y hy => h y (List.mem_cons_of_mem _ hy)]

theorem idx_tuples (r : Nat) : ∀ (log : List (Nat × MTuple)) (base rest : List MTuple),
    rest.map MTuple.strip = log.map (·.2) →
    ((idx r base.length log).filterMap fun i => (base ++ rest)[i]?).map MTuple.strip = emits r log
  | [], base, rest, h => by simp [idx, emits]
  | x :: log, base, rest, h => by
    cases rest with
    | nil => simp at h
    | cons t rest =>
      simp only [List.map_cons, List.cons.injEq] at h
      have ih := idx_tuples r log (base ++ [t]) rest h.2
      simp only [List.length_append, List.length_singleton, List.append_assoc, List.singleton_append] at ih
      simp only [idx]
      by_cases hx : x.1 = r
      · rw [if_pos hx, List.filterMap_cons]
        simp only [List.getElem?_append_right (Nat.le_refl _), Nat.sub_self, List.getElem?_cons_zero, List.map_cons]
        rw [ih]
        simp [emits, hx, h.1]
      · rw [if_neg hx, ih]
        simp [emits, hx]

/-- What is collected from the pointers of a root, in any list that begins with the worker's list. -/
theorem Logged.walk {base : List MTuple} {q : QS} {R : Nat} {log : List (Nat × MTuple)}
    (h : Logged base q R log) {r : Nat} (hr : r < R) (tl' : List MTuple) (hp : tl'.take q.tl.length = q.tl) :
    (q.heads r = .empty ∧ emits r log = []) ∨
    ∃ f l ts, q.heads r = .chain f l ∧ chainFrom tl' tl'.length (some f) = some ts ∧ ts.map MTuple.strip = emits r log := by
  obtain ⟨rest, h1, h2⟩ := h.tl
  have hlen := h.length
  have ht := idx_tuples r log base rest h2
  rw [← h1] at ht
  have hget : ∀ i ∈ idx r base.length log, tl'[i]? = q.tl[i]? := by
    intro i hi
    have := (idx_mem hi).2.1
    rw [← hp, List.getElem?_take, if_pos (by omega)]
  have hhd := h.heads r hr
  cases hi : idx r base.length log with
  | nil =>
    left
    rw [hi] at hhd ht
    exact ⟨hhd, by simpa using ht.symm⟩
  | cons f is =>
    right
    rw [hi] at hhd ht
    refine ⟨f, _, ((f :: is).filterMap fun i => tl'[i]?), hhd, ?_, ?_⟩
    · have hl := (h.linked r hr).congr hget
      rw [hi] at hl
      have hle := idx_length r log base.length
      have hq : q.tl.length ≤ tl'.length := by
        have := congrArg List.length hp
        simp at this; omega
      exact walk_linked _ hl (by rw [← hi]; omega)
    · rw [← ht]
      congr 1
      apply filterMap_congr'
      intro i hi'
      exact hget i (by rw [hi]; exact hi')

end JPS
