import Verif.ParChunk
/-!
# Worker 0 in a later piece

In a later piece worker 0 goes on from the nodes, stacks and counters that `combine` left
(worker_automaton.c:130-135).  As long as it meets no node whose `root_range` was never written it does what a single
path does.
-/

set_option autoImplicit false

namespace JPS
open Spec

/-! ### One node per level -/

/-- The action is the same for roots and other nodes if there is no slice. -/
def Flagless (d : QDfa) (act : PAct) : Prop := ∀ e : Elt, NoIdx d e.st → act true e = act false e

theorem matched_flag {d : QDfa} {e : Elt} (h : NoIdx d e.st) : e.matched d true = e.matched d false := by
  have h1 := ERel.matched (d := d) (e := e) (e' := e) ⟨rfl, .inl rfl⟩ (b := true) fun _ => h
  have h2 := ERel.matched (d := d) (e := e) (e' := e) ⟨rfl, .inl rfl⟩ (b := false) fun h => by cases h
  rw [h1, h2]

theorem next_flag {d : QDfa} {e : Elt} (h : NoIdx d e.st) (k : Option Str) : e.next d true k = e.next d false k := by
  have h1 := ERel.next (d := d) (e := e) (e' := e) ⟨rfl, .inl rfl⟩ (b := true) (fun _ => h) k
  have h2 := ERel.next (d := d) (e := e) (e' := e) ⟨rfl, .inl rfl⟩ (b := false) (fun h => by cases h) k
  rw [h1, h2]

theorem flagless_close (E : WEnv) (arr : Bool) (pos : Nat) : Flagless E.d (closeAct E arr pos) := fun e h => by
  simp only [closeAct, matched_flag h]

theorem flagless_lcb (E : WEnv) (pos : Nat) : Flagless E.d (lcbAct E pos) := fun e h => by
  simp only [lcbAct, matched_flag h]

theorem flagless_lb (E : WEnv) (pos : Nat) : Flagless E.d (lbAct E pos) := fun e h => by
  simp only [lbAct, matched_flag h]

theorem flagless_elem (E : WEnv) (root : Bool) : Flagless E.d (elemAct E root) := fun e h => by
  simp only [elemAct, matched_flag h]

theorem flagless_incr (d : QDfa) : Flagless d incrAct := fun _ _ => rfl

theorem flagless_pri (E : WEnv) (t : Str) (inc : Bool) : Flagless E.d (priAct E t inc) := fun e h => by
  simp only [priAct, matched_flag h]

/-- The shapes `root_range` can have if there is one node per level. -/
def OneRoot (n : Node) : Prop := n.roots = none ∨ n.roots = some [] ∨ ∃ x, n.roots = some [x]

theorem addTo_strip (q : QS) (t : MTuple) (r : Nat) : (q.addTo t r).tl.map MTuple.strip = q.tl.map MTuple.strip ++ [t.strip] := by
  unfold QS.addTo
  cases q.heads r <;> simp [strip_link]

theorem addInfo_strip {q : QS} {i : Nat} {n : Node} (hn : q.nodes[i]? = some n) (h1 : OneRoot n) (h2 : n.roots ≠ none) (t : MTuple) :
    (q.addInfo i t).tl.map MTuple.strip = q.tl.map MTuple.strip ++ [t.strip] := by
  rcases h1 with h1 | h1 | ⟨x, h1⟩
  · exact absurd h1 h2
  · simp only [QS.addInfo, hn, h1]; exact addTo_strip _ _ _
  · simp only [QS.addInfo, hn, h1, List.foldl_cons, List.foldl_nil]; exact addTo_strip _ _ _

theorem each_one {f : Nat → Node → QS → QS} {act : Act} (hd : Does f act) {w : W} {j : Nat} {n : Node}
    (hn : w.q.nodes[j]? = some n) (h1 : OneRoot n) (hb : (w.each ⟨j, j + 1⟩ f).bad = false) :
    n.roots ≠ none ∧ (w.each ⟨j, j + 1⟩ f).q.nodes = w.q.nodes.set j (act.upd n) ∧ (w.each ⟨j, j + 1⟩ f).q.items = w.q.items ∧
      (w.each ⟨j, j + 1⟩ f).q.tl.map MTuple.strip = w.q.tl.map MTuple.strip ++ (act n).1.toList := by
  have hl : Rng.list ⟨j, j + 1⟩ = [j] := by simp [Rng.list]
  have hq : (w.each ⟨j, j + 1⟩ f).q = (f j n w.q).orUb (decide (n.roots = none)) := by
    simp only [W.each, hl, List.foldl_cons, List.foldl_nil, hn]
  have hr : n.roots ≠ none := by
    intro hr
    simp only [W.bad, Bool.or_eq_false_iff] at hb
    have := hb.2
    rw [hq] at this
    simp [QS.orUb, hr] at this
  obtain ⟨d1, _, d3, d4, d5⟩ := hd j n w.q hn hr
  rw [hq]
  refine ⟨hr, d1, d4, ?_⟩
  show (f j n w.q).tl.map _ = _
  rw [d3]
  cases ha : (act n).1 with
  | none => simp [QS.emit]
  | some t =>
    have := d5 t ha
    simp only [QS.emit, Option.toList]
    rw [addInfo_strip hn h1 hr]
    cases t
    simp only at this
    subst this
    rfl

/-- The worker and the path: one node per level; a node that may be used is a root without slice or has the path's
flag. -/
structure RT (d : QDfa) (w : W) (v : P) : Prop where
  lv : w.elt :: w.q.items = levels w.q.nodes.length
  view : w.q.nodes.reverse.map Node.elt = v.p
  one : ∀ n ∈ w.q.nodes, OneRoot n
  ok : ∀ (i : Nat) n, w.q.nodes[i]? = some n → NoIdx d n.st ∨ (0 < i ∧ n.roots ≠ some [])
  tl : w.q.tl.map MTuple.strip = v.out
  ss : w.ss = v.ss
  shadow : w.shadow = v.shadow

section
variable {E : WEnv} {w : W} {v : P}

theorem RT.last (h : RT E.d w v) : ∃ ns c, w.q.nodes = ns ++ [c] ∧ w.elt = ⟨ns.length, ns.length + 1⟩ ∧
    w.q.items = levels ns.length ∧ v.p = c.elt :: ns.reverse.map Node.elt := by
  have hl := h.lv
  have hv := h.view
  rcases List.eq_nil_or_concat w.q.nodes with hn | ⟨ns, c, hn⟩
  · rw [hn] at hl; cases hl
  · rw [hn] at hl hv
    simp only [List.concat_eq_append, List.length_append, List.length_cons, List.length_nil, Nat.zero_add, levels,
      List.cons.injEq] at hl
    refine ⟨ns, c, by rw [hn, List.concat_eq_append], hl.1, hl.2, ?_⟩
    rw [← hv]; simp

theorem ok_flag {d : QDfa} {act : PAct} (ha : Flagless d act) {i : Nat} {n : Node} {b : Bool} (h : NoIdx d n.st ∨ (0 < i ∧ n.roots ≠ some []))
    (hb : b = decide (i = 0)) : act.node n = act b n.elt := by
  unfold PAct.node
  rcases h with h | ⟨h, h2⟩
  · have := ha n.elt h
    cases b <;> cases decide (n.roots = some []) <;> simp [this]
  · have : i ≠ 0 := by omega
    rw [hb]; simp [h2, this]

theorem RT.cur (h : RT E.d w v) {f : Nat → Node → QS → QS} {act : PAct} (hd : Does f act.node) (ha : Flagless E.d act)
    (hb : (w.each w.elt f).bad = false) : RT E.d (w.each w.elt f) (v.cur act) := by
  obtain ⟨ns, c, h1, h2, h3, h4⟩ := h.last
  have hn : w.q.nodes[ns.length]? = some c := by rw [h1]; simp
  have ho := h.one c (by rw [h1]; simp)
  rw [h2] at hb ⊢
  obtain ⟨e1, e2, e3, e4⟩ := each_one hd hn ho hb
  have hf : act.node c = act (ns.reverse.map Node.elt == []) c.elt := by
    refine ok_flag ha (h.ok _ _ hn) ?_
    cases ns <;> simp
  have hset : w.q.nodes.set ns.length (Act.upd act.node c) = ns ++ [Act.upd act.node c] := by
    rw [h1, List.set_append_right _ _ (Nat.le_refl _)]; simp
  rw [hset] at e2
  rw [cur_eq h4]
  constructor
  · rw [e2, e3]
    show w.elt :: w.q.items = _
    rw [h2, h3]; simp [levels]
  · rw [e2]
    simp only [List.reverse_append, List.reverse_cons, List.reverse_nil, List.nil_append, List.map_append, List.map_cons,
      List.map_nil, List.cons_append]
    congr 1
    simp only [Act.upd, PAct.upd, Node.elt, hf]
  · rw [e2]
    intro n hn
    rcases List.mem_append.1 hn with hn | hn
    · exact h.one n (by rw [h1]; exact List.mem_append_left _ hn)
    · rw [List.mem_singleton] at hn; rw [hn]; exact ho
  · rw [e2]
    intro i n hi
    by_cases hlt : i < ns.length
    · rw [List.getElem?_append_left hlt] at hi
      exact h.ok i n (by rw [h1, List.getElem?_append_left hlt]; exact hi)
    · rw [List.getElem?_append_right (by omega)] at hi
      obtain ⟨hx, hy⟩ := List.getElem?_eq_some_iff.1 hi
      simp at hx hy
      have : i = ns.length := by omega
      subst this
      rw [← hy]
      have := h.ok _ _ hn
      exact this
  · rw [e4, h.tl, hf]
  · exact h.ss
  · exact h.shadow

theorem RT.below (h : RT E.d w v) {f : Nat → Node → QS → QS} {act : PAct} (hd : Does f act.node) (ha : Flagless E.d act)
    {r : Rng} {rs : List Rng} (hi : w.q.items = r :: rs) (hb : (w.each r f).bad = false) : RT E.d (w.each r f) (v.below act) := by
  obtain ⟨ns', c, h1, h2, h3, h4⟩ := h.last
  rcases List.eq_nil_or_concat ns' with hn | ⟨ns, b, hn⟩
  · rw [hn] at h3; rw [hi] at h3; cases h3
  rw [List.concat_eq_append] at hn
  subst hn
  rw [hi] at h3
  simp only [List.length_append, List.length_cons, List.length_nil, Nat.zero_add, levels, List.cons.injEq] at h3
  obtain ⟨rfl, h3⟩ := h3
  have hn : w.q.nodes[ns.length]? = some b := by rw [h1]; simp
  have ho := h.one b (by rw [h1]; simp)
  obtain ⟨e1, e2, e3, e4⟩ := each_one hd hn ho hb
  have hf : act.node b = act (ns.reverse.map Node.elt == []) b.elt := by
    refine ok_flag ha (h.ok _ _ hn) ?_
    cases ns <;> simp
  have hset : w.q.nodes.set ns.length (Act.upd act.node b) = ns ++ [Act.upd act.node b, c] := by
    rw [h1, List.append_assoc, List.set_append_right _ _ (Nat.le_refl _)]; simp
  rw [hset] at e2
  have h5 : v.p = c.elt :: b.elt :: ns.reverse.map Node.elt := by rw [h4]; simp
  rw [below_eq h5]
  constructor
  · rw [e2, e3]
    show w.elt :: w.q.items = _
    rw [h2, hi, h3]; simp [levels]
  · rw [e2]
    simp only [List.reverse_append, List.reverse_cons, List.reverse_nil, List.nil_append, List.map_append, List.map_cons,
      List.map_nil, List.cons_append]
    congr 2
    simp only [Act.upd, PAct.upd, Node.elt, hf]
  · rw [e2]
    intro n hn
    rcases List.mem_append.1 hn with hn | hn
    · exact h.one n (by rw [h1]; simp [hn])
    · rcases List.mem_cons.1 hn with hn | hn
      · rw [hn]; exact ho
      · rw [List.mem_singleton] at hn; rw [hn]; exact h.one c (by rw [h1]; simp)
  · rw [e2]
    intro i n hi
    by_cases hlt : i = ns.length
    · subst hlt
      have : n = Act.upd act.node b := by simpa using hi.symm
      rw [this]
      have := h.ok _ _ hn
      exact this
    · refine h.ok i n ?_
      have hbc : ns ++ [b] ++ [c] = ns ++ [b, c] := by simp
      rw [← hi, h1, hbc]
      by_cases hl : i < ns.length
      · rw [List.getElem?_append_left hl, List.getElem?_append_left hl]
      · rw [List.getElem?_append_right (by omega), List.getElem?_append_right (by omega)]
        obtain ⟨k, hk⟩ : ∃ k, i - ns.length = k + 1 := ⟨i - ns.length - 1, by omega⟩
        rw [hk]; simp
  · rw [e4, h.tl, hf]
  · exact h.ss
  · exact h.shadow

theorem RT.pushQ (h : RT E.d w v) (k : Option Str) (hb : (w.q.push E.d w.elt k).1.ub = false) :
    RT E.d { w with q := (w.q.push E.d w.elt k).1, elt := (w.q.push E.d w.elt k).2 } (v.pushQ E.d k) := by
  obtain ⟨ns, c, h1, h2, h3, h4⟩ := h.last
  have hn : w.q.nodes[ns.length]? = some c := by rw [h1]; simp
  have ho := h.one c (by rw [h1]; simp)
  have hl : Rng.list w.elt = [ns.length] := by rw [h2]; simp [Rng.list]
  have hpn : pushNodes E.d w.q.nodes k w.elt.list = [⟨c.next E.d k, 0, none, c.origins ns.length⟩] := by
    rw [hl]; simp only [pushNodes, List.foldl_cons, List.foldl_nil, hn]; simp [addPath]
  have hr : c.roots ≠ none := by
    intro hr
    unfold QS.push at hb
    dsimp only at hb
    rw [hpn] at hb
    simp [Node.origins, hr] at hb
  have hor : ∃ x, c.origins ns.length = some [x] := by
    rcases ho with ho | ho | ⟨x, ho⟩
    · exact absurd ho hr
    · exact ⟨ns.length, by simp [Node.origins, ho]⟩
    · exact ⟨x, by simp [Node.origins, ho]⟩
  obtain ⟨x, hx⟩ := hor
  have hnx : c.next E.d k = c.elt.next E.d (ns.reverse.map Node.elt == []) k := by
    rw [← next_elt]
    rcases h.ok _ _ hn with hi | ⟨hi, hi2⟩
    · have := next_flag (e := c.elt) hi k
      generalize (ns.reverse.map Node.elt == []) = b1
      generalize decide (c.roots = some []) = b2
      cases b1 <;> cases b2 <;> simp [this]
    · cases ns with
      | nil => simp at hi
      | cons y ys =>
        have h5 : ((y :: ys).reverse.map Node.elt == []) = false := by simp
        rw [h5, decide_eq_false hi2]
  rw [pushQ_eq h4]
  unfold QS.push
  dsimp only
  rw [hpn, hx]
  constructor
  · dsimp only
    rw [h2, h3, h1]; simp [levels]
  · dsimp only
    rw [h1, hnx]; simp [Node.elt]
  · intro n hm
    rcases List.mem_append.1 hm with hm | hm
    · exact h.one n hm
    · rw [List.mem_singleton] at hm; rw [hm]; exact .inr (.inr ⟨x, rfl⟩)
  · intro i n hi
    dsimp only at hi
    by_cases hlt : i < w.q.nodes.length
    · rw [List.getElem?_append_left hlt] at hi
      exact h.ok i n hi
    · rw [List.getElem?_append_right (by omega)] at hi
      obtain ⟨hx, hy⟩ := List.getElem?_eq_some_iff.1 hi
      simp at hx hy
      refine .inr ⟨?_, by rw [← hy]; simp⟩
      rw [h1] at hlt
      simp at hlt; omega
  · exact h.tl
  · exact h.ss
  · exact h.shadow

theorem RT.popQ (h : RT E.d w v) {x : Rng} {xs : List Rng} (hi : w.q.items = x :: xs) : RT E.d w.popQ v.popQ := by
  obtain ⟨ns, c, h1, h2, h3, h4⟩ := h.last
  obtain ⟨m, hm⟩ : ∃ m, ns.length = m + 1 := by
    cases hl : ns.length with
    | zero => rw [hl, hi] at h3; cases h3
    | succ m => exact ⟨m, rfl⟩
  rw [hm] at h3
  have hq : w.popQ = { w with q := { w.q with nodes := ns, items := levels m }, elt := ⟨m, m + 1⟩ } := by
    unfold W.popQ QS.pop
    rw [h3]
    simp only [levels]
    rw [h1, ← hm, List.take_left']
    rfl
  rw [hq]
  refine ⟨?_, ?_, fun n hn => h.one n (by rw [h1]; exact List.mem_append_left _ hn), fun i n hi => ?_, h.tl, h.ss, h.shadow⟩
  · show _ = levels ns.length
    rw [hm]; rfl
  · show _ = v.p.tail
    rw [h4]; simp
  · refine h.ok i n ?_
    obtain ⟨hx, _⟩ := List.getElem?_eq_some_iff.1 hi
    rw [h1, List.getElem?_append_left hx]; exact hi

theorem RT.setSs (h : RT E.d w v) {s s' : List Sym} (hs : s = s') : RT E.d { w with ss := s } { v with ss := s' } :=
  ⟨h.lv, h.view, h.one, h.ok, h.tl, hs, h.shadow⟩

theorem RT.mark (h : RT E.d w v) : RT E.d w.mark { v with st := .matched } := ⟨h.lv, h.view, h.one, h.ok, h.tl, h.ss, h.shadow⟩

/-! ### One token -/

theorem pruned_id0 (h0 : E.id0 = true) (k : CKey) : w.pruned E k = w := by
  unfold W.pruned
  cases E.ct with
  | none => rfl
  | some ct => simp [h0]

theorem wf_under {x : Sym} {r : List Sym} (h : wfStack (x :: r)) (hx : x ≠ .ky) : r = [] ∨ (∃ q, r = .ky :: q) ∨ ∃ q, r = .lb :: q := by
  rcases wf_below h hx with h | ⟨q, h⟩ | ⟨q, h⟩
  · exact .inl h
  · exact .inr (.inr ⟨q, h⟩)
  · exact .inr (.inl ⟨_, h⟩)

theorem RT.step (h0 : E.id0 = true) (s0 : Nat) (h : RT E.d w v) (hsh : v.shadow = []) {m : Mode} {t : Tok} {rest : List Tok}
    (hwf : wfStack v.ss) (hm : modeOK v.ss m)
    (hf : fitsAll v.ss m (t :: rest)) (hb : (w.step E t rest).bad = false) :
    RT E.d (w.step E t rest) (v.step E s0 t rest) ∧ (v.step E s0 t rest).shadow = [] := by
  have hws : w.shadow = [] := h.shadow.trans hsh
  have hbp : ∀ {w : W}, w.popQ.bad = false → w.bad = false := fun hb => not_bad (b := W.bad) (f := W.popQ) (fun _ => W.popQ_bad) hb
  have hbi : ∀ {w : W}, w.incrAll.bad = false → w.bad = false := fun hb => not_bad (b := W.bad) (f := W.incrAll) (fun _ => W.incrAll_bad) hb
  have hbe : ∀ {r : Bool} {w : W}, (w.elemEnd E r).bad = false → w.bad = false := fun hb => not_bad (b := W.bad) (f := W.elemEnd E _) (fun _ => W.elemEnd_bad) hb
  cases t with
  | lcb p =>
    refine ⟨?_, (cur_fields _ _).2.2.2.2.trans hsh⟩
    have h1 : RT E.d { w.mark with ss := push w.ss .lcb } { v with st := .matched, ss := push v.ss .lcb } :=
      h.mark.setSs (by rw [h.ss])
    exact h1.cur (does_lcb E p) (flagless_lcb E p) hb
  | lb p =>
    have h1 : (P.cur (lbAct E p) { v with st := .matched }).shadow = [] := (cur_fields _ _).2.2.2.2.trans hsh
    have h2 : (P.pushQ E.d none (P.cur (lbAct E p) { v with st := .matched })).shadow = [] :=
      (pushQ_fields _ _ _).2.2.2.2.trans h1
    refine ⟨?_, h2⟩
    have hb' : (w.lb E p).bad = false := hb
    show RT E.d (w.lb E p) _
    unfold W.lb at hb' ⊢
    dsimp only at hb' ⊢
    rw [pruned_id0 h0] at hb' ⊢
    generalize hw1 : W.each w.mark.elt _ w.mark = w1 at hb' ⊢
    have hb1 : w1.bad = false := by
      cases e : w1.bad with
      | false => rfl
      | true => rw [W.pushQ_bad e] at hb'; cases hb'
    have h3 : RT E.d w1 (P.cur (lbAct E p) { v with st := .matched }) := by
      rw [← hw1] at hb1 ⊢
      exact h.mark.cur (does_lb E p) (flagless_lb E p) hb1
    have h4 := h3.pushQ none (by simp only [W.bad, Bool.or_eq_false_iff] at hb'; exact hb'.2)
    have h5 := h4.setSs (s := push w1.ss .lb) (s' := push (P.pushQ E.d none (P.cur (lbAct E p) { v with st := .matched })).ss .lb)
      (by rw [h4.ss.symm])
    exact h5
  | ky k =>
    have h2 : (P.pushQ E.d (some k) { v with st := .matched }).shadow = [] :=
      (pushQ_fields _ _ _).2.2.2.2.trans hsh
    refine ⟨?_, h2⟩
    have hb' : (w.ky E k).bad = false := hb
    show RT E.d (w.ky E k) _
    unfold W.ky at hb' ⊢
    dsimp only at hb' ⊢
    rw [pruned_id0 h0] at hb' ⊢
    have h4 := h.mark.pushQ (some k) (by simp only [W.bad, Bool.or_eq_false_iff] at hb'; exact hb'.2)
    exact h4.setSs (by rw [h4.ss.symm])
  | com => exact ⟨h, hsh⟩
  | pri x =>
    have hne := hf.1.2
    have hwne : w.ss.length ≥ 1 := by rw [h.ss]; exact List.length_pos_iff.2 hne
    have hb' : (w.pri E x rest).bad = false := hb
    rw [pri_in hne]
    show RT E.d (w.pri E x rest) _ ∧ _
    unfold W.pri at hb' ⊢
    rw [if_pos hwne] at hb' ⊢
    dsimp only at hb' ⊢
    have hss : (w.priOut E x (decide (top w.ss = some .lb))).ss = v.ss := h.ss
    rw [hss, h.ss] at hb' ⊢
    by_cases ht : top v.ss = some .ky
    · rw [if_pos ht] at hb' ⊢
      rw [if_pos ht]
      have hb1 := hbp (w := w.priOut E x (decide (top v.ss = some .lb))) hb'
      have h1 := h.cur (does_pri E x (decide (top v.ss = some .lb))) (flagless_pri E x _) hb1
      obtain ⟨y, ys, hy⟩ := items_of_pop (w := w.priOut E x (decide (top v.ss = some .lb))) hb'
      exact ⟨(h1.popQ hy).setSs (by show pop w.ss = _; rw [h.ss]), (cur_fields _ _).2.2.2.2.trans hsh⟩
    · rw [if_neg ht] at hb' ⊢
      rw [if_neg ht]
      exact ⟨h.cur (does_pri E x _) (flagless_pri E x _) hb', (cur_fields _ _).2.2.2.2.trans hsh⟩
  | rcb p =>
    have htop := hf.1.1
    cases hv : v.ss with
    | nil => rw [hv] at htop; cases htop
    | cons y r =>
      have hy : y = .lcb := by rw [hv] at htop; simpa [top] using htop
      subst hy
      have hb' : (w.rcb E p rest).bad = false := hb
      show RT E.d (w.rcb E p rest) _ ∧ _
      unfold W.rcb at hb' ⊢
      have hl : ¬ w.ss.length = 0 := by rw [h.ss, hv]; simp
      rw [if_neg hl] at hb' ⊢
      dsimp only at hb' ⊢
      have hss : (w.closeOut E false p w.elt).ss = v.ss := h.ss
      have hsw : (w.closeOut E false p w.elt).shadow = [] := hws
      have key : (w.closeOut E false p w.elt).bad = false → RT E.d (w.closeOut E false p w.elt) (v.cur (closeAct E false p)) :=
        h.cur (does_close E false p) (flagless_close E false p)
      have hcs := (cur_fields v (closeAct E false p)).2.2.2
      generalize w.closeOut E false p w.elt = w1 at hb' hss hsw key ⊢
      rw [hss, hv] at hb' ⊢
      rw [hv] at hwf
      rcases wf_under hwf (by simp) with hr | ⟨q, hr⟩ | ⟨q, hr⟩
      · subst hr
        have hnil : rest = [] := by
          have := hf.2
          rw [hv] at this
          exact fits_end this
        subst hnil
        have hin : w1.inferred .rcb [] = w1 := by
          unfold W.inferred
          rw [if_pos hsw]
          show { w1 with shadow := [] } = w1
          cases w1; simp only at hsw; rw [hsw]
        simp only [List.length_cons, List.length_nil, Nat.zero_add, if_true, hin, hsw] at hb' ⊢
        rw [rcb_top hv hsh rfl]
        have hk := (key hb').setSs (s := pop w1.ss) (s' := pop v.ss) (by rw [hss])
        rw [hsw] at hk
        exact ⟨hk, by rw [hcs.2]; exact hsh⟩
      · subst hr
        have h1 : ¬ (Sym.lcb :: Sym.ky :: q).length = 1 := by simp
        have h2 : secondTop (Sym.lcb :: Sym.ky :: q) = some .ky := rfl
        rw [if_neg h1, if_pos h2] at hb' ⊢
        rw [rcb_key hv]
        have hk := key (hbp hb')
        obtain ⟨y, ys, hy⟩ := items_of_pop (w := w1) hb'
        exact ⟨(hk.popQ hy).setSs (by show pop (pop w1.ss) = _; rw [hss]), by show (v.cur (closeAct E false p)).shadow = []; rw [hcs.2]; exact hsh⟩
      · subst hr
        have h1 : ¬ (Sym.lcb :: Sym.lb :: q).length = 1 := by simp
        have h2 : ¬ secondTop (Sym.lcb :: Sym.lb :: q) = some .ky := by simp [secondTop]
        have h3 : secondTop (Sym.lcb :: Sym.lb :: q) = some .lb := rfl
        rw [if_neg h1, if_neg h2, if_pos h3] at hb' ⊢
        rw [rcb_elem hv]
        have hk := key (hbe hb')
        have hk2 := hk.setSs (s := pop (Sym.lcb :: Sym.lb :: q)) (s' := pop v.ss) (by rw [hv])
        exact ⟨hk2.cur (does_elem E false) (flagless_elem E false) hb', (cur_fields _ _).2.2.2.2.trans (by show (v.cur (closeAct E false p)).shadow = []; rw [hcs.2]; exact hsh)⟩
  | rb p =>
    have htop := hf.1.1
    cases hv : v.ss with
    | nil => rw [hv] at htop; cases htop
    | cons y r =>
      have hy : y = .lb := by rw [hv] at htop; simpa [top] using htop
      subst hy
      have hb' : (w.rb E p rest).bad = false := hb
      show RT E.d (w.rb E p rest) _ ∧ _
      unfold W.rb at hb' ⊢
      have hl : ¬ w.ss.length = 0 := by rw [h.ss, hv]; simp
      rw [if_neg hl] at hb' ⊢
      cases hi : w.q.items with
      | nil =>
        exfalso
        have h1 : (w.rbOut E p).bad = true := by
          unfold W.rbOut; rw [hi]; simp [W.orUb, W.bad]
        generalize w.rbOut E p = w1 at hb' h1
        have h2 := W.inferred_bad (x := .rb) (rest := rest) h1
        unfold W.rbEnd at hb'
        dsimp only at hb'
        repeat' split at hb'
        · exact absurd (hbp hb') (by rw [h2]; simp)
        · exact absurd (W.addSym_bad (W.closeUnit_bad h2)) (by rw [hb']; simp)
        · exact absurd (hbp (hbi hb')) (by rw [h2]; simp)
        · rw [h2] at hb'; cases hb'
        · exact absurd (hbp (w := { w1 with q := w1.q.pop.1 }) hb') (by rw [show W.bad { w1 with q := w1.q.pop.1 } = true from W.popQ_bad h1]; simp)
        · exact absurd (hbp (hbi hb')) (by rw [h1]; simp)
        · rw [h1] at hb'; cases hb'
      | cons r0 rs0 =>
      have hro : w.rbOut E p = w.closeOut E true p r0 := by unfold W.rbOut; rw [hi]
      rw [hro] at hb' ⊢
      have hss : (w.closeOut E true p r0).ss = v.ss := h.ss
      have hsw : (w.closeOut E true p r0).shadow = [] := hws
      have key : (w.closeOut E true p r0).bad = false → RT E.d (w.closeOut E true p r0) (v.below (closeAct E true p)) :=
        h.below (does_close E true p) (flagless_close E true p) hi
      have hcs := (below_fields v (closeAct E true p)).2.2.2
      generalize w.closeOut E true p r0 = w1 at hb' hss hsw key ⊢
      unfold W.rbEnd at hb' ⊢
      dsimp only at hb' ⊢
      rw [hss, hv] at hb' ⊢
      rw [hv] at hwf
      have hbsh : (v.below (closeAct E true p)).shadow = [] := by rw [hcs.2]; exact hsh
      rcases wf_under hwf (by simp) with hr | ⟨q, hr⟩ | ⟨q, hr⟩
      · subst hr
        have hnil : rest = [] := by
          have := hf.2
          rw [hv] at this
          exact fits_end this
        subst hnil
        have hin : w1.inferred .rb [] = w1 := by
          unfold W.inferred
          rw [if_pos hsw]
          show { w1 with shadow := [] } = w1
          cases w1; simp only at hsw; rw [hsw]
        simp only [List.length_cons, List.length_nil, Nat.zero_add, if_true, hin, hsw] at hb' ⊢
        rw [rb_top hv hsh rfl]
        have hk := key (hbp hb')
        obtain ⟨y, ys, hy⟩ := items_of_pop (w := w1) hb'
        exact ⟨(hk.popQ hy).setSs (by show pop w1.ss = _; rw [hss]), hbsh⟩
      · subst hr
        have h1 : ¬ (Sym.lb :: Sym.ky :: q).length = 1 := by simp
        have h2 : secondTop (Sym.lb :: Sym.ky :: q) = some .ky := rfl
        rw [if_neg h1, if_pos h2] at hb' ⊢
        rw [rb_key hv]
        have hb1 : w1.popQ.popQ.bad = false := hb'
        have hk := key (hbp (hbp hb1))
        obtain ⟨y, ys, hy⟩ := items_of_pop (hbp hb1)
        obtain ⟨z, zs, hz⟩ := items_of_pop hb1
        have hk2 := ((hk.popQ hy).popQ hz).setSs (s := pop (pop (.lb :: .ky :: q))) (s' := pop (pop v.ss)) (by rw [hv])
        exact ⟨hk2, hbsh⟩
      · subst hr
        have h1 : ¬ (Sym.lb :: Sym.lb :: q).length = 1 := by simp
        have h2 : ¬ secondTop (Sym.lb :: Sym.lb :: q) = some .ky := by simp [secondTop]
        have h3 : secondTop (Sym.lb :: Sym.lb :: q) = some .lb := rfl
        rw [if_neg h1, if_neg h2, if_pos h3] at hb' ⊢
        rw [rb_elem hv]
        have hb1 : w1.popQ.bad = false := hbi hb'
        have hk := key (hbp hb1)
        obtain ⟨y, ys, hy⟩ := items_of_pop hb1
        have hk2 := (hk.popQ hy).setSs (s := pop w1.ss) (s' := pop v.ss) (by rw [hss])
        exact ⟨hk2.cur does_incr (flagless_incr _) hb', (cur_fields _ _).2.2.2.2.trans hbsh⟩

end

/-! ### The path and the serial automaton -/

/-- States below `n`; tuples with texts. -/
structure PB (n : Nat) (v : P) : Prop where
  bnd : ∀ e ∈ v.p, e.st < n
  span : ∀ t ∈ v.out, t.span = none

section
variable {E : WEnv} {n : Nat} {v : P}

theorem PB.congr {v' : P} (h : PB n v) (hp : v'.p = v.p) (ho : v'.out = v.out) : PB n v' :=
  ⟨by rw [hp]; exact h.bnd, by rw [ho]; exact h.span⟩

theorem PB.cur (h : PB n v) {a : PAct} (ha : Tame E a) (h0 : E.id0 = true) : PB n (v.cur a) := by
  unfold P.cur
  cases hp : v.p with
  | nil => exact h
  | cons e t =>
    refine ⟨fun x hx => ?_, fun x hx => ?_⟩
    · rcases List.mem_cons.1 hx with rfl | hx
      · exact h.bnd e (by rw [hp]; exact List.mem_cons_self)
      · exact h.bnd x (by rw [hp]; exact List.mem_cons_of_mem _ hx)
    · rcases List.mem_append.1 hx with hx | hx
      · exact h.span x hx
      · exact ha.span h0 _ _ x (by simpa using hx)

theorem PB.below (h : PB n v) {a : PAct} (ha : Tame E a) (h0 : E.id0 = true) : PB n (v.below a) := by
  unfold P.below
  split
  next e e1 t hp =>
    refine ⟨fun x hx => ?_, fun x hx => ?_⟩
    · rcases List.mem_cons.1 hx with rfl | hx
      · exact h.bnd x (by rw [hp]; exact List.mem_cons_self)
      · rcases List.mem_cons.1 hx with rfl | hx
        · exact h.bnd e1 (by rw [hp]; simp)
        · exact h.bnd x (by rw [hp]; simp [hx])
    · rcases List.mem_append.1 hx with hx | hx
      · exact h.span x hx
      · exact ha.span h0 _ _ x (by simpa using hx)
  · exact h

theorem PB.pushQ (hd : Dead E.d n) (h : PB n v) (k : Option Str) : PB n (v.pushQ E.d k) := by
  unfold P.pushQ
  cases hp : v.p with
  | nil => exact h
  | cons e t =>
    refine ⟨fun x hx => ?_, h.span⟩
    rcases List.mem_cons.1 hx with hx | hx
    · rw [hx]; exact next_bnd hd _ _ _
    · exact h.bnd x (by rw [hp]; exact hx)

theorem PB.popQ (h : PB n v) : PB n v.popQ := ⟨fun x hx => h.bnd x (List.mem_of_mem_tail hx), h.span⟩

theorem PB.step (hd : Dead E.d n) (h0 : E.id0 = true) (h : PB n v) {s0 : Nat} {t : Tok} {rest : List Tok} (hsh : v.shadow = []) {m : Mode}
    (hwf : wfStack v.ss) (hf : fitsAll v.ss m (t :: rest)) : PB n (v.step E s0 t rest) := by
  cases t with
  | lcb p =>
    have h1 : PB n { v with st := .matched, ss := push v.ss .lcb } := h.congr rfl rfl
    exact h1.cur (tame_lcb hd p) h0
  | lb p =>
    have h1 : PB n { v with st := .matched } := h.congr rfl rfl
    exact (PB.pushQ hd (h1.cur (tame_lb hd p) h0) none).congr rfl rfl
  | ky k =>
    have h1 : PB n { v with st := .matched } := h.congr rfl rfl
    exact (PB.pushQ hd h1 (some k)).congr rfl rfl
  | com => exact h
  | pri x =>
    rw [pri_in hf.1.2]
    have h1 := h.cur (tame_pri (E := E) hd x (decide (top v.ss = some .lb))) h0
    split
    · exact h1.popQ.congr rfl rfl
    · exact h1
  | rcb p =>
    have htop := hf.1.1
    have h1 := h.cur (tame_close (E := E) hd false p) h0
    cases hv : v.ss with
    | nil => rw [hv] at htop; cases htop
    | cons y r =>
      have hy : y = .lcb := by rw [hv] at htop; simpa [top] using htop
      subst hy
      rw [hv] at hwf
      rcases wf_under hwf (by simp) with hr | ⟨q, hr⟩ | ⟨q, hr⟩
      · subst hr
        have hnil : rest = [] := by
          have := hf.2
          rw [hv] at this
          exact fits_end this
        subst hnil
        rw [rcb_top hv hsh rfl]
        exact h1.congr rfl rfl
      · subst hr
        rw [rcb_key hv]
        exact h1.popQ.congr rfl rfl
      · subst hr
        rw [rcb_elem hv]
        refine PB.cur ?_ (tame_elem hd false) h0
        exact h1.congr rfl rfl
  | rb p =>
    have htop := hf.1.1
    have h1 := h.below (tame_close (E := E) hd true p) h0
    cases hv : v.ss with
    | nil => rw [hv] at htop; cases htop
    | cons y r =>
      have hy : y = .lb := by rw [hv] at htop; simpa [top] using htop
      subst hy
      rw [hv] at hwf
      rcases wf_under hwf (by simp) with hr | ⟨q, hr⟩ | ⟨q, hr⟩
      · subst hr
        have hnil : rest = [] := by
          have := hf.2
          rw [hv] at this
          exact fits_end this
        subst hnil
        rw [rb_top hv hsh rfl]
        exact h1.popQ.congr rfl rfl
      · subst hr
        rw [rb_key hv]
        exact h1.popQ.popQ.congr rfl rfl
      · subst hr
        rw [rb_elem hv]
        refine PB.cur ?_ (tame_incr E) h0
        exact h1.popQ.congr rfl rfl

theorem Rel.whole {S : SA} (h : Rel E [] [] [] [] S v) {s0 : Nat} {t : Tok} {rest : List Tok} (hsh : v.shadow = []) {m : Mode}
    (hwf : wfStack S.ss) (hm : modeOK S.ss m) (hf : fitsAll S.ss m (t :: rest)) :
    Rel E [] [] [] [] (JPS.step E.d E.s S t) (v.step E s0 t rest) := by
  have hss : S.ss = v.ss := by rw [h.ss, List.append_nil]
  cases t with
  | lcb p => exact h.lcb s0 p rest hf.1.2
  | lb p => exact h.lb s0 p rest hf.1.2
  | ky k => exact h.ky s0 k rest hf.1.2.2 hf.1.1
  | com => exact h
  | pri x =>
    refine h.priTop s0 x rest (by rw [← hss]; exact hf.1.2) ?_
    rcases hf.1.1 with h1 | h1
    · rcases hm.1 h1 with h2 | h2
      · exact absurd h2 hf.1.2
      · exact .inl h2
    · exact .inr h1.1
  | rcb p =>
    have htop := hf.1.1
    have hrel := h.closeCur p htop
    have hSo : (rcbOutput E.d E.s p S).ss = S.ss := by rw [hrel.ss, (cur_fields _ _).2.2.2.1, h.ss]
    cases hv : v.ss with
    | nil => rw [hss, hv] at htop; cases htop
    | cons y r =>
      have hy : y = .lcb := by rw [hss, hv] at htop; simpa [top] using htop
      subst hy
      rw [hss, hv] at hwf
      rcases wf_under hwf (by simp) with hr | ⟨q, hr⟩ | ⟨q, hr⟩
      · subst hr
        have hnil : rest = [] := by
          have := hf.2
          rw [hss, hv] at this
          exact fits_end this
        subst hnil
        rw [rcb_top hv hsh rfl]
        have := hrel.endTop (by rw [(cur_fields _ _).2.2.2.1, hv])
        rw [(cur_fields _ _).2.2.2.1] at this
        exact this
      · subst hr
        rw [rcb_key hv]
        have := hrel.endKey (r := q) (by rw [(cur_fields _ _).2.2.2.1, hv])
        rw [(cur_fields _ _).2.2.2.1] at this
        exact this
      · subst hr
        rw [rcb_elem hv]
        have := hrel.endElem false (v.cur (closeAct E false p)).shadow (r := .lb :: q) (q := q)
          (by rw [(cur_fields _ _).2.2.2.1, hv]) (by rw [hSo, hss, hv])
        rw [(cur_fields _ _).2.2.2.1] at this
        exact this
  | rb p =>
    have htop := hf.1.1
    cases hv : v.ss with
    | nil => rw [hss, hv] at htop; cases htop
    | cons y r =>
      have hy : y = .lb := by rw [hss, hv] at htop; simpa [top] using htop
      subst hy
      rw [hss, hv] at hwf
      rcases wf_under hwf (by simp) with hr | ⟨q, hr⟩ | ⟨q, hr⟩
      · subst hr
        have hnil : rest = [] := by
          have := hf.2
          rw [hss, hv] at this
          exact fits_end this
        subst hnil
        rw [rb_top hv hsh rfl]
        exact h.rbTop p (v.below (closeAct E true p)).shadow hv
      · subst hr
        rw [rb_key hv]
        exact h.rbKey p hv
      · subst hr
        rw [rb_elem hv]
        exact h.rbElem p (v.below (closeAct E true p)).shadow (r := .lb :: q) (q := q) hv (by simp)

end

/-- Worker, path and serial automaton over some tokens. -/
theorem resume_run {E : WEnv} {n : Nat} (hd : Dead E.d n) (h0 : E.id0 = true) (s0 : Nat) : ∀ (ts : List Tok) {w : W} {v : P} {S : SA} {m : Mode},
    RT E.d w v → PB n v → Rel E [] [] [] [] S v → v.shadow = [] → wfStack S.ss → modeOK S.ss m → fitsAll S.ss m ts →
    (W.run E w ts).bad = false →
    RT E.d (W.run E w ts) (P.run E s0 v ts) ∧ PB n (P.run E s0 v ts) ∧ Rel E [] [] [] [] (runToks E.d E.s S ts) (P.run E s0 v ts) ∧
      wfStack (runToks E.d E.s S ts).ss ∧ modeOK (runToks E.d E.s S ts).ss (modeAfter m ts)
  | [], _, _, _, _, h1, h2, h3, _, h5, h6, _, _ => ⟨h1, h2, h3, h5, h6⟩
  | t :: ts, w, v, S, m, h1, h2, h3, h4, h5, h6, h7, hb => by
    have hss : S.ss = v.ss := by rw [h3.ss, List.append_nil]
    have hb1 : (w.step E t ts).bad = false := by
      cases e : (w.step E t ts).bad with
      | false => rfl
      | true =>
        have hb' : (W.run E (w.step E t ts) ts).bad = false := hb
        rw [W.run_bad e] at hb'; cases hb'
    have hw := h5
    have hm := h6
    have hf := h7
    rw [hss] at hw hm hf
    obtain ⟨g1, g2⟩ := h1.step h0 s0 h4 hw hm hf hb1
    have g3 := h2.step hd h0 (s0 := s0) h4 hw hf
    have g4 := h3.whole (s0 := s0) h4 h5 h6 h7
    obtain ⟨g5, g6⟩ := wf_step h5 h6 h7.1
    have h8 := h7.2
    rw [← step_ss E.d E.s] at g5 g6 h8
    exact resume_run hd h0 s0 ts g1 g3 g4 g2 g5 g6 h8 hb

theorem all2_states {d : QDfa} {E : List Elt} : ∀ {qs kp t : List Elt}, All2 (QRel d) qs kp → kp.map Elt.st = t.map Elt.st →
    (∀ e ∈ kp, NoIdx d e.st ∧ d.accept e.st ≠ .output) → All2 (QRel d) qs t
  | _, _, [], .nil, _, _ => .nil
  | _, _, _ :: _, .nil, h, _ => by cases h
  | _, _, [], .cons _ _, h, _ => by cases h
  | _, _, y :: t, .cons h1 h2, h, hi => by
    simp only [List.map_cons, List.cons.injEq] at h
    rename_i x k qs kp
    obtain ⟨i1, i2⟩ := hi k List.mem_cons_self
    have hx : x.st = k.st := h1.1.st
    refine .cons ⟨⟨hx.trans h.1, .inr (by rw [hx]; exact i1)⟩, fun hm => ?_⟩
      (all2_states (E := E) h2 h.2 fun e he => hi e (List.mem_cons_of_mem _ he))
    rw [hx, i1.matchedType] at hm
    exact absurd hm i2

/-- **Worker 0 goes on where `combine` stopped**: on the first chunk of a later piece it finds the tuples of the serial
automaton, if it meets no node whose `root_range` was never written. -/
theorem resume_sim {d : QDfa} {ct : Option CTable} {u : UState} {s : Str} {k : K} {C0 : Comb} {a : SA} {m : Mode}
    (hd : Dead d d.statesNum) (hk : KC k C0) (hr : CRel d C0.tl C0 { a with tl := [] }) (hc : CInv d d.statesNum C0)
    (hw : wfStack a.ss) (hm : modeOK a.ss m) (hfit : fitsAll a.ss m (lexAll s))
    (hb : (K.ofW (worker0 d ct u (some k) s)).bad = false) :
    ∃ C', KC (K.ofW (worker0 d ct u (some k) s)) C' ∧
      C'.tl = (runToks d s { a with tl := [] } (lexAll s)).tl ∧
      wfStack (runToks d s { a with tl := [] } (lexAll s)).ss ∧
      modeOK (runToks d s { a with tl := [] } (lexAll s)).ss (modeAfter m (lexAll s)) ∧
      (CutOK d (modeAfter m (lexAll s)) (runToks d s { a with tl := [] } (lexAll s)) →
        CRel d C'.tl C' { runToks d s { a with tl := [] } (lexAll s) with tl := [] } ∧ CInv d d.statesNum C') := by
  generalize hE : (⟨d, true, s, ct, none⟩ : WEnv) = E
  have hE1 : E.d = d := by rw [← hE]
  have hE2 : E.s = s := by rw [← hE]
  have hE3 : E.id0 = true := by rw [← hE]
  obtain ⟨c, kp, hp, he, hq⟩ := hr.path
  have hst : C0.st = c.st := by simp [Comb.st, hp]
  have hidx : ∀ n ∈ k.q.nodes, NoIdx d n.st ∧ n.st < d.statesNum := by
    intro n hn
    have : n.st ∈ C0.p.map Elt.st := by
      rw [← hk.p]; exact List.mem_map_of_mem (f := Node.st) (List.mem_reverse.2 hn)
    obtain ⟨e, h1, h2⟩ := List.mem_map.1 this
    rw [← h2]; exact ⟨hc.idx e h1, hc.bnd e h1⟩
  let v0 : P := ⟨k.q.nodes.reverse.map Node.elt, [], k.ss, [], [], u, []⟩
  have hpst : v0.p.map Elt.st = C0.p.map Elt.st := by
    rw [← hk.p]
    show (k.q.nodes.reverse.map Node.elt).map Elt.st = _
    rw [List.map_map]; rfl
  have hrt : RT E.d (W.resume { k.q with tl := [] } k.elt k.ss u) v0 := by
    rw [hE1]
    exact ⟨hk.lv, rfl, hk.roots, fun i n hn => .inl (hidx n (List.mem_of_getElem? hn)).1, rfl, rfl, rfl⟩
  have hpb : PB d.statesNum v0 := by
    refine ⟨fun e he => ?_, fun t ht => by cases ht⟩
    obtain ⟨n, h1, rfl⟩ := List.mem_map.1 he
    exact (hidx n (List.mem_reverse.1 h1)).2
  have hrel : Rel E [] [] [] [] { a with tl := [] } v0 := by
    have hss : a.ss = k.ss := hr.ss.trans hk.ss.symm
    have hall : ∀ e ∈ v0.p, NoIdx E.d e.st := by
      intro e he
      obtain ⟨n, h1, rfl⟩ := List.mem_map.1 he
      rw [hE1]; exact (hidx n (List.mem_reverse.1 h1)).1
    refine ⟨by rw [List.append_nil]; exact hss, ?_, fun l e hl => hall e (by rw [hl]; simp), ?_, rfl, rfl⟩
    · rw [hp] at hpst
      cases hv : v0.p with
      | nil => rw [hv] at hpst; cases hpst
      | cons e t =>
        rw [hv] at hpst
        simp only [List.map_cons, List.cons.injEq] at hpst
        have he0 : a.elt.st = c.st := he.st
        have hci := hc.idx c (by rw [hp]; exact List.mem_cons_self)
        rw [hE1]
        refine ⟨e, t, rfl, ⟨he0.trans hpst.1.symm, .inr (by rw [he0]; exact hci)⟩, fun ht hx => ?_, ?_⟩
        · have h5 : d.accept C0.st ≠ .output := hc.cur (by rw [← hr.ss]; exact ht)
          rw [show ({ a with tl := [] } : SA).elt = a.elt from rfl, he0, hci.matchedType] at hx
          rw [hst] at h5
          exact absurd hx h5
        · rw [List.append_nil]
          refine all2_states (E := kp) hq hpst.2.symm fun x hx => ⟨hc.idx x (by rw [hp]; exact List.mem_cons_of_mem _ hx), hc.low x (by rw [hp]; exact hx)⟩
    · have h1 := congrArg List.length hpst
      simp only [List.length_map] at h1
      rw [h1, hc.len]
      show nk C0.ss + 1 = nk k.ss + 1
      rw [hk.ss]
  have hwb : ((worker0 d ct u (some k) s).ub || (worker0 d ct u (some k) s).q.ub) = false := by
    simp only [K.ofW, K.bad, Bool.or_eq_false_iff] at hb ⊢
    exact hb.1
  have hrun : (W.run E (W.resume { k.q with tl := [] } k.elt k.ss u) (lexAll s)).bad = false := by
    simp only [worker0, W.orUb, W.finish, Bool.or_eq_false_iff, hE] at hwb
    simp only [W.bad, Bool.or_eq_false_iff]
    exact ⟨hwb.1.1.1.1, hwb.2⟩
  obtain ⟨r1, r2, r3, r4, r5⟩ := resume_run (by rw [hE1]; exact hd) hE3 0 (lexAll s) hrt hpb hrel rfl hw hm hfit hrun
  rw [hE1, hE2] at r3 r4 r5
  generalize hv : P.run E 0 v0 (lexAll s) = v at r1 r2 r3
  have hw0 : ∀ {α : Type} (g : QS → Rng → List Sym → α), g (worker0 d ct u (some k) s).q (worker0 d ct u (some k) s).elt (worker0 d ct u (some k) s).ss =
      g (W.run E (W.resume { k.q with tl := [] } k.elt k.ss u) (lexAll s)).q (W.run E (W.resume { k.q with tl := [] } k.elt k.ss u) (lexAll s)).elt
        (W.run E (W.resume { k.q with tl := [] } k.elt k.ss u) (lexAll s)).ss := by
    intro α g
    simp only [worker0, hE]; rfl
  generalize W.run E (W.resume { k.q with tl := [] } k.elt k.ss u) (lexAll s) = w at r1 hw0
  generalize runToks d s { a with tl := [] } (lexAll s) = S at r3 r4 r5 ⊢
  have hSs : S.ss = v.ss := by rw [r3.ss, List.append_nil]
  have htl : v.out.map (resolve s) = S.tl := by have := r3.tl; rw [hE2] at this; simpa using this.symm
  refine ⟨⟨v.p, v.ss, v.out.map (resolve s)⟩, ⟨?_, ?_, ?_, ?_, ?_⟩, htl, r4, r5, fun hcut => ?_⟩
  · have := hw0 fun q e _ => e :: q.items = levels q.nodes.length
    show (worker0 d ct u (some k) s).elt :: (worker0 d ct u (some k) s).q.items = levels (worker0 d ct u (some k) s).q.nodes.length
    rw [this]; exact r1.lv
  · have := hw0 fun q _ _ => q.nodes
    show (worker0 d ct u (some k) s).q.nodes.reverse.map _ = _
    rw [this, ← r1.view, List.map_map]; rfl
  · have := hw0 fun _ _ ss => ss
    show (worker0 d ct u (some k) s).ss = _
    rw [this, r1.ss]
  · have := hw0 fun q _ _ => q.tl
    show (worker0 d ct u (some k) s).q.tl.map _ = _
    rw [this]
    have h3 : w.q.tl.map (fun t => (⟨t.st, t.text.getD []⟩ : Tuple)) =
        (w.q.tl.map MTuple.strip).map fun t => ⟨t.st, t.text.getD []⟩ := by
      rw [List.map_map]; rfl
    rw [h3, r1.tl]
    refine List.map_congr_left fun t ht => ?_
    simp only [resolve, r2.span t ht]
  · have := hw0 fun q _ _ => q.nodes
    show ∀ n ∈ (worker0 d ct u (some k) s).q.nodes, _
    rw [this]
    exact r1.one
  · obtain ⟨e, t, hp1, he1, hms1, hq1⟩ := r3.path
    rw [List.append_nil, hE1] at hq1
    rw [hE1] at he1
    have hst1 : Comb.st ⟨v.p, v.ss, v.out.map (resolve s)⟩ = e.st := by simp [Comb.st, hp1]
    refine ⟨⟨hSs, ⟨e, t, hp1, he1, hq1⟩, by simp⟩, ?_⟩
    refine ⟨?_, ?_, r2.bnd, ?_, ?_, ?_⟩
    · exact r3.len
    · intro x hx
      have hx : x ∈ v.p := hx
      rw [hp1] at hx
      rcases List.mem_cons.1 hx with rfl | hx
      · rw [← he1.st]; exact hcut.elt
      · obtain ⟨y, hy, h1⟩ := all2_mem_right hq1 x hx
        rw [← h1.1.st]; exact (hcut.qs y hy).1
    · intro x hx
      have hx : x ∈ v.p.tail := hx
      rw [hp1] at hx
      obtain ⟨y, hy, h1⟩ := all2_mem_right hq1 x hx
      rw [← h1.1.st]; exact (hcut.qs y hy).2
    · intro ht
      rw [hst1, ← he1.st]
      exact hcut.cur (by rw [hSs]; exact ht)
    · intro ht
      have := r5.2 (by rw [hSs]; exact ht)
      rcases hcut.mode with h1 | h1 <;> rw [this] at h1 <;> cases h1

/-! ### Several pieces -/

/-- The mode after some chunks. -/
def modeChunks (m : Mode) (cs : List Str) : Mode := cs.foldl (fun m c => modeAfter m (lexAll c)) m

theorem CutOK.fields {d : QDfa} {m : Mode} {a b : SA} (h : CutOK d m a) (h2 : a.ss = b.ss) (h3 : a.qs = b.qs) (h4 : a.elt = b.elt) :
    CutOK d m b :=
  ⟨h.mode, by rw [← h4]; exact h.elt, by rw [← h3]; exact h.qs, by rw [← h2, ← h4]; exact h.cur⟩

theorem crel_fields {d : QDfa} {C : Comb} {a b : SA} (h : CRel d C.tl C { b with tl := [] }) (h2 : a.ss = b.ss) (h3 : a.qs = b.qs)
    (h4 : a.elt = b.elt) : CRel d C.tl C { a with tl := [] } := by
  refine ⟨?_, ?_, by simp⟩
  · rw [← h.ss]; exact h2
  · have := h.path
    dsimp only at this ⊢
    rw [h3, h4]; exact this

/-- What is known of the combined state `k` after some chunks, when the serial automaton is in `a` and the mode is `m`. -/
structure After (d : QDfa) (k : K) (C : Comb) (a : SA) (m : Mode) : Prop where
  kc : KC k C
  cut : CutOK d m a → CRel d C.tl C { a with tl := [] } ∧ CInv d d.statesNum C
  wf : wfStack a.ss
  mode : modeOK a.ss m
  max : a.ss.length ≤ MAX_STACK

/-- `combine` over the chunks of a piece, with the state it leaves. -/
theorem loop_end {d : QDfa} {ct : Option CTable} (hnd : ct.NodupOK) {u : Nat → UState} (hd : Dead d d.statesNum) : ∀ (cs : List Str) {k : K}
    {C0 : Comb} {left : Str} {a : SA} {m : Mode} {i : Nat}, i ≠ 0 → After d k C0 a m → (cs ≠ [] → CutOK d m a) → ChunksOK d a m cs →
    (combineLoop d k left (workersFrom d ct u i cs)).bad = false → ctChunks d ct a cs →
    (combineLoop d k left (workersFrom d ct u i cs)).re = k.re ∧
    ∃ C', After d (combineLoop d k left (workersFrom d ct u i cs)) C' (runPieces d a cs).2 (modeChunks m cs) ∧
      C'.tl = C0.tl ++ (runPieces d a cs).1.flatten
  | [], k, C0, _, _, _, _, _, ha, _, _, _, _ => ⟨rfl, C0, ha, by simp [runPieces]⟩
  | c :: cs, k, C0, left, a, m, i, hi, ha, hcut, hok, hb, hct => by
    obtain ⟨hr, hc⟩ := ha.cut (hcut (by simp))
    obtain ⟨o1, o2, o3, o4, o5⟩ := hok
    have hb1 : (k.chunk d left c (runWorker d ct (u i) i c)).bad = false := by
      cases e : (k.chunk d left c (runWorker d ct (u i) i c)).bad with
      | false => rfl
      | true =>
        have := combineLoop_bad (d := d) (left := c) (workersFrom d ct u (i + 1) cs) e
        have hb' : (combineLoop d (k.chunk d left c (runWorker d ct (u i) i c)) c (workersFrom d ct u (i + 1) cs)).bad = false := hb
        rw [this] at hb'; cases hb'
    obtain ⟨C', k1, k0, k2, k3, k4, k5⟩ := chunk_sim hnd (left := left) (u := u i) hi hd ha.kc hr hc ha.wf ha.mode ha.max o1 o3 o2 hb1
      (.inl hct.1)
    obtain ⟨f1, f2, f3, f4⟩ := execAutomaton_fields d c { a with tl := [] }
    obtain ⟨e1, C2, e2, e3⟩ := loop_end hnd hd cs (u := u) (i := i + 1) (left := c) (a := execAutomaton d c { a with tl := [] })
      (m := modeAfter m (lexAll c)) (C0 := C') (by omega)
      ⟨k1, fun hz => by
          obtain ⟨g1, g2⟩ := k5 (hz.fields f2 f3 f4)
          exact ⟨crel_fields g1 f2 f3 f4, g2⟩,
        by rw [f2]; exact k3, by rw [f2]; exact k4, by rw [f2, runToks_ss]; exact ssRun_max _ ha.max⟩ o4 o5 hb hct.2
    refine ⟨?_, C2, e2, ?_⟩
    · show (combineLoop d (k.chunk d left c (runWorker d ct (u i) i c)) c (workersFrom d ct u (i + 1) cs)).re = _
      rw [e1, k0]
    · rw [e3, k2]
      simp only [runPieces, List.flatten_cons, f1, List.append_assoc]

/-- The first chunk of a piece, whether worker 0 starts or goes on. -/
theorem first_end {d : QDfa} {ct : Option CTable} {u : UState} {old : Option K} {c : Str} {cs : List Str} {a : SA} {m : Mode}
    (hd : Dead d d.statesNum) (h1n : 1 < d.statesNum) (hi1 : NoIdx d 1)
    (hold : (old = none ∧ a = SA.init ∧ m = .val) ∨ ∃ k C, old = some k ∧ After d k C a m ∧ CutOK d m a) (hok : ChunksOK d a m (c :: cs))
    (hb : (K.ofW (worker0 d ct u old c)).bad = false) :
    ∃ C', After d (K.ofW (worker0 d ct u old c)) C' (execAutomaton d c { a with tl := [] }) (modeAfter m (lexAll c)) ∧
      C'.tl = (execAutomaton d c { a with tl := [] }).tl := by
  obtain ⟨o1, o2, o3, o4, o5⟩ := hok
  obtain ⟨f1, f2, f3, f4⟩ := execAutomaton_fields d c { a with tl := [] }
  have hmax : a.ss.length ≤ MAX_STACK := by
    rcases hold with ⟨_, rfl, _⟩ | ⟨k, C, _, h, _⟩
    · simp [SA.init]
    · exact h.max
  have key : ∃ C', KC (K.ofW (worker0 d ct u old c)) C' ∧ C'.tl = (runToks d c { a with tl := [] } (lexAll c)).tl ∧
      wfStack (runToks d c { a with tl := [] } (lexAll c)).ss ∧
      modeOK (runToks d c { a with tl := [] } (lexAll c)).ss (modeAfter m (lexAll c)) ∧
      (CutOK d (modeAfter m (lexAll c)) (runToks d c { a with tl := [] } (lexAll c)) →
        CRel d C'.tl C' { runToks d c { a with tl := [] } (lexAll c) with tl := [] } ∧ CInv d d.statesNum C') := by
    rcases hold with ⟨rfl, rfl, rfl⟩ | ⟨k, C, rfl, h, hz⟩
    · exact worker0_sim hd h1n hi1 o1 o3 o2 hb
    · obtain ⟨hr, hc⟩ := h.cut hz
      exact resume_sim hd h.kc hr hc h.wf h.mode o1 hb
  obtain ⟨C', k1, k2, k3, k4, k5⟩ := key
  refine ⟨C', ⟨k1, fun hz => ?_, by rw [f2]; exact k3, by rw [f2]; exact k4, by rw [f2, runToks_ss]; exact ssRun_max _ hmax⟩, by rw [k2, f1]⟩
  obtain ⟨g1, g2⟩ := k5 (hz.fields f2 f3 f4)
  exact ⟨crel_fields g1 f2 f3 f4, g2⟩

theorem K.orUb_re (k : K) (b : Bool) : (k.orUb b).re = k.re := rfl

/-- A whole piece. -/
theorem piece_end {d : QDfa} {ct : Option CTable} (hnd : ct.NodupOK) {u : Nat → UState} {old : Option K} {cs : List Str} {a : SA} {m : Mode}
    (hd : Dead d d.statesNum) (h1n : 1 < d.statesNum) (hi1 : NoIdx d 1)
    (hold : (old = none ∧ a = SA.init ∧ m = .val) ∨ ∃ k C, old = some k ∧ After d k C a m ∧ CutOK d m a) (hok : ChunksOK d a m cs)
    (hct : ctChunks d ct a cs) {k : K} (hk : executeParallel d ct u old cs = some k) (hb : k.bad = false) :
    k.re = false ∧ k.tuples = (runPieces d a cs).1.flatten ∧ ∃ C, After d k C (runPieces d a cs).2 (modeChunks m cs) := by
  cases cs with
  | nil => cases hk
  | cons c cs =>
    simp only [executeParallel, Option.some.injEq] at hk
    have hb1 : (combineLoop d (K.ofW (worker0 d ct (u 0) old c)) c (workersFrom d ct u 1 cs)).bad = false := by
      cases e : (combineLoop d (K.ofW (worker0 d ct (u 0) old c)) c (workersFrom d ct u 1 cs)).bad with
      | false => rfl
      | true => rw [← hk, K.orUb_bad e] at hb; cases hb
    have hb2 : (K.ofW (worker0 d ct (u 0) old c)).bad = false := by
      cases e : (K.ofW (worker0 d ct (u 0) old c)).bad with
      | false => rfl
      | true => rw [combineLoop_bad (d := d) (left := c) (workersFrom d ct u 1 cs) e] at hb1; cases hb1
    obtain ⟨C', a1, a2⟩ := first_end hd h1n hi1 hold hok hb2
    obtain ⟨o1, o2, o3, o4, o5⟩ := hok
    obtain ⟨e1, C2, e2, e3⟩ := loop_end hnd hd cs (u := u) (i := 1) (left := c) (by omega) a1 o4 o5 hb1 hct.2
    have hkc : KC k C2 := by
      have := e2.kc
      rw [← hk]
      exact ⟨this.lv, this.p, this.ss, this.tl, this.roots⟩
    refine ⟨?_, ?_, C2, ⟨hkc, e2.cut, e2.wf, e2.mode, e2.max⟩⟩
    · rw [← hk, K.orUb_re, e1]; rfl
    · rw [hkc.tl, e3, a2]
      simp only [runPieces, List.flatten_cons]

theorem runPieces_append (d : QDfa) : ∀ (xs ys : List Str) (a : SA),
    runPieces d a (xs ++ ys) = ((runPieces d a xs).1 ++ (runPieces d (runPieces d a xs).2 ys).1, (runPieces d (runPieces d a xs).2 ys).2)
  | [], _, _ => rfl
  | x :: xs, ys, a => by simp only [List.cons_append, runPieces, runPieces_append d xs ys]

theorem chunksOK_append {d : QDfa} : ∀ (xs ys : List Str) (a : SA) (m : Mode), ChunksOK d a m (xs ++ ys) →
    ChunksOK d a m xs ∧ ChunksOK d (runPieces d a xs).2 (modeChunks m xs) ys ∧
      (xs ≠ [] → ys ≠ [] → CutOK d (modeChunks m xs) (runPieces d a xs).2)
  | [], _, _, _, h => ⟨trivial, h, fun hz => absurd rfl hz⟩
  | x :: xs, ys, a, m, h => by
    obtain ⟨o1, o2, o3, o4, o5⟩ := h
    obtain ⟨h1, h2, h3⟩ := chunksOK_append xs ys _ _ o5
    refine ⟨⟨o1, o2, o3, fun hx => o4 (by simp [hx]), h1⟩, h2, fun _ hy => ?_⟩
    by_cases hx : xs = []
    · subst hx
      exact o4 (by simpa using hy)
    · exact h3 hx hy

theorem ctChunks_append {d : QDfa} {ct : Option CTable} : ∀ (xs ys : List Str) (a : SA), ctChunks d ct a (xs ++ ys) →
    ctChunks d ct a xs ∧ ctChunks d ct (runPieces d a xs).2 ys
  | [], _, _, h => ⟨trivial, h⟩
  | x :: xs, ys, a, h => by
    obtain ⟨h1, h2⟩ := ctChunks_append xs ys _ h.2
    exact ⟨⟨h.1, h1⟩, h2⟩

/-- The combined states of consecutive pieces, each given as its chunks. -/
def KChain (d : QDfa) (ct : Option CTable) (u : Nat → Nat → UState) : Nat → Option K → List (List Str) → List K → Prop
  | _, _, [], ks => ks = []
  | _, _, _ :: _, [] => False
  | n, old, cs :: css, k :: ks => executeParallel d ct (u n) old cs = some k ∧ KChain d ct u (n + 1) (some k) css ks

/-- All pieces. -/
theorem chain_sim {d : QDfa} {ct : Option CTable} (hnd : ct.NodupOK) {u : Nat → Nat → UState} (hd : Dead d d.statesNum) (h1n : 1 < d.statesNum)
    (hi1 : NoIdx d 1) : ∀ (css : List (List Str)) (ks : List K) {n : Nat} {old : Option K} {a : SA} {m : Mode},
    KChain d ct u n old css ks → (∀ k ∈ ks, k.bad = false) → (∀ cs ∈ css, cs ≠ []) → ChunksOK d a m css.flatten → ctChunks d ct a css.flatten →
    ((old = none ∧ a = SA.init ∧ m = .val) ∨ ∃ k C, old = some k ∧ After d k C a m ∧ (css ≠ [] → CutOK d m a)) →
    (ks.map K.tuples).flatten = (runPieces d a css.flatten).1.flatten ∧ ∀ k ∈ ks, k.re = false
  | [], ks, _, _, _, _, hk, _, _, _, _, _ => by
    cases (hk : ks = [])
    exact ⟨rfl, fun _ h => by cases h⟩
  | cs :: css, [], _, _, _, _, hk, _, _, _, _, _ => hk.elim
  | cs :: css, k :: ks, n, old, a, m, hk, hb, hne, hok, hct, hold => by
    obtain ⟨k1, k2⟩ := hk
    rw [List.flatten_cons] at hok hct
    obtain ⟨c1, c2, c3⟩ := chunksOK_append cs css.flatten a m hok
    obtain ⟨t1, t2⟩ := ctChunks_append cs css.flatten a hct
    obtain ⟨p1, p2, C, p3⟩ := piece_end hnd hd h1n hi1
      (hold.imp id fun ⟨k, C, h1, h2, h3⟩ => ⟨k, C, h1, h2, h3 (by simp)⟩) c1 t1 k1 (hb k (by simp))
    obtain ⟨i1, i2⟩ := chain_sim hnd hd h1n hi1 css ks k2 (fun k hk => hb k (by simp [hk])) (fun x hx => hne x (by simp [hx])) c2 t2
      (.inr ⟨k, C, rfl, p3, fun hc => c3 (hne cs (by simp)) (by
        obtain ⟨x, xs, rfl⟩ := List.exists_cons_of_ne_nil hc
        have := hne x (by simp)
        simp [this])⟩)
    refine ⟨?_, ?_⟩
    · rw [List.map_cons, List.flatten_cons, p2, i1, List.flatten_cons, runPieces_append, List.flatten_append]
    · intro z hz
      rcases List.mem_cons.1 hz with rfl | hz
      · exact p1
      · exact i2 z hz

end JPS
