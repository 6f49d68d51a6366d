import Verif.ParChunk
import Verif.WorkerStart
/-!
# Workers stay inside their buffers

The fixed-size arrays of a worker: the nodes and the root pointers of its query stacks, the tuple list, the texts in it, the
units and their symbols.
-/

set_option autoImplicit false

namespace JPS
open Spec

/-- The text of a tuple fits in `MAX_TEXT` bytes. -/
def TextOK (t : MTuple) : Prop := strcopyBytes (t.text.getD []).length ≤ MAX_TEXT

theorem Logged.no_junk {base : List MTuple} {q : QS} {R : Nat} {log : List (Nat × MTuple)} (h : Logged base q R log) {r : Nat}
    (hr : r < R) : q.heads r ≠ .junk := by
  rw [h.heads r hr]
  generalize idx r base.length log = l
  unfold headOf
  cases l with
  | nil => simp
  | cons a l => simp

theorem addTo_safe {q : QS} {t : MTuple} {r : Nat} (h : q.heads r ≠ .junk) (hn : q.tl.length < MAX_TUPLE_LIST) :
    (q.addTo t r).ub = q.ub ∧ (q.addTo t r).tl.length = q.tl.length + 1 := by
  unfold QS.addTo
  cases hh : q.heads r with
  | junk => exact absurd hh h
  | empty => simp; omega
  | chain f l => simp [link_length]; omega

theorem addAll_safe {base : List MTuple} {R : Nat} {t : MTuple} (ht : t.next = none) : ∀ (rs : List Nat) {q : QS}
    {log : List (Nat × MTuple)}, Logged base q R log → (∀ r ∈ rs, r < R) → q.tl.length + rs.length ≤ MAX_TUPLE_LIST →
    (rs.foldl (fun q r => q.addTo t r) q).ub = q.ub
  | [], _, _, _, _, _ => rfl
  | r :: rs, q, log, hl, hr, hn => by
    simp only [List.length_cons] at hn
    obtain ⟨h1, h2⟩ := addTo_safe (t := t) (hl.no_junk (hr r (by simp))) (by omega)
    have hl' := Logged.addAll ht [r] hl (fun x hx => hr x (by simp at hx; simp [hx]))
    rw [List.foldl_cons, addAll_safe ht rs (log := log ++ [(r, t)]) (by simpa using hl'.1) (fun x hx => hr x (List.mem_cons_of_mem _ hx)) (by omega), h1]

theorem addInfo_safe {base : List MTuple} {R : Nat} {t : MTuple} (ht : t.next = none) {q : QS} {log : List (Nat × MTuple)}
    (hl : Logged base q R log) {i : Nat} {n : Node} (h1 : q.nodes[i]? = some n) (h2 : n.roots ≠ none)
    (h3 : ∀ r ∈ n.org i, r < R) (hn : q.tl.length + (n.org i).length ≤ MAX_TUPLE_LIST) : (q.addInfo i t).ub = q.ub := by
  unfold QS.addInfo
  simp only [h1]
  unfold Node.org Node.origins at h3 hn
  cases hr : n.roots with
  | none => exact absurd hr h2
  | some rs =>
    cases rs with
    | nil =>
      simp [hr] at h3 hn
      exact (addTo_safe (hl.no_junk h3) (by omega)).1
    | cons a as =>
      simp [hr] at h3 hn
      exact addAll_safe ht (a :: as) hl (by simpa using h3) (by simpa using hn)

/-- The loop body stays inside the arrays, given room for its tuples, for nodes with `G`. -/
def Quiet (G : Node → Prop) (f : Nat → Node → QS → QS) (act : Act) : Prop := ∀ (base : List MTuple) (R : Nat) (log : List (Nat × MTuple)) (i : Nat)
  (n : Node) (q : QS), q.nodes[i]? = some n → n.roots ≠ none → (∀ r ∈ n.org i, r < R) → Logged base q R log →
  q.tl.length + (n.org i).length ≤ MAX_TUPLE_LIST → (∀ t, (act n).1 = some t → TextOK t) → G n → (f i n q).ub = q.ub

theorem each_quiet {G : Node → Prop} {f : Nat → Node → QS → QS} {act : Act} (hd : Does f act) (hq : Quiet G f act) {base : List MTuple} {R : Nat} :
    ∀ (is : List Nat) (q : QS) (log : List (Nat × MTuple)), is.Nodup →
    (∀ i ∈ is, ∃ n, q.nodes[i]? = some n ∧ n.roots ≠ none ∧ (∀ r ∈ n.org i, r < R) ∧ (∀ t, (act n).1 = some t → TextOK t) ∧ G n) →
    Logged base q R log → q.tl.length + (orgsOf q.nodes is).length ≤ MAX_TUPLE_LIST →
    (is.foldl (fun q i => match q.nodes[i]? with
        | some n => (f i n q).orUb (decide (n.roots = none))
        | none => { q with ub := true }) q).ub = q.ub
  | [], _, _, _, _, _, _ => rfl
  | i :: is, q, log, hnd, hn, hl, hm => by
    obtain ⟨n, h1, h2, h3, h4, h5⟩ := hn i (by simp)
    have hnd := List.nodup_cons.1 hnd
    obtain ⟨d1, d2, d3, d4, d5⟩ := hd i n q h1 h2
    have horg : (orgsOf q.nodes (i :: is)).length = (n.org i).length + (orgsOf q.nodes is).length := by
      simp [orgsOf, h1]
    rw [horg] at hm
    obtain ⟨a1, a2, a3, a4⟩ := each_fold hd [i] q log (by simp) (by simpa using ⟨n, h1, h2, h3⟩) hl _ rfl
    simp only [List.foldl_cons, List.foldl_nil, h1] at a1 a2 a3 a4 ⊢
    have hother : ∀ j ∈ is, ((f i n q).orUb (decide (n.roots = none))).nodes[j]? = q.nodes[j]? := by
      intro j hj
      rw [a4, if_neg]
      simp; exact fun e => hnd.1 (e ▸ hj)
    have hlen := a1.length
    have hlen0 := hl.length
    rw [each_quiet hd hq is _ _ hnd.2 (fun j hj => by
        obtain ⟨m, b1, b2⟩ := hn j (List.mem_cons_of_mem _ hj)
        exact ⟨m, by rw [hother j hj]; exact b1, b2⟩) a1 ?_]
    · show ((f i n q).ub || decide (n.roots = none)) = q.ub
      rw [hq base R log i n q h1 h2 h3 hl (by omega) h4 h5]
      simp [h2]
    · rw [orgsOf_congr (nodes := q.nodes) fun j hj => by rw [hother j hj]]
      have : (eachLog act q.nodes [i]).length ≤ (n.org i).length := by
        simp only [eachLog, List.flatMap_cons, List.flatMap_nil, List.append_nil, h1]
        split <;> simp
      simp only [List.length_append] at hlen
      omega

theorem text_ub {q : QS} {i s : Nat} {t : Str} (h1 : (q.addInfo i (.ofText s t)).ub = q.ub) (h2 : TextOK (.ofText s t)) :
    (q.addText i s t).ub = q.ub := by
  have : ¬ strcopyBytes t.length > MAX_TEXT := by
    have h2 : strcopyBytes t.length ≤ MAX_TEXT := h2
    omega
  simp only [QS.addText, QS.orUb, h1, decide_eq_false this, Bool.or_false]

theorem setMs_quiet {q : QS} {i : Nat} {n : Node} (h : q.nodes[i]? = some n) (m : Option Nat) : (q.setMs i m).ub = q.ub := by
  unfold QS.setMs; rw [h]

theorem incr_quiet {q : QS} {i : Nat} {n : Node} (h : q.nodes[i]? = some n) : (q.incr i).ub = q.ub := by
  unfold QS.incr; rw [h]

theorem quiet_close (E : WEnv) (arr : Bool) (pos : Nat) (hoob : E.id0 = true → substringOOB E.s pos = false) :
    Quiet (fun n => E.id0 = true → n.MsIn pos) (fun i n q =>
    match n.ms with
    | some b =>
      if E.selects (n.matched E.d) then
        ((if E.id0 then (q.addText i n.st (substring E.s b pos)).orUb (substringOOB E.s pos || decide (b > pos))
          else q.addSpan i n.st b pos).setMs i none)
      else if arr && n.matched E.d == .incomplete then q.addText i n.st [']']
      else q
    | none => q) (closeAct E arr pos).node := by
  intro base R log i n q hn hr ho hl hm ht hG
  have hma := matched_elt E.d n
  simp only [PAct.node, closeAct, hma] at ht
  have hadd : ∀ t : MTuple, t.next = none → (q.addInfo i t).ub = q.ub := fun t h0 => addInfo_safe h0 hl hn hr ho hm
  cases hms : n.ms with
  | none => simp only [hms]
  | some b =>
    have : n.elt.ms = some b := hms
    simp only [this] at ht
    simp only [hms]
    by_cases hs : E.selects (n.matched E.d) = true
    · simp only [hs, if_true] at ht ⊢
      by_cases h0 : E.id0 = true
      · simp only [h0, if_true] at ht ⊢
        obtain ⟨a1, a2, a3, a4⟩ := addText_eqs q i n.st (substring E.s b pos)
        rw [setMs_quiet (n := n) (by rw [← hn]; exact congrArg (·[i]?) a1)]
        have h1 := text_ub (hadd (.ofText n.st (substring E.s b pos)) rfl) (ht _ rfl)
        have hle := hG h0 b hms
        simp only [QS.orUb, h1, hoob h0, Bool.false_or, decide_eq_false (show ¬ b > pos by omega), Bool.or_false]
      · simp only [h0, if_false, Bool.false_eq_true] at ht ⊢
        have a := addInfo_nodes q i (.ofSpan n.st b pos)
        rw [setMs_quiet (n := n) (by rw [← hn]; exact congrArg (·[i]?) a.1)]
        exact hadd _ rfl
    · simp only [hs, Bool.false_eq_true, if_false]
      split
      · exact text_ub (hadd _ rfl) (by simp [TextOK, MTuple.ofText, strcopyBytes, MAX_TEXT])
      · rfl

theorem quiet_lcb (E : WEnv) (pos : Nat) : Quiet (fun _ => True) (fun i n q =>
    if E.selects (n.matched E.d) then q.setMs i (some (pos - 1))
    else if n.matched E.d = .predicate then q.addText i n.st ['{']
    else if n.matched E.d = .condition then q.addText i n.st []
    else q) (lcbAct E pos).node := by
  intro base R log i n q hn hr ho hl hm _ _
  have hadd : ∀ t : MTuple, t.next = none → (q.addInfo i t).ub = q.ub := fun t h0 => addInfo_safe h0 hl hn hr ho hm
  dsimp only
  split
  · exact setMs_quiet hn _
  · split
    · exact text_ub (hadd _ rfl) (by simp [TextOK, MTuple.ofText, strcopyBytes, MAX_TEXT])
    · split
      · exact text_ub (hadd _ rfl) (by simp [TextOK, MTuple.ofText, strcopyBytes, MAX_TEXT])
      · rfl

theorem quiet_lb (E : WEnv) (pos : Nat) : Quiet (fun _ => True) (fun i n q =>
    if E.selects (n.matched E.d) then q.setMs i (some (pos - 1))
    else if n.matched E.d = .condition then q.addText i n.st []
    else q) (lbAct E pos).node := by
  intro base R log i n q hn hr ho hl hm _ _
  have hadd : ∀ t : MTuple, t.next = none → (q.addInfo i t).ub = q.ub := fun t h0 => addInfo_safe h0 hl hn hr ho hm
  dsimp only
  split
  · exact setMs_quiet hn _
  · split
    · exact text_ub (hadd _ rfl) (by simp [TextOK, MTuple.ofText, strcopyBytes, MAX_TEXT])
    · rfl

theorem quiet_incr : Quiet (fun _ => True) (fun i _ q => q.incr i) incrAct.node := by
  intro base R log i n q hn hr ho hl hm _ _
  exact incr_quiet hn

theorem quiet_elem (E : WEnv) (root : Bool) : Quiet (fun _ => True) (fun i n q =>
    let q := q.incr i
    if n.matched E.d = .predicate then q.addText i n.st ['}']
    else if root && n.matched E.d == .incomplete then q.addText i n.st ['}']
    else q) (elemAct E root).node := by
  intro base R log i n q hn hr ho hl hm _ _
  obtain ⟨b1, b2, b3, b4⟩ := incr_eqs hn
  have hi := incr_quiet hn
  have hn' : (q.incr i).nodes[i]? = some { n with count := n.count + 1 } := by
    rw [b1, List.getElem?_set_self (List.getElem?_eq_some_iff.1 hn).1]
  have hadd : ∀ t : MTuple, t.next = none → ((q.incr i).addInfo i t).ub = (q.incr i).ub := fun t h0 =>
    addInfo_safe h0 (hl.congr b3 b4) hn' hr ho (by rw [b3]; exact hm)
  dsimp only
  rw [← hi]
  split
  · exact text_ub (hadd _ rfl) (by simp [TextOK, MTuple.ofText, strcopyBytes, MAX_TEXT])
  · split
    · exact text_ub (hadd _ rfl) (by simp [TextOK, MTuple.ofText, strcopyBytes, MAX_TEXT])
    · rfl

theorem quiet_pri (E : WEnv) (t : Str) (inc : Bool) : Quiet (fun _ => True) (fun i n q =>
    let q := if E.selects (n.matched E.d) || n.matched E.d == .condition then q.addText i n.st t else q
    if inc then q.incr i else q) (priAct E t inc).node := by
  intro base R log i n q hn hr ho hl hm ht _
  have hma := matched_elt E.d n
  simp only [PAct.node, priAct, hma] at ht
  have hadd : ∀ t : MTuple, t.next = none → (q.addInfo i t).ub = q.ub := fun t h0 => addInfo_safe h0 hl hn hr ho hm
  obtain ⟨a1, a2, a3, a4⟩ := addText_eqs q i n.st t
  have hn' : (q.addText i n.st t).nodes[i]? = some n := by rw [a1, hn]
  dsimp only
  by_cases hc : (E.selects (n.matched E.d) || n.matched E.d == .condition) = true
  · simp only [hc, if_true] at ht ⊢
    have := text_ub (hadd _ rfl) (ht _ rfl)
    cases inc
    · exact this
    · simp only [if_true]; rw [incr_quiet hn']; exact this
  · simp only [hc, if_false, Bool.false_eq_true]
    cases inc
    · rfl
    · exact incr_quiet hn

/-! ### Numbers of nodes and root pointers -/

theorem orgs_total {R : Nat} {nodes : List Node} : ∀ {l : List Rng}, Contig R l →
    (∀ rng ∈ l, (orgsOf nodes rng.list).Perm (List.range R)) → ∀ r, l.head? = some r →
    (orgsOf nodes (List.range' 0 r.e)).length = R * l.length
  | [], h, _, _, _ => h.elim
  | [r], h, hp, x, hx => by
    have e : r = ⟨0, R⟩ := h
    simp at hx; subst hx
    have := (hp r (by simp)).length_eq
    rw [e] at this ⊢
    simpa [Rng.list] using this
  | r :: r' :: rs, h, hp, x, hx => by
    simp at hx; subst hx
    have ih := orgs_total h.2.2 (fun y hy => hp y (List.mem_cons_of_mem _ hy)) r' rfl
    have h1 := (hp r (by simp)).length_eq
    have e : List.range' 0 r.e = List.range' 0 r'.e ++ r.list := by
      have hs := h.1
      have hle := h.2.1
      unfold Rng.list
      rw [hs] at hle ⊢
      have := List.range'_append_1 (s := 0) (m := r'.e) (n := r.e - r'.e)
      rw [Nat.zero_add] at this
      rw [this]; congr 1; omega
    have happ : ∀ a b : List Nat, orgsOf nodes (a ++ b) = orgsOf nodes a ++ orgsOf nodes b := by
      intro a b; simp [orgsOf]
    rw [e, happ, List.length_append, ih, h1, List.length_range]
    simp only [List.length_cons]
    rw [Nat.mul_add R (rs.length + 1) 1]; omega

theorem QInv.total {sts : List Nat} {q : QS} {elt : Rng} (h : QInv sts q elt) :
    (orgsOf q.nodes (List.range' 0 q.nodes.length)).length = sts.length * (q.items.length + 1) := by
  rw [h.len]
  exact orgs_total h.contig h.perm elt rfl

theorem QInv.nodes_le {sts : List Nat} {q : QS} {elt : Rng} (h : QInv sts q elt) :
    q.nodes.length ≤ sts.length * (q.items.length + 1) := by
  rw [← h.total]
  have : (List.range' 0 q.nodes.length).length ≤ (orgsOf q.nodes (List.range' 0 q.nodes.length)).length := by
    refine length_le_flatMap fun i hi => ?_
    have hlt : i < q.nodes.length := by simpa using hi
    rw [List.getElem?_eq_getElem hlt]
    exact h.org_ne (List.getElem?_eq_getElem hlt)
  simpa using this

theorem rootPtrs_le : ∀ (new nodes : List Node),
    rootPtrs new ≤ (orgsOf (nodes ++ new) (List.range' nodes.length new.length)).length
  | [], _ => by simp [rootPtrs]
  | n :: new, nodes => by
    have ih := rootPtrs_le new (nodes ++ [n])
    simp only [List.append_assoc, List.singleton_append, List.length_append, List.length_singleton] at ih
    unfold orgsOf at ih ⊢
    rw [List.length_cons, List.range'_succ, List.flatMap_cons, List.length_append]
    have : (n.roots.getD []).length ≤ (n.org nodes.length).length := by
      unfold Node.org Node.origins
      cases hr : n.roots with
      | none => simp
      | some rs => cases rs <;> simp
    simp only [rootPtrs, List.map_cons, List.sum_cons] at ih ⊢
    simp
    simp at ih
    omega

theorem QInv.ptrs_le {sts : List Nat} {q : QS} {elt : Rng} (h : QInv sts q elt) :
    rootPtrs q.nodes ≤ sts.length * (q.items.length + 1) := by
  rw [← h.total]
  exact rootPtrs_le q.nodes []

/-! ### Loops, pushes, pops, units -/

/-- The tuples found so far. -/
def P.all (v : P) : List MTuple := (v.units.map (·.2)).flatten ++ v.out

section
variable {E : WEnv} {F : Prop} {sts : List Nat} {cs : List (List Nat)} {cur : List Nat} {s0 : Nat} {w : W} {v : P}

theorem W.bad_of {w : W} (h1 : w.ub = false) (h2 : w.q.ub = false) : w.bad = false := by simp [W.bad, h1, h2]

theorem W.bad_parts {w : W} (h : w.bad = false) : w.ub = false ∧ w.q.ub = false := by simpa [W.bad] using h

theorem each_safe (h : QInv cur w.q w.elt) {base : List MTuple} {log : List (Nat × MTuple)} (hl : Logged base w.q cur.length log)
    {G : Node → Prop} {f : Nat → Node → QS → QS} {act : Act} (hd : Does f act) (hq : Quiet G f act) {rng : Rng} (hr : rng ∈ w.elt :: w.q.items)
    {B N : Nat} (hc : cur.length ≤ N) (hB : w.q.tl.length ≤ B) (hm : B + N ≤ MAX_TUPLE_LIST)
    (ht : ∀ i ∈ rng.list, ∀ n, w.q.nodes[i]? = some n → ∀ t, (act n).1 = some t → TextOK t) (hb : w.bad = false)
    (hg : ∀ n ∈ w.q.nodes, G n) :
    (w.each rng f).bad = false ∧ (w.each rng f).q.tl.length ≤ B + N := by
  obtain ⟨b1, b2⟩ := W.bad_parts hb
  have hp := (h.perm rng hr).length_eq
  rw [List.length_range] at hp
  constructor
  · refine W.bad_of b1 ?_
    rw [← b2]
    refine each_quiet hd hq rng.list w.q log (rlist_nodup rng) (fun i hi => ?_) hl (by omega)
    have hlt := h.below hr hi
    obtain ⟨n, hn⟩ : ∃ n, w.q.nodes[i]? = some n := ⟨_, List.getElem?_eq_getElem hlt⟩
    exact ⟨n, hn, h.roots_some hn, h.orgs_lt hr hi hn, ht i hi n hn, hg n (List.mem_of_getElem? hn)⟩
  · have h1 := (h.each hd hr hl).2.1.length
    have h2 := hl.length
    have h3 : (eachLog act w.q.nodes rng.list).length ≤ (orgsOf w.q.nodes rng.list).length := by
      generalize rng.list = is
      induction is with
      | nil => simp [eachLog]
      | cons i is ih =>
        unfold eachLog orgsOf at ih ⊢
        simp only [List.flatMap_cons, List.length_append]
        refine Nat.add_le_add ?_ ih
        cases w.q.nodes[i]? with
        | none => simp
        | some n => dsimp only; split <;> simp
    rw [List.length_append] at h1
    omega

/-- With a single start state there is a single node per level. -/
theorem QInv.only (h : QInv cur w.q w.elt) (h1 : cur.length = 1) {rng : Rng} (hr : rng ∈ w.elt :: w.q.items) {i : Nat}
    (hi : i ∈ rng.list) {n m : Node} (hn : w.q.nodes[i]? = some n) (hm : Own w.q.nodes rng 0 m) : n = m := by
  refine h.own_unique hr ⟨i, hi, hn, ?_⟩ hm
  have h2 := h.orgs_lt hr hi hn
  cases ho : n.org i with
  | nil => exact absurd ho (h.org_ne hn)
  | cons a l =>
    rw [ho] at h2
    have := h2 a (by simp)
    have : a = 0 := by omega
    simp [this]

theorem PTracks.now_safe (h : PTracks E F sts cs cur s0 w v) {G : Node → Prop} {f : Nat → Node → QS → QS} {act : PAct} (hd : Does f act.node)
    (hq : Quiet G f act.node) {B N : Nat} (hc : cur.length ≤ N) (hB : w.q.tl.length ≤ B) (hm : B + N ≤ MAX_TUPLE_LIST)
    (hx : (E.noPrune ∧ sts = [s0] ∧ ∀ x ∈ (v.cur act).all, TextOK x) ∨ ∀ b e t, (act b e).1 = some t → TextOK t)
    (hb : w.bad = false) (hg : ∀ n ∈ w.q.nodes, G n := by intros; trivial) : (w.each w.elt f).bad = false ∧ (w.each w.elt f).q.tl.length ≤ B + N := by
  obtain ⟨base, log, hl, _⟩ := h.logd
  refine each_safe h.inv hl hd hq (by simp) hc hB hm (fun i hi n hn t ht => ?_) hb hg
  rcases hx with ⟨h1, h2, h3⟩ | hx
  · have hcur : cur = [s0] := by rw [h.fresh (h.nopr h1), h2]
    have hv := h.view 0 (by rw [hcur]; rfl)
    cases hp : v.p with
    | nil => rw [hp] at hv; cases hv
    | cons e p =>
      rw [hp] at hv
      have hvn := view_nil hv
      unfold View at hv
      cases hv with
      | cons a _ =>
        obtain ⟨m, ho, he⟩ := a
        have := h.inv.only (by rw [hcur]; rfl) (by simp) hi hn ho
        subst this
        have hroot : decide (n.roots = some []) = (p == []) := by
          rw [hvn]; exact h.inv.root_level (a := []) rfl ho
        apply h3
        simp only [P.all, P.cur, hp, List.mem_append, Option.mem_toList]
        right; right
        rw [← hroot, ← he]; exact ht
  · exact hx _ _ _ ht

theorem PTracks.below_safe (h : PTracks E F sts cs cur s0 w v) {G : Node → Prop} {f : Nat → Node → QS → QS} {act : PAct} (hd : Does f act.node)
    (hq : Quiet G f act.node) {y : Rng} {ys : List Rng} (hy : w.q.items = y :: ys) {B N : Nat} (hc : cur.length ≤ N)
    (hB : w.q.tl.length ≤ B) (hm : B + N ≤ MAX_TUPLE_LIST)
    (hx : (E.noPrune ∧ sts = [s0] ∧ ∀ x ∈ (v.below act).all, TextOK x) ∨ ∀ b e t, (act b e).1 = some t → TextOK t)
    (hb : w.bad = false) (hg : ∀ n ∈ w.q.nodes, G n := by intros; trivial) : (w.each y f).bad = false ∧ (w.each y f).q.tl.length ≤ B + N := by
  obtain ⟨base, log, hl, _⟩ := h.logd
  have hmem : y ∈ w.elt :: w.q.items := by rw [hy]; simp
  refine each_safe h.inv hl hd hq hmem hc hB hm (fun i hi n hn t ht => ?_) hb hg
  rcases hx with ⟨h1, h2, h3⟩ | hx
  · have hcur : cur = [s0] := by rw [h.fresh (h.nopr h1), h2]
    have hv := h.view 0 (by rw [hcur]; rfl)
    unfold View at hv
    rw [hy] at hv
    unfold P.below at h3
    generalize hp : v.p = p at hv h3
    cases hv with
    | cons a hv =>
      cases hv with
      | cons b hv =>
        rename_i e0 e t'
        obtain ⟨m, ho, he⟩ := b
        have := h.inv.only (by rw [hcur]; rfl) hmem hi hn ho
        subst this
        have hroot : decide (n.roots = some []) = (t' == []) := by
          rw [h.inv.root_level (a := [w.elt]) (b := ys) (by rw [hy]; rfl) ho]
          cases hv <;> simp
        apply h3
        simp only [P.all, List.mem_append, Option.mem_toList]
        right; right
        rw [← hroot, ← he]; exact ht
  · exact hx _ _ _ ht

theorem pushNodes_st {d : QDfa} {nodes : List Node} {k : Option Str} {B : Nat} (hB : 0 < B) (hd : ∀ s k, d.nextByStr s k < B) :
    ∀ n ∈ pushNodes d nodes k w.elt.list, n.st < B := by
  have hnext : ∀ n : Node, n.next d k < B := by
    intro n
    unfold Node.next
    repeat' split
    all_goals first
      | exact hd _ _
      | exact hB
  have hadd : ∀ (acc : List Node) (s : Nat) (r : Option (List Nat)), s < B → (∀ n ∈ acc, n.st < B) → ∀ n ∈ addPath acc s r, n.st < B := by
    intro acc s r hs ha n hn
    unfold addPath at hn
    split at hn
    · obtain ⟨m, hm, rfl⟩ := List.mem_map.1 hn
      split
      · exact ha m hm
      · exact ha m hm
    · rcases List.mem_append.1 hn with hn | hn
      · exact ha n hn
      · simp at hn; subst hn; exact hs
  have key : ∀ (is : List Nat) (acc : List Node), (∀ n ∈ acc, n.st < B) → ∀ n ∈ is.foldl (fun acc i => match nodes[i]? with
      | some n => addPath acc (n.next d k) (n.origins i)
      | none => acc) acc, n.st < B := by
    intro is
    induction is with
    | nil => exact fun acc h => h
    | cons i is ih =>
      intro acc h
      rw [List.foldl_cons]
      apply ih
      split
      · exact hadd _ _ _ (hnext _) h
      · exact h
  exact key _ [] (by simp)

theorem PTracks.push_safe (h : PTracks E F sts cs cur s0 w v) {d : QDfa} (k : Option Str) {N : Nat} (hc : cur.length ≤ N)
    (hn : N * (v.p.length + 1) ≤ MAX_NODE) (hs : v.p.length ≤ MAX_STACK) (hd : ∀ s k, d.nextByStr s k < MAX_NODE) :
    (w.q.push d w.elt k).1.ub = w.q.ub := by
  have hq := (h.inv.push d k).1
  have h1 := hq.nodes_le
  have h2 := hq.ptrs_le
  have hit : (w.q.push d w.elt k).1.items.length = w.q.items.length + 1 := rfl
  have hlev := h.lev
  have hle : cur.length * (w.q.items.length + 1 + 1) ≤ N * (v.p.length + 1) := by
    rw [hlev]; exact Nat.mul_le_mul_right _ hc
  rw [hit] at h1 h2
  have h3 : ∀ n ∈ pushNodes d w.q.nodes k w.elt.list, n.roots ≠ none := by
    intro n hn
    have hm : n ∈ (w.q.push d w.elt k).1.nodes := List.mem_append_right _ hn
    obtain ⟨i, hi, rfl⟩ := List.getElem_of_mem hm
    exact hq.roots_some (List.getElem?_eq_getElem hi)
  have h4 := pushNodes_st (w := w) (nodes := w.q.nodes) (k := k) (by decide) hd
  have h5 := h.inv.len
  have h6 : (pushNodes d w.q.nodes k w.elt.list).any (fun n => decide (n.roots = none) || decide (n.st ≥ MAX_NODE)) = false := by
    rw [List.any_eq_false]
    intro n hn
    simp only [h3 n hn, decide_false, Bool.false_or, decide_eq_true_eq]
    have := h4 n hn
    omega
  have e1 : (w.q.nodes ++ pushNodes d w.q.nodes k w.elt.list) = (w.q.push d w.elt k).1.nodes := rfl
  show (w.q.ub || decide (w.q.items.length ≥ MAX_STACK) || decide (w.q.nodes.length ≠ w.elt.e) ||
       decide ((w.q.nodes ++ pushNodes d w.q.nodes k w.elt.list).length > MAX_NODE) ||
       decide (rootPtrs (w.q.nodes ++ pushNodes d w.q.nodes k w.elt.list) > MAX_NODE) || _) = _
  rw [h6, e1, decide_eq_false (p := w.q.items.length ≥ MAX_STACK) (by omega), decide_eq_false (p := w.q.nodes.length ≠ w.elt.e) (by simp [h5]),
    decide_eq_false (p := (w.q.push d w.elt k).1.nodes.length > MAX_NODE) (by omega),
    decide_eq_false (p := rootPtrs (w.q.push d w.elt k).1.nodes > MAX_NODE) (by omega)]
  simp

theorem popQ_safe {x : Rng} {xs : List Rng} (hx : w.q.items = x :: xs) (hb : w.bad = false) :
    w.popQ.bad = false ∧ w.popQ.q.tl = w.q.tl := by
  obtain ⟨b1, b2⟩ := W.bad_parts hb
  have : w.q.pop = ({ w.q with nodes := w.q.nodes.take x.e, items := xs }, x) := by simp [QS.pop, hx]
  exact ⟨W.bad_of b1 (by simp only [W.popQ, this]; exact b2), by simp only [W.popQ, this]⟩

theorem PTracks.items_of (h : PTracks E F sts cs cur s0 w v) (hl : 2 ≤ v.p.length) : ∃ x xs, w.q.items = x :: xs := by
  have := h.lev
  cases hx : w.q.items with
  | nil => rw [hx] at this; simp at this; omega
  | cons x xs => exact ⟨x, xs, rfl⟩

theorem PTracks.units_len (h : PTracks E F sts cs cur s0 w v) : w.units.length = v.units.length := by
  obtain ⟨_, _, _, _, hu, _⟩ := h.logd
  have : w.units.length = (cs.zip v.units).length := all2_length hu
  rw [this, List.length_zip, h.count, Nat.min_self]

theorem PTracks.ends_safe (h : PTracks E F sts cs cur s0 w v) (hE : E.starts = some sts) (x : USym) (i : Nat) {N : Nat}
    (hc : cur.length ≤ N) (hs : sts.length ≤ N) (hN : N ≤ MAX_STATE) (hu : v.units.length < MAX_UNIT)
    (hsy : v.syms.length < MAX_UNMATCHED_SYMBOL) (hflat : v.st = .matched → v.p.length = 1) (hb : w.bad = false) :
    ((w.closeUnit E).addSym x i).bad = false ∧ ((w.closeUnit E).addSym x i).q.tl = w.q.tl := by
  obtain ⟨b1, b2⟩ := W.bad_parts hb
  have hunit := h.unit
  by_cases hm : w.unit.state = .matched
  · have hvm : v.st = .matched := by rw [← hm, hunit]
    have hlen := hflat hvm
    have hlev := h.lev
    have hn := h.inv.nodes_le
    have hit : w.q.items.length = 0 := by omega
    rw [hit, Nat.zero_add, Nat.mul_one] at hn
    have hul := h.units_len
    have hcr : (w.q.copyRoots (List.range w.q.nodes.length)).length ≤ w.q.nodes.length := by
      have := List.length_filterMap_le (fun i => (w.q.nodes[i]?).map fun n => (n.st, w.q.heads i)) (List.range w.q.nodes.length)
      rw [List.length_range] at this
      exact this
    have e : w.closeUnit E = ⟨(w.q.start sts).1, (w.q.start sts).2, [], [], .init w.unit.state,
        w.units ++ [{ w.unit with roots := w.q.copyRoots (List.range w.q.nodes.length) }],
        w.ub || decide ((w.q.copyRoots (List.range w.q.nodes.length)).length > MAX_STATE) || decide (w.units.length ≥ MAX_UNIT)⟩ := by
      unfold W.closeUnit
      rw [if_pos hm, hE]
    have hms : MAX_STATE ≤ MAX_NODE := by decide
    rw [e]
    refine ⟨W.bad_of ?_ ?_, rfl⟩
    · simp only [W.addSym, PUnit.init, b1]
      rw [decide_eq_false (p := _ > MAX_STATE) (by omega), decide_eq_false (p := w.units.length ≥ MAX_UNIT) (by omega)]
      rfl
    · show (w.q.ub || decide (sts.length > MAX_NODE)) = false
      rw [b2, decide_eq_false (by omega)]
      rfl
  · have e : w.closeUnit E = w := by
      unfold W.closeUnit; rw [if_neg hm]
    rw [e]
    refine ⟨W.bad_of ?_ b2, rfl⟩
    have : w.unit.syms.length < MAX_UNMATCHED_SYMBOL := by rw [hunit]; exact hsy
    simp only [W.addSym, b1, Bool.false_or]
    exact decide_eq_false (by omega)

/-- The states listed by the table are states of the automaton. -/
def TableIn (E : WEnv) (sts : List Nat) : Prop :=
  ∀ ct, E.ct = some ct → E.id0 = false → ∀ k ks, ct.lookup k = some ks → ∀ s ∈ ks, s < sts.length

theorem PTracks.prune_safe (h : PTracks E F sts cs cur s0 w v) (hT : TableIn E sts) (k : CKey) (hk1 : E.noPrune ∨ longKey k = false)
    (hb : w.bad = false) :
    (w.pruned E k).bad = false ∧ (w.pruned E k).q.tl = w.q.tl := by
  obtain ⟨b1, b2⟩ := W.bad_parts hb
  unfold W.pruned
  cases hct : E.ct with
  | none => exact ⟨hb, rfl⟩
  | some ct =>
    dsimp only
    split
    · next hc =>
      have hn : ¬ E.noPrune := by
        rintro (hn | hn)
        · rw [hct] at hn; cases hn
        · rw [hc.1] at hn; cases hn
      have hk1 : (w.ub || longKey k) = false := by rw [hk1.resolve_left hn, b1]; rfl
      have hit := h.flat hc.2.1 hn
      have hcur := h.fresh hc.2.1
      have hlen : w.q.nodes.length = sts.length := by
        have hcg := h.inv.contig
        rw [hit] at hcg
        have hcg : w.elt = ⟨0, cur.length⟩ := hcg
        rw [h.inv.len, hcg, hcur]
      cases hk : ct.lookup k with
      | none => exact ⟨W.bad_of hk1 b2, rfl⟩
      | some ks =>
        dsimp only
        refine ⟨W.bad_of hk1 ?_, ?_⟩
        · show (w.q.prune ks).1.ub = false
          unfold QS.prune
          split
          · exact b2
          · dsimp only
            rw [b2, Bool.false_or, List.any_eq_false]
            intro s hs
            have := hT ct hct hc.1 k ks hk s hs
            simp; omega
        · show (w.q.prune ks).1.tl = _
          unfold QS.prune
          split <;> rfl
    · exact ⟨hb, rfl⟩

/-! ### One step -/

theorem all_cur (v : P) (a : PAct) {x : MTuple} (h : x ∈ v.all) : x ∈ (v.cur a).all := by
  unfold P.cur
  cases hp : v.p with
  | nil => exact h
  | cons e t =>
    simp only [P.all, List.mem_append] at h ⊢
    rcases h with h | h
    · exact .inl h
    · exact .inr (.inl h)

theorem all_close (v : P) (s0 : Nat) (x : USym) (i : Nat) : ((v.close s0).addSym x i).all = v.all := by
  unfold P.close
  split <;> simp [P.all, P.addSym]

theorem all_inferred (v : P) (x : TT) (rest : List Tok) : (v.inferred x rest).all = v.all := by
  unfold P.inferred; split <;> rfl

/-- Room for one more step: at most `N` start states are left. -/
structure Room (N : Nat) (sts cur : List Nat) (w : W) (v : P) : Prop where
  now : cur.length ≤ N
  start : sts.length ≤ N
  node : N * (v.p.length + 1) ≤ MAX_NODE
  deep : v.p.length ≤ MAX_STACK
  state : N ≤ MAX_STATE
  tl : w.q.tl.length + 2 * N ≤ MAX_TUPLE_LIST
  units : v.units.length < MAX_UNIT
  syms : v.syms.length < MAX_UNMATCHED_SYMBOL

theorem texts_close {arr : Bool} {p : Nat} (h : E.id0 = false) (b : Bool) (e : Elt) (t : MTuple)
    (ht : (closeAct E arr p b e).1 = some t) : TextOK t := by
  unfold closeAct at ht
  simp only [h, Bool.false_eq_true, if_false] at ht
  repeat' split at ht
  all_goals first
    | (cases ht; simp [TextOK, MTuple.ofSpan, MTuple.ofText, strcopyBytes, MAX_TEXT]; done)
    | cases ht

theorem texts_lcb {p : Nat} (b : Bool) (e : Elt) (t : MTuple) (ht : (lcbAct E p b e).1 = some t) : TextOK t := by
  unfold lcbAct at ht
  repeat' split at ht
  all_goals first
    | (cases ht; simp [TextOK, MTuple.ofSpan, MTuple.ofText, strcopyBytes, MAX_TEXT]; done)
    | cases ht

theorem texts_lb {p : Nat} (b : Bool) (e : Elt) (t : MTuple) (ht : (lbAct E p b e).1 = some t) : TextOK t := by
  unfold lbAct at ht
  repeat' split at ht
  all_goals first
    | (cases ht; simp [TextOK, MTuple.ofSpan, MTuple.ofText, strcopyBytes, MAX_TEXT]; done)
    | cases ht

theorem texts_elem {root : Bool} (b : Bool) (e : Elt) (t : MTuple) (ht : (elemAct E root b e).1 = some t) : TextOK t := by
  unfold elemAct at ht
  dsimp only at ht
  repeat' split at ht
  all_goals first
    | (cases ht; simp [TextOK, MTuple.ofSpan, MTuple.ofText, strcopyBytes, MAX_TEXT]; done)
    | cases ht

theorem texts_incr (b : Bool) (e : Elt) (t : MTuple) (ht : (incrAct b e).1 = some t) : TextOK t := by cases ht

theorem texts_pri {s : Str} {inc : Bool} (h : strcopyBytes s.length ≤ MAX_TEXT) (b : Bool) (e : Elt) (t : MTuple)
    (ht : (priAct E s inc b e).1 = some t) : TextOK t := by
  unfold priAct at ht
  dsimp only at ht
  split at ht
  · cases ht; exact h
  · cases ht

theorem PTracks.step_safe {N : Nat} (hE : E.starts = some sts) (hTO : TableOK E sts) (hT : TableIn E sts)
    (h : PTracks E F sts cs cur s0 w v) (t : Tok) (rest : List Tok)
    (hF : (v.step E s0 t rest).units ≠ v.units → v.p.length = 1) (hlen : v.p.length = nk v.ss + 1)
    (hrb : ∀ p, t = .rb p → v.ss ≠ [] → top v.ss = some .lb) (hr : Room N sts cur w v)
    (hd : ∀ s k, E.d.nextByStr s k < MAX_NODE)
    (hoob : E.id0 = true → ∀ p, (t = .rcb p ∨ t = .rb p) → substringOOB E.s p = false ∧ w.q.MsLe p)
    (hx : (E.noPrune ∧ sts = [s0] ∧ ∀ x ∈ (v.step E s0 t rest).all, TextOK x) ∨
      (E.id0 = false ∧ ∀ s, t = .pri s → strcopyBytes s.length ≤ MAX_TEXT ∧ strcopyBytes (clobber s rest).length ≤ MAX_TEXT))
    (hkey : E.noPrune ∨ ∀ k, t = .ky k → longKey (some k) = false) (hb : w.bad = false) :
    (w.step E t rest).bad = false ∧ (w.step E t rest).q.tl.length ≤ w.q.tl.length + 2 * N := by
  have hroom := hr.tl
  have hends : ∀ {w' : W} {v' : P} (x : USym) (i : Nat), PTracks E F sts cs cur s0 w' v' → v'.units = v.units → v'.syms = v.syms →
      v'.p.length = v.p.length → ((v'.close s0).addSym x i).units = (v.step E s0 t rest).units → w'.bad = false →
      ((w'.closeUnit E).addSym x i).bad = false ∧ ((w'.closeUnit E).addSym x i).q.tl = w'.q.tl := by
    intro w' v' x i h' e1 e2 e3 e4 hb'
    refine h'.ends_safe hE x i hr.now hr.start hr.state (by rw [e1]; exact hr.units) (by rw [e2]; exact hr.syms) (fun hm => ?_) hb'
    rw [e3]
    refine hF fun he => ?_
    rw [← e4] at he
    have := congrArg List.length he
    unfold P.close at this
    rw [if_pos hm, e1] at this
    simp [P.addSym] at this
  cases t with
  | com => exact ⟨hb, Nat.le_add_right _ _⟩
  | lcb p =>
    have h1 : PTracks E F sts cs cur s0 { w.mark with ss := push w.ss .lcb } { v with st := .matched, ss := push v.ss .lcb } :=
      h.mark.setSs (by rw [h.ss])
    obtain ⟨a1, a2⟩ := h1.now_safe (does_lcb E p) (quiet_lcb E p) hr.now (Nat.le_refl _) (by dsimp only [W.mark]; omega)
      (.inr texts_lcb) hb
    exact ⟨a1, Nat.le_trans a2 (by dsimp only [W.mark]; omega)⟩
  | lb p =>
    obtain ⟨a1, a2⟩ := h.mark.prune_safe hT none (.inr rfl) hb
    obtain ⟨cur', h0, hm, hp⟩ := h.mark.prune hTO rfl none a1
    have hcl : cur'.length ≤ N := by
      rcases hm with rfl | ⟨ct, e1, e2, _⟩
      · exact hr.now
      · cases hid : E.id0 with
        | true =>
          have := h0.fresh (h0.nopr (.inr hid))
          rw [this]; exact hr.start
        | false =>
          have hnd := (hTO ct e1 hid).2 _ _ e2
          have hlt := hT ct e1 hid _ _ e2
          have := List.Nodup.length_le_of_subset (l₂ := List.range sts.length) hnd (fun s hs => by simpa using hlt s hs)
          rw [List.length_range] at this
          have := hr.start
          omega
    have a2' : (w.mark.pruned E none).q.tl.length = w.q.tl.length := by rw [a2]; rfl
    obtain ⟨c1, c2⟩ := h0.now_safe (does_lb E p) (quiet_lb E p) hcl (Nat.le_refl _) (by rw [a2']; omega) (.inr texts_lb) a1
    have h1 := h0.now (does_lb E p)
    have c3 := h1.push_safe (d := E.d) none hcl (by rw [cur_len]; exact hr.node) (by rw [cur_len]; exact hr.deep) hd
    obtain ⟨c4, c5⟩ := W.bad_parts c1
    refine ⟨W.bad_of c4 (c3.trans c5), ?_⟩
    refine Nat.le_trans c2 ?_
    rw [a2']; omega
  | ky k =>
    obtain ⟨a1, a2⟩ := h.mark.prune_safe hT (some k) (hkey.imp id fun h => h k rfl) hb
    obtain ⟨cur', h0, hm, hp⟩ := h.mark.prune hTO rfl (some k) a1
    have hcl : cur'.length ≤ N := by
      rcases hm with rfl | ⟨ct, e1, e2, _⟩
      · exact hr.now
      · cases hid : E.id0 with
        | true =>
          have := h0.fresh (h0.nopr (.inr hid))
          rw [this]; exact hr.start
        | false =>
          have hnd := (hTO ct e1 hid).2 _ _ e2
          have hlt := hT ct e1 hid _ _ e2
          have := List.Nodup.length_le_of_subset (l₂ := List.range sts.length) hnd (fun s hs => by simpa using hlt s hs)
          rw [List.length_range] at this
          have := hr.start
          omega
    have a2' : (w.mark.pruned E (some k)).q.tl.length = w.q.tl.length := by rw [a2]; rfl
    have c3 := h0.push_safe (d := E.d) (some k) hcl hr.node hr.deep hd
    obtain ⟨c4, c5⟩ := W.bad_parts a1
    refine ⟨W.bad_of c4 (c3.trans c5), ?_⟩
    show (w.mark.pruned E (some k)).q.tl.length ≤ _
    rw [a2']; omega
  | rcb p =>
    have hx : (E.noPrune ∧ sts = [s0] ∧ ∀ x ∈ (v.rcb E s0 p rest).all, TextOK x) ∨ E.id0 = false := hx.imp id (·.1)
    replace hends : ∀ {w' : W} {v' : P} (x : USym) (i : Nat), PTracks E F sts cs cur s0 w' v' → v'.units = v.units → v'.syms = v.syms →
      v'.p.length = v.p.length → ((v'.close s0).addSym x i).units = (v.rcb E s0 p rest).units → w'.bad = false →
      ((w'.closeUnit E).addSym x i).bad = false ∧ ((w'.closeUnit E).addSym x i).q.tl = w'.q.tl := hends
    show (w.rcb E p rest).bad = false ∧ (w.rcb E p rest).q.tl.length ≤ _
    simp only [W.rcb, P.rcb] at hx hends ⊢
    rw [h.ss]
    by_cases h0 : v.ss.length = 0
    · rw [if_pos h0] at hends ⊢
      obtain ⟨a1, a2⟩ := hends .rcb (p - 1) h rfl rfl rfl rfl hb
      exact ⟨a1, by rw [a2]; omega⟩
    · rw [if_neg h0] at hx hends ⊢
      have h1 : PTracks E F sts cs cur s0 (w.closeOut E false p w.elt) (v.cur (closeAct E false p)) := h.now (does_close E false p)
      obtain ⟨k1, k2, _, k3, _⟩ := cur_fields v (closeAct E false p)
      have k4 := cur_len v (closeAct E false p)
      have hb1 : (w.closeOut E false p w.elt).bad = false ∧ (w.closeOut E false p w.elt).q.tl.length ≤ w.q.tl.length + N := by
        refine h.now_safe (does_close E false p) (quiet_close E false p fun hi => (hoob hi p (.inl rfl)).1) hr.now (Nat.le_refl _)
          (by omega) ?_ hb (fun n hn hi => (hoob hi p (.inl rfl)).2 n hn)
        rcases hx with ⟨x1, x2, x3⟩ | hx
        · refine .inl ⟨x1, x2, fun x hx => x3 x ?_⟩
          generalize v.cur (closeAct E false p) = v1 at hx ⊢
          rw [← all_inferred v1 .rcb rest] at hx
          split
          · split
            · exact hx
            · split
              · rw [all_close]; exact hx
              · split
                · exact all_cur _ _ hx
                · exact hx
          · rw [all_inferred] at hx
            split
            · exact hx
            · split
              · exact all_cur _ _ hx
              · exact hx
        · exact .inr (texts_close hx)
      clear hx
      generalize w.closeOut E false p w.elt = w1 at h1 hb1
      generalize v.cur (closeAct E false p) = v1 at h1 hends k1 k2 k3 k4
      obtain ⟨b1, b2⟩ := hb1
      rw [h1.ss]
      by_cases h2 : v1.ss.length = 1
      · rw [if_pos h2] at hends ⊢
        have h2 := h1.inferred .rcb rest
        obtain ⟨m1, m2, m3⟩ := inferred_fields v1 .rcb rest
        have m4 : (v1.inferred .rcb rest).syms = v1.syms := by unfold P.inferred; split <;> rfl
        have b3 : (w1.inferred .rcb rest).bad = false ∧ (w1.inferred .rcb rest).q = w1.q := by
          unfold W.inferred; split
          · exact ⟨b1, rfl⟩
          · exact ⟨b1, rfl⟩
        generalize w1.inferred .rcb rest = w2 at h2 b3
        generalize v1.inferred .rcb rest = v2 at h2 hends m1 m2 m3 m4
        obtain ⟨b3, b4⟩ := b3
        rw [← b4] at b2
        rw [h2.shadow]
        by_cases h3 : v2.shadow = []
        · rw [if_pos h3]
          exact ⟨b3, Nat.le_trans b2 (by omega)⟩
        · rw [if_neg h3] at hends ⊢
          by_cases h4 : top v2.shadow = some .ky
          · rw [if_pos h4] at hends ⊢
            obtain ⟨a1, a2⟩ := hends .object 0 h2 (by rw [m1, k1]) (by rw [m4, k2]) (by rw [m2, k4]) rfl b3
            exact ⟨a1, by rw [a2]; omega⟩
          · rw [if_neg h4]
            by_cases h5 : top v2.shadow = some .lb
            · rw [if_pos h5]
              have h6 := PTracks.now_safe (w := { w2 with ss := pop w2.ss }) (h2.setSs (s' := pop v2.ss) (by rw [h2.ss])) (does_elem E true)
                (quiet_elem E true) hr.now b2 (by omega) (.inr texts_elem) b3
              rw [h2.shadow] at h6
              exact ⟨h6.1, Nat.le_trans h6.2 (by omega)⟩
            · rw [if_neg h5]
              exact ⟨b3, Nat.le_trans b2 (by omega)⟩
      · rw [if_neg h2]
        by_cases h4 : secondTop v1.ss = some .ky
        · rw [if_pos h4]
          have hp2 : 2 ≤ v1.p.length := by
            rw [k4, hlen, ← k3]
            match hv : v1.ss, h4 with
            | a :: b :: l, h4 =>
              simp [secondTop] at h4
              subst h4
              cases a <;> simp [nk]
          obtain ⟨x, xs, hx⟩ := h1.items_of hp2
          obtain ⟨a1, a2⟩ := popQ_safe hx b1
          refine ⟨a1, ?_⟩
          show w1.popQ.q.tl.length ≤ _
          rw [a2]; omega
        · rw [if_neg h4]
          by_cases h5 : secondTop v1.ss = some .lb
          · rw [if_pos h5]
            have h6 := PTracks.now_safe (w := { w1 with ss := pop w1.ss }) (h1.setSs (s' := pop v1.ss) (by rw [h1.ss])) (does_elem E false)
              (quiet_elem E false) hr.now b2 (by omega) (.inr texts_elem) b1
            rw [h1.ss] at h6
            exact ⟨h6.1, Nat.le_trans h6.2 (by omega)⟩
          · rw [if_neg h5]
            exact ⟨b1, Nat.le_trans b2 (by omega)⟩
  | rb p =>
    have hx : (E.noPrune ∧ sts = [s0] ∧ ∀ x ∈ (v.rb E s0 p rest).all, TextOK x) ∨ E.id0 = false := hx.imp id (·.1)
    replace hends : ∀ {w' : W} {v' : P} (x : USym) (i : Nat), PTracks E F sts cs cur s0 w' v' → v'.units = v.units → v'.syms = v.syms →
      v'.p.length = v.p.length → ((v'.close s0).addSym x i).units = (v.rb E s0 p rest).units → w'.bad = false →
      ((w'.closeUnit E).addSym x i).bad = false ∧ ((w'.closeUnit E).addSym x i).q.tl = w'.q.tl := hends
    show (w.rb E p rest).bad = false ∧ (w.rb E p rest).q.tl.length ≤ _
    simp only [W.rb, P.rb] at hx hends ⊢
    rw [h.ss]
    by_cases h0 : v.ss.length = 0
    · rw [if_pos h0] at hends ⊢
      obtain ⟨a1, a2⟩ := hends .rb (p - 1) h rfl rfl rfl rfl hb
      exact ⟨a1, by rw [a2]; omega⟩
    · rw [if_neg h0] at hx hends ⊢
      obtain ⟨ss', hss⟩ : ∃ ss', v.ss = .lb :: ss' := by
        have := hrb p rfl (by intro e; rw [e] at h0; exact h0 rfl)
        cases hv : v.ss with
        | nil => rw [hv] at this; cases this
        | cons a l => rw [hv] at this; simp [top] at this; exact ⟨l, by rw [this]⟩
      have hp1 : v.p.length = nk ss' + 2 := by rw [hlen, hss]; simp [nk]
      obtain ⟨x, xs, hxi⟩ := h.items_of (by omega)
      have h1 : PTracks E F sts cs cur s0 (w.rbOut E p) (v.below (closeAct E true p)) := by
        unfold W.rbOut
        rw [hxi]
        exact h.below (does_close E true p) hxi
      obtain ⟨k1, k2, _, k3, _⟩ := below_fields v (closeAct E true p)
      have k4 := below_len v (closeAct E true p)
      have hb1 : (w.rbOut E p).bad = false ∧ (w.rbOut E p).q.tl.length ≤ w.q.tl.length + N := by
        unfold W.rbOut
        rw [hxi]
        refine h.below_safe (does_close E true p) (quiet_close E true p fun hi => (hoob hi p (.inr rfl)).1) hxi hr.now (Nat.le_refl _)
          (by omega) ?_ hb (fun n hn hi => (hoob hi p (.inr rfl)).2 n hn)
        rcases hx with ⟨x1, x2, x3⟩ | hx
        · refine .inl ⟨x1, x2, fun x hx => x3 x ?_⟩
          generalize v.below (closeAct E true p) = v1 at hx ⊢
          rw [← all_inferred v1 .rb rest] at hx
          split
          · split
            · exact hx
            · split
              · rw [all_close]; exact hx
              · split
                · exact all_cur _ _ hx
                · exact hx
          · rw [all_inferred] at hx
            split
            · exact hx
            · split
              · exact all_cur _ _ hx
              · exact hx
        · exact .inr (texts_close hx)
      clear hx
      generalize w.rbOut E p = w1 at h1 hb1
      generalize v.below (closeAct E true p) = v1 at h1 hends k1 k2 k3 k4
      obtain ⟨b1, b2⟩ := hb1
      simp only [W.rbEnd]
      rw [h1.ss]
      by_cases h2 : v1.ss.length = 1
      · rw [if_pos h2] at hends ⊢
        have h2 := h1.inferred .rb rest
        obtain ⟨m1, m2, m3⟩ := inferred_fields v1 .rb rest
        have m4 : (v1.inferred .rb rest).syms = v1.syms := by unfold P.inferred; split <;> rfl
        have b3 : (w1.inferred .rb rest).bad = false ∧ (w1.inferred .rb rest).q = w1.q := by
          unfold W.inferred; split
          · exact ⟨b1, rfl⟩
          · exact ⟨b1, rfl⟩
        generalize w1.inferred .rb rest = w2 at h2 b3
        generalize v1.inferred .rb rest = v2 at h2 hends m1 m2 m3 m4
        obtain ⟨b3, b4⟩ := b3
        rw [← b4] at b2
        obtain ⟨y, ys, hy⟩ := h2.items_of (by rw [m2, k4]; omega)
        obtain ⟨a1, a2⟩ := popQ_safe hy b3
        have h5 := (h2.popQ hy).1
        rw [h2.shadow]
        by_cases h3 : v2.shadow = []
        · rw [if_pos h3]
          refine ⟨a1, ?_⟩
          show w2.popQ.q.tl.length ≤ _
          rw [a2]; omega
        · rw [if_neg h3] at hends ⊢
          by_cases h4 : top v2.shadow = some .ky
          · rw [if_pos h4] at hends ⊢
            obtain ⟨a1, a2⟩ := hends .array 0 h2 (by rw [m1, k1]) (by rw [m4, k2]) (by rw [m2, k4]) rfl b3
            exact ⟨a1, by rw [a2]; omega⟩
          · rw [if_neg h4]
            by_cases h6 : top v2.shadow = some .lb
            · rw [if_pos h6]
              have h7 := PTracks.now_safe (w := { w2.popQ with ss := pop w2.popQ.ss }) (h5.setSs (s' := pop v2.popQ.ss) (by rw [h5.ss])) does_incr
                quiet_incr hr.now (by rw [a2]; exact b2) (by omega) (.inr texts_incr) a1
              exact ⟨h7.1, Nat.le_trans h7.2 (by omega)⟩
            · rw [if_neg h6]
              exact ⟨b3, Nat.le_trans b2 (by omega)⟩
      · rw [if_neg h2]
        obtain ⟨y, ys, hy⟩ := h1.items_of (by rw [k4]; omega)
        obtain ⟨a1, a2⟩ := popQ_safe hy b1
        obtain ⟨h5, hx5⟩ := h1.popQ hy
        by_cases h4 : secondTop v1.ss = some .ky
        · rw [if_pos h4]
          have h6 : PTracks E F sts cs cur s0 { w1 with q := w1.q.pop.1, elt := w1.q.pop.2 } v1.popQ := h5
          obtain ⟨z, zs, hz⟩ := h6.items_of (by
            show 2 ≤ v1.p.tail.length
            rw [List.length_tail, k4, hp1]
            rw [k3, hss] at h4
            cases ss' with
            | nil => simp [secondTop] at h4
            | cons a l =>
              simp [secondTop] at h4
              subst h4
              simp [nk])
          obtain ⟨c1, c2⟩ := popQ_safe (w := { w1 with q := w1.q.pop.1 }) hz a1
          refine ⟨c1, ?_⟩
          have c3 : (W.popQ { w1 with q := w1.q.pop.1 }).q.tl = w1.q.pop.1.tl := c2
          have c4 : w1.q.pop.1.tl = w1.q.tl := a2
          show (W.popQ { w1 with q := w1.q.pop.1 }).q.tl.length ≤ _
          rw [c3, c4]; omega
        · rw [if_neg h4]
          by_cases h6 : secondTop v1.ss = some .lb
          · rw [if_pos h6]
            have h7 := PTracks.now_safe (w := { w1.popQ with ss := pop w1.popQ.ss }) (h5.setSs (s' := pop v1.popQ.ss) (by rw [h5.ss])) does_incr
              quiet_incr hr.now (by rw [a2]; exact b2) (by omega) (.inr texts_incr) a1
            exact ⟨h7.1, Nat.le_trans h7.2 (by omega)⟩
          · rw [if_neg h6]
            exact ⟨b1, Nat.le_trans b2 (by omega)⟩
  | pri x =>
    have hx : (E.noPrune ∧ sts = [s0] ∧ ∀ y ∈ (v.pri E s0 x rest).all, TextOK y) ∨
      (strcopyBytes x.length ≤ MAX_TEXT ∧ strcopyBytes (clobber x rest).length ≤ MAX_TEXT) := hx.imp id (fun hx => hx.2 x rfl)
    replace hends : ∀ {w' : W} {v' : P} (y : USym) (i : Nat), PTracks E F sts cs cur s0 w' v' → v'.units = v.units → v'.syms = v.syms →
      v'.p.length = v.p.length → ((v'.close s0).addSym y i).units = (v.pri E s0 x rest).units → w'.bad = false →
      ((w'.closeUnit E).addSym y i).bad = false ∧ ((w'.closeUnit E).addSym y i).q.tl = w'.q.tl := hends
    show (w.pri E x rest).bad = false ∧ (w.pri E x rest).q.tl.length ≤ _
    simp only [W.pri, P.pri] at hx hends ⊢
    rw [h.ss, h.shadow]
    by_cases h0 : v.ss.length ≥ 1
    · rw [if_pos h0] at hx ⊢
      have h1 : PTracks E F sts cs cur s0 (w.priOut E x (decide (top v.ss = some .lb)))
          (v.cur (priAct E x (decide (top v.ss = some .lb)))) := h.now (does_pri E x _)
      have hb1 : (w.priOut E x (decide (top v.ss = some .lb))).bad = false ∧
          (w.priOut E x (decide (top v.ss = some .lb))).q.tl.length ≤ w.q.tl.length + N := by
        refine h.now_safe (does_pri E x _) (quiet_pri E x _) hr.now (Nat.le_refl _) (by omega) ?_ hb
        rcases hx with ⟨x1, x2, x3⟩ | hx
        · refine .inl ⟨x1, x2, fun y hy => x3 y ?_⟩
          split
          · exact hy
          · exact hy
        · exact .inr (texts_pri hx.1)
      obtain ⟨k1, k2, _, k3, _⟩ := cur_fields v (priAct E x (decide (top v.ss = some .lb)))
      have k4 := cur_len v (priAct E x (decide (top v.ss = some .lb)))
      generalize w.priOut E x (decide (top v.ss = some .lb)) = w1 at h1 hb1
      generalize v.cur (priAct E x (decide (top v.ss = some .lb))) = v1 at h1 k3 k4
      obtain ⟨b1, b2⟩ := hb1
      rw [h1.ss]
      by_cases h2 : top v1.ss = some .ky
      · rw [if_pos h2]
        obtain ⟨y, ys, hy⟩ := h1.items_of (by
          rw [k4, hlen, ← k3]
          cases hv : v1.ss with
          | nil => rw [hv] at h2; cases h2
          | cons a l => rw [hv] at h2; simp [top] at h2; subst h2; simp [nk])
        obtain ⟨a1, a2⟩ := popQ_safe hy b1
        refine ⟨a1, ?_⟩
        show w1.popQ.q.tl.length ≤ _
        rw [a2]; omega
      · rw [if_neg h2]
        exact ⟨b1, Nat.le_trans b2 (by omega)⟩
    · rw [if_neg h0] at hends hx ⊢
      have h1 := h.inferred .pri rest
      obtain ⟨m1, m2, _⟩ := inferred_fields v .pri rest
      have m4 : (v.inferred .pri rest).syms = v.syms := by unfold P.inferred; split <;> rfl
      have b3 : (w.inferred .pri rest).bad = false ∧ (w.inferred .pri rest).q = w.q := by
        unfold W.inferred; split
        · exact ⟨hb, rfl⟩
        · exact ⟨hb, rfl⟩
      generalize w.inferred .pri rest = w1 at h1 b3
      generalize v.inferred .pri rest = v1 at h1 hends m1 m2 m4 hx
      obtain ⟨b3, b4⟩ := b3
      rw [h1.shadow]
      by_cases h4 : top v1.shadow = some .ky
      · rw [if_pos h4] at hends ⊢
        obtain ⟨a1, a2⟩ := hends .pri 0 h1 m1 m4 (by rw [m2]) rfl b3
        exact ⟨a1, by rw [a2, b4]; omega⟩
      · rw [if_neg h4] at hx ⊢
        by_cases h6 : top v1.shadow = some .lb
        · rw [if_pos h6] at hx ⊢
          have h7 := h1.mark.now_safe (B := w.q.tl.length) (does_pri E (if v.shadow = [] then clobber x rest else x) true)
            (quiet_pri E _ true) hr.now (by rw [← b4]; exact Nat.le_refl _) (by omega) ?_ b3
          · exact ⟨h7.1, Nat.le_trans h7.2 (by omega)⟩
          · rcases hx with hx | hx
            · exact .inl hx
            · refine .inr (texts_pri ?_)
              split
              · exact hx.2
              · exact hx.1
        · rw [if_neg h6]
          exact ⟨b3, by rw [b4]; omega⟩

end

end JPS
