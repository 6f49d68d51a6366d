import Verif.ChainProofs
import Verif.Spec.Tokens
/-!
# The levels of a worker's query stacks

On every level each root of the worker has exactly one node.  `View` is what a single root sees.
-/

set_option autoImplicit false

namespace JPS
open Spec

/-- The fields of a node that the serial automaton has too. -/
def Node.elt (n : Node) : Elt := ⟨n.st, n.count, n.ms⟩

/-- Roots of the nodes at the given indices, with repetitions. -/
def orgsOf (nodes : List Node) (is : List Nat) : List Nat :=
  is.flatMap fun i => match nodes[i]? with
    | some n => n.org i
    | none => []

/-- `n` is a node of the level that belongs to root `r`. -/
def Own (nodes : List Node) (rng : Rng) (r : Nat) (n : Node) : Prop :=
  ∃ i ∈ rng.list, nodes[i]? = some n ∧ r ∈ n.org i

/-- The levels lie one after the other in the node array, the roots first. -/
def Contig (R : Nat) : List Rng → Prop
  | [] => False
  | [r] => r = ⟨0, R⟩
  | r :: r' :: rs => r.s = r'.e ∧ r.s ≤ r.e ∧ Contig R (r' :: rs)

/-- The query stacks of a worker whose roots have the given states. -/
structure QInv (sts : List Nat) (q : QS) (elt : Rng) : Prop where
  contig : Contig sts.length (elt :: q.items)
  len : q.nodes.length = elt.e
  root : ∀ i n, i < sts.length → q.nodes[i]? = some n → n.roots = some [] ∧ sts[i]? = some n.st
  deep : ∀ i n, sts.length ≤ i → q.nodes[i]? = some n → ∃ r rs, n.roots = some (r :: rs)
  perm : ∀ rng ∈ elt :: q.items, (orgsOf q.nodes rng.list).Perm (List.range sts.length)

/-- What root `r` sees: its nodes, the current one first. -/
def View (q : QS) (elt : Rng) (r : Nat) (p : List Elt) : Prop :=
  All2 (fun rng e => ∃ n, Own q.nodes rng r n ∧ n.elt = e) (elt :: q.items) p

theorem mem_rlist {r : Rng} {i : Nat} : i ∈ r.list ↔ r.s ≤ i ∧ i < r.e := by
  simp [Rng.list, List.mem_range'_1]; omega

theorem rlist_nodup (r : Rng) : r.list.Nodup := List.nodup_range'

theorem Contig.bound {R : Nat} : ∀ {l : List Rng}, Contig R l → ∀ r ∈ l, r.s ≤ r.e
  | [], h, _, _ => h.elim
  | [r], h, x, hx => by
    simp at hx; subst hx
    have : x = ⟨0, R⟩ := h
    rw [this]; exact Nat.zero_le _
  | r :: r' :: rs, h, x, hx => by
    rcases List.mem_cons.1 hx with hx | hx
    · subst hx; exact h.2.1
    · exact Contig.bound h.2.2 x hx

theorem Contig.below {R : Nat} : ∀ {r : Rng} {l : List Rng}, Contig R (r :: l) → ∀ x ∈ l, x.e ≤ r.s
  | r, [], _, _, hx => by simp at hx
  | r, r' :: rs, h, x, hx => by
    rcases List.mem_cons.1 hx with hx | hx
    · subst hx; exact Nat.le_of_eq h.1.symm
    · have h1 := Contig.below h.2.2 x hx
      have h2 := Contig.bound h.2.2 r' (by simp)
      have := h.1
      omega

theorem Contig.tail {R : Nat} {r r' : Rng} {rs : List Rng} (h : Contig R (r :: r' :: rs)) : Contig R (r' :: rs) :=
  h.2.2

theorem Contig.roots {R : Nat} : ∀ {l : List Rng}, Contig R l → l.getLast? = some ⟨0, R⟩
  | [], h => h.elim
  | [r], h => by have : r = ⟨0, R⟩ := h; simp [this]
  | r :: r' :: rs, h => by
    have := Contig.roots h.2.2
    rw [List.getLast?_cons_cons]; exact this

theorem orgsOf_congr {nodes nodes' : List Node} : ∀ {is : List Nat},
    (∀ i ∈ is, (nodes'[i]?).map Node.roots = (nodes[i]?).map Node.roots) → orgsOf nodes' is = orgsOf nodes is
  | [], _ => rfl
  | i :: is, h => by
    have ih := orgsOf_congr fun j hj => h j (List.mem_cons_of_mem _ hj)
    have h1 := h i (by simp)
    unfold orgsOf at ih ⊢
    rw [List.flatMap_cons, List.flatMap_cons, ih]
    congr 1
    cases ha : nodes'[i]? <;> cases hb : nodes[i]? <;> rw [ha, hb] at h1
    · cases h1
    · cases h1
    · simp only [Option.map_some, Option.some.injEq] at h1
      simp only [Node.org, Node.origins, h1]

theorem own_mem_orgs {nodes : List Node} {rng : Rng} {r : Nat} {n : Node} (h : Own nodes rng r n) :
    r ∈ orgsOf nodes rng.list := by
  obtain ⟨i, h1, h2, h3⟩ := h
  unfold orgsOf
  rw [List.mem_flatMap]
  exact ⟨i, h1, by rw [h2]; exact h3⟩

theorem mem_orgs {nodes : List Node} {is : List Nat} {r : Nat} (h : r ∈ orgsOf nodes is) :
    ∃ i ∈ is, ∃ n, nodes[i]? = some n ∧ r ∈ n.org i := by
  unfold orgsOf at h
  rw [List.mem_flatMap] at h
  obtain ⟨i, h1, h2⟩ := h
  cases hn : nodes[i]? with
  | none => rw [hn] at h2; simp at h2
  | some n => rw [hn] at h2; exact ⟨i, h1, n, hn, h2⟩

theorem QInv.orgs_lt {sts : List Nat} {q : QS} {elt : Rng} (h : QInv sts q elt) {rng : Rng}
    (hr : rng ∈ elt :: q.items) {i : Nat} (hi : i ∈ rng.list) {n : Node} (hn : q.nodes[i]? = some n) :
    ∀ r ∈ n.org i, r < sts.length := by
  intro r hm
  have : r ∈ orgsOf q.nodes rng.list := own_mem_orgs ⟨i, hi, hn, hm⟩
  have := (h.perm rng hr).mem_iff.1 this
  simpa using this

theorem QInv.orgs_nodup {sts : List Nat} {q : QS} {elt : Rng} (h : QInv sts q elt) {rng : Rng}
    (hr : rng ∈ elt :: q.items) : (orgsOf q.nodes rng.list).Nodup :=
  (h.perm rng hr).nodup_iff.2 List.nodup_range

theorem QInv.below {sts : List Nat} {q : QS} {elt : Rng} (h : QInv sts q elt) {rng : Rng}
    (hr : rng ∈ elt :: q.items) {i : Nat} (hi : i ∈ rng.list) : i < q.nodes.length := by
  have h1 := (mem_rlist.1 hi).2
  have hl := h.len
  rcases List.mem_cons.1 hr with hr | hr
  · subst hr; omega
  · have := h.contig.below rng hr
    have := h.contig.bound elt (by simp)
    omega

theorem QInv.roots_some {sts : List Nat} {q : QS} {elt : Rng} (h : QInv sts q elt) {i : Nat} {n : Node}
    (hn : q.nodes[i]? = some n) : n.roots ≠ none := by
  by_cases hi : i < sts.length
  · rw [(h.root i n hi hn).1]; simp
  · obtain ⟨r, rs, h1⟩ := h.deep i n (by omega) hn
    rw [h1]; simp

/-- Exactly one node of a level belongs to a root. -/
theorem QInv.own {sts : List Nat} {q : QS} {elt : Rng} (h : QInv sts q elt) {rng : Rng}
    (hr : rng ∈ elt :: q.items) {r : Nat} (hlt : r < sts.length) : ∃ n, Own q.nodes rng r n := by
  have : r ∈ orgsOf q.nodes rng.list := (h.perm rng hr).mem_iff.2 (by simpa using hlt)
  obtain ⟨i, h1, n, h2, h3⟩ := mem_orgs this
  exact ⟨n, i, h1, h2, h3⟩

theorem nodup_flatMap_unique {α β : Type} {f : α → List β} : ∀ {l : List α}, (l.flatMap f).Nodup → l.Nodup →
    ∀ {a b : α} {x : β}, a ∈ l → b ∈ l → x ∈ f a → x ∈ f b → a = b
  | [], _, _, _, _, _, ha, _, _, _ => by simp at ha
  | c :: l, h, hn, a, b, x, ha, hb, hxa, hxb => by
    rw [List.flatMap_cons, List.nodup_append] at h
    obtain ⟨h1, h2, h3⟩ := h
    have hn := List.nodup_cons.1 hn
    rcases List.mem_cons.1 ha with ha | ha <;> rcases List.mem_cons.1 hb with hb | hb
    · rw [ha, hb]
    · rw [ha] at hxa
      exact absurd rfl (h3 x hxa x (List.mem_flatMap.2 ⟨b, hb, hxb⟩))
    · rw [hb] at hxb
      exact absurd rfl (h3 x hxb x (List.mem_flatMap.2 ⟨a, ha, hxa⟩))
    · exact nodup_flatMap_unique h2 hn.2 ha hb hxa hxb

theorem QInv.own_unique {sts : List Nat} {q : QS} {elt : Rng} (h : QInv sts q elt) {rng : Rng}
    (hr : rng ∈ elt :: q.items) {r : Nat} {n m : Node} (hn : Own q.nodes rng r n) (hm : Own q.nodes rng r m) :
    n = m := by
  obtain ⟨i, h1, h2, h3⟩ := hn
  obtain ⟨j, k1, k2, k3⟩ := hm
  have := nodup_flatMap_unique (h.orgs_nodup hr) (rlist_nodup rng) (x := r) h1 k1 (by rw [h2]; exact h3)
    (by rw [k2]; exact k3)
  subst this
  rw [h2] at k2; exact Option.some.inj k2

/-- A root has a view. -/
theorem QInv.view {sts : List Nat} {q : QS} {elt : Rng} (h : QInv sts q elt) {r : Nat} (hlt : r < sts.length) :
    ∃ p, View q elt r p := by
  have : ∀ l : List Rng, (∀ x ∈ l, x ∈ elt :: q.items) →
      ∃ p, All2 (fun rng e => ∃ n, Own q.nodes rng r n ∧ n.elt = e) l p := by
    intro l
    induction l with
    | nil => intro _; exact ⟨[], .nil⟩
    | cons x l ih =>
      intro hx
      obtain ⟨p, hp⟩ := ih fun y hy => hx y (List.mem_cons_of_mem _ hy)
      obtain ⟨n, hn⟩ := h.own (hx x (by simp)) hlt
      exact ⟨n.elt :: p, .cons ⟨n, hn, rfl⟩ hp⟩
  exact this _ fun _ hx => hx

/-! ### Loops over a level -/

/-- What the loop body does to a node: tuple found, new count, new start. -/
abbrev Act := Node → Option MTuple × Nat × Option Nat

/-- The node afterwards. -/
def Act.upd (act : Act) (n : Node) : Node := { n with count := (act n).2.1, ms := (act n).2.2 }

/-- Add the tuple, if any. -/
def QS.emit (q : QS) (i : Nat) : Option MTuple → QS
  | some t => q.addInfo i t
  | none => q

/-- The loop body is the given action. -/
def Does (f : Nat → Node → QS → QS) (act : Act) : Prop := ∀ i n q, q.nodes[i]? = some n → n.roots ≠ none →
  (f i n q).nodes = q.nodes.set i (act.upd n) ∧ (f i n q).heads = (q.emit i (act n).1).heads ∧
  (f i n q).tl = (q.emit i (act n).1).tl ∧ (f i n q).items = q.items ∧ ∀ t, (act n).1 = some t → t.next = none

/-- Log of one loop. -/
def eachLog (act : Act) (nodes : List Node) (is : List Nat) : List (Nat × MTuple) :=
  is.flatMap fun i => match nodes[i]? with
    | some n => match (act n).1 with
      | some t => (n.org i).map fun r => (r, t)
      | none => []
    | none => []

theorem Logged.congr {base : List MTuple} {q q' : QS} {R : Nat} {log : List (Nat × MTuple)} (h : Logged base q R log)
    (h1 : q'.tl = q.tl) (h2 : q'.heads = q.heads) : Logged base q' R log :=
  ⟨by rw [h1]; exact h.tl, h.dom, by rw [h2]; exact h.heads, by rw [h1]; exact h.linked⟩

theorem org_upd (act : Act) (n : Node) (i : Nat) : (act.upd n).org i = n.org i := rfl

theorem each_fold {f : Nat → Node → QS → QS} {act : Act} (hd : Does f act) {base : List MTuple} {R : Nat} :
    ∀ (is : List Nat) (q : QS) (log : List (Nat × MTuple)), is.Nodup →
    (∀ i ∈ is, ∃ n, q.nodes[i]? = some n ∧ n.roots ≠ none ∧ ∀ r ∈ n.org i, r < R) → Logged base q R log →
    ∀ q', q' = is.foldl (fun q i => match q.nodes[i]? with
        | some n => (f i n q).orUb (decide (n.roots = none))
        | none => { q with ub := true }) q →
      Logged base q' R (log ++ eachLog act q.nodes is) ∧ q'.items = q.items ∧ q'.nodes.length = q.nodes.length ∧
      ∀ j, q'.nodes[j]? = if j ∈ is then (q.nodes[j]?).map act.upd else q.nodes[j]?
  | [], q, log, _, _, hl, q', hq => by
    subst hq
    exact ⟨by simpa [eachLog] using hl, rfl, rfl, fun j => by simp⟩
  | i :: is, q, log, hnd, hn, hl, q', hq => by
    obtain ⟨n, h1, h2, h3⟩ := hn i (by simp)
    obtain ⟨d1, d2, d3, d4, d5⟩ := hd i n q h1 h2
    have hnd := List.nodup_cons.1 hnd
    simp only [List.foldl_cons, h1] at hq
    have hstep : Logged base (f i n q) R (log ++ eachLog act q.nodes [i]) := by
      cases ht : (act n).1 with
      | none =>
        refine Logged.congr ?_ d3 d2
        simpa [ht, QS.emit, eachLog, h1] using hl
      | some t =>
        refine Logged.congr ?_ d3 d2
        have := (hl.addInfo (d5 t ht) h1 h2 h3).1
        simpa [ht, QS.emit, eachLog, h1] using this
    have hother : ∀ j, j ≠ i → (f i n q).nodes[j]? = q.nodes[j]? := by
      intro j hj
      rw [d1, List.getElem?_set_ne (Ne.symm hj)]
    have hne : ∀ j ∈ is, j ≠ i := fun j hj e => hnd.1 (e ▸ hj)
    have hstep' : Logged base ((f i n q).orUb (decide (n.roots = none))) R (log ++ eachLog act q.nodes [i]) :=
      hstep.congr rfl rfl
    obtain ⟨a1, a2, a3, a4⟩ := each_fold hd is ((f i n q).orUb (decide (n.roots = none))) _ hnd.2
      (fun j hj => by
        obtain ⟨m, b1, b2⟩ := hn j (List.mem_cons_of_mem _ hj)
        exact ⟨m, by rw [← b1]; exact hother j (hne j hj), b2⟩)
      hstep' q' hq
    refine ⟨?_, ?_, ?_, ?_⟩
    · have he : eachLog act ((f i n q).orUb (decide (n.roots = none))).nodes is = eachLog act q.nodes is := by
        have : ∀ l : List Nat, (∀ j ∈ l, j ≠ i) → eachLog act (f i n q).nodes l = eachLog act q.nodes l := by
          intro l
          induction l with
          | nil => intro _; rfl
          | cons j l ih =>
            intro hl
            unfold eachLog at ih ⊢
            rw [List.flatMap_cons, List.flatMap_cons, ih fun x hx => hl x (List.mem_cons_of_mem _ hx),
              hother j (hl j (by simp))]
        exact this is hne
      rw [he] at a1
      have : eachLog act q.nodes (i :: is) = eachLog act q.nodes [i] ++ eachLog act q.nodes is := by
        simp [eachLog]
      rw [this, ← List.append_assoc]; exact a1
    · rw [a2]; exact d4
    · rw [a3]; show (f i n q).nodes.length = _
      rw [d1, List.length_set]
    · intro j
      rw [a4]
      show (if j ∈ is then ((f i n q).nodes[j]?).map act.upd else (f i n q).nodes[j]?) = _
      by_cases hj : j = i
      · subst hj
        rw [if_neg hnd.1, if_pos (by simp), d1, List.getElem?_set_self (List.getElem?_eq_some_iff.1 h1).1, h1]
        rfl
      · rw [hother j hj]
        by_cases hm : j ∈ is
        · rw [if_pos hm, if_pos (List.mem_cons_of_mem _ hm)]
        · rw [if_neg hm, if_neg (by simp [hj, hm])]

theorem emits_none {r : Nat} {log : List (Nat × MTuple)} (h : ∀ x ∈ log, x.1 ≠ r) : emits r log = [] := by
  unfold emits
  rw [List.filter_eq_nil_iff.2]
  · rfl
  · intro x hx; simpa using h x hx

theorem emits_map {r : Nat} {t : MTuple} : ∀ {rs : List Nat}, rs.Nodup → r ∈ rs →
    emits r (rs.map fun x => (x, t)) = [t]
  | [], _, h => by simp at h
  | a :: rs, hn, h => by
    have hn := List.nodup_cons.1 hn
    by_cases ha : a = r
    · subst ha
      have : emits a (rs.map fun x => (x, t)) = [] := emits_none fun x hx => by
        simp only [List.mem_map] at hx
        obtain ⟨y, hy, rfl⟩ := hx
        intro e; exact hn.1 (e ▸ hy)
      simp only [emits, List.map_cons, List.filter_cons, BEq.rfl, if_true] at this ⊢
      rw [this]
    · have ih := emits_map (t := t) hn.2 (by rcases List.mem_cons.1 h with h | h; exact absurd h.symm ha; exact h)
      simp only [emits, List.map_cons, List.filter_cons] at ih ⊢
      rw [if_neg (by simpa using ha)]
      exact ih

theorem eachLog_mem {act : Act} {nodes : List Node} {is : List Nat} {x : Nat × MTuple} (h : x ∈ eachLog act nodes is) :
    x.1 ∈ orgsOf nodes is := by
  unfold eachLog at h
  rw [List.mem_flatMap] at h
  obtain ⟨i, hi, h⟩ := h
  unfold orgsOf
  rw [List.mem_flatMap]
  refine ⟨i, hi, ?_⟩
  cases hn : nodes[i]? with
  | none => rw [hn] at h; simp at h
  | some n =>
    rw [hn] at h
    simp only at h ⊢
    cases ht : (act n).1 with
    | none => rw [ht] at h; simp at h
    | some t =>
      rw [ht] at h
      simp only [List.mem_map] at h
      obtain ⟨y, hy, rfl⟩ := h
      exact hy

/-- A loop over a level adds for a root what its node yields. -/
theorem emits_each {act : Act} {nodes : List Node} {r : Nat} {n : Node} : ∀ {is : List Nat} {i : Nat},
    (orgsOf nodes is).Nodup → i ∈ is → nodes[i]? = some n → r ∈ n.org i →
    emits r (eachLog act nodes is) = (act n).1.toList
  | [], _, _, h, _, _ => by simp at h
  | j :: is, i, hn, hi, h1, h2 => by
    have ho : orgsOf nodes (j :: is) = orgsOf nodes [j] ++ orgsOf nodes is := by simp [orgsOf]
    have he : eachLog act nodes (j :: is) = eachLog act nodes [j] ++ eachLog act nodes is := by simp [eachLog]
    rw [ho, List.nodup_append] at hn
    obtain ⟨n1, n2, n3⟩ := hn
    rw [he, emits_append]
    by_cases hj : j = i
    · subst hj
      have hm : r ∈ orgsOf nodes [j] := by simp [orgsOf, h1, h2]
      have hz : emits r (eachLog act nodes is) = [] := emits_none fun x hx e =>
        n3 r hm x.1 (eachLog_mem hx) e.symm
      rw [hz, List.append_nil]
      have hnd : (n.org j).Nodup := by simpa [orgsOf, h1] using n1
      cases ht : (act n).1 with
      | none => simp [eachLog, h1, ht, emits]
      | some t =>
        have := emits_map (t := t) hnd h2
        simpa [eachLog, h1, ht] using this
    · have hi' : i ∈ is := by
        rcases List.mem_cons.1 hi with h | h
        · exact absurd h.symm hj
        · exact h
      have hm : r ∈ orgsOf nodes is := by
        unfold orgsOf; rw [List.mem_flatMap]; exact ⟨i, hi', by rw [h1]; exact h2⟩
      have hz : emits r (eachLog act nodes [j]) = [] := emits_none fun x hx e =>
        n3 x.1 (eachLog_mem hx) r hm e
      rw [hz, List.nil_append]
      exact emits_each n2 hi' h1 h2

/-- Invariant and views after a loop over one level. -/
theorem QInv.each {f : Nat → Node → QS → QS} {act : Act} (hd : Does f act) {base : List MTuple} {sts : List Nat}
    {w : W} {log : List (Nat × MTuple)} {rng : Rng} (h : QInv sts w.q w.elt) (hr : rng ∈ w.elt :: w.q.items)
    (hl : Logged base w.q sts.length log) :
    QInv sts (w.each rng f).q (w.each rng f).elt ∧
    Logged base (w.each rng f).q sts.length (log ++ eachLog act w.q.nodes rng.list) ∧
    (w.each rng f).q.items = w.q.items ∧
    (∀ j, (w.each rng f).q.nodes[j]? =
      if j ∈ rng.list then (w.q.nodes[j]?).map act.upd else w.q.nodes[j]?) := by
  have hx := each_fold hd rng.list w.q log (rlist_nodup rng)
    (fun i hi => by
      have hb := h.below hr hi
      obtain ⟨n, hn⟩ : ∃ n, w.q.nodes[i]? = some n := ⟨_, List.getElem?_eq_getElem hb⟩
      exact ⟨n, hn, h.roots_some hn, h.orgs_lt hr hi hn⟩) hl (w.each rng f).q rfl
  obtain ⟨h1, h2, h3, h4⟩ := hx
  have hroots : ∀ j : Nat, ((w.each rng f).q.nodes[j]?).map Node.roots = (w.q.nodes[j]?).map Node.roots := by
    intro j
    rw [h4]
    split
    · cases w.q.nodes[j]? <;> rfl
    · rfl
  have hget : ∀ (j : Nat) m, (w.each rng f).q.nodes[j]? = some m →
      ∃ n, w.q.nodes[j]? = some n ∧ m.roots = n.roots ∧ m.st = n.st := by
    intro j m hm
    rw [h4] at hm
    split at hm
    · cases hn : w.q.nodes[j]? with
      | none => rw [hn] at hm; simp at hm
      | some n => rw [hn] at hm; simp at hm; subst hm; exact ⟨n, rfl, rfl, rfl⟩
    · exact ⟨m, hm, rfl, rfl⟩
  refine ⟨⟨?_, ?_, ?_, ?_, ?_⟩, h1, h2, h4⟩
  · rw [h2]; exact h.contig
  · rw [h3]; exact h.len
  · intro i m hi hm
    obtain ⟨n, a1, a2, a3⟩ := hget i m hm
    rw [a2, a3]; exact h.root i n hi a1
  · intro i m hi hm
    obtain ⟨n, a1, a2, a3⟩ := hget i m hm
    rw [a2]; exact h.deep i n hi a1
  · rw [h2]
    intro x hx
    rw [orgsOf_congr fun j _ => hroots j]
    exact h.perm x hx

theorem own_each_in {nodes nodes' : List Node} {rng : Rng} {act : Act} {r : Nat} {n : Node}
    (h4 : ∀ j, nodes'[j]? = if j ∈ rng.list then (nodes[j]?).map act.upd else nodes[j]?) (h : Own nodes rng r n) :
    Own nodes' rng r (act.upd n) := by
  obtain ⟨i, h1, h2, h3⟩ := h
  exact ⟨i, h1, by rw [h4, if_pos h1, h2]; rfl, h3⟩

theorem own_each_out {nodes nodes' : List Node} {rng x : Rng} {act : Act} {r : Nat} {n : Node}
    (h4 : ∀ j, nodes'[j]? = if j ∈ rng.list then (nodes[j]?).map act.upd else nodes[j]?)
    (hx : ∀ j ∈ x.list, j ∉ rng.list) (h : Own nodes x r n) : Own nodes' x r n := by
  obtain ⟨i, h1, h2, h3⟩ := h
  exact ⟨i, h1, by rw [h4, if_neg (hx i h1), h2], h3⟩

theorem _root_.Spec.All2.imp_mem {α β : Type} {R S : α → β → Prop} : ∀ {a : List α} {b : List β}, All2 R a b →
    (∀ x ∈ a, ∀ y, R x y → S x y) → All2 S a b
  | _, _, .nil, _ => .nil
  | _, _, .cons h t, f =>
    .cons (f _ (by simp) _ h) (t.imp_mem fun x hx => f x (List.mem_cons_of_mem _ hx))

/-- The loop over the current level. -/
theorem View.each {f : Nat → Node → QS → QS} {act : Act} (hd : Does f act) {base : List MTuple} {sts : List Nat}
    {w : W} {log : List (Nat × MTuple)} (h : QInv sts w.q w.elt) (hl : Logged base w.q sts.length log)
    {r : Nat} {e : Elt} {p : List Elt} (hv : View w.q w.elt r (e :: p)) :
    ∃ n, Own w.q.nodes w.elt r n ∧ n.elt = e ∧ emits r (eachLog act w.q.nodes w.elt.list) = (act n).1.toList ∧
      View (w.each w.elt f).q (w.each w.elt f).elt r ((act.upd n).elt :: p) := by
  obtain ⟨h1, h2, h3, h4⟩ := h.each hd (rng := w.elt) (by simp) hl
  unfold View at hv
  cases hv with
  | cons ho ht =>
    obtain ⟨n, ho, he⟩ := ho
    refine ⟨n, ho, he, ?_, ?_⟩
    · obtain ⟨i, o1, o2, o3⟩ := ho
      exact emits_each (h.orgs_nodup (by simp)) o1 o2 o3
    · unfold View
      rw [h3]
      refine .cons ⟨_, own_each_in h4 ho, rfl⟩ (ht.imp_mem ?_)
      rintro x hx y ⟨m, hm, hy⟩
      refine ⟨m, own_each_out h4 (fun j hj hj' => ?_) hm, hy⟩
      have := h.contig.below x hx
      have := mem_rlist.1 hj
      have := mem_rlist.1 hj'
      omega

/-- The loop over the level below the current one. -/
theorem View.eachTop {f : Nat → Node → QS → QS} {act : Act} (hd : Does f act) {base : List MTuple} {sts : List Nat}
    {w : W} {log : List (Nat × MTuple)} (h : QInv sts w.q w.elt) (hl : Logged base w.q sts.length log)
    {r : Nat} {e e1 : Elt} {p : List Elt} (hv : View w.q w.elt r (e :: e1 :: p)) {x : Rng} {xs : List Rng}
    (hx : w.q.items = x :: xs) :
    ∃ n, Own w.q.nodes x r n ∧ n.elt = e1 ∧ emits r (eachLog act w.q.nodes x.list) = (act n).1.toList ∧
      View (w.each x f).q (w.each x f).elt r (e :: (act.upd n).elt :: p) := by
  obtain ⟨h1, h2, h3, h4⟩ := h.each hd (rng := x) (by rw [hx]; simp) hl
  unfold View at hv
  rw [hx] at hv
  have hc := h.contig
  rw [hx] at hc
  cases hv with
  | cons h0 ht =>
    cases ht with
    | cons ho ht =>
      obtain ⟨n, ho, he⟩ := ho
      obtain ⟨m, hm, he0⟩ := h0
      refine ⟨n, ho, he, ?_, ?_⟩
      · obtain ⟨i, o1, o2, o3⟩ := ho
        exact emits_each (h.orgs_nodup (by rw [hx]; simp)) o1 o2 o3
      · unfold View
        rw [h3, hx]
        refine .cons ⟨m, own_each_out h4 (fun j hj hj' => ?_) hm, he0⟩
          (.cons ⟨_, own_each_in h4 ho, rfl⟩ (ht.imp_mem ?_))
        · have := hc.below x (by simp)
          have a := mem_rlist.1 hj
          have b := mem_rlist.1 hj'
          have : w.elt.s ≤ j := a.1
          omega
        · rintro y hy z ⟨m, hm, hz⟩
          refine ⟨m, own_each_out h4 (fun j hj hj' => ?_) hm, hz⟩
          have := hc.tail.below y hy
          have := mem_rlist.1 hj
          have := mem_rlist.1 hj'
          omega

/-! ### Pushing, popping, starting -/

theorem roots_flat_addPath (acc : List Node) (s : Nat) (b : List Nat)
    (hs : ∀ n ∈ acc, ∃ r rs, n.roots = some (r :: rs)) (hd : (acc.map (·.st)).Nodup) :
    ((addPath acc s (some b)).flatMap fun n => n.roots.getD []).Perm ((acc.flatMap fun n => n.roots.getD []) ++ b) := by
  unfold addPath
  split
  · rename_i hany
    have key : ∀ l : List Node, (∀ n ∈ l, ∃ r rs, n.roots = some (r :: rs)) → (l.map (·.st)).Nodup →
        (s ∈ l.map (·.st) → ((l.map fun n => if n.st = s then { n with roots := match n.roots, some b with
            | some a, some b => some (a ++ b)
            | _, _ => none } else n).flatMap fun n => n.roots.getD []).Perm ((l.flatMap fun n => n.roots.getD []) ++ b)) ∧
        (s ∉ l.map (·.st) → (l.map fun n => if n.st = s then { n with roots := match n.roots, some b with
            | some a, some b => some (a ++ b)
            | _, _ => none } else n) = l) := by
      intro l
      induction l with
      | nil => intro _ _; exact ⟨fun h => by simp at h, fun _ => rfl⟩
      | cons n l ih =>
        intro hs hd
        have hd := List.nodup_cons.1 hd
        obtain ⟨i1, i2⟩ := ih (fun m hm => hs m (List.mem_cons_of_mem _ hm)) hd.2
        obtain ⟨r, rs, hr⟩ := hs n (by simp)
        constructor
        · intro hm
          by_cases hn : n.st = s
          · have hnot : s ∉ l.map (·.st) := hn ▸ hd.1
            rw [List.map_cons, i2 hnot, if_pos hn]
            simp only [List.flatMap_cons, hr, Option.getD_some]
            rw [List.append_assoc, List.append_assoc]
            exact List.Perm.append_left _ List.perm_append_comm
          · have hm' : s ∈ l.map (·.st) := by
              rcases List.mem_cons.1 hm with h | h
              · exact absurd h.symm hn
              · exact h
            rw [List.map_cons, if_neg hn]
            simp only [List.flatMap_cons]
            rw [List.append_assoc]
            exact List.Perm.append_left _ (i1 hm')
        · intro hm
          rw [List.map_cons, i2 (fun h => hm (List.mem_cons_of_mem _ h)), if_neg]
          intro e; exact hm (by rw [List.map_cons, e]; exact List.mem_cons_self)
    exact (key acc hs hd).1 (by
      simp only [List.any_eq_true, beq_iff_eq] at hany
      obtain ⟨n, hn, he⟩ := hany
      exact he ▸ List.mem_map_of_mem hn)
  · simp

theorem addPath_st (acc : List Node) (s : Nat) (r : Option (List Nat)) (hd : (acc.map (·.st)).Nodup) :
    ((addPath acc s r).map (·.st)).Nodup := by
  unfold addPath
  split
  · rw [List.map_map]
    refine Eq.mp (congrArg List.Nodup (List.map_congr_left ?_)) hd
    intro n _
    simp only [Function.comp]
    split <;> rfl
  · rename_i hany
    rw [List.map_append, List.nodup_append]
    refine ⟨hd, by simp, ?_⟩
    intro a ha b hb
    simp at hb; subst hb
    rintro rfl
    apply hany
    obtain ⟨n, hn, he⟩ := List.mem_map.1 ha
    simp only [List.any_eq_true, beq_iff_eq]
    exact ⟨n, hn, he⟩

/-- A node just made by `queryStacksPush`. -/
def NewNodes (n : Node) : Prop := (∃ r rs, n.roots = some (r :: rs)) ∧ n.count = 0 ∧ n.ms = none

theorem addPath_fresh {acc : List Node} {s : Nat} {r : Nat} {rs : List Nat} (h : ∀ n ∈ acc, NewNodes n) :
    ∀ n ∈ addPath acc s (some (r :: rs)), NewNodes n := by
  intro n hn
  unfold addPath at hn
  split at hn
  · obtain ⟨m, hm, rfl⟩ := List.mem_map.1 hn
    obtain ⟨⟨a, as, h1⟩, h2, h3⟩ := h m hm
    split
    · exact ⟨⟨a, as ++ r :: rs, by simp [h1]⟩, h2, h3⟩
    · exact ⟨⟨a, as, h1⟩, h2, h3⟩
  · rcases List.mem_append.1 hn with hn | hn
    · exact h n hn
    · simp at hn; subst hn; exact ⟨⟨r, rs, rfl⟩, rfl, rfl⟩

theorem addPath_keep {acc : List Node} {s : Nat} {b : List Nat} {m : Node} {x : Nat} (h : ∀ n ∈ acc, NewNodes n)
    (hm : m ∈ acc) (hx : x ∈ m.roots.getD []) : ∃ m' ∈ addPath acc s (some b), m'.st = m.st ∧ x ∈ m'.roots.getD [] := by
  unfold addPath
  split
  · refine ⟨_, List.mem_map_of_mem hm, ?_, ?_⟩
    · split <;> rfl
    · obtain ⟨⟨a, as, h1⟩, h2, h3⟩ := h m hm
      split
      · simp only [h1, Option.getD_some] at hx ⊢
        exact List.mem_append_left _ hx
      · exact hx
  · exact ⟨m, List.mem_append_left _ hm, rfl, hx⟩

theorem addPath_new {acc : List Node} {s : Nat} {b : List Nat} {x : Nat} (h : ∀ n ∈ acc, NewNodes n) (hx : x ∈ b) :
    ∃ m' ∈ addPath acc s (some b), m'.st = s ∧ x ∈ m'.roots.getD [] := by
  unfold addPath
  split
  · rename_i hany
    simp only [List.any_eq_true, beq_iff_eq] at hany
    obtain ⟨m, hm, he⟩ := hany
    obtain ⟨⟨a, as, h1⟩, h2, h3⟩ := h m hm
    refine ⟨_, List.mem_map_of_mem hm, ?_, ?_⟩
    · rw [if_pos he]; exact he
    · rw [if_pos he]
      simp only [h1, Option.getD_some]
      exact List.mem_append_right _ hx
  · exact ⟨_, List.mem_append_right _ (List.mem_singleton.2 rfl), rfl, hx⟩

/-- What `pushNodes` has made after the nodes at the indices `done`. -/
structure Pushed (d : QDfa) (nodes : List Node) (k : Option Str) (done : List Nat) (acc : List Node) : Prop where
  fresh : ∀ n ∈ acc, NewNodes n
  nodup : (acc.map (·.st)).Nodup
  perm : (acc.flatMap fun n => n.roots.getD []).Perm (orgsOf nodes done)
  next : ∀ i ∈ done, ∀ n, nodes[i]? = some n → ∀ r ∈ n.org i, ∃ m ∈ acc, m.st = n.next d k ∧ r ∈ m.roots.getD []

theorem origins_some {n : Node} (i : Nat) (h : n.roots ≠ none) :
    ∃ a as, n.origins i = some (a :: as) ∧ n.org i = a :: as := by
  unfold Node.org Node.origins
  cases hr : n.roots with
  | none => exact absurd hr h
  | some rs =>
    cases rs with
    | nil => exact ⟨i, [], by simp, by simp⟩
    | cons a as => exact ⟨a, as, by simp, by simp⟩

theorem pushed_fold (d : QDfa) (nodes : List Node) (k : Option Str) : ∀ (is done : List Nat) (acc : List Node),
    Pushed d nodes k done acc → (∀ i ∈ is, ∃ n, nodes[i]? = some n ∧ n.roots ≠ none) →
    Pushed d nodes k (done ++ is) (is.foldl (fun acc i => match nodes[i]? with
      | some n => addPath acc (n.next d k) (n.origins i)
      | none => acc) acc)
  | [], done, acc, h, _ => by simpa using h
  | i :: is, done, acc, h, hi => by
    obtain ⟨n, h1, h2⟩ := hi i (by simp)
    obtain ⟨a, as, h3, h4⟩ := origins_some i h2
    have hstep : Pushed d nodes k (done ++ [i]) (addPath acc (n.next d k) (n.origins i)) := by
      rw [h3]
      refine ⟨addPath_fresh h.fresh, addPath_st _ _ _ h.nodup, ?_, ?_⟩
      · refine (roots_flat_addPath acc _ (a :: as) (fun m hm => (h.fresh m hm).1) h.nodup).trans ?_
        have : orgsOf nodes (done ++ [i]) = orgsOf nodes done ++ (a :: as) := by
          simp [orgsOf, h1, h4]
        rw [this]
        exact List.Perm.append_right _ h.perm
      · intro j hj m hm r hr
        rcases List.mem_append.1 hj with hj | hj
        · obtain ⟨m', k1, k2, k3⟩ := h.next j hj m hm r hr
          obtain ⟨m'', l1, l2, l3⟩ := addPath_keep h.fresh k1 k3 (s := n.next d k) (b := a :: as)
          exact ⟨m'', l1, l2.trans k2, l3⟩
        · simp at hj; subst hj
          rw [h1] at hm; cases hm
          rw [h4] at hr
          exact addPath_new h.fresh hr
    have := pushed_fold d nodes k is (done ++ [i]) _ hstep fun j hj => hi j (List.mem_cons_of_mem _ hj)
    simp only [List.foldl_cons, h1]
    simpa [List.append_assoc] using this

theorem orgsOf_new : ∀ (new nodes : List Node), (∀ n ∈ new, NewNodes n) →
    orgsOf (nodes ++ new) (List.range' nodes.length new.length) = new.flatMap fun n => n.roots.getD []
  | [], nodes, _ => by simp [orgsOf]
  | n :: new, nodes, h => by
    have ih := orgsOf_new new (nodes ++ [n]) fun m hm => h m (List.mem_cons_of_mem _ hm)
    simp only [List.append_assoc, List.singleton_append, List.length_append, List.length_singleton] at ih
    obtain ⟨⟨a, as, h1⟩, _⟩ := h n (by simp)
    unfold orgsOf at ih ⊢
    rw [List.length_cons, List.range'_succ, List.flatMap_cons, ih, List.flatMap_cons]
    simp [Node.org, Node.origins, h1]

theorem QInv.push {sts : List Nat} {q : QS} {elt : Rng} (d : QDfa) (k : Option Str) (h : QInv sts q elt) :
    QInv sts (q.push d elt k).1 (q.push d elt k).2 ∧
    (q.push d elt k).1.items = elt :: q.items ∧ (q.push d elt k).1.tl = q.tl ∧ (q.push d elt k).1.heads = q.heads ∧
    ∀ r e p, View q elt r (e :: p) → ∃ n, Own q.nodes elt r n ∧ n.elt = e ∧
      View (q.push d elt k).1 (q.push d elt k).2 r (⟨n.next d k, 0, none⟩ :: e :: p) := by
  have hP : Pushed d q.nodes k elt.list (pushNodes d q.nodes k elt.list) := by
    have := pushed_fold d q.nodes k elt.list [] [] ⟨by simp, by simp, by simp [orgsOf], by simp⟩ fun i hi => by
      have hb := h.below (rng := elt) (by simp) hi
      have hn : q.nodes[i]? = some q.nodes[i] := List.getElem?_eq_getElem hb
      exact ⟨_, hn, h.roots_some hn⟩
    rw [List.nil_append] at this
    exact this
  have hlen := h.len
  generalize hnew : pushNodes d q.nodes k elt.list = new at hP
  have e1 : (q.push d elt k).1.nodes = q.nodes ++ new := by simp [QS.push, hnew]
  have e2 : (q.push d elt k).2 = ⟨elt.e, elt.e + new.length⟩ := by simp [QS.push, hnew, hlen]
  have e3 : (q.push d elt k).1.items = elt :: q.items := rfl
  have hlist : (q.push d elt k).2.list = List.range' q.nodes.length new.length := by
    rw [e2]; simp [Rng.list, hlen]
  have hold : ∀ rng ∈ elt :: q.items, ∀ i ∈ rng.list, (q.nodes ++ new)[i]? = q.nodes[i]? := by
    intro rng hr i hi
    rw [List.getElem?_append_left (h.below hr hi)]
  have hsl : sts.length ≤ q.nodes.length := by
    rw [hlen]
    have := h.contig.roots
    have hm := List.mem_of_getLast? this
    rcases List.mem_cons.1 hm with hm | hm
    · rw [← hm]; exact Nat.le_refl _
    · have := h.contig.below _ hm
      have := h.contig.bound elt (by simp)
      simp at *; omega
  have hnperm : (orgsOf (q.nodes ++ new) (q.push d elt k).2.list).Perm (List.range sts.length) := by
    rw [hlist, orgsOf_new new q.nodes hP.fresh]
    exact hP.perm.trans (h.perm elt (by simp))
  have hinv : QInv sts (q.push d elt k).1 (q.push d elt k).2 := by
    refine ⟨?_, ?_, ?_, ?_, ?_⟩
    · rw [e3, e2]
      exact ⟨rfl, Nat.le_add_right _ _, h.contig⟩
    · rw [e1, e2, List.length_append, hlen]
    · intro i n hi hn
      rw [e1, List.getElem?_append_left (by omega)] at hn
      exact h.root i n hi hn
    · intro i n hi hn
      rw [e1] at hn
      by_cases hl : i < q.nodes.length
      · rw [List.getElem?_append_left hl] at hn
        exact h.deep i n hi hn
      · rw [List.getElem?_append_right (by omega)] at hn
        exact (hP.fresh n (List.mem_of_getElem? hn)).1
    · intro rng hr
      rw [e1]
      rw [e3] at hr
      rcases List.mem_cons.1 hr with hr | hr
      · rw [hr]; exact hnperm
      · rw [orgsOf_congr (nodes := q.nodes) fun i hi => by rw [hold rng hr i hi]]
        exact h.perm rng hr
  refine ⟨hinv, e3, rfl, rfl, ?_⟩
  intro r e p hv
  have hv0 := hv
  unfold View at hv
  cases hv with
  | cons ho ht =>
    obtain ⟨n, ho, he⟩ := ho
    refine ⟨n, ho, he, ?_⟩
    unfold View
    rw [e3]
    refine .cons ?_ ?_
    · obtain ⟨i, o1, o2, o3⟩ := ho
      obtain ⟨m, m1, m2, m3⟩ := hP.next i o1 n o2 r o3
      obtain ⟨⟨a, as, f1⟩, f2, f3⟩ := hP.fresh m m1
      obtain ⟨j, hj⟩ := List.getElem?_of_mem m1
      have hj' := (List.getElem?_eq_some_iff.1 hj).1
      refine ⟨m, ⟨q.nodes.length + j, ?_, ?_, ?_⟩, ?_⟩
      · rw [hlist]; simp [List.mem_range'_1]; omega
      · rw [e1, List.getElem?_append_right (by omega)]
        simpa using hj
      · simpa [Node.org, Node.origins, f1] using m3
      · simp [Node.elt, m2, f2, f3]
    · refine All2.imp_mem (R := fun rng e => ∃ n, Own q.nodes rng r n ∧ n.elt = e) (All2.cons ⟨n, ho, he⟩ ht) ?_
      rintro rng hr y ⟨m, ⟨i, a1, a2, a3⟩, hm⟩
      exact ⟨m, ⟨i, a1, by rw [e1, hold rng hr i a1]; exact a2, a3⟩, hm⟩

theorem QInv.pop {sts : List Nat} {q : QS} {elt x : Rng} {xs : List Rng} (h : QInv sts q elt)
    (hx : q.items = x :: xs) :
    QInv sts q.pop.1 q.pop.2 ∧ q.pop.1.items = xs ∧ q.pop.2 = x ∧ q.pop.1.tl = q.tl ∧ q.pop.1.heads = q.heads ∧
    ∀ r e p, View q elt r (e :: p) → View q.pop.1 q.pop.2 r p := by
  have hq : q.pop = ({ q with nodes := q.nodes.take x.e, items := xs }, x) := by simp [QS.pop, hx]
  have hc := h.contig
  rw [hx] at hc
  have hlen := h.len
  have hxe : x.e ≤ q.nodes.length := by
    have := hc.below x (by simp)
    have := hc.bound elt (by simp)
    omega
  have hold : ∀ rng ∈ x :: xs, ∀ i ∈ rng.list, (q.nodes.take x.e)[i]? = q.nodes[i]? := by
    intro rng hr i hi
    have := mem_rlist.1 hi
    rw [List.getElem?_take, if_pos]
    rcases List.mem_cons.1 hr with hr | hr
    · subst hr; omega
    · have := hc.tail.below rng hr
      have := hc.tail.bound x (by simp)
      omega
  have hsub : ∀ {i : Nat} {n : Node}, (q.nodes.take x.e)[i]? = some n → q.nodes[i]? = some n := by
    intro i n hn
    rw [List.getElem?_take] at hn
    split at hn
    · exact hn
    · cases hn
  refine ⟨?_, by rw [hq], by rw [hq], by rw [hq], by rw [hq], ?_⟩
  · rw [hq]
    refine ⟨hc.tail, ?_, ?_, ?_, ?_⟩
    · simp; omega
    · intro i n hi hn; exact h.root i n hi (hsub hn)
    · intro i n hi hn; exact h.deep i n hi (hsub hn)
    · intro rng hr
      rw [orgsOf_congr (nodes := q.nodes) fun i hi => by rw [hold rng hr i hi]]
      exact h.perm rng (by rw [hx]; exact List.mem_cons_of_mem _ hr)
  · intro r e p hv
    unfold View at hv ⊢
    rw [hx] at hv
    rw [hq]
    cases hv with
    | cons _ ht =>
      refine ht.imp_mem ?_
      rintro rng hr y ⟨m, ⟨i, a1, a2, a3⟩, hm⟩
      exact ⟨m, ⟨i, a1, by rw [hold rng hr i a1]; exact a2, a3⟩, hm⟩

theorem QInv.start (sts : List Nat) (q : QS) :
    QInv sts (q.start sts).1 (q.start sts).2 ∧ Logged q.tl (q.start sts).1 sts.length [] ∧
    ∀ (r s : Nat), sts[r]? = some s → View (q.start sts).1 (q.start sts).2 r [⟨s, 0, none⟩] := by
  have hget : ∀ (i : Nat) (n : Node), (q.start sts).1.nodes[i]? = some n → n.roots = some [] ∧ sts[i]? = some n.st ∧
      n.count = 0 ∧ n.ms = none := by
    intro i n hn
    simp only [QS.start, List.getElem?_map] at hn
    cases hs : sts[i]? with
    | none => rw [hs] at hn; cases hn
    | some s => rw [hs] at hn; simp at hn; subst hn; exact ⟨rfl, rfl, rfl, rfl⟩
  have hl : (q.start sts).1.nodes.length = sts.length := by simp [QS.start]
  refine ⟨⟨rfl, hl, fun i n _ hn => ⟨(hget i n hn).1, (hget i n hn).2.1⟩, ?_, ?_⟩, ⟨⟨[], by simp [QS.start], rfl⟩,
    by simp, ?_, ?_⟩, ?_⟩
  · intro i n hi hn
    have := (List.getElem?_eq_some_iff.1 hn).1
    omega
  · intro rng hr
    simp only [QS.start, List.mem_singleton] at hr
    subst hr
    have : orgsOf (q.start sts).1.nodes (Rng.list ⟨0, sts.length⟩) = List.range sts.length := by
      have key : ∀ l : List Nat, (∀ i ∈ l, i < sts.length) → orgsOf (q.start sts).1.nodes l = l := by
        intro l
        induction l with
        | nil => intro _; rfl
        | cons i l ih =>
          intro hl'
          have ih := ih fun j hj => hl' j (List.mem_cons_of_mem _ hj)
          have hi : (q.start sts).1.nodes[i]? = some ((q.start sts).1.nodes[i]'(by rw [hl]; exact hl' i (by simp))) :=
            List.getElem?_eq_getElem _
          have := (hget i _ hi).1
          unfold orgsOf at ih ⊢
          rw [List.flatMap_cons, ih, hi]
          simp [Node.org, Node.origins, this]
      have hr : Rng.list ⟨0, sts.length⟩ = List.range sts.length := by
        simp [Rng.list, List.range_eq_range']
      rw [hr]
      exact key _ fun i hi => by simpa using hi
    rw [this]
  · intro r hr
    simp [QS.start, hr, idx, headOf]
  · intro r hr; trivial
  · intro r s hr
    have hr' := (List.getElem?_eq_some_iff.1 hr).1
    refine .cons ⟨⟨s, 0, none, some []⟩, ⟨r, ?_, ?_, ?_⟩, rfl⟩ .nil
    · rw [mem_rlist]; exact ⟨Nat.zero_le _, hr'⟩
    · simp [QS.start, hr]
    · simp [Node.org, Node.origins]

end JPS
