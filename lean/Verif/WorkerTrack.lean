import Verif.PruneProofs
import Verif.WorkerView
/-!
# For each of its start states a worker does what `P` does
-/

set_option autoImplicit false

namespace JPS
open Spec

/-! ### The loop bodies -/

/-- A loop body told by what it does to an entry. -/
def PAct.node (a : PAct) : Act := fun n => a (decide (n.roots = some [])) n.elt

theorem matched_elt (d : QDfa) (n : Node) : n.elt.matched d (decide (n.roots = some [])) = n.matched d := by
  unfold Elt.matched Node.matched
  by_cases h : n.roots = some [] <;> simp [h, Node.elt] <;> rfl

theorem next_elt (d : QDfa) (n : Node) (k : Option Str) : n.elt.next d (decide (n.roots = some [])) k = n.next d k := by
  unfold Elt.next Node.next
  by_cases h : n.roots = some [] <;> simp [h, Node.elt] <;> rfl

theorem addToAll_nodes {t : MTuple} : ∀ (rs : List Nat) (q : QS),
    (rs.foldl (fun q r => q.addTo t r) q).nodes = q.nodes ∧ (rs.foldl (fun q r => q.addTo t r) q).items = q.items
  | [], q => ⟨rfl, rfl⟩
  | r :: rs, q => by
    have h := addToAll_nodes (t := t) rs (q.addTo t r)
    have h5 := addTo_nodes q t r
    exact ⟨h.1.trans h5.1, h.2.trans h5.2⟩

theorem addInfo_nodes (q : QS) (i : Nat) (t : MTuple) :
    (q.addInfo i t).nodes = q.nodes ∧ (q.addInfo i t).items = q.items := by
  unfold QS.addInfo
  cases q.nodes[i]? with
  | none => exact ⟨rfl, rfl⟩
  | some n =>
    cases hn : n.roots with
    | none => simp [hn]
    | some rs =>
      cases rs with
      | nil => simpa [hn] using addTo_nodes q t i
      | cons a as => simpa [hn] using addToAll_nodes (a :: as) q

/-- The same tuple list and tuple pointers. -/
def SameTl (q q' : QS) : Prop := q.tl = q'.tl ∧ q.heads = q'.heads

theorem addTo_same {q q' : QS} {t : MTuple} {r : Nat} (h : SameTl q q') : SameTl (q.addTo t r) (q'.addTo t r) := by
  obtain ⟨h1, h2⟩ := h
  unfold QS.addTo
  rw [h1, h2]
  cases q'.heads r <;> exact ⟨rfl, by simp [h2]⟩

theorem addToAll_same {t : MTuple} : ∀ (rs : List Nat) {q q' : QS}, SameTl q q' →
    SameTl (rs.foldl (fun q r => q.addTo t r) q) (rs.foldl (fun q r => q.addTo t r) q')
  | [], _, _, h => h
  | _ :: rs, _, _, h => addToAll_same rs (addTo_same h)

theorem addInfo_same {q q' : QS} {i : Nat} {t : MTuple} (h : SameTl q q')
    (hr : (q.nodes[i]?).map Node.roots = (q'.nodes[i]?).map Node.roots) :
    SameTl (q.addInfo i t) (q'.addInfo i t) := by
  unfold QS.addInfo
  cases hn : q.nodes[i]? with
  | none =>
    rw [hn] at hr
    cases hn' : q'.nodes[i]? with
    | none => exact h
    | some n' => rw [hn'] at hr; simp at hr
  | some n =>
    rw [hn] at hr
    cases hn' : q'.nodes[i]? with
    | none => rw [hn'] at hr; simp at hr
    | some n' =>
      rw [hn'] at hr
      simp only [Option.map_some, Option.some.injEq] at hr
      simp only [hr]
      cases n'.roots with
      | none => exact h
      | some rs =>
        cases rs with
        | nil => exact addTo_same h
        | cons a as => exact addToAll_same (a :: as) h

theorem set_self {α : Type} {l : List α} {i : Nat} {x : α} (h : l[i]? = some x) : l.set i x = l := by
  apply List.ext_getElem?
  intro j
  by_cases hj : j = i
  · subst hj; rw [List.getElem?_set_self (List.getElem?_eq_some_iff.1 h).1, h]
  · rw [List.getElem?_set_ne (Ne.symm hj)]

theorem addText_eqs (q : QS) (i s : Nat) (t : Str) :
    (q.addText i s t).nodes = q.nodes ∧ (q.addText i s t).items = q.items ∧
    (q.addText i s t).tl = (q.addInfo i (.ofText s t)).tl ∧ (q.addText i s t).heads = (q.addInfo i (.ofText s t)).heads :=
  ⟨(addInfo_nodes q i _).1, (addInfo_nodes q i _).2, rfl, rfl⟩

theorem setMs_eqs {q : QS} {i : Nat} {n : Node} (h : q.nodes[i]? = some n) (m : Option Nat) :
    (q.setMs i m).nodes = q.nodes.set i { n with ms := m } ∧ (q.setMs i m).items = q.items ∧ (q.setMs i m).tl = q.tl ∧
    (q.setMs i m).heads = q.heads := by
  unfold QS.setMs; rw [h]; exact ⟨rfl, rfl, rfl, rfl⟩

theorem incr_eqs {q : QS} {i : Nat} {n : Node} (h : q.nodes[i]? = some n) :
    (q.incr i).nodes = q.nodes.set i { n with count := n.count + 1 } ∧ (q.incr i).items = q.items ∧ (q.incr i).tl = q.tl ∧
    (q.incr i).heads = q.heads := by
  unfold QS.incr; rw [h]; exact ⟨rfl, rfl, rfl, rfl⟩

theorem does_id {q : QS} {i : Nat} {n : Node} (h : q.nodes[i]? = some n) :
    q.nodes = q.nodes.set i n := (set_self h).symm

theorem does_close (E : WEnv) (arr : Bool) (pos : Nat) : Does (fun i n q =>
    match n.ms with
    | some b =>
      if E.selects (n.matched E.d) then
        ((if E.id0 then (q.addText i n.st (substring E.s b pos)).orUb (substringOOB E.s pos || decide (b > pos))
          else q.addSpan i n.st b pos).setMs i none)
      else if arr && n.matched E.d == .incomplete then q.addText i n.st [']']
      else q
    | none => q) (closeAct E arr pos).node := by
  intro i n q hn hr
  have hm := matched_elt E.d n
  simp only [PAct.node, Act.upd, closeAct, hm]
  cases hms : n.ms with
  | none =>
    have : n.elt.ms = none := hms
    simp only [this]
    exact ⟨by simp only [← hms]; exact (set_self hn).symm, rfl, rfl, trivial, by simp⟩
  | some b =>
    have : n.elt.ms = some b := hms
    simp only [this]
    by_cases hs : E.selects (n.matched E.d) = true
    · simp only [hs, if_true]
      by_cases h0 : E.id0 = true
      · simp only [h0, if_true]
        obtain ⟨a1, a2, a3, a4⟩ := addText_eqs q i n.st (substring E.s b pos)
        obtain ⟨b1, b2, b3, b4⟩ := setMs_eqs (q := (q.addText i n.st (substring E.s b pos)).orUb (substringOOB E.s pos || decide (b > pos)))
          (i := i) (n := n) (by rw [← hn]; exact congrArg (·[i]?) a1) none
        refine ⟨?_, ?_, ?_, ?_, ?_⟩
        · rw [b1]; show ((q.addText i n.st (substring E.s b pos)).nodes).set i _ = _; rw [a1]; rfl
        · rw [b4]; exact a4
        · rw [b3]; exact a3
        · rw [b2]; exact a2
        · intro t ht; cases ht; rfl
      · simp only [h0, if_false, Bool.false_eq_true]
        have a := addInfo_nodes q i (.ofSpan n.st b pos)
        obtain ⟨b1, b2, b3, b4⟩ := setMs_eqs (q := q.addSpan i n.st b pos)
          (i := i) (n := n) (by rw [← hn]; exact congrArg (·[i]?) a.1) none
        refine ⟨?_, ?_, ?_, ?_, ?_⟩
        · rw [b1]; show (q.addInfo i (.ofSpan n.st b pos)).nodes.set i _ = _; rw [a.1]; rfl
        · rw [b4]; rfl
        · rw [b3]; rfl
        · rw [b2]; exact a.2
        · intro t ht; cases ht; rfl
    · simp only [hs, Bool.false_eq_true, if_false]
      split
      · obtain ⟨a1, a2, a3, a4⟩ := addText_eqs q i n.st [']']
        refine ⟨?_, a4, a3, a2, ?_⟩
        · rw [a1]; simp only [← hms]; exact (set_self hn).symm
        · intro t ht; cases ht; rfl
      · exact ⟨by simp only [← hms]; exact (set_self hn).symm, rfl, rfl, rfl, by simp⟩

theorem does_lcb (E : WEnv) (pos : Nat) : Does (fun i n q =>
    if E.selects (n.matched E.d) then q.setMs i (some (pos - 1))
    else if n.matched E.d = .predicate then q.addText i n.st ['{']
    else if n.matched E.d = .condition then q.addText i n.st []
    else q) (lcbAct E pos).node := by
  intro i n q hn hr
  have hm := matched_elt E.d n
  simp only [PAct.node, Act.upd, lcbAct, hm]
  have ht : ∀ t : Str, (q.addText i n.st t).nodes = q.nodes.set i { n with count := n.elt.count, ms := n.elt.ms } := by
    intro t; rw [(addText_eqs q i n.st t).1]; exact (set_self hn).symm
  split
  · obtain ⟨b1, b2, b3, b4⟩ := setMs_eqs hn (some (pos - 1))
    exact ⟨b1, b4, b3, b2, by simp⟩
  · split
    · obtain ⟨a1, a2, a3, a4⟩ := addText_eqs q i n.st ['{']
      exact ⟨ht _, a4, a3, a2, by intro t ht; cases ht; rfl⟩
    · split
      · obtain ⟨a1, a2, a3, a4⟩ := addText_eqs q i n.st []
        exact ⟨ht _, a4, a3, a2, by intro t ht; cases ht; rfl⟩
      · exact ⟨(set_self hn).symm, rfl, rfl, rfl, by simp⟩

theorem does_lb (E : WEnv) (pos : Nat) : Does (fun i n q =>
    if E.selects (n.matched E.d) then q.setMs i (some (pos - 1))
    else if n.matched E.d = .condition then q.addText i n.st []
    else q) (lbAct E pos).node := by
  intro i n q hn hr
  have hm := matched_elt E.d n
  simp only [PAct.node, Act.upd, lbAct, hm]
  split
  · obtain ⟨b1, b2, b3, b4⟩ := setMs_eqs hn (some (pos - 1))
    exact ⟨b1, b4, b3, b2, by simp⟩
  · split
    · obtain ⟨a1, a2, a3, a4⟩ := addText_eqs q i n.st []
      exact ⟨by rw [a1]; exact (set_self hn).symm, a4, a3, a2, by intro t ht; cases ht; rfl⟩
    · exact ⟨(set_self hn).symm, rfl, rfl, rfl, by simp⟩

theorem does_incr : Does (fun i _ q => q.incr i) incrAct.node := by
  intro i n q hn hr
  obtain ⟨b1, b2, b3, b4⟩ := incr_eqs hn
  exact ⟨b1, b4, b3, b2, by simp [PAct.node, incrAct]⟩

theorem does_elem (E : WEnv) (root : Bool) : Does (fun i n q =>
    let q := q.incr i
    if n.matched E.d = .predicate then q.addText i n.st ['}']
    else if root && n.matched E.d == .incomplete then q.addText i n.st ['}']
    else q) (elemAct E root).node := by
  intro i n q hn hr
  have hm := matched_elt E.d n
  simp only [PAct.node, Act.upd, elemAct, hm]
  obtain ⟨b1, b2, b3, b4⟩ := incr_eqs hn
  have hs : SameTl ((q.incr i).addInfo i (.ofText n.st ['}'])) (q.addInfo i (.ofText n.st ['}'])) := by
    refine addInfo_same ⟨b3, b4⟩ ?_
    rw [b1, List.getElem?_set_self (List.getElem?_eq_some_iff.1 hn).1, hn]; rfl
  obtain ⟨a1, a2, a3, a4⟩ := addText_eqs (q.incr i) i n.st ['}']
  split
  · exact ⟨by rw [a1, b1]; rfl, a4.trans hs.2, a3.trans hs.1, a2.trans b2, by intro t ht; cases ht; rfl⟩
  · split
    · exact ⟨by rw [a1, b1]; rfl, a4.trans hs.2, a3.trans hs.1, a2.trans b2, by intro t ht; cases ht; rfl⟩
    · exact ⟨b1, b4, b3, b2, by simp⟩

theorem does_pri (E : WEnv) (t : Str) (inc : Bool) : Does (fun i n q =>
    let q := if E.selects (n.matched E.d) || n.matched E.d == .condition then q.addText i n.st t else q
    if inc then q.incr i else q) (priAct E t inc).node := by
  intro i n q hn hr
  have hm := matched_elt E.d n
  simp only [PAct.node, Act.upd, priAct, hm]
  obtain ⟨a1, a2, a3, a4⟩ := addText_eqs q i n.st t
  have hn' : (q.addText i n.st t).nodes[i]? = some n := by rw [a1, hn]
  cases inc with
  | false =>
    simp only [Bool.false_eq_true, if_false]
    split
    · exact ⟨by rw [a1]; exact (set_self hn).symm, a4, a3, a2, by intro t ht; cases ht; rfl⟩
    · exact ⟨(set_self hn).symm, rfl, rfl, rfl, by simp⟩
  | true =>
    simp only [if_true]
    split
    · obtain ⟨b1, b2, b3, b4⟩ := incr_eqs hn'
      exact ⟨by rw [b1, a1]; rfl, b4.trans a4, b3.trans a3, b2.trans a2, by intro t ht; cases ht; rfl⟩
    · obtain ⟨b1, b2, b3, b4⟩ := incr_eqs hn
      exact ⟨b1, b4, b3, b2, by simp⟩

/-! ### The relation -/

/-- Following the links from the pointers `h` gives the tuples `out`, now and after the list has grown. -/
def Follows (tl : List MTuple) (h : Head) (out : List MTuple) : Prop :=
  ∀ tl', tl'.take tl.length = tl → (h = .empty ∧ out = []) ∨
    ∃ f l ts, h = .chain f l ∧ chainFrom tl' tl'.length (some f) = some ts ∧ ts.map MTuple.strip = out

theorem Follows.mono {tl tl1 : List MTuple} {h : Head} {out : List MTuple} (hf : Follows tl h out)
    (hp : tl1.take tl.length = tl) : Follows tl1 h out := by
  intro tl' ht
  apply hf
  rw [← hp, ← ht, List.take_take]
  congr 1
  have := congrArg List.length hp
  have := congrArg List.length ht
  simp at *
  omega

/-- The worker never prunes. -/
def WEnv.noPrune (E : WEnv) : Prop := E.ct = none ∨ E.id0 = true

/-- A finished unit of a worker that had the start states `c` left, and the unit of the single path of `s0`.  With `F` the
unit has no other nodes than the roots. -/
structure PUnitOK (F : Prop) (sts : List Nat) (s0 : Nat) (tl : List MTuple) (c : List Nat) (u : PUnit)
    (x : List (USym × Nat) × List MTuple) : Prop where
  syms : u.syms = x.1
  states : (u.roots.take c.length).map (·.1) = c
  full : F → u.roots.length = c.length
  root : ∀ r : Nat, c[r]? = some s0 → ∃ h, u.roots[r]? = some (s0, h) ∧ Follows tl h x.2
  kind : c = sts ∨ (u.state = .matched ∧ c ≠ [])

/-- The worker `w` with start states `sts`, of which `cur` are left in the current unit and `cs` were left in the finished
units, and the single path `v` of the start state `s0`. -/
structure PTracks (E : WEnv) (F : Prop) (sts : List Nat) (cs : List (List Nat)) (cur : List Nat) (s0 : Nat) (w : W) (v : P) :
    Prop where
  inv : QInv cur w.q w.elt
  logd : ∃ base log, Logged base w.q cur.length log ∧ (∀ r : Nat, cur[r]? = some s0 → emits r log = v.out) ∧
    All2 (fun u y => PUnitOK F sts s0 base y.1 u y.2) w.units (cs.zip v.units) ∧
    (E.noPrune → sts = [s0] → base.map MTuple.strip = (v.units.map (·.2)).flatten ∧ ∀ x ∈ log, x.1 = 0)
  count : cs.length = v.units.length
  view : ∀ r : Nat, cur[r]? = some s0 → View w.q w.elt r v.p
  lev : w.q.items.length + 1 = v.p.length
  ss : w.ss = v.ss
  shadow : w.shadow = v.shadow
  unit : w.unit = ⟨v.syms, [], v.st, w.unit.pruned⟩
  fresh : w.unit.pruned = false → cur = sts
  flat : w.unit.pruned = false → ¬ E.noPrune → w.q.items = []
  nopr : E.noPrune → w.unit.pruned = false
  mat : w.unit.pruned = true → v.st = .matched
  ne : cur ≠ []
  all : E.noPrune → ∀ c ∈ cs, c = sts

theorem QInv.root_level {sts : List Nat} {q : QS} {elt : Rng} (h : QInv sts q elt) {a b : List Rng} {rng : Rng}
    (hl : elt :: q.items = a ++ rng :: b) {r : Nat} {n : Node} (ho : Own q.nodes rng r n) :
    decide (n.roots = some []) = decide (b = []) := by
  have hc := h.contig
  rw [hl] at hc
  have hc : Contig sts.length (rng :: b) := by
    clear hl
    induction a with
    | nil => exact hc
    | cons x a ih =>
      cases a with
      | nil => exact hc.2.2
      | cons y a => exact ih hc.2.2
  obtain ⟨i, o1, o2, o3⟩ := ho
  have hi := mem_rlist.1 o1
  rw [decide_eq_decide]
  cases b with
  | nil =>
    have : rng = ⟨0, sts.length⟩ := hc
    subst this
    simp only [iff_true]
    exact (h.root i n hi.2 o2).1
  | cons x b =>
    have hlast := hc.2.2.roots
    have hm := List.mem_of_getLast? hlast
    have hb := hc.below _ hm
    obtain ⟨r, rs, hrr⟩ := h.deep i n (by simp at hb; omega) o2
    simp [hrr]

theorem view_nil {q : QS} {elt : Rng} {r : Nat} {e : Elt} {t : List Elt} (h : View q elt r (e :: t)) :
    (t == []) = decide (q.items = []) := by
  unfold View at h
  cases h with
  | cons _ ht =>
    generalize q.items = its at ht
    cases ht <;> simp

section
variable {E : WEnv} {F : Prop} {sts : List Nat} {cs : List (List Nat)} {cur : List Nat} {s0 : Nat} {w : W} {v : P}

theorem eachLog_zero {act : Act} {rng : Rng} (hi : QInv sts w.q w.elt) (hr : rng ∈ w.elt :: w.q.items) (h1 : sts.length = 1) :
    ∀ x ∈ eachLog act w.q.nodes rng.list, x.1 = 0 := by
  intro x hx
  have := (hi.perm rng hr).mem_iff.1 (eachLog_mem hx)
  simp at this; omega

theorem PTracks.now (h : PTracks E F sts cs cur s0 w v) {f : Nat → Node → QS → QS} {act : PAct} (hd : Does f act.node) :
    PTracks E F sts cs cur s0 (w.each w.elt f) (v.cur act) := by
  obtain ⟨base, log, hl, he, hu, h4⟩ := h.logd
  obtain ⟨i1, i2, i3, i4⟩ := h.inv.each hd (rng := w.elt) (by simp) hl
  obtain ⟨f1, f2, f3, f4, f5⟩ := cur_fields v act
  have hlen := cur_len v act
  have key : ∀ r, cur[r]? = some s0 → emits r (log ++ eachLog act.node w.q.nodes w.elt.list) = (v.cur act).out ∧
      View (w.each w.elt f).q (w.each w.elt f).elt r (v.cur act).p := by
    intro r hr
    have hv := h.view r hr
    unfold P.cur
    cases hp : v.p with
    | nil => rw [hp] at hv; cases hv
    | cons e t =>
      rw [hp] at hv
      obtain ⟨n, ho, hn, he', hv'⟩ := View.each hd h.inv hl hv
      have hroot : decide (n.roots = some []) = (t == []) := by
        rw [view_nil hv]
        exact h.inv.root_level (a := []) rfl ho
      constructor
      · rw [emits_append, he r hr, he']
        simp only [PAct.node, hroot, hn]
      · have : (act.node.upd n).elt = act.upd (t == []) e := by
          simp only [Act.upd, PAct.node, PAct.upd, Node.elt, hroot]
          rw [← hn]; rfl
        show View _ _ r (act.upd (t == []) e :: t)
        rw [← this]; exact hv'
  refine ⟨i1, ⟨base, _, i2, fun r hr => (key r hr).1, by rw [f1]; exact hu, fun hn hs => ?_⟩, by rw [f1]; exact h.count,
    fun r hr => (key r hr).2, by rw [i3, hlen]; exact h.lev, by rw [f4]; exact h.ss, by rw [f5]; exact h.shadow,
    by rw [f2, f3]; exact h.unit, h.fresh, by rw [i3]; exact h.flat, h.nopr, by rw [f3]; exact h.mat, h.ne, h.all⟩
  obtain ⟨g1, g2⟩ := h4 hn hs
  refine ⟨by rw [f1]; exact g1, fun x hx => ?_⟩
  rcases List.mem_append.1 hx with hx | hx
  · exact g2 x hx
  · exact eachLog_zero h.inv (by simp) (by rw [h.fresh (h.nopr hn), hs]; rfl) x hx

theorem PTracks.below (h : PTracks E F sts cs cur s0 w v)
    {f : Nat → Node → QS → QS} {act : PAct} (hd : Does f act.node) {x : Rng} {xs : List Rng} (hx : w.q.items = x :: xs) :
    PTracks E F sts cs cur s0 (w.each x f) (v.below act) := by
  obtain ⟨base, log, hl, he, hu, h4⟩ := h.logd
  have hmem : x ∈ w.elt :: w.q.items := by rw [hx]; simp
  obtain ⟨i1, i2, i3, i4⟩ := h.inv.each hd (rng := x) hmem hl
  obtain ⟨f1, f2, f3, f4, f5⟩ := below_fields v act
  have hlen := below_len v act
  have key : ∀ r, cur[r]? = some s0 → emits r (log ++ eachLog act.node w.q.nodes x.list) = (v.below act).out ∧
      View (w.each x f).q (w.each x f).elt r (v.below act).p := by
    intro r hr
    have hv := h.view r hr
    have hv0 := hv
    unfold View at hv
    rw [hx] at hv
    unfold P.below
    generalize hp : v.p = p at hv hv0
    cases hv with
    | cons a ht =>
      rename_i e t
      cases ht with
      | cons b ht =>
        rename_i e1 t
        obtain ⟨n, ho, hn, he', hv'⟩ := View.eachTop hd h.inv hl hv0 hx
        have hroot : decide (n.roots = some []) = (t == []) := by
          rw [h.inv.root_level (a := [w.elt]) (b := xs) (by rw [hx]; rfl) ho]
          cases ht <;> simp
        constructor
        · rw [emits_append, he r hr, he']
          simp only [PAct.node, hroot, hn]
        · have : (act.node.upd n).elt = act.upd (t == []) e1 := by
            simp only [Act.upd, PAct.node, PAct.upd, Node.elt, hroot]
            rw [← hn]; rfl
          show View _ _ r (e :: act.upd (t == []) e1 :: t)
          rw [← this]; exact hv'
  refine ⟨i1, ⟨base, _, i2, fun r hr => (key r hr).1, by rw [f1]; exact hu, fun hn hs => ?_⟩, by rw [f1]; exact h.count,
    fun r hr => (key r hr).2, by rw [i3, hlen]; exact h.lev, by rw [f4]; exact h.ss, by rw [f5]; exact h.shadow,
    by rw [f2, f3]; exact h.unit, h.fresh, by rw [i3]; exact h.flat, h.nopr, by rw [f3]; exact h.mat, h.ne, h.all⟩
  obtain ⟨g1, g2⟩ := h4 hn hs
  refine ⟨by rw [f1]; exact g1, fun y hy => ?_⟩
  rcases List.mem_append.1 hy with hy | hy
  · exact g2 y hy
  · exact eachLog_zero h.inv hmem (by rw [h.fresh (h.nopr hn), hs]; rfl) y hy

theorem PTracks.pushQ (h : PTracks E F sts cs cur s0 w v) (hp : w.unit.pruned = true ∨ E.noPrune) (d : QDfa) (k : Option Str) :
    PTracks E F sts cs cur s0 { w with q := (w.q.push d w.elt k).1, elt := (w.q.push d w.elt k).2 } (v.pushQ d k) := by
  obtain ⟨base, log, hl, he, hu, h4⟩ := h.logd
  obtain ⟨i1, i2, i3, i4, i5⟩ := h.inv.push d k
  have hf : (v.pushQ d k).out = v.out ∧ (v.pushQ d k).units = v.units ∧ (v.pushQ d k).syms = v.syms ∧ (v.pushQ d k).st = v.st ∧
      (v.pushQ d k).ss = v.ss ∧ (v.pushQ d k).shadow = v.shadow := by
    unfold P.pushQ; cases v.p <;> exact ⟨rfl, rfl, rfl, rfl, rfl, rfl⟩
  obtain ⟨f0, f1, f2, f3, f4, f5⟩ := hf
  refine ⟨i1, ⟨base, log, hl.congr i3 i4, by rw [f0]; exact he, by rw [f1]; exact hu, by rw [f1]; exact h4⟩,
    by rw [f1]; exact h.count, fun r hr => ?_, ?_, by rw [f4]; exact h.ss, by rw [f5]; exact h.shadow,
    by rw [f2, f3]; exact h.unit, h.fresh, fun hf hn => ?_, h.nopr, by rw [f3]; exact h.mat, h.ne, h.all⟩
  · have hv := h.view r hr
    unfold P.pushQ
    cases hp : v.p with
    | nil => rw [hp] at hv; cases hv
    | cons e t =>
      rw [hp] at hv
      obtain ⟨n, ho, hn, hv'⟩ := i5 r e t hv
      have hroot : decide (n.roots = some []) = (t == []) := by
        rw [view_nil hv]
        exact h.inv.root_level (a := []) rfl ho
      have hk := next_elt d n k
      rw [hroot, hn] at hk
      show View _ _ r (⟨e.next d (t == []) k, 0, none⟩ :: e :: t)
      rw [hk]; exact hv'
  · dsimp only
    rw [i2]
    have := h.lev
    unfold P.pushQ
    cases hp : v.p with
    | nil => rw [hp] at this; simp at this
    | cons e t => rw [hp] at this; simp at this ⊢; exact this
  · rcases hp with hp | hp
    · rw [show w.unit.pruned = false from hf] at hp; cases hp
    · exact absurd hp hn

theorem PTracks.popQ (h : PTracks E F sts cs cur s0 w v) {x : Rng} {xs : List Rng}
    (hx : w.q.items = x :: xs) : PTracks E F sts cs cur s0 w.popQ v.popQ ∧ w.popQ.q.items = xs := by
  obtain ⟨base, log, hl, he, hu, h4⟩ := h.logd
  obtain ⟨i1, i2, i3, i4, i5, i6⟩ := h.inv.pop hx
  refine ⟨⟨i1, ⟨base, log, hl.congr i4 i5, he, hu, h4⟩, h.count, fun r hr => ?_, ?_, h.ss, h.shadow, h.unit, h.fresh, ?_, h.nopr, h.mat,
    h.ne, h.all⟩, i2⟩
  · have hv := h.view r hr
    cases hp : v.p with
    | nil => rw [hp] at hv; cases hv
    | cons e t =>
      rw [hp] at hv
      show View _ _ r v.p.tail
      rw [hp]
      exact i6 r e t hv
  · have := h.lev
    show w.q.pop.1.items.length + 1 = v.p.tail.length
    rw [i2, List.length_tail, ← this, hx]; simp
  · intro hf hn
    have := h.flat hf hn
    rw [hx] at this; cases this

theorem PTracks.setSs (h : PTracks E F sts cs cur s0 w v) {s s' : List Sym} (hs : s = s') :
    PTracks E F sts cs cur s0 { w with ss := s } { v with ss := s' } :=
  ⟨h.inv, h.logd, h.count, h.view, h.lev, hs, h.shadow, h.unit, h.fresh, h.flat, h.nopr, h.mat, h.ne, h.all⟩

theorem PTracks.mark (h : PTracks E F sts cs cur s0 w v) :
    PTracks E F sts cs cur s0 w.mark { v with st := .matched } :=
  ⟨h.inv, h.logd, h.count, h.view, h.lev, h.ss, h.shadow, by have := h.unit; simp only [W.mark]; rw [this], h.fresh, h.flat, h.nopr,
    fun _ => rfl, h.ne, h.all⟩

theorem PTracks.inferred (h : PTracks E F sts cs cur s0 w v) (x : TT)
    (rest : List Tok) : PTracks E F sts cs cur s0 (w.inferred x rest) (v.inferred x rest) := by
  unfold W.inferred P.inferred
  rw [h.shadow]
  split
  · exact ⟨h.inv, h.logd, h.count, h.view, h.lev, h.ss, rfl, h.unit, h.fresh, h.flat, h.nopr, h.mat, h.ne, h.all⟩
  · exact h

theorem copyRoots_prefix {sts : List Nat} {q : QS} {elt : Rng} (h : QInv sts q elt) (n : Nat) (hn : n ≤ q.nodes.length)
    (hs : sts.length ≤ n) : ((q.copyRoots (List.range n)).take sts.length).map (·.1) = sts ∧
    (∀ r s, sts[r]? = some s → (q.copyRoots (List.range n))[r]? = some (s, q.heads r)) ∧
    (q.copyRoots (List.range n)).length = n := by
  have key : ∀ l : List Nat, (∀ i ∈ l, i < q.nodes.length) →
      q.copyRoots l = l.map fun i => (((q.nodes[i]?).map Node.st).getD 0, q.heads i) := by
    intro l
    induction l with
    | nil => intro _; rfl
    | cons i l ih =>
      intro hl
      have hi : q.nodes[i]? = some (q.nodes[i]'(hl i (by simp))) := List.getElem?_eq_getElem _
      have ih := ih fun j hj => hl j (List.mem_cons_of_mem _ hj)
      unfold QS.copyRoots at ih ⊢
      rw [List.filterMap_cons, hi, List.map_cons, ih, hi]
      rfl
  have hk := key (List.range n) fun i hi => by
    have := List.mem_range.1 hi
    omega
  have hroot : ∀ r s, sts[r]? = some s → (q.copyRoots (List.range n))[r]? = some (s, q.heads r) := by
    intro r s hr
    have hlt := (List.getElem?_eq_some_iff.1 hr).1
    have hi : q.nodes[r]? = some (q.nodes[r]'(by omega)) := List.getElem?_eq_getElem _
    have h2 := (h.root r _ hlt hi).2
    rw [hr] at h2
    simp only [Option.some.injEq] at h2
    rw [hk, List.getElem?_map, List.getElem?_range (by omega)]
    simp only [Option.map_some, hi, Option.getD_some, ← h2]
  refine ⟨?_, hroot, by rw [hk]; simp⟩
  apply List.ext_getElem?
  intro i
  rw [List.getElem?_map, List.getElem?_take]
  cases hs : sts[i]? with
  | none =>
    have := List.getElem?_eq_none_iff.1 hs
    rw [if_neg (by omega)]; rfl
  | some s =>
    have := (List.getElem?_eq_some_iff.1 hs).1
    rw [if_pos this, hroot i s hs]; rfl

theorem QInv.roots_le {sts : List Nat} {q : QS} {elt : Rng} (h : QInv sts q elt) : sts.length ≤ q.nodes.length := by
  rw [h.len]
  have hm := List.mem_of_getLast? h.contig.roots
  rcases List.mem_cons.1 hm with hm | hm
  · rw [← hm]; exact Nat.le_refl _
  · have := h.contig.below _ hm
    have := h.contig.bound elt (by simp)
    simp at *; omega

/-- The units after the loop. -/
theorem W.finish_units {sts : List Nat} {w : W} (h : QInv sts w.q w.elt) (hs : sts ≠ []) :
    w.finish.units = w.units ++ [{ w.unit with roots := w.q.copyRoots (List.range sts.length) }] := by
  have hne : w.q.nodes ≠ [] := by
    intro e
    have h1 := h.roots_le
    rw [e] at h1
    exact hs (List.length_eq_zero_iff.1 (by simpa using h1))
  have hlast : ((w.elt :: w.q.items).getLast?).getD w.elt = ⟨0, sts.length⟩ := by rw [h.contig.roots]; rfl
  have hrl : Rng.list ⟨0, sts.length⟩ = List.range sts.length := by simp [Rng.list, List.range_eq_range']
  simp only [W.finish, hlast, if_neg hne, hrl]

theorem Logged.base_take {base : List MTuple} {q : QS} {R : Nat} {log : List (Nat × MTuple)} (h : Logged base q R log) :
    q.tl.take base.length = base := by
  obtain ⟨rest, h1, _⟩ := h.tl
  rw [h1]; simp

/-- With one start state the log of that state is the whole log. -/
theorem Logged.single {base : List MTuple} {q : QS} {R : Nat} {log : List (Nat × MTuple)} (h : Logged base q R log)
    (hd : ∀ x ∈ log, x.1 = 0) : q.tl.map MTuple.strip = base.map MTuple.strip ++ emits 0 log := by
  obtain ⟨rest, e1, e2⟩ := h.tl
  have : emits 0 log = log.map (·.2) := by
    unfold emits
    rw [List.filter_eq_self.2]
    intro x hx
    simpa using hd x hx
  rw [e1, List.map_append, e2, this]

theorem PUnits.mono {tl tl1 : List MTuple} {us : List PUnit} {xs : List (List Nat × List (USym × Nat) × List MTuple)}
    (h : All2 (fun u y => PUnitOK F sts s0 tl y.1 u y.2) us xs) (hp : tl1.take tl.length = tl) :
    All2 (fun u y => PUnitOK F sts s0 tl1 y.1 u y.2) us xs := by
  refine h.imp_mem fun u _ x hu => ⟨hu.syms, hu.states, hu.full, fun r hr => ?_, hu.kind⟩
  obtain ⟨hd, h1, h2⟩ := hu.root r hr
  exact ⟨hd, h1, h2.mono hp⟩

/-- The tuples when the worker has one start state. -/
theorem PTracks.tuples (h : PTracks E F sts cs cur s0 w v) (hn : E.noPrune) (hs : sts = [s0]) :
    w.q.tl.map MTuple.strip = (v.units.map (·.2)).flatten ++ v.out := by
  obtain ⟨base, log, hl, he, hu, h4⟩ := h.logd
  obtain ⟨g1, g2⟩ := h4 hn hs
  rw [hl.single g2, g1, he 0 (by rw [h.fresh (h.nopr hn), hs]; rfl)]

/-- The unit being worked on, if it ended here. -/
theorem PTracks.unitNow (h : PTracks E F sts cs cur s0 w v) {n : Nat} (hn : n ≤ w.q.nodes.length) (hc : cur.length ≤ n)
    (hF : F → n = cur.length) (hk : v.st = .matched ∨ w.unit.pruned = false) :
    PUnitOK F sts s0 w.q.tl cur { w.unit with roots := w.q.copyRoots (List.range n) } (v.syms, v.out) := by
  obtain ⟨base, log, hl, he, hu, h4⟩ := h.logd
  obtain ⟨c1, c2, c3⟩ := copyRoots_prefix h.inv n hn hc
  have hst : w.unit.state = v.st := by rw [h.unit]
  refine ⟨by rw [h.unit], c1, fun hf => by rw [← hF hf]; exact c3, fun r hr => ⟨_, c2 r s0 hr, ?_⟩, ?_⟩
  · intro tl' ht
    have := hl.walk (List.getElem?_eq_some_iff.1 hr).1 tl' ht
    rw [he r hr] at this
    exact this
  · rcases hk with hk | hk
    · exact .inr ⟨hst.trans hk, h.ne⟩
    · exact .inl (h.fresh hk)

/-- All units, if the chunk ended here. -/
theorem PTracks.unitsNow (h : PTracks E F sts cs cur s0 w v) {n : Nat} (hn : n ≤ w.q.nodes.length) (hc : cur.length ≤ n)
    (hF : F → n = cur.length) (hk : v.st = .matched ∨ w.unit.pruned = false) :
    All2 (fun u y => PUnitOK F sts s0 w.q.tl y.1 u y.2) (w.units ++ [{ w.unit with roots := w.q.copyRoots (List.range n) }])
      ((cs ++ [cur]).zip (v.units ++ [(v.syms, v.out)])) := by
  obtain ⟨base, log, hl, he, hu, h4⟩ := h.logd
  rw [List.zip_append h.count]
  exact Spec.All2.append (PUnits.mono hu hl.base_take) (.cons (h.unitNow hn hc hF hk) .nil)

/-- A unit ends and an unmatched symbol follows, or the symbol is added to those of the unit. -/
theorem PTracks.closeSym (h : PTracks E F sts cs cur s0 w v) (hE : E.starts = some sts) (hs : sts ≠ []) (x : USym) (i : Nat)
    (hF : F → v.st = .matched → v.p.length = 1) :
    ∃ cs' cur', PTracks E F sts cs' cur' s0 ((w.closeUnit E).addSym x i) ((v.close s0).addSym x i) ∧
      ((cs' = cs ∧ cur' = cur) ∨ (cs' = cs ++ [cur] ∧ cur' = sts)) := by
  have hst : w.unit.state = v.st := by rw [h.unit]
  unfold W.closeUnit P.close
  rw [hst]
  by_cases hm : v.st = .matched
  · rw [if_pos hm, if_pos hm, hE]
    obtain ⟨s1, s2, s3⟩ := QInv.start sts w.q
    refine ⟨cs ++ [cur], sts, ?_, .inr ⟨rfl, rfl⟩⟩
    have hF' : F → w.q.nodes.length = cur.length := by
      intro hf
      have h1 := hF hf hm
      have h2 := h.lev
      have h3 : w.q.items = [] := List.length_eq_zero_iff.1 (by omega)
      have hc := h.inv.contig
      rw [h3] at hc
      have hc : w.elt = ⟨0, cur.length⟩ := hc
      rw [h.inv.len, hc]
    refine ⟨s1, ⟨w.q.tl, [], s2, fun _ _ => rfl, h.unitsNow (Nat.le_refl _) h.inv.roots_le hF' (.inl hm), fun hn h1 => ⟨?_, by simp⟩⟩, ?_,
      fun r hr => s3 r s0 hr, rfl, rfl, rfl, ?_, fun _ => rfl, fun _ _ => rfl, fun _ => rfl, fun hp => ?_, hs, ?_⟩
    · show w.q.tl.map MTuple.strip = _
      rw [h.tuples hn h1]; simp [P.addSym]
    · simp [P.addSym, h.count]
    · simp [W.addSym, P.addSym, PUnit.init]
    · simp [W.addSym, PUnit.init] at hp
    · intro hn c hc
      rcases List.mem_append.1 hc with hc | hc
      · exact h.all hn c hc
      · simp at hc; rw [hc]; exact h.fresh (h.nopr hn)
  · rw [if_neg hm, if_neg hm]
    have hp : w.unit.pruned = false := by
      cases hp : w.unit.pruned with
      | false => rfl
      | true => exact absurd (h.mat hp) hm
    refine ⟨cs, cur, ⟨h.inv, h.logd, h.count, h.view, h.lev, h.ss, h.shadow, ?_, h.fresh, h.flat, h.nopr, fun hq => ?_, h.ne, h.all⟩,
      .inl ⟨rfl, rfl⟩⟩
    · have := h.unit
      simp only [W.addSym, P.addSym]; rw [this]
    · have hq : w.unit.pruned = true := hq
      rw [hp] at hq; cases hq

end

/-! ### Pruning -/

/-- The token the constraint table is asked about, worker_automaton.c:346-356 and 501-512. -/
def Tok.ckey : Tok → Option CKey
  | .lb _ => some none
  | .ky k => some (some k)
  | _ => none

/-- What a worker that prunes needs: it starts in every state, and the table lists no state twice. -/
def TableOK (E : WEnv) (sts : List Nat) : Prop :=
  ∀ ct, E.ct = some ct → E.id0 = false → sts = List.range sts.length ∧ ∀ k ks, ct.lookup k = some ks → ks.Nodup

/-- How the start states that are left change in one step. -/
def Moved (E : WEnv) (sts : List Nat) (t : Tok) (v : P) (cs : List (List Nat)) (cur : List Nat) (cs' : List (List Nat))
    (cur' : List Nat) : Prop :=
  (cs' = cs ∧ (cur' = cur ∨ ∃ ct k, E.ct = some ct ∧ t.ckey = some k ∧ ct.lookup k = some cur' ∧ v.p.length = 1)) ∨
  (cs' = cs ++ [cur] ∧ cur' = sts)

section
variable {E : WEnv} {F : Prop} {sts : List Nat} {cs : List (List Nat)} {cur : List Nat} {s0 : Nat} {w : W} {v : P}

theorem PTracks.prune (h : PTracks E F sts cs cur s0 w v) (hT : TableOK E sts) (hst : v.st = .matched) (k : CKey)
    (hb : (w.pruned E k).bad = false) :
    ∃ cur', PTracks E F sts cs cur' s0 (w.pruned E k) v ∧
      (cur' = cur ∨ ∃ ct, E.ct = some ct ∧ ct.lookup k = some cur' ∧ v.p.length = 1) ∧
      ((w.pruned E k).unit.pruned = true ∨ E.noPrune) := by
  unfold W.pruned at hb ⊢
  cases hct : E.ct with
  | none => exact ⟨cur, h, .inl rfl, .inr (.inl hct)⟩
  | some ct =>
    rw [hct] at hb
    dsimp only at hb ⊢
    by_cases hn : E.noPrune
    · have : ¬ (E.id0 = false ∧ w.unit.pruned = false ∧ (k = none ∨ w.q.items = [])) := by
        rcases hn with hn | hn
        · rw [hct] at hn; cases hn
        · simp [hn]
      rw [if_neg this]
      exact ⟨cur, h, .inl rfl, .inr hn⟩
    · have hid : E.id0 = false := by
        cases hi : E.id0 with
        | false => rfl
        | true => exact absurd (.inr hi) hn
      rcases Bool.eq_false_or_eq_true w.unit.pruned with hp | hp
      · rw [if_neg (by simp [hp])]
        exact ⟨cur, h, .inl rfl, .inl hp⟩
      · have hit := h.flat hp hn
        have hc : E.id0 = false ∧ w.unit.pruned = false ∧ (k = none ∨ w.q.items = []) := ⟨hid, hp, .inr hit⟩
        rw [if_pos hc] at hb
        rw [if_pos hc]
        have hlev := h.lev
        rw [hit] at hlev
        have hlen : v.p.length = 1 := by simpa using hlev.symm
        have hcur := h.fresh hp
        have hf : ∀ {w' : W} {cur' : List Nat} {b : Bool}, QInv cur' w'.q w'.elt → (∃ base log, Logged base w'.q cur'.length log ∧
              (∀ r, cur'[r]? = some s0 → emits r log = v.out) ∧
              All2 (fun u y => PUnitOK F sts s0 base y.1 u y.2) w'.units (cs.zip v.units)) →
            (∀ r, cur'[r]? = some s0 → View w'.q w'.elt r v.p) → w'.q.items = [] → w'.ss = w.ss → w'.shadow = w.shadow →
            w'.unit = w.unit → cur' ≠ [] →
            PTracks E F sts cs cur' s0 { w' with unit := { w'.unit with pruned := true }, ub := b } v := by
          intro w' cur' b a1 ⟨base, log, b1, b2, b3⟩ a3 a4 a5 a6 a7 a8
          refine ⟨a1, ⟨base, log, b1, b2, b3, fun hn' => absurd hn' hn⟩, h.count, a3, ?_, a5.trans h.ss, a6.trans h.shadow, ?_,
            fun hf => ?_, fun _ _ => a4, fun hn' => absurd hn' hn, fun _ => hst, a8, h.all⟩
          · show w'.q.items.length + 1 = _
            rw [a4]; exact hlev
          · dsimp only
            rw [a7, h.unit]
          · cases hf
        obtain ⟨base, log, hl, he, hu, h4⟩ := h.logd
        have same : PTracks E F sts cs cur s0 { w with unit := { w.unit with pruned := true }, ub := w.ub || longKey k } v :=
          hf h.inv ⟨base, log, hl, he, hu⟩ h.view hit rfl rfl rfl h.ne
        cases hk : ct.lookup k with
        | none => exact ⟨cur, same, .inl rfl, .inl rfl⟩
        | some ks =>
          rw [hk] at hb
          dsimp only at hb ⊢
          by_cases hks : ks = []
          · have : w.q.prune ks = (w.q, w.elt) := by
              have hct := h.inv.contig
              rw [hit] at hct
              have hct : w.elt = ⟨0, cur.length⟩ := hct
              have hlen := h.inv.len
              rw [hct] at hlen
              unfold QS.prune
              rw [if_pos hks, hct, hlen]
            rw [this]
            exact ⟨cur, same, .inl rfl, .inl rfl⟩
          · obtain ⟨hrange, hnd⟩ := hT ct hct hid
            have hnd := hnd k ks hk
            have hinv : QInv (List.range sts.length) w.q w.elt := by rw [← hrange, ← hcur]; exact h.inv
            have hlen' : w.q.nodes.length = sts.length := by
              have hct := h.inv.contig
              rw [hit] at hct
              have hct : w.elt = ⟨0, cur.length⟩ := hct
              rw [h.inv.len, hct, hcur]
            have hlt : ∀ s ∈ ks, s < sts.length := by
              have hub : (w.q.prune ks).1.ub = false := by
                have hb : (w.ub || longKey k || (w.q.prune ks).1.ub) = false := hb
                simp at hb; exact hb.2
              unfold QS.prune at hub
              rw [if_neg hks] at hub
              simp at hub
              intro s hs
              have := hub.2 s hs
              omega
            rw [hcur] at hl
            obtain ⟨q1, q2, q3, q4⟩ := hinv.prune hit hl hnd hks hlt
            have hs : ∀ r : Nat, ks[r]? = some s0 → cur[s0]? = some s0 := by
              intro r hr
              have := hlt s0 (List.mem_of_getElem? hr)
              rw [hcur, hrange, List.getElem?_range this]
            refine ⟨ks, ?_, .inr ⟨ct, rfl, hk, hlen⟩, .inl rfl⟩
            refine hf (w' := { w with q := (w.q.prune ks).1, elt := (w.q.prune ks).2 }) q1
              ⟨base, relog ks log, q2, fun r hr => ?_, hu⟩ (fun r hr => ?_) q3 rfl rfl rfl hks
            · rw [emits_relog hnd hr]; exact he s0 (hs r hr)
            · have hv := h.view s0 (hs r hr)
              cases hvp : v.p with
              | nil => rw [hvp] at hlen; cases hlen
              | cons e t =>
                cases t with
                | cons _ _ => rw [hvp] at hlen; simp at hlen
                | nil => rw [hvp] at hv; exact q4 r s0 e hr hv

theorem items_of_pop {w : W} (h : w.popQ.bad = false) : ∃ x xs, w.q.items = x :: xs := by
  cases hx : w.q.items with
  | nil => simp [W.bad, W.popQ, QS.pop, hx] at h
  | cons x xs => exact ⟨x, xs, rfl⟩

theorem not_bad {α : Type} {b : α → Bool} {f : α → α} (hm : ∀ x, b x = true → b (f x) = true) {x : α} (h : b (f x) = false) :
    b x = false := by
  cases hb : b x with
  | false => rfl
  | true => rw [hm x hb] at h; cases h

/-- The step keeps the start states that are left. -/
theorem PTracks.stay {t : Tok} {v0 : P} (h : PTracks E F sts cs cur s0 w v) :
    ∃ cs' cur', PTracks E F sts cs' cur' s0 w v ∧ Moved E sts t v0 cs cur cs' cur' :=
  ⟨cs, cur, h, .inl ⟨rfl, .inl rfl⟩⟩

/-- The step ends a unit. -/
theorem PTracks.ends {t : Tok} {v0 : P} (h : PTracks E F sts cs cur s0 w v) (hE : E.starts = some sts) (hs : sts ≠ []) (x : USym)
    (i : Nat) (h0 : v0.units = v.units) (hlen : v.p.length = v0.p.length)
    (hF : F → ((v.close s0).addSym x i).units ≠ v0.units → v0.p.length = 1) :
    ∃ cs' cur', PTracks E F sts cs' cur' s0 ((w.closeUnit E).addSym x i) ((v.close s0).addSym x i) ∧
      Moved E sts t v0 cs cur cs' cur' := by
  obtain ⟨cs', cur', a1, a2⟩ := h.closeSym hE hs x i fun hf hm => by
    rw [hlen]
    refine hF hf fun he => ?_
    have := congrArg List.length he
    unfold P.close at this
    rw [if_pos hm, h0] at this
    simp [P.addSym] at this
  refine ⟨cs', cur', a1, ?_⟩
  rcases a2 with ⟨b1, b2⟩ | b
  · exact .inl ⟨b1, .inl b2⟩
  · exact .inr b

theorem inferred_fields (v : P) (x : TT) (rest : List Tok) : (v.inferred x rest).units = v.units ∧ (v.inferred x rest).p = v.p ∧
    (v.inferred x rest).ss = v.ss := by
  unfold P.inferred; split <;> exact ⟨rfl, rfl, rfl⟩

theorem PTracks.step (hE : E.starts = some sts) (hs : sts ≠ []) (hT : TableOK E sts) (h : PTracks E F sts cs cur s0 w v)
    (t : Tok) (rest : List Tok) (hF : F → (v.step E s0 t rest).units ≠ v.units → v.p.length = 1)
    (hb : (w.step E t rest).bad = false) :
    ∃ cs' cur', PTracks E F sts cs' cur' s0 (w.step E t rest) (v.step E s0 t rest) ∧ Moved E sts t v cs cur cs' cur' := by
  cases t with
  | com => exact h.stay
  | lcb p =>
    have h1 : PTracks E F sts cs cur s0 { w.mark with ss := push w.ss .lcb } { v with st := .matched, ss := push v.ss .lcb } :=
      h.mark.setSs (by rw [h.ss])
    exact PTracks.stay (h1.now (does_lcb E p))
  | lb p =>
    have hb0 : (w.mark.pruned E none).bad = false := by
      cases hb0 : (w.mark.pruned E none).bad with
      | false => rfl
      | true =>
        have : (w.lb E p).bad = true := by
          simp only [W.lb]
          refine W.pushQ_bad (W.each_bad (fun i n q hq => ?_) hb0)
          split
          · exact setMs_ub hq
          · split
            · exact addText_ub hq
            · exact hq
        rw [show (w.lb E p).bad = false from hb] at this; cases this
    obtain ⟨cur', h0, hm, hp⟩ := h.mark.prune hT rfl none hb0
    refine ⟨cs, cur', ?_, .inl ⟨rfl, ?_⟩⟩
    · have hss0 : (w.mark.pruned E none).ss = w.ss := by rw [h0.ss, h.ss]
      have h1 := (h0.now (does_lb E p)).pushQ hp E.d none
      have h2 := h1.setSs (s := push w.ss .lb) (s' := push v.ss .lb) (by rw [h.ss])
      have hss : (P.pushQ E.d none (P.cur (lbAct E p) { v with st := .matched })).ss = v.ss := by
        unfold P.pushQ P.cur
        cases v.p <;> rfl
      show PTracks E F sts cs cur' s0 (w.lb E p) { P.pushQ E.d none (P.cur (lbAct E p) { v with st := .matched }) with
        ss := push (P.pushQ E.d none (P.cur (lbAct E p) { v with st := .matched })).ss .lb }
      rw [hss]
      simp only [W.lb]
      have e : ∀ r f, ((w.mark.pruned E none).each r f).ss = w.ss := fun _ _ => hss0
      rw [e]
      exact h2
    · rcases hm with hm | ⟨ct, a1, a2, a3⟩
      · exact .inl hm
      · exact .inr ⟨ct, none, a1, rfl, a2, a3⟩
  | ky k =>
    have hb0 : (w.mark.pruned E (some k)).bad = false := by
      cases hb0 : (w.mark.pruned E (some k)).bad with
      | false => rfl
      | true =>
        have : (w.ky E k).bad = true := W.pushQ_bad hb0
        rw [show (w.ky E k).bad = false from hb] at this; cases this
    obtain ⟨cur', h0, hm, hp⟩ := h.mark.prune hT rfl (some k) hb0
    refine ⟨cs, cur', ?_, .inl ⟨rfl, ?_⟩⟩
    · have hss0 : (w.mark.pruned E (some k)).ss = w.ss := by rw [h0.ss, h.ss]
      have h1 := h0.pushQ hp E.d (some k)
      have h2 := h1.setSs (s := push w.ss .ky) (s' := push v.ss .ky) (by rw [h.ss])
      have hss : (P.pushQ E.d (some k) { v with st := .matched }).ss = v.ss := by
        unfold P.pushQ
        cases v.p <;> rfl
      show PTracks E F sts cs cur' s0 (w.ky E k) { P.pushQ E.d (some k) { v with st := .matched } with
        ss := push (P.pushQ E.d (some k) { v with st := .matched }).ss .ky }
      rw [hss]
      simp only [W.ky]
      rw [hss0]
      exact h2
    · rcases hm with hm | ⟨ct, a1, a2, a3⟩
      · exact .inl hm
      · exact .inr ⟨ct, some k, a1, rfl, a2, a3⟩
  | rcb p =>
    have hb : (w.rcb E p rest).bad = false := hb
    show ∃ cs' cur', PTracks E F sts cs' cur' s0 (w.rcb E p rest) (v.rcb E s0 p rest) ∧ _
    have hF : F → (v.rcb E s0 p rest).units ≠ v.units → v.p.length = 1 := hF
    simp only [W.rcb, P.rcb] at hb hF ⊢
    rw [h.ss] at hb ⊢
    by_cases h0 : v.ss.length = 0
    · rw [if_pos h0] at hF
      rw [if_pos h0, if_pos h0]
      exact h.ends hE hs _ _ rfl rfl hF
    · rw [if_neg h0] at hF hb
      rw [if_neg h0, if_neg h0]
      have h1 : PTracks E F sts cs cur s0 (w.closeOut E false p w.elt) (v.cur (closeAct E false p)) := h.now (does_close E false p)
      have k1 := (cur_fields v (closeAct E false p)).1
      have k2 := cur_len v (closeAct E false p)
      generalize w.closeOut E false p w.elt = w1 at h1 hb
      generalize v.cur (closeAct E false p) = v1 at h1 hF k1 k2
      rw [h1.ss] at hb ⊢
      by_cases h2 : v1.ss.length = 1
      · rw [if_pos h2] at hF
        rw [if_pos h2, if_pos h2]
        have h2 := h1.inferred .rcb rest
        obtain ⟨m1, m2, _⟩ := inferred_fields v1 .rcb rest
        generalize w1.inferred .rcb rest = w2 at h2
        generalize v1.inferred .rcb rest = v2 at h2 hF m1 m2
        rw [h2.shadow]
        by_cases h3 : v2.shadow = []
        · rw [if_pos h3, if_pos h3]
          have h6 := h2.setSs (s := pop w2.ss) (s' := pop v2.ss) (by rw [h2.ss])
          rw [h2.shadow] at h6
          exact h6.stay
        · rw [if_neg h3] at hF
          rw [if_neg h3, if_neg h3]
          by_cases h4 : top v2.shadow = some .ky
          · rw [if_pos h4] at hF
            rw [if_pos h4, if_pos h4]
            exact h2.ends hE hs _ _ (by rw [m1, k1]) (by rw [m2, k2]) hF
          · rw [if_neg h4, if_neg h4]
            by_cases h5 : top v2.shadow = some .lb
            · rw [if_pos h5, if_pos h5]
              have h6 := PTracks.now (w := { w2 with ss := pop w2.ss }) (h2.setSs (by rw [h2.ss])) (does_elem E true)
              rw [h2.shadow] at h6
              exact h6.stay
            · rw [if_neg h5, if_neg h5]
              exact h2.stay
      · rw [if_neg h2] at hb
        rw [if_neg h2, if_neg h2]
        by_cases h4 : secondTop v1.ss = some .ky
        · rw [if_pos h4] at hb
          rw [if_pos h4, if_pos h4]
          obtain ⟨x, xs, hx⟩ := items_of_pop (w := w1) hb
          have h5 := (h1.popQ hx).1
          exact PTracks.stay (h5.setSs (by rw [h5.ss]))
        · rw [if_neg h4, if_neg h4]
          by_cases h5 : secondTop v1.ss = some .lb
          · rw [if_pos h5, if_pos h5]
            have h6 := PTracks.now (w := { w1 with ss := pop w1.ss }) (h1.setSs (by rw [h1.ss])) (does_elem E false)
            rw [h1.ss] at h6
            exact h6.stay
          · rw [if_neg h5, if_neg h5]
            exact h1.stay
  | rb p =>
    have hb : (w.rb E p rest).bad = false := hb
    show ∃ cs' cur', PTracks E F sts cs' cur' s0 (w.rb E p rest) (v.rb E s0 p rest) ∧ _
    have hF : F → (v.rb E s0 p rest).units ≠ v.units → v.p.length = 1 := hF
    simp only [W.rb, P.rb] at hb hF ⊢
    rw [h.ss] at hb ⊢
    by_cases h0 : v.ss.length = 0
    · rw [if_pos h0] at hF
      rw [if_pos h0, if_pos h0]
      exact h.ends hE hs _ _ rfl rfl hF
    · rw [if_neg h0] at hb hF
      rw [if_neg h0, if_neg h0]
      have hit : ∃ x xs, w.q.items = x :: xs := by
        cases hx : w.q.items with
        | cons x xs => exact ⟨x, xs, rfl⟩
        | nil =>
          exfalso
          have h1 : (w.rbOut E p).bad = true := by simp [W.rbOut, hx, W.orUb, W.bad]
          generalize w.rbOut E p = w1 at h1 hb
          have hss : ∀ (w : W) ss, w.bad = true → W.bad { w with ss := ss } = true := fun w ss h => h
          have : (w1.rbEnd E rest).bad = true := by
            simp only [W.rbEnd]
            split
            · have h2 := W.inferred_bad (x := .rb) (rest := rest) h1
              split
              · exact W.popQ_bad h2
              · split
                · exact W.addSym_bad (W.closeUnit_bad h2)
                · split
                  · exact W.incrAll_bad (hss _ _ (W.popQ_bad h2))
                  · exact h2
            · split
              · exact W.popQ_bad (w := { w1 with q := w1.q.pop.1 }) (W.popQ_bad h1)
              · split
                · exact W.incrAll_bad (hss _ _ (W.popQ_bad h1))
                · exact h1
          rw [this] at hb; cases hb
      obtain ⟨x, xs, hx⟩ := hit
      have h1 : PTracks E F sts cs cur s0 (w.rbOut E p) (v.below (closeAct E true p)) := by
        unfold W.rbOut
        rw [hx]
        exact h.below (does_close E true p) hx
      have hx1 : (w.rbOut E p).q.items = x :: xs := by
        obtain ⟨base, log, hl, _⟩ := h.logd
        have := (h.inv.each (rng := x) (does_close E true p) (by rw [hx]; simp) hl).2.2.1
        unfold W.rbOut
        rw [hx] at this ⊢
        exact this
      have k1 := (below_fields v (closeAct E true p)).1
      have k2 := below_len v (closeAct E true p)
      generalize w.rbOut E p = w1 at h1 hb hx1
      generalize v.below (closeAct E true p) = v1 at h1 hF k1 k2
      simp only [W.rbEnd] at hb ⊢
      rw [h1.ss] at hb ⊢
      by_cases h2 : v1.ss.length = 1
      · rw [if_pos h2] at hF
        rw [if_pos h2, if_pos h2]
        have h2 := h1.inferred .rb rest
        have hx2 : (w1.inferred .rb rest).q.items = x :: xs := by
          unfold W.inferred; split <;> exact hx1
        obtain ⟨m1, m2, _⟩ := inferred_fields v1 .rb rest
        generalize w1.inferred .rb rest = w2 at h2 hx2
        generalize v1.inferred .rb rest = v2 at h2 hF m1 m2
        rw [h2.shadow]
        have h5 := (h2.popQ hx2).1
        by_cases h3 : v2.shadow = []
        · rw [if_pos h3, if_pos h3]
          exact PTracks.stay (h5.setSs (by rw [h5.ss]))
        · rw [if_neg h3] at hF
          rw [if_neg h3, if_neg h3]
          by_cases h4 : top v2.shadow = some .ky
          · rw [if_pos h4] at hF
            rw [if_pos h4, if_pos h4]
            exact h2.ends hE hs _ _ (by rw [m1, k1]) (by rw [m2, k2]) hF
          · rw [if_neg h4, if_neg h4]
            by_cases h6 : top v2.shadow = some .lb
            · rw [if_pos h6, if_pos h6]
              exact PTracks.stay (PTracks.now (w := { w2.popQ with ss := pop w2.popQ.ss }) (h5.setSs (by rw [h5.ss])) does_incr)
            · rw [if_neg h6, if_neg h6]
              exact h2.stay
      · rw [if_neg h2] at hb
        rw [if_neg h2, if_neg h2]
        obtain ⟨h5, hx5⟩ := h1.popQ hx1
        by_cases h4 : secondTop v1.ss = some .ky
        · rw [if_pos h4] at hb
          rw [if_pos h4, if_pos h4]
          have h6 : PTracks E F sts cs cur s0 { w1 with q := w1.q.pop.1, elt := w1.q.pop.2 } v1.popQ := h5
          obtain ⟨y, ys, hy⟩ := items_of_pop (w := { w1 with q := w1.q.pop.1 }) hb
          have h7 := (h6.popQ (x := y) (xs := ys) hy).1
          have h8 := PTracks.setSs (w := W.popQ { w1 with q := w1.q.pop.1 }) h7 (s := pop (pop w1.ss))
            (s' := pop (pop v1.ss)) (by rw [h1.ss])
          rw [h1.ss] at h8
          exact h8.stay
        · rw [if_neg h4, if_neg h4]
          by_cases h6 : secondTop v1.ss = some .lb
          · rw [if_pos h6, if_pos h6]
            exact PTracks.stay (PTracks.now (w := { w1.popQ with ss := pop w1.popQ.ss }) (h5.setSs (by rw [h5.ss])) does_incr)
          · rw [if_neg h6, if_neg h6]
            exact h1.stay
  | pri x =>
    have hb : (w.pri E x rest).bad = false := hb
    show ∃ cs' cur', PTracks E F sts cs' cur' s0 (w.pri E x rest) (v.pri E s0 x rest) ∧ _
    have hF : F → (v.pri E s0 x rest).units ≠ v.units → v.p.length = 1 := hF
    simp only [W.pri, P.pri] at hb hF ⊢
    rw [h.ss, h.shadow] at hb ⊢
    by_cases h0 : v.ss.length ≥ 1
    · rw [if_pos h0] at hb
      rw [if_pos h0, if_pos h0]
      have h1 : PTracks E F sts cs cur s0 (w.priOut E x (decide (top v.ss = some .lb)))
          (v.cur (priAct E x (decide (top v.ss = some .lb)))) := h.now (does_pri E x _)
      generalize w.priOut E x (decide (top v.ss = some .lb)) = w1 at h1 hb
      generalize v.cur (priAct E x (decide (top v.ss = some .lb))) = v1 at h1
      rw [h1.ss] at hb ⊢
      by_cases h2 : top v1.ss = some .ky
      · rw [if_pos h2] at hb
        rw [if_pos h2, if_pos h2]
        obtain ⟨y, ys, hy⟩ := items_of_pop (w := w1) hb
        have h3 := (h1.popQ hy).1
        exact PTracks.stay (h3.setSs (by rw [h3.ss]))
      · rw [if_neg h2, if_neg h2]
        exact h1.stay
    · rw [if_neg h0] at hF
      rw [if_neg h0, if_neg h0]
      have h1 := h.inferred .pri rest
      obtain ⟨m1, m2, _⟩ := inferred_fields v .pri rest
      generalize w.inferred .pri rest = w1 at h1
      generalize v.inferred .pri rest = v1 at h1 hF m1 m2
      rw [h1.shadow]
      by_cases h4 : top v1.shadow = some .ky
      · rw [if_pos h4] at hF
        rw [if_pos h4, if_pos h4]
        exact h1.ends hE hs _ _ m1.symm (by rw [m2]) hF
      · rw [if_neg h4, if_neg h4]
        by_cases h6 : top v1.shadow = some .lb
        · rw [if_pos h6, if_pos h6]
          exact PTracks.stay (h1.mark.now (does_pri E _ true))
        · rw [if_neg h6, if_neg h6]
          exact h1.stay

/-- No unit ends while the path is below the root. -/
def P.flatEnds (E : WEnv) (s0 : Nat) : P → List Tok → Prop
  | _, [] => True
  | v, t :: ts => ((v.step E s0 t ts).units ≠ v.units → v.p.length = 1) ∧ P.flatEnds E s0 (v.step E s0 t ts) ts

theorem PTracks.run (hE : E.starts = some sts) (hs : sts ≠ []) (hT : TableOK E sts) :
    ∀ (ts : List Tok) {cs : List (List Nat)} {cur : List Nat} {w : W} {v : P}, PTracks E F sts cs cur s0 w v →
    (F → v.flatEnds E s0 ts) → (w.run E ts).bad = false →
    ∃ cs' cur', PTracks E F sts cs' cur' s0 (w.run E ts) (v.run E s0 ts)
  | [], _, _, _, _, h, _, _ => ⟨_, _, h⟩
  | t :: ts, cs, cur, w, v, h, hF, hb => by
    have hb : (W.run E (w.step E t ts) ts).bad = false := hb
    show ∃ cs' cur', PTracks E F sts cs' cur' s0 (W.run E (w.step E t ts) ts) (P.run E s0 (v.step E s0 t ts) ts)
    obtain ⟨cs', cur', h1, _⟩ := h.step hE hs hT t ts (fun hf => (hF hf).1)
      (not_bad (b := W.bad) (f := fun w => w.run E ts) (fun w hw => W.run_bad hw) hb)
    exact PTracks.run hE hs hT ts h1 (fun hf => (hF hf).2) hb

theorem PTracks.init (u : UState) (hs : sts ≠ []) : PTracks E F sts [] sts s0 (W.init sts u) (P.init s0 u) := by
  obtain ⟨s1, s2, s3⟩ := QInv.start sts QS.blank
  exact ⟨s1, ⟨[], [], s2, fun _ _ => rfl, .nil, fun _ _ => ⟨rfl, by simp⟩⟩, rfl, fun r hr => s3 r s0 hr, rfl, rfl, rfl, rfl,
    fun _ => rfl, fun _ _ => rfl, fun _ => rfl, (fun h => by cases h), hs, by simp⟩

end

/-! ### Workers that do not prune -/

/-- A finished unit of the worker and the unit of the single path. -/
structure UnitOK (sts : List Nat) (r s0 : Nat) (tl : List MTuple) (u : PUnit) (x : List (USym × Nat) × List MTuple) :
    Prop where
  syms : u.syms = x.1
  states : (u.roots.take sts.length).map (·.1) = sts
  root : ∃ h, u.roots[r]? = some (s0, h) ∧ Follows tl h x.2

/-- The worker `w` with start states `sts` and the single path `v` of its start state number `r`. -/
structure Tracks (sts : List Nat) (r s0 : Nat) (w : W) (v : P) : Prop where
  start : sts[r]? = some s0
  inv : QInv sts w.q w.elt
  logd : ∃ base log, Logged base w.q sts.length log ∧ emits r log = v.out ∧ All2 (UnitOK sts r s0 base) w.units v.units ∧
    (sts.length = 1 → w.q.tl.map MTuple.strip = (v.units.map (·.2)).flatten ++ v.out)
  view : View w.q w.elt r v.p
  ss : w.ss = v.ss
  shadow : w.shadow = v.shadow
  unit : w.unit = ⟨v.syms, [], v.st, false⟩

theorem PTracks.tracks {E : WEnv} {F : Prop} {sts : List Nat} {cs : List (List Nat)} {cur : List Nat} {r s0 : Nat} {w : W} {v : P}
    (h : PTracks E F sts cs cur s0 w v) (hn : E.noPrune) (hr : sts[r]? = some s0) : Tracks sts r s0 w v := by
  have hp := h.nopr hn
  have hc := h.fresh hp
  subst hc
  obtain ⟨base, log, hl, he, hu, h4⟩ := h.logd
  refine ⟨hr, h.inv, ⟨base, log, hl, he r hr, ?_, fun h1 => ?_⟩, h.view r hr, h.ss, h.shadow, ?_⟩
  · have hall := h.all hn
    have hcount := h.count
    generalize w.units = us at hu
    generalize v.units = vs at hu hcount
    clear h4 h
    induction cs generalizing us vs with
    | nil =>
      cases vs with
      | nil => cases hu; exact .nil
      | cons _ _ => cases hcount
    | cons c cs ih =>
      cases vs with
      | nil => cases hcount
      | cons x vs =>
        cases hu with
        | cons hd htl =>
          have hcc := hall c (by simp)
          refine .cons ⟨hd.syms, by have := hd.states; rw [hcc] at this; exact this, hd.root r (by rw [hcc]; exact hr)⟩ ?_
          exact ih (fun c hc => hall c (List.mem_cons_of_mem _ hc)) _ _ htl (by simpa using hcount)
  · apply h.tuples hn
    obtain ⟨a, ha⟩ := List.length_eq_one_iff.1 h1
    rw [ha] at hr ⊢
    have hlt := (List.getElem?_eq_some_iff.1 hr).1
    have : r = 0 := by simpa using hlt
    subst this
    simpa using hr
  · have := h.unit
    rw [hp] at this
    exact this

theorem Tracks.run {E : WEnv} {sts : List Nat} {r s0 : Nat} (hn : E.noPrune) (hE : E.starts = some sts) (u : UState)
    (hr : sts[r]? = some s0) (ts : List Tok) (hb : (W.run E (W.init sts u) ts).bad = false) :
    Tracks sts r s0 (W.run E (W.init sts u) ts) (P.run E s0 (P.init s0 u) ts) := by
  have hs : sts ≠ [] := by rintro rfl; simp at hr
  have hT : TableOK E sts := by
    intro ct hct hid
    rcases hn with hn | hn
    · rw [hct] at hn; cases hn
    · rw [hid] at hn; cases hn
  obtain ⟨cs, cur, h⟩ := PTracks.run (F := False) (s0 := s0) hE hs hT ts (PTracks.init u hs) (fun h => h.elim) hb
  exact h.tracks hn hr

end JPS
