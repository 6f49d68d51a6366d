import Verif.WorkerTrack
import Verif.ParJoin
import Verif.Combine
import Verif.ParChunk
import Verif.PathTable
import Verif.Props.Chain
/-!
# All states met by the workers and by `combine` are states of the automaton
-/

set_option autoImplicit false

namespace JPS
open Spec

/-- All nodes have states below `n`. -/
def QS.Below (n : Nat) (q : QS) : Prop := ∀ m ∈ q.nodes, m.st < n

section
variable {n : Nat} {q : QS}

theorem QS.Below.of_nodes {q' : QS} (h : q.Below n) (e : q'.nodes = q.nodes) : q'.Below n := by
  intro m hm; rw [e] at hm; exact h m hm

theorem QS.Below.set (h : q.Below n) {i : Nat} {x : Node} (hx : x.st < n) {q' : QS} (e : q'.nodes = q.nodes.set i x) : q'.Below n := by
  intro m hm
  rw [e] at hm
  rcases List.mem_or_eq_of_mem_set hm with hm | hm
  · exact h m hm
  · rw [hm]; exact hx

theorem QS.Below.setMs (h : q.Below n) (i : Nat) (ms : Option Nat) : (q.setMs i ms).Below n := by
  unfold QS.setMs
  cases hx : q.nodes[i]? with
  | none => exact h.of_nodes rfl
  | some x => exact h.set (x := { x with ms := ms }) (h x (List.mem_of_getElem? hx)) rfl

theorem QS.Below.incr (h : q.Below n) (i : Nat) : (q.incr i).Below n := by
  unfold QS.incr
  cases hx : q.nodes[i]? with
  | none => exact h.of_nodes rfl
  | some x => exact h.set (x := { x with count := x.count + 1 }) (h x (List.mem_of_getElem? hx)) rfl

theorem QS.Below.orUb (h : q.Below n) (b : Bool) : (q.orUb b).Below n := h

theorem QS.Below.addText (h : q.Below n) (i s : Nat) (t : Str) : (q.addText i s t).Below n :=
  h.of_nodes (addInfo_nodes q i _).1

theorem QS.Below.addSpan (h : q.Below n) (i s b e : Nat) : (q.addSpan i s b e).Below n :=
  h.of_nodes (addInfo_nodes q i _).1

theorem QS.Below.pop (h : q.Below n) : q.pop.1.Below n := by
  unfold QS.pop
  split
  · exact fun m hm => h m (List.mem_of_mem_take hm)
  · exact h

theorem addPath_below {acc : List Node} (h : ∀ m ∈ acc, m.st < n) {s : Nat} (hs : s < n) (r : Option (List Nat)) :
    ∀ m ∈ addPath acc s r, m.st < n := by
  intro m hm
  unfold addPath at hm
  split at hm
  · obtain ⟨x, hx, rfl⟩ := List.mem_map.1 hm
    split <;> exact h x hx
  · rcases List.mem_append.1 hm with hm | hm
    · exact h m hm
    · rw [List.mem_singleton] at hm; rw [hm]; exact hs

theorem pushNodes_below {d : QDfa} (hd : ∀ s k, d.nextByStr s k < n) (hn : 0 < n) (nodes : List Node) (k : Option Str) (is : List Nat) :
    ∀ m ∈ pushNodes d nodes k is, m.st < n := by
  unfold pushNodes
  generalize hacc : ([] : List Node) = acc
  have h : ∀ m ∈ acc, m.st < n := by rw [← hacc]; simp
  clear hacc
  induction is generalizing acc with
  | nil => exact h
  | cons i is ih =>
    rw [List.foldl_cons]
    refine ih _ ?_
    cases nodes[i]? with
    | none => exact h
    | some x =>
      refine addPath_below h ?_ _
      unfold Node.next
      split <;> split <;> first | exact hd _ _ | exact hn

theorem QS.Below.push {d : QDfa} (hd : ∀ s k, d.nextByStr s k < n) (hn : 0 < n) (h : q.Below n) (elt : Rng) (k : Option Str) :
    (q.push d elt k).1.Below n := by
  intro m hm
  rcases List.mem_append.1 (show m ∈ q.nodes ++ pushNodes d q.nodes k elt.list from hm) with hm | hm
  · exact h m hm
  · exact pushNodes_below hd hn _ _ _ m hm

theorem QS.Below.start {sts : List Nat} (h : ∀ s ∈ sts, s < n) : (q.start sts).1.Below n := by
  intro m hm
  obtain ⟨s, hs, rfl⟩ := List.mem_map.1 (show m ∈ sts.map _ from hm)
  exact h s hs

theorem QS.Below.prune (h : q.Below n) (hn : 0 < n) (ks : List Nat) : (q.prune ks).1.Below n := by
  unfold QS.prune
  split
  · exact h
  · intro m hm
    obtain ⟨s, _, rfl⟩ := List.mem_map.1 (show m ∈ ks.map _ from hm)
    cases hx : q.nodes[s]? with
    | none => exact hn
    | some x => exact h x (List.mem_of_getElem? hx)

end

/-! ### Workers -/

section
variable {n : Nat} {w : W} {E : WEnv}

theorem W.each_below {f : Nat → Node → QS → QS} (hf : ∀ i x q, q.Below n → x.st < n → (f i x q).Below n) {r : Rng} (h : w.q.Below n) :
    (w.each r f).q.Below n := by
  show QS.Below n (r.list.foldl _ w.q)
  generalize w.q = q at h
  generalize r.list = is
  induction is generalizing q with
  | nil => exact h
  | cons i is ih =>
    rw [List.foldl_cons]
    refine ih _ ?_
    cases hx : q.nodes[i]? with
    | none => exact h.of_nodes rfl
    | some x => exact (hf i x q h (h x (List.mem_of_getElem? hx))).orUb _

theorem W.closeUnit_below (hE : ∀ st, E.starts = some st → ∀ s ∈ st, s < n) (h : w.q.Below n) : (w.closeUnit E).q.Below n := by
  unfold W.closeUnit
  split
  · cases e : E.starts with
    | none => exact h
    | some st => exact QS.Below.start (hE st e)
  · exact h

theorem W.inferred_q (x : TT) (rest : List Tok) : (w.inferred x rest).q = w.q := by
  unfold W.inferred; split <;> rfl

theorem W.closeOut_below (arr : Bool) (pos : Nat) (r : Rng) (h : w.q.Below n) : (w.closeOut E arr pos r).q.Below n := by
  refine W.each_below (fun i x q hq _ => ?_) h
  split
  · split
    · refine QS.Below.setMs ?_ _ _
      split
      · exact (hq.addText _ _ _).orUb _
      · exact hq.addSpan _ _ _ _
    · split
      · exact hq.addText _ _ _
      · exact hq
  · exact hq

theorem W.elemEnd_below (root : Bool) (h : w.q.Below n) : (w.elemEnd E root).q.Below n := by
  refine W.each_below (fun i x q hq _ => ?_) h
  dsimp only
  split
  · exact (hq.incr i).addText _ _ _
  · split
    · exact (hq.incr i).addText _ _ _
    · exact hq.incr i

theorem W.priOut_below (t : Str) (inc : Bool) (h : w.q.Below n) : (w.priOut E t inc).q.Below n := by
  refine W.each_below (fun i x q hq _ => ?_) h
  dsimp only
  have : (if (E.selects (x.matched E.d) || x.matched E.d == .condition) = true then q.addText i x.st t else q).Below n := by
    split
    · exact hq.addText _ _ _
    · exact hq
  split
  · exact this.incr i
  · exact this

theorem W.incrAll_below (h : w.q.Below n) : w.incrAll.q.Below n := W.each_below (fun i _ _ hq _ => hq.incr i) h

theorem W.pruned_below (hn : 0 < n) (k : CKey) (h : w.q.Below n) : (w.pruned E k).q.Below n := by
  unfold W.pruned
  split
  · exact h
  · split
    · dsimp only
      split
      · exact h.prune hn _
      · exact h
    · exact h

theorem W.step_below (hd : ∀ s k, E.d.nextByStr s k < n) (hn : 0 < n) (hE : ∀ st, E.starts = some st → ∀ s ∈ st, s < n)
    (h : w.q.Below n) (t : Tok) (rest : List Tok) : (w.step E t rest).q.Below n := by
  cases t with
  | lcb p =>
    refine W.each_below (fun i x q hq _ => ?_) h
    split
    · exact hq.setMs _ _
    · split
      · exact hq.addText _ _ _
      · split
        · exact hq.addText _ _ _
        · exact hq
  | rcb p =>
    show (w.rcb E p rest).q.Below n
    unfold W.rcb
    split
    · exact W.closeUnit_below hE h
    · have h1 := W.closeOut_below (E := E) false p w.elt h
      have h2 : ((w.closeOut E false p w.elt).inferred .rcb rest).q.Below n := by rw [W.inferred_q]; exact h1
      dsimp only
      split
      · split
        · exact h2
        · split
          · exact W.closeUnit_below hE h2
          · split
            · exact W.elemEnd_below true (w := { (w.closeOut E false p w.elt).inferred .rcb rest with ss := _ }) h2
            · exact h2
      · split
        · exact h1.pop
        · split
          · exact W.elemEnd_below false (w := { w.closeOut E false p w.elt with ss := _ }) h1
          · exact h1
  | lb p =>
    show (w.lb E p).q.Below n
    refine QS.Below.push hd hn (W.each_below (fun i x q hq _ => ?_) (W.pruned_below (w := w.mark) hn none h)) _ _
    split
    · exact hq.setMs _ _
    · split
      · exact hq.addText _ _ _
      · exact hq
  | rb p =>
    show (w.rb E p rest).q.Below n
    unfold W.rb
    split
    · exact W.closeUnit_below hE h
    · have h1 : (w.rbOut E p).q.Below n := by
        unfold W.rbOut
        split
        · exact W.closeOut_below true p _ h
        · exact h
      generalize w.rbOut E p = w at h1
      have h2 : (w.inferred .rb rest).q.Below n := by rw [W.inferred_q]; exact h1
      unfold W.rbEnd
      dsimp only
      split
      · split
        · exact h2.pop
        · split
          · exact W.closeUnit_below hE h2
          · split
            · exact W.incrAll_below (w := { (w.inferred .rb rest).popQ with ss := _ }) h2.pop
            · exact h2
      · split
        · exact h1.pop.pop
        · split
          · exact W.incrAll_below (w := { w.popQ with ss := _ }) h1.pop
          · exact h1
  | com => exact h
  | ky k =>
    show (w.ky E k).q.Below n
    exact QS.Below.push hd hn (W.pruned_below (w := w.mark) hn (some k) h) _ _
  | pri x =>
    show (w.pri E x rest).q.Below n
    unfold W.pri
    split
    · have h1 := W.priOut_below (E := E) x (decide (top w.ss = some .lb)) h
      dsimp only
      split
      · exact h1.pop
      · exact h1
    · have h2 : (w.inferred .pri rest).q.Below n := by rw [W.inferred_q]; exact h
      dsimp only
      split
      · exact W.closeUnit_below hE h2
      · split
        · exact W.priOut_below (w := (w.inferred .pri rest).mark) _ true h2
        · exact h2

theorem W.run_below (hd : ∀ s k, E.d.nextByStr s k < n) (hn : 0 < n) (hE : ∀ st, E.starts = some st → ∀ s ∈ st, s < n) :
    ∀ (ts : List Tok) {w : W}, w.q.Below n → (w.run E ts).q.Below n
  | [], _, h => h
  | t :: ts, _, h => W.run_below hd hn hE ts (W.step_below hd hn hE h t ts)

end

/-! ### `combine` -/

section
variable {n : Nat} {k : K}

theorem K.popQ_below (h : k.q.Below n) : k.popQ.q.Below n := h.pop

theorem K.sym_below {d : QDfa} {left right : Str} (h : k.q.Below n) (x : USym × Nat) : (k.sym d left right x).q.Below n := by
  unfold K.sym
  split
  · unfold K.rcb
    split
    · exact h
    · rename_i c _
      have h1 : (k.rcbOut d left right x.2 c).q.Below n := by
        unfold K.rcbOut
        split
        · split
          · exact (h.addText _ _ _).setMs _ _
          · exact h
        · exact h
      generalize k.rcbOut d left right x.2 c = k at h1
      unfold K.rcbEnd
      split
      · exact h1
      · split
        · split
          · exact h1.pop
          · split
            · dsimp only
              split
              · exact (h1.incr _).addText _ _ _
              · exact h1.incr _
            · exact h1
        · exact h1
  · have h1 : (k.rbOut d left right x.2).q.Below n := by
      unfold K.rbOut
      split
      · split
        · exact h
        · split
          · exact h
          · split
            · split
              · exact (h.addText _ _ _).setMs _ _
              · exact h
            · exact h
      · exact h
    unfold K.rb
    generalize k.rbOut d left right x.2 = k at h1
    unfold K.rbEnd
    split
    · exact h1.pop
    · split
      · split
        · exact h1.pop.pop
        · split
          · exact h1.pop.incr _
          · exact h1
      · exact h1
  · exact h.pop
  · exact h.pop
  · exact h

theorem K.syms_below {d : QDfa} {left right : Str} : ∀ (xs : List (USym × Nat)) {k : K}, k.q.Below n →
    (xs.foldl (K.sym d left right) k).q.Below n
  | [], _, h => h
  | x :: xs, _, h => K.syms_below xs (K.sym_below h x)

theorem K.collect_below {d : QDfa} {right : Str} (hn : 0 < n) (h : k.q.Below n) (t : MTuple) : (k.collect d right t).q.Below n := by
  have ha : ∀ {k : K}, k.q.Below n → (k.addTuple right t).q.Below n := by
    intro k h; unfold K.addTuple; split <;> exact h.of_nodes rfl
  have he : ∀ {k : K} (s : Nat), k.q.Below n → (k.expire d s).q.Below n := by
    intro k s h
    unfold K.expire
    split
    · exact h
    · rename_i c hc
      split
      · exact h.set (x := { c with st := 0 }) hn rfl
      · exact h
  unfold K.collect
  split
  · exact h
  · split
    · exact h
    · split
      · exact ha h
      · dsimp only
        split
        · exact he _ (h.incr _)
        · split
          · exact he _ h
          · refine ha ?_
            split
            · exact h.incr _
            · exact h

theorem K.unit_below {d : QDfa} {left right : Str} {tl : List MTuple} (hn : 0 < n) (h : k.q.Below n) (u : PUnit) :
    (k.unit d left right tl u).q.Below n := by
  have h1 := K.syms_below (d := d) (left := left) (right := right) u.syms h
  unfold K.unit
  dsimp only
  generalize u.syms.foldl (K.sym d left right) k = k at h1
  split
  · exact h1
  · split
    · exact h1
    · exact h1
    · exact h1
    · split
      · exact h1
      · rename_i ts _
        have : ∀ (ts : List MTuple) {k : K}, k.q.Below n → (ts.foldl (fun k t => k.collect d right t) k).q.Below n := by
          intro ts
          induction ts with
          | nil => intro k h; exact h
          | cons t ts ih => intro k h; exact ih (K.collect_below hn h t)
        exact this ts h1

theorem copyLevel_below {src : List Node} (hs : ∀ m ∈ src, m.st < n) {r : Nat} {p : QS × Rng} (h : p.1.Below n) (l : Rng) :
    (copyLevel src r p l).1.Below n := by
  unfold copyLevel
  dsimp only
  cases hf : findNode src r l with
  | none => exact h
  | some x =>
    intro m hm
    rcases List.mem_append.1 hm with hm | hm
    · exact h m hm
    · rw [List.mem_singleton] at hm
      rw [hm]
      have := List.mem_of_find?_eq_some hf
      obtain ⟨i, _, hi⟩ := List.mem_filterMap.1 this
      exact hs x (List.mem_of_getElem? hi)

theorem QS.Below.combine {q src : QS} (h : q.Below n) (hs : src.Below n) (elt selt : Rng) : (q.combine elt src selt).1.Below n := by
  unfold QS.combine
  split
  · exact h
  · dsimp only
    split
    · exact h
    · split
      · rename_i ls _ r _
        have : ∀ (ls : List Rng) (p : QS × Rng), p.1.Below n → (ls.foldl (copyLevel src.nodes r) p).1.Below n := by
          intro ls
          induction ls with
          | nil => intro p hp; exact hp
          | cons l ls ih => intro p hp; exact ih _ (copyLevel_below hs hp l)
        exact this _ _ h
      · exact h

theorem K.units_below {d : QDfa} {left right : Str} {tl : List MTuple} (hn : 0 < n) : ∀ (us : List PUnit) {k : K}, k.q.Below n →
    (us.foldl (K.unit d left right tl) k).q.Below n
  | [], _, h => h
  | u :: us, _, h => K.units_below hn us (K.unit_below hn h u)

theorem K.chunk_below {d : QDfa} {left right : Str} (hn : 0 < n) (h : k.q.Below n) {w : W} (hw : w.q.Below n) :
    (k.chunk d left right w).q.Below n := (K.units_below hn w.units h).combine hw _ _

end

theorem startStates_lt {d : QDfa} (h : 1 < d.statesNum) (i : Nat) : ∀ s ∈ startStates d i, s < d.statesNum := by
  intro s hs
  unfold startStates at hs
  split at hs
  · rw [List.mem_singleton] at hs; omega
  · exact List.mem_range.1 hs

theorem runWorker_below {d : QDfa} (hd : ∀ s k, d.nextByStr s k < d.statesNum) (h1 : 1 < d.statesNum) (ct : Option CTable) (u : UState)
    (i : Nat) (c : Str) : (runWorker d ct u i c).q.Below d.statesNum := by
  refine W.run_below (E := ⟨d, i == 0, c, ct, some (startStates d i)⟩) hd (by omega) (fun st hst => ?_) (lexAll c) ?_
  · cases hst; exact startStates_lt h1 i
  · exact QS.Below.start (startStates_lt h1 i)

/-! ### Without a table no unit is processed again -/

theorem all2_left {α β : Type} {R : α → β → Prop} {xs : List α} {ys : List β} (h : All2 R xs ys) : ∀ x ∈ xs, ∃ y ∈ ys, R x y := by
  induction h with
  | nil => intro x hx; cases hx
  | cons hr _ ih =>
    intro x hx
    rcases List.mem_cons.1 hx with rfl | hx
    · exact ⟨_, List.mem_cons_self, hr⟩
    · obtain ⟨y, hy, h⟩ := ih x hx
      exact ⟨y, List.mem_cons_of_mem _ hy, h⟩

/-- Each unit of a worker without table has all states of the automaton among its roots. -/
theorem runWorker_roots {d : QDfa} {u : UState} {i : Nat} {c : Str} (hi : i ≠ 0)
    (hb : (runWorker d none u i c).bad = false) {un : PUnit} (hu : un ∈ (runWorker d none u i c).units) {s : Nat} (hs : s < d.statesNum) :
    (un.roots.find? fun r => r.1 == s) ≠ none := by
  have hr : (startStates d i)[s]? = some s := by
    unfold startStates
    rw [if_neg hi, List.getElem?_range hs]
  have ht := Tracks.run (E := ⟨d, i == 0, c, none, some (startStates d i)⟩) (.inl rfl) rfl u hr (lexAll c) (runWorker_bad hb)
  obtain ⟨y, _, h⟩ := all2_left ht.finish.1 un hu
  obtain ⟨h1, h2, _⟩ := h.root
  intro hn
  rw [List.find?_eq_none] at hn
  exact hn _ (List.mem_of_getElem? h2) (by simp)

theorem K.unit_noRe {d : QDfa} {left right : Str} {tl : List MTuple} {n : Nat} {k : K} {un : PUnit} (h : k.q.Below n) (hre : k.re = false)
    (hr : ∀ s, s < n → (un.roots.find? fun r => r.1 == s) ≠ none) : (k.unit d left right tl un).re = false := by
  have h1 := K.syms_below (d := d) (left := left) (right := right) un.syms h
  have h2 : (un.syms.foldl (K.sym d left right) k).re = false := by rw [K.syms_re]; exact hre
  unfold K.unit
  dsimp only
  cases hc : (un.syms.foldl (K.sym d left right) k).cur with
  | none => exact h2
  | some c =>
    dsimp only
    cases hf : un.roots.find? fun r => r.1 == c.st with
    | none => exact absurd hf (hr _ (h1 c (List.mem_of_getElem? hc)))
    | some x =>
      obtain ⟨_, x⟩ := x
      cases x with
      | junk => exact h2
      | empty => exact h2
      | chain f l =>
        dsimp only
        split
        · exact h2
        · rw [K.collects_re]; exact h2

theorem K.units_noRe {d : QDfa} {left right : Str} {tl : List MTuple} {n : Nat} (hn : 0 < n) : ∀ (us : List PUnit) {k : K}, k.q.Below n →
    k.re = false → (∀ un ∈ us, ∀ s, s < n → (un.roots.find? fun r => r.1 == s) ≠ none) →
    (us.foldl (K.unit d left right tl) k).re = false
  | [], _, _, h, _ => h
  | un :: us, _, hb, h, hr => K.units_noRe hn us (K.unit_below hn hb un) (K.unit_noRe hb h (hr un (by simp)))
      (fun un hu => hr un (List.mem_cons_of_mem _ hu))

theorem combineLoop_noRe {d : QDfa} (hd : ∀ s k, d.nextByStr s k < d.statesNum) (h1 : 1 < d.statesNum) {u : Nat → UState} :
    ∀ (cs : List Str) {k : K} {left : Str} {i : Nat}, i ≠ 0 → k.q.Below d.statesNum → k.re = false →
    (combineLoop d k left (workersFrom d none u i cs)).bad = false →
    (combineLoop d k left (workersFrom d none u i cs)).re = false ∧
      (combineLoop d k left (workersFrom d none u i cs)).q.Below d.statesNum
  | [], _, _, _, _, hb, hre, _ => ⟨hre, hb⟩
  | c :: cs, k, left, i, hi, hb, hre, hbad => by
    have hw := runWorker_below hd h1 none (u i) i c
    have hk1 : (k.chunk d left c (runWorker d none (u i) i c)).bad = false := by
      cases e : (k.chunk d left c (runWorker d none (u i) i c)).bad with
      | false => rfl
      | true => rw [workersFrom, combineLoop, combineLoop_bad _ e] at hbad; cases hbad
    have hwb : (runWorker d none (u i) i c).bad = false := by
      simp only [K.chunk, K.bad, K.orUb, Bool.or_eq_false_iff] at hk1
      simp only [W.bad, Bool.or_eq_false_iff]
      exact hk1.1.2
    refine combineLoop_noRe hd h1 cs (by omega) (K.chunk_below (by omega) hb hw) ?_ hbad
    exact K.units_noRe (by omega) _ hb hre fun un hu s hs => runWorker_roots hi hwb hu hs

theorem executeParallel_noRe {d : QDfa} (hd : ∀ s k, d.nextByStr s k < d.statesNum) (h1 : 1 < d.statesNum) {u : Nat → UState}
    {old : Option K} (hold : ∀ k, old = some k → k.q.Below d.statesNum) {cs : List Str} {k : K}
    (hk : executeParallel d none u old cs = some k) (hb : k.bad = false) : k.re = false ∧ k.q.Below d.statesNum := by
  cases cs with
  | nil => cases hk
  | cons c cs =>
    cases hk
    refine combineLoop_noRe hd h1 cs (by decide) ?_ rfl ?_
    · cases old with
      | none => exact runWorker_below hd h1 none (u 0) 0 c
      | some k =>
        refine W.run_below (E := ⟨d, true, c, none, none⟩) hd (by omega) (fun st hst => by cases hst) (lexAll c) ?_
        exact fun m hm => hold k rfl m hm
    · simp only [K.bad, K.orUb, Bool.or_eq_false_iff] at hb ⊢
      exact ⟨hb.1.1, hb.2⟩

end JPS
