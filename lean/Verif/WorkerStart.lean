import Verif.WorkerTrack
import Verif.LexerProofs
/-!
# The starts a worker has recorded lie before the token it reads

`substring` is called with a start that was recorded at an earlier token of the same text, so that the text it copies has
no negative length.
-/

set_option autoImplicit false

namespace JPS
open Spec

/-- The recorded start of a node is at most `n`. -/
def Node.MsIn (n : Nat) (m : Node) : Prop := ∀ b, m.ms = some b → b ≤ n

theorem MsIn.none {n s c : Nat} {r : Option (List Nat)} : (⟨s, c, Option.none, r⟩ : Node).MsIn n := fun _ h => by cases h

/-- All recorded starts are at most `n`. -/
def QS.MsLe (n : Nat) (q : QS) : Prop := ∀ m ∈ q.nodes, m.MsIn n

theorem QS.MsLe.mono {n m : Nat} {q : QS} (h : q.MsLe n) (hm : n ≤ m) : q.MsLe m :=
  fun x hx b hb => Nat.le_trans (h x hx b hb) hm

/-- The end of a bracket token; other tokens have none. -/
def Tok.brk : Tok → Option Nat
  | .lcb p => some p
  | .rcb p => some p
  | .lb p => some p
  | .rb p => some p
  | _ => none

/-- The positions of brackets do not decrease, from `n` on. -/
def upward : Nat → List Tok → Prop
  | _, [] => True
  | n, t :: ts => (∀ p, t.brk = some p → n ≤ p) ∧ upward (t.brk.getD n) ts

theorem upward.mono : ∀ {ts : List Tok} {n m : Nat}, upward n ts → m ≤ n → upward m ts
  | [], _, _, _, _ => trivial
  | t :: ts, n, m, h, hm => by
    refine ⟨fun p hp => Nat.le_trans hm (h.1 p hp), ?_⟩
    cases hb : t.brk with
    | none => exact upward.mono (by simpa [hb] using h.2) hm
    | some p => simpa [hb] using h.2

theorem lexFrom_upward (s : Str) : ∀ (f : Nat) (lx : Lexer), upward lx.nxt (lexFrom s f lx)
  | 0, _ => trivial
  | f + 1, lx => by
    simp only [lexFrom]
    have hpr := nextToken_progress s lx
    revert hpr
    rcases nextToken s lx with ⟨r, lx'⟩
    intro hpr
    have ih := lexFrom_upward s f lx'
    cases r <;> simp only [RTok.toTok, upward, Tok.brk] at hpr ⊢ <;> simp at hpr ⊢ <;>
      first
        | exact ⟨by omega, ih⟩
        | exact ih.mono (by omega)

theorem lexAll_upward (s : Str) : upward 0 (lexAll s) := lexFrom_upward s _ Lexer.init

section
variable {n : Nat} {q : QS}

theorem QS.MsLe.of_nodes {q' : QS} (h : q.MsLe n) (e : q'.nodes = q.nodes) : q'.MsLe n := by
  intro m hm; rw [e] at hm; exact h m hm

theorem QS.MsLe.set (h : q.MsLe n) {i : Nat} {x : Node} (hx : x.MsIn n) {q' : QS} (e : q'.nodes = q.nodes.set i x) : q'.MsLe n := by
  intro m hm
  rw [e] at hm
  rcases List.mem_or_eq_of_mem_set hm with hm | hm
  · exact h m hm
  · rw [hm]; exact hx

theorem QS.MsLe.setMs (h : q.MsLe n) (i : Nat) (ms : Option Nat) (hms : ∀ b, ms = some b → b ≤ n) : (q.setMs i ms).MsLe n := by
  unfold QS.setMs
  cases hx : q.nodes[i]? with
  | none => exact h.of_nodes rfl
  | some x => exact h.set (x := { x with ms := ms }) hms rfl

theorem QS.MsLe.incr (h : q.MsLe n) (i : Nat) : (q.incr i).MsLe n := by
  unfold QS.incr
  cases hx : q.nodes[i]? with
  | none => exact h.of_nodes rfl
  | some x => exact h.set (x := { x with count := x.count + 1 }) (h x (List.mem_of_getElem? hx)) rfl

theorem QS.MsLe.orUb (h : q.MsLe n) (b : Bool) : (q.orUb b).MsLe n := h

theorem QS.MsLe.addText (h : q.MsLe n) (i s : Nat) (t : Str) : (q.addText i s t).MsLe n :=
  h.of_nodes (addInfo_nodes q i _).1

theorem QS.MsLe.addSpan (h : q.MsLe n) (i s b e : Nat) : (q.addSpan i s b e).MsLe n :=
  h.of_nodes (addInfo_nodes q i _).1

theorem QS.MsLe.pop (h : q.MsLe n) : q.pop.1.MsLe n := by
  unfold QS.pop
  split
  · exact fun m hm => h m (List.mem_of_mem_take hm)
  · exact h

theorem addPath_msle {acc : List Node} (h : ∀ m ∈ acc, m.MsIn n) (s : Nat) (r : Option (List Nat)) :
    ∀ m ∈ addPath acc s r, m.MsIn n := by
  intro m hm
  unfold addPath at hm
  split at hm
  · obtain ⟨x, hx, rfl⟩ := List.mem_map.1 hm
    split
    · exact h x hx
    · exact h x hx
  · rcases List.mem_append.1 hm with hm | hm
    · exact h m hm
    · rw [List.mem_singleton] at hm; rw [hm]; exact MsIn.none

theorem pushNodes_msle (d : QDfa) (nodes : List Node) (k : Option Str) (is : List Nat) :
    ∀ m ∈ pushNodes d nodes k is, m.MsIn n := by
  unfold pushNodes
  generalize hacc : ([] : List Node) = acc
  have h : ∀ m ∈ acc, m.MsIn n := by rw [← hacc]; simp
  clear hacc
  induction is generalizing acc with
  | nil => exact h
  | cons i is ih =>
    rw [List.foldl_cons]
    refine ih _ ?_
    cases nodes[i]? with
    | none => exact h
    | some x =>
      exact addPath_msle h _ _

theorem QS.MsLe.push {d : QDfa} (h : q.MsLe n) (elt : Rng) (k : Option Str) :
    (q.push d elt k).1.MsLe n := by
  intro m hm
  rcases List.mem_append.1 (show m ∈ q.nodes ++ pushNodes d q.nodes k elt.list from hm) with hm | hm
  · exact h m hm
  · exact pushNodes_msle _ _ _ _ m hm

theorem QS.MsLe.start (sts : List Nat) : (q.start sts).1.MsLe n := by
  intro m hm
  obtain ⟨s, hs, rfl⟩ := List.mem_map.1 (show m ∈ sts.map _ from hm)
  exact MsIn.none

theorem QS.MsLe.prune (h : q.MsLe n) (ks : List Nat) : (q.prune ks).1.MsLe n := by
  unfold QS.prune
  split
  · exact h
  · intro m hm
    obtain ⟨s, _, rfl⟩ := List.mem_map.1 (show m ∈ ks.map _ from hm)
    cases hx : q.nodes[s]? with
    | none => exact MsIn.none
    | some x => exact h x (List.mem_of_getElem? hx)

end

/-! ### Workers -/

section
variable {n : Nat} {w : W} {E : WEnv}

theorem W.each_msle {f : Nat → Node → QS → QS} (hf : ∀ i x q, q.MsLe n → x.MsIn n → (f i x q).MsLe n) {r : Rng} (h : w.q.MsLe n) :
    (w.each r f).q.MsLe n := by
  show QS.MsLe n (r.list.foldl _ w.q)
  generalize w.q = q at h
  generalize r.list = is
  induction is generalizing q with
  | nil => exact h
  | cons i is ih =>
    rw [List.foldl_cons]
    refine ih _ ?_
    cases hx : q.nodes[i]? with
    | none => exact h.of_nodes rfl
    | some x => exact (hf i x q h (h x (List.mem_of_getElem? hx))).orUb _

theorem W.closeUnit_msle (h : w.q.MsLe n) : (w.closeUnit E).q.MsLe n := by
  unfold W.closeUnit
  split
  · cases e : E.starts with
    | none => exact h
    | some st => exact QS.MsLe.start st
  · exact h

theorem W.inferred_q (x : TT) (rest : List Tok) : (w.inferred x rest).q = w.q := by
  unfold W.inferred; split <;> rfl

theorem W.closeOut_msle (arr : Bool) (pos : Nat) (r : Rng) (h : w.q.MsLe n) : (w.closeOut E arr pos r).q.MsLe n := by
  refine W.each_msle (fun i x q hq _ => ?_) h
  split
  · split
    · refine QS.MsLe.setMs ?_ _ _ (by simp)
      split
      · exact (hq.addText _ _ _).orUb _
      · exact hq.addSpan _ _ _ _
    · split
      · exact hq.addText _ _ _
      · exact hq
  · exact hq

theorem W.elemEnd_msle (root : Bool) (h : w.q.MsLe n) : (w.elemEnd E root).q.MsLe n := by
  refine W.each_msle (fun i x q hq _ => ?_) h
  dsimp only
  split
  · exact (hq.incr i).addText _ _ _
  · split
    · exact (hq.incr i).addText _ _ _
    · exact hq.incr i

theorem W.priOut_msle (t : Str) (inc : Bool) (h : w.q.MsLe n) : (w.priOut E t inc).q.MsLe n := by
  refine W.each_msle (fun i x q hq _ => ?_) h
  dsimp only
  have : (if (E.selects (x.matched E.d) || x.matched E.d == .condition) = true then q.addText i x.st t else q).MsLe n := by
    split
    · exact hq.addText _ _ _
    · exact hq
  split
  · exact this.incr i
  · exact this

theorem W.incrAll_msle (h : w.q.MsLe n) : w.incrAll.q.MsLe n := W.each_msle (fun i _ _ hq _ => hq.incr i) h

theorem W.pruned_msle (k : CKey) (h : w.q.MsLe n) : (w.pruned E k).q.MsLe n := by
  unfold W.pruned
  split
  · exact h
  · split
    · dsimp only
      split
      · exact h.prune _
      · exact h
    · exact h

theorem W.step_msle (h : w.q.MsLe n) (t : Tok) (rest : List Tok) (ht : ∀ p, (t = .lcb p ∨ t = .lb p) → p ≤ n + 1) :
    (w.step E t rest).q.MsLe n := by
  cases t with
  | lcb p =>
    refine W.each_msle (fun i x q hq _ => ?_) h
    split
    · exact hq.setMs _ _ (by intro b hb; cases hb; have := ht p (by simp); omega)
    · split
      · exact hq.addText _ _ _
      · split
        · exact hq.addText _ _ _
        · exact hq
  | rcb p =>
    show (w.rcb E p rest).q.MsLe n
    unfold W.rcb
    split
    · exact W.closeUnit_msle h
    · have h1 := W.closeOut_msle (E := E) false p w.elt h
      have h2 : ((w.closeOut E false p w.elt).inferred .rcb rest).q.MsLe n := by rw [W.inferred_q]; exact h1
      dsimp only
      split
      · split
        · exact h2
        · split
          · exact W.closeUnit_msle h2
          · split
            · exact W.elemEnd_msle true (w := { (w.closeOut E false p w.elt).inferred .rcb rest with ss := _ }) h2
            · exact h2
      · split
        · exact h1.pop
        · split
          · exact W.elemEnd_msle false (w := { w.closeOut E false p w.elt with ss := _ }) h1
          · exact h1
  | lb p =>
    show (w.lb E p).q.MsLe n
    refine QS.MsLe.push (W.each_msle (fun i x q hq _ => ?_) (W.pruned_msle (w := w.mark) none h)) _ _
    split
    · exact hq.setMs _ _ (by intro b hb; cases hb; have := ht p (by simp); omega)
    · split
      · exact hq.addText _ _ _
      · exact hq
  | rb p =>
    show (w.rb E p rest).q.MsLe n
    unfold W.rb
    split
    · exact W.closeUnit_msle h
    · have h1 : (w.rbOut E p).q.MsLe n := by
        unfold W.rbOut
        split
        · exact W.closeOut_msle true p _ h
        · exact h
      generalize w.rbOut E p = w at h1
      have h2 : (w.inferred .rb rest).q.MsLe n := by rw [W.inferred_q]; exact h1
      unfold W.rbEnd
      dsimp only
      split
      · split
        · exact h2.pop
        · split
          · exact W.closeUnit_msle h2
          · split
            · exact W.incrAll_msle (w := { (w.inferred .rb rest).popQ with ss := _ }) h2.pop
            · exact h2
      · split
        · exact h1.pop.pop
        · split
          · exact W.incrAll_msle (w := { w.popQ with ss := _ }) h1.pop
          · exact h1
  | com => exact h
  | ky k =>
    show (w.ky E k).q.MsLe n
    exact QS.MsLe.push (W.pruned_msle (w := w.mark) (some k) h) _ _
  | pri x =>
    show (w.pri E x rest).q.MsLe n
    unfold W.pri
    split
    · have h1 := W.priOut_msle (E := E) x (decide (top w.ss = some .lb)) h
      dsimp only
      split
      · exact h1.pop
      · exact h1
    · have h2 : (w.inferred .pri rest).q.MsLe n := by rw [W.inferred_q]; exact h
      dsimp only
      split
      · exact W.closeUnit_msle h2
      · split
        · exact W.priOut_msle (w := (w.inferred .pri rest).mark) _ true h2
        · exact h2

end

/-- The starts a worker knows after a token lie before its end. -/
theorem W.step_starts {n : Nat} {w : W} {E : WEnv} (h : w.q.MsLe n) {t : Tok} {ts : List Tok} (rest : List Tok) (hu : upward n (t :: ts)) :
    (w.step E t rest).q.MsLe (t.brk.getD n) := by
  cases t with
  | lcb p => exact W.step_msle (h.mono (hu.1 p rfl)) _ _ (by rintro q (e | e) <;> cases e; omega)
  | rcb p => exact W.step_msle (h.mono (hu.1 p rfl)) _ _ (by rintro q (e | e) <;> cases e)
  | lb p => exact W.step_msle (h.mono (hu.1 p rfl)) _ _ (by rintro q (e | e) <;> cases e; omega)
  | rb p => exact W.step_msle (h.mono (hu.1 p rfl)) _ _ (by rintro q (e | e) <;> cases e)
  | com => exact h
  | ky k => exact W.step_msle h _ _ (by rintro q (e | e) <;> cases e)
  | pri x => exact W.step_msle h _ _ (by rintro q (e | e) <;> cases e)

end JPS
