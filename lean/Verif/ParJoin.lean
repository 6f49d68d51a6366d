import Verif.ParRel
/-!
# A worker on its chunk, joined to what was read before

`Comb` is `combine` (`Verif/Combine.lean`) with one path; the invariant `Joint` says that the stacks of `Comb` with those of
the worker on top are the stacks of the serial automaton, and that the tuples are the same.
-/

set_option autoImplicit false

namespace JPS
open Spec

/-! ### Paths of different start states -/

/-- The same control. -/
structure Alike (v v' : P) : Prop where
  ss : v.ss = v'.ss
  shadow : v.shadow = v'.shadow
  syms : v.syms = v'.syms
  st : v.st = v'.st
  len : v.p.length = v'.p.length

theorem Alike.cur {v v' : P} (h : Alike v v') (a : PAct) : Alike (v.cur a) (v'.cur a) := by
  obtain ⟨h1, h2, h3, h4, h5⟩ := h
  unfold P.cur
  cases hp : v.p <;> cases hp' : v'.p <;> rw [hp, hp'] at h5 <;> try (simp at h5; done)
  · exact ⟨h1, h2, h3, h4, by simp [hp, hp']⟩
  · exact ⟨h1, h2, h3, h4, h5⟩

theorem Alike.below {v v' : P} (h : Alike v v') (a : PAct) : Alike (v.below a) (v'.below a) := by
  obtain ⟨h1, h2, h3, h4, h5⟩ := h
  unfold P.below
  cases hp : v.p with
  | nil =>
    cases hp' : v'.p with
    | nil => exact ⟨h1, h2, h3, h4, h5⟩
    | cons e t => rw [hp, hp'] at h5; simp at h5
  | cons e t =>
    cases hp' : v'.p with
    | nil => rw [hp, hp'] at h5; simp at h5
    | cons e' t' =>
      rw [hp, hp'] at h5
      cases t <;> cases t' <;> try (simp at h5; done)
      · exact ⟨h1, h2, h3, h4, by simp [hp, hp']⟩
      · exact ⟨h1, h2, h3, h4, h5⟩

theorem Alike.pushQ {v v' : P} (h : Alike v v') (d : QDfa) (k : Option Str) : Alike (v.pushQ d k) (v'.pushQ d k) := by
  obtain ⟨h1, h2, h3, h4, h5⟩ := h
  unfold P.pushQ
  cases hp : v.p <;> cases hp' : v'.p <;> rw [hp, hp'] at h5 <;> try (simp at h5; done)
  · exact ⟨h1, h2, h3, h4, by simp [hp, hp']⟩
  · exact ⟨h1, h2, h3, h4, by simpa using h5⟩

theorem Alike.popQ {v v' : P} (h : Alike v v') : Alike v.popQ v'.popQ :=
  ⟨h.ss, h.shadow, h.syms, h.st, by simp [P.popQ, h.len]⟩

theorem Alike.setSs {v v' : P} (h : Alike v v') {s s' : List Sym} (hs : s = s') : Alike { v with ss := s } { v' with ss := s' } :=
  ⟨hs, h.shadow, h.syms, h.st, h.len⟩

theorem Alike.setSt {v v' : P} (h : Alike v v') {s s' : UState} (hs : s = s') : Alike { v with st := s } { v' with st := s' } :=
  ⟨h.ss, h.shadow, h.syms, hs, h.len⟩

theorem Alike.inferred {v v' : P} (h : Alike v v') (x : TT) (rest : List Tok) : Alike (v.inferred x rest) (v'.inferred x rest) := by
  unfold P.inferred
  rw [h.shadow]
  split
  · exact ⟨h.ss, rfl, h.syms, h.st, h.len⟩
  · exact h

theorem Alike.addSym {v v' : P} (h : Alike v v') (x : USym) (i : Nat) : Alike (v.addSym x i) (v'.addSym x i) :=
  ⟨h.ss, h.shadow, by simp [P.addSym, h.syms], rfl, h.len⟩

theorem Alike.close {v v' : P} (h : Alike v v') (s s' : Nat) : Alike (v.close s) (v'.close s') := by
  unfold P.close
  rw [h.st]
  split
  · exact ⟨rfl, rfl, rfl, rfl, rfl⟩
  · exact h

/-- Steps do not tell the start states apart. -/
theorem Alike.step {E : WEnv} {v v' : P} (h : Alike v v') (s s' : Nat) (t : Tok) (rest : List Tok) :
    Alike (v.step E s t rest) (v'.step E s' t rest) := by
  cases t with
  | com => exact h
  | lcb p =>
    refine Alike.cur ?_ _
    exact ⟨by simp [h.ss], h.shadow, h.syms, rfl, h.len⟩
  | lb p =>
    have h1 := ((h.setSt (s := .matched) rfl).cur (lbAct E p)).pushQ E.d none
    exact h1.setSs (by rw [h1.ss])
  | ky k =>
    have h1 := (h.setSt (s := .matched) rfl).pushQ E.d (some k)
    exact h1.setSs (by rw [h1.ss])
  | rcb p =>
    show Alike (v.rcb E s p rest) (v'.rcb E s' p rest)
    simp only [P.rcb, h.ss]
    split
    · exact (h.close s s').addSym _ _
    · have h1 := h.cur (closeAct E false p)
      simp only [h1.ss]
      split
      · have h2 := h1.inferred .rcb rest
        simp only [h2.shadow]
        split
        · exact ⟨by simp [h2.ss], rfl, h2.syms, h2.st, h2.len⟩
        · split
          · exact (h2.close s s').addSym _ _
          · split
            · refine Alike.cur ?_ _
              exact ⟨by simp [h2.ss], rfl, h2.syms, h2.st, h2.len⟩
            · exact h2
      · split
        · exact h1.popQ.setSs (by rw [h1.popQ.ss])
        · split
          · exact (h1.setSs rfl).cur _
          · exact h1
  | rb p =>
    show Alike (v.rb E s p rest) (v'.rb E s' p rest)
    simp only [P.rb, h.ss]
    split
    · exact (h.close s s').addSym _ _
    · have h1 := h.below (closeAct E true p)
      simp only [h1.ss]
      split
      · have h2 := h1.inferred .rb rest
        simp only [h2.shadow]
        split
        · exact h2.popQ.setSs (by rw [h2.popQ.ss])
        · split
          · exact (h2.close s s').addSym _ _
          · split
            · exact (h2.popQ.setSs (by rw [h2.popQ.ss])).cur _
            · exact h2
      · split
        · exact h1.popQ.popQ.setSs (by rw [h1.popQ.popQ.ss])
        · split
          · exact (h1.popQ.setSs (by rw [h1.popQ.ss])).cur _
          · exact h1
  | pri x =>
    show Alike (v.pri E s x rest) (v'.pri E s' x rest)
    simp only [P.pri, h.ss, h.shadow]
    split
    · have h1 := h.cur (priAct E x (decide (top v'.ss = some .lb)))
      simp only [h1.ss]
      split
      · exact h1.popQ.setSs (by rw [h1.popQ.ss])
      · exact h1
    · have h2 := h.inferred .pri rest
      simp only [h2.shadow]
      split
      · exact (h2.close s s').addSym _ _
      · split
        · refine Alike.cur ?_ _
          exact ⟨h2.ss, rfl, h2.syms, rfl, h2.len⟩
        · exact h2

/-! ### What holds of every path -/

/-- The table of a query automaton: state 0 is dead, all states are below `n`. -/
structure Dead (d : QDfa) (n : Nat) : Prop where
  acc : d.accept 0 = .none
  idx : NoIdx d 0
  next : ∀ k, d.nextByStr 0 k = 0
  bnd : ∀ s k, d.nextByStr s k < n
  pos : 0 < n

/-- The path of start state `s0`. -/
structure PInv (E : WEnv) (n s0 : Nat) (v : P) : Prop where
  root : ∃ l c ms, v.p = l ++ [⟨s0, c, ms⟩]
  bnd : s0 < n → ∀ e ∈ v.p, e.st < n
  dead : s0 = 0 → (∀ e ∈ v.p, e.st = 0) ∧ v.out = []
  span : E.id0 = true → ∀ t ∈ v.out, t.span = none

/-- An action that finds nothing in state 0 and gives texts in worker 0. -/
structure Tame (E : WEnv) (a : PAct) : Prop where
  dead : ∀ b e, e.st = 0 → (a b e).1 = none
  span : E.id0 = true → ∀ b e t, (a b e).1 = some t → t.span = none

theorem matched_dead {d : QDfa} {n : Nat} (hd : Dead d n) {e : Elt} (he : e.st = 0) (b : Bool) : e.matched d b = .none := by
  unfold Elt.matched Node.matched
  simp only [he, hd.acc, hd.idx.1, hd.idx.2]
  cases b <;> simp [Acc.toW]

theorem next_dead {d : QDfa} {n : Nat} (hd : Dead d n) {e : Elt} (he : e.st = 0) (b : Bool) (k : Option Str) : e.next d b k = 0 := by
  unfold Elt.next Node.next
  simp only [he, hd.next, ite_self]

theorem next_bnd {d : QDfa} {n : Nat} (hd : Dead d n) (e : Elt) (b : Bool) (k : Option Str) : e.next d b k < n := by
  unfold Elt.next Node.next
  have : ∀ (c : Prop) [Decidable c], (if c then d.nextByStr e.st k else 0) < n := by
    intro c _
    split
    · exact hd.bnd _ _
    · exact hd.pos
  split <;> exact this _

theorem tame_close {E : WEnv} {n : Nat} (hd : Dead E.d n) (arr : Bool) (pos : Nat) : Tame E (closeAct E arr pos) := by
  constructor
  · intro b e he
    unfold closeAct
    cases e.ms <;> simp [matched_dead hd he, WEnv.selects]
  · intro h0 b e t
    unfold closeAct
    cases e.ms with
    | none => intro h; cases h
    | some x =>
      simp only [h0, if_true]
      split
      · intro h; cases h; rfl
      · split
        · intro h; cases h; rfl
        · intro h; cases h

theorem tame_lcb {E : WEnv} {n : Nat} (hd : Dead E.d n) (pos : Nat) : Tame E (lcbAct E pos) := by
  constructor
  · intro b e he
    simp [lcbAct, matched_dead hd he, WEnv.selects]
  · intro _ b e t
    unfold lcbAct
    split
    · intro h; cases h
    · split
      · intro h; cases h; rfl
      · split <;> (intro h; cases h)
        rfl

theorem tame_lb {E : WEnv} {n : Nat} (hd : Dead E.d n) (pos : Nat) : Tame E (lbAct E pos) := by
  constructor
  · intro b e he
    simp [lbAct, matched_dead hd he, WEnv.selects]
  · intro _ b e t
    unfold lbAct
    split
    · intro h; cases h
    · split <;> (intro h; cases h)
      rfl

theorem tame_elem {E : WEnv} {n : Nat} (hd : Dead E.d n) (root : Bool) : Tame E (elemAct E root) := by
  constructor
  · intro b e he
    simp [elemAct, matched_dead hd he]
  · intro _ b e t
    simp only [elemAct]
    split
    · intro h; cases h; rfl
    · split <;> (intro h; cases h)
      rfl

theorem tame_incr (E : WEnv) : Tame E incrAct := ⟨fun _ _ _ => rfl, fun _ _ _ _ h => by cases h⟩

theorem tame_pri {E : WEnv} {n : Nat} (hd : Dead E.d n) (x : Str) (inc : Bool) : Tame E (priAct E x inc) := by
  constructor
  · intro b e he
    simp [priAct, matched_dead hd he, WEnv.selects]
  · intro _ b e t
    simp only [priAct]
    split <;> (intro h; cases h)
    rfl

theorem PInv.cur {E : WEnv} {n s0 : Nat} {v : P} (h : PInv E n s0 v) {a : PAct} (ha : Tame E a) : PInv E n s0 (v.cur a) := by
  obtain ⟨⟨l, c, ms, hp⟩, hb, hdd, hsp⟩ := h
  cases l with
  | nil =>
    have hp : v.p = ⟨s0, c, ms⟩ :: [] := hp
    rw [cur_eq hp]
    refine ⟨⟨[], _, _, rfl⟩, fun h e he => ?_, fun h => ⟨fun e he => ?_, ?_⟩, fun h t ht => ?_⟩
    · simp at he; rw [he]; exact h
    · simp at he; rw [he]; exact h
    · rw [(hdd h).2, ha.dead _ _ h]; rfl
    · rcases List.mem_append.1 ht with ht | ht
      · exact hsp h t ht
      · exact ha.span h _ _ t (by simpa using ht)
  | cons x l =>
    have hp : v.p = x :: (l ++ [⟨s0, c, ms⟩]) := hp
    rw [cur_eq hp]
    rw [hp] at hb hdd
    refine ⟨⟨_ :: l, c, ms, rfl⟩, fun h e he => ?_, fun h => ⟨fun e he => ?_, ?_⟩, fun h t ht => ?_⟩
    · rcases List.mem_cons.1 he with he | he
      · rw [he]; exact hb h x (by simp)
      · exact hb h e (List.mem_cons_of_mem _ he)
    · rcases List.mem_cons.1 he with he | he
      · rw [he]; exact (hdd h).1 x (by simp)
      · exact (hdd h).1 e (List.mem_cons_of_mem _ he)
    · rw [(hdd h).2, ha.dead _ _ ((hdd h).1 x (by simp))]; rfl
    · rcases List.mem_append.1 ht with ht | ht
      · exact hsp h t ht
      · exact ha.span h _ _ t (by simpa using ht)

theorem PInv.below {E : WEnv} {n s0 : Nat} {v : P} (h : PInv E n s0 v) {a : PAct} (ha : Tame E a) : PInv E n s0 (v.below a) := by
  unfold P.below
  cases hp : v.p with
  | nil => exact h
  | cons e t =>
    cases t with
    | nil => exact h
    | cons e1 t =>
      obtain ⟨⟨l, c, ms, hr⟩, hb, hdd, hsp⟩ := h
      rw [hp] at hr hb hdd
      dsimp only
      refine ⟨?_, fun h x hx => ?_, fun h => ⟨fun x hx => ?_, ?_⟩, fun h t ht => ?_⟩
      · cases l with
        | nil => simp at hr
        | cons y l =>
          cases l with
          | nil =>
            simp at hr
            obtain ⟨rfl, rfl, rfl⟩ := hr
            exact ⟨[e], _, _, rfl⟩
          | cons z l =>
            simp at hr
            exact ⟨e :: a.upd (t == []) e1 :: l, c, ms, by rw [hr.2.2]; rfl⟩
      · simp only [List.mem_cons] at hx
        rcases hx with rfl | rfl | hx
        · exact hb h x (by simp)
        · exact hb h e1 (by simp)
        · exact hb h x (by simp [hx])
      · simp only [List.mem_cons] at hx
        rcases hx with rfl | rfl | hx
        · exact (hdd h).1 x (by simp)
        · exact (hdd h).1 e1 (by simp)
        · exact (hdd h).1 x (by simp [hx])
      · dsimp only; rw [(hdd h).2, ha.dead _ _ ((hdd h).1 e1 (by simp))]; rfl
      · rcases List.mem_append.1 ht with ht | ht
        · exact hsp h t ht
        · exact ha.span h _ _ t (by simpa using ht)

theorem PInv.pushQ {E : WEnv} {n s0 : Nat} {v : P} (hd : Dead E.d n) (h : PInv E n s0 v) (k : Option Str) :
    PInv E n s0 (v.pushQ E.d k) := by
  unfold P.pushQ
  cases hp : v.p with
  | nil => exact h
  | cons e t =>
    obtain ⟨⟨l, c, ms, hr⟩, hb, hdd, hsp⟩ := h
    rw [hp] at hr hb hdd
    refine ⟨⟨⟨e.next E.d (t == []) k, 0, none⟩ :: l, c, ms, by simp only [hr, List.cons_append]⟩, fun h x hx => ?_, fun h => ⟨fun x hx => ?_, (hdd h).2⟩, hsp⟩
    · rcases List.mem_cons.1 hx with hx | hx
      · rw [hx]; exact next_bnd hd _ _ _
      · exact hb h x hx
    · rcases List.mem_cons.1 hx with hx | hx
      · rw [hx]; exact next_dead hd ((hdd h).1 e (by simp)) _ _
      · exact (hdd h).1 x hx

theorem PInv.popQ {E : WEnv} {n s0 : Nat} {v : P} (h : PInv E n s0 v) (hl : 2 ≤ v.p.length) : PInv E n s0 v.popQ := by
  obtain ⟨⟨l, c, ms, hr⟩, hb, hdd, hsp⟩ := h
  refine ⟨?_, fun h x hx => hb h x (List.mem_of_mem_tail hx), fun h => ⟨fun x hx => (hdd h).1 x (List.mem_of_mem_tail hx), (hdd h).2⟩, hsp⟩
  cases l with
  | nil => rw [hr] at hl; simp at hl
  | cons y l => exact ⟨l, c, ms, by simp [P.popQ, hr]⟩

theorem PInv.congr {E : WEnv} {n s0 : Nat} {v v' : P} (h : PInv E n s0 v) (hp : v'.p = v.p) (ho : v'.out = v.out) :
    PInv E n s0 v' := ⟨by rw [hp]; exact h.root, by rw [hp]; exact h.bnd, by rw [hp, ho]; exact h.dead, by rw [ho]; exact h.span⟩

theorem PInv.new (E : WEnv) (n s0 : Nat) {v : P} (hp : v.p = [⟨s0, 0, none⟩]) (ho : v.out = []) : PInv E n s0 v :=
  ⟨⟨[], 0, none, hp⟩, fun h e he => by rw [hp] at he; simp at he; rw [he]; exact h,
    fun h => ⟨fun e he => by rw [hp] at he; simp at he; rw [he]; exact h, ho⟩, fun _ t ht => by rw [ho] at ht; simp at ht⟩

end JPS
