import Verif.Grammar
import Verif.PieceDoc
import Verif.TableProofs
/-!
# The control of the automaton

Automaton states, element indices and stacks, without texts and positions: how they move with the tokens does not depend
on where in which text the tokens stand.
-/

set_option autoImplicit false

namespace JPS
open Spec

/-- Current state and index, syntax stack, states and indices of the query stack; `g` remembers for each entry of the
syntax stack the position of its bracket (0 for a key). -/
structure Ctl where
  e : Nat × Nat
  ss : List Sym
  q : List (Nat × Nat)
  g : List Nat

/-- State and index of an entry. -/
def Elt.key (e : Elt) : Nat × Nat := (e.st, e.count)

/-- The control of a configuration. -/
structure SA.Is (a : SA) (C : Ctl) : Prop where
  e : C.e = a.elt.key
  ss : C.ss = a.ss
  q : C.q = a.qs.map Elt.key

/-- `queryStackPop` into the current element. -/
def Ctl.popQ (C : Ctl) : Ctl :=
  match C.q with
  | e :: q => { C with e := e, q := q }
  | [] => C

/-- One token. -/
def ctlStep (d : QDfa) (C : Ctl) : Tok → Ctl
  | .lcb p => { C with ss := push C.ss .lcb, g := push C.g p }
  | .lb p => ⟨(d.go C.e.1 C.e.2 none, 0), push C.ss .lb, push C.q C.e, push C.g p⟩
  | .ky k => ⟨(d.go C.e.1 C.e.2 (some k), 0), push C.ss .ky, push C.q C.e, push C.g 0⟩
  | .com => C
  | .pri _ =>
    if top C.ss = some .ky then { C.popQ with ss := pop C.ss, g := pop C.g }
    else if top C.ss = some .lb then { C with e := (C.e.1, C.e.2 + 1) }
    else C
  | .rcb _ =>
    if C.ss.length = 1 then { C with ss := pop C.ss, g := pop C.g }
    else if secondTop C.ss = some .ky then { C.popQ with ss := pop (pop C.ss), g := pop (pop C.g) }
    else if secondTop C.ss = some .lb then ⟨(C.e.1, C.e.2 + 1), pop C.ss, C.q, pop C.g⟩
    else C
  | .rb _ =>
    if C.ss.length = 1 then { C.popQ with ss := pop C.ss, g := pop C.g }
    else if secondTop C.ss = some .ky then { { C with q := pop C.q }.popQ with ss := pop (pop C.ss), g := pop (pop C.g) }
    else if secondTop C.ss = some .lb then
      let C1 := C.popQ
      ⟨(C1.e.1, C1.e.2 + 1), pop C.ss, C1.q, pop C.g⟩
    else C

/-- Some tokens. -/
def ctlRun (d : QDfa) (C : Ctl) (ts : List Tok) : Ctl := ts.foldl (ctlStep d) C

theorem ctlRun_append (d : QDfa) (C : Ctl) (xs ys : List Tok) : ctlRun d C (xs ++ ys) = ctlRun d (ctlRun d C xs) ys := by
  simp [ctlRun]

theorem SA.Is.addTuple {a : SA} {C : Ctl} (h : a.Is C) (st : Nat) (t : Str) : (a.addTuple st t).Is C := ⟨h.e, h.ss, h.q⟩

theorem SA.Is.popQ {a : SA} {C : Ctl} (h : a.Is C) : a.popQ.Is C.popQ := by
  obtain ⟨h1, h2, h3⟩ := h
  unfold SA.popQ Ctl.popQ
  rw [h3]
  cases hq : a.qs with
  | nil => exact ⟨h1, h2, by rw [hq] at h3; exact h3⟩
  | cons x q => exact ⟨rfl, h2, rfl⟩

theorem SA.Is.close {a : SA} {C : Ctl} (h : a.Is C) (d : QDfa) (s : Str) (pos : Nat) (e : Elt) : (a.closeOutput d s pos e).Is C := by
  unfold SA.closeOutput
  cases e.ms with
  | none => exact h
  | some b => simp only; split <;> first | exact h | exact ⟨h.e, h.ss, h.q⟩

theorem SA.Is.rcbOutput {a : SA} {C : Ctl} (h : a.Is C) (d : QDfa) (s : Str) (pos : Nat) : (rcbOutput d s pos a).Is C := by
  unfold JPS.rcbOutput
  simp only
  have h := h.close d s pos a.elt
  split
  · exact ⟨h.e, h.ss, h.q⟩
  · exact h

theorem map_push {α β : Type} (f : α → β) (l : List α) (x : α) : (push l x).map f = push (l.map f) (f x) := by
  unfold push
  rw [List.length_map]
  split <;> rfl

theorem map_pop {α β : Type} (f : α → β) (l : List α) : (pop l).map f = pop (l.map f) := by cases l <;> rfl

theorem SA.Is.setSs {a : SA} {C : Ctl} (h : a.Is C) (ss : List Sym) (g : List Nat) :
    ({ a with ss := ss } : SA).Is { C with ss := ss, g := g } := ⟨h.e, rfl, h.q⟩

theorem SA.Is.step {a : SA} {C : Ctl} (h : a.Is C) (d : QDfa) (s : Str) (k : Nat) (t : Tok) :
    (step d s a t).Is (ctlStep d C (t.shift k)) := by
  have he1 : C.e.1 = a.elt.st := by rw [h.e]; rfl
  have he2 : C.e.2 = a.elt.count := by rw [h.e]; rfl
  cases t with
  | lcb p =>
    simp only [JPS.step, stepLcb, ctlStep, Tok.shift]
    cases d.matchedType a.elt.st a.elt.count <;> exact ⟨h.e, by simp only [h.ss, SA.addTuple], h.q⟩
  | com => exact h
  | ky k =>
    simp only [JPS.step, stepKy, ctlStep, Tok.shift]
    refine ⟨?_, by rw [h.ss], ?_⟩
    · simp only [he1, he2]; rfl
    · simp only [map_push, h.q, h.e]
  | lb p =>
    simp only [JPS.step, stepLb, ctlStep, Tok.shift]
    have key : ∀ b : SA, b.Is C → ({ b with ss := push b.ss .lb, qs := push b.qs b.elt, elt := d.enter b.elt none } : SA).Is
        ⟨(d.go C.e.1 C.e.2 none, 0), push C.ss .lb, push C.q C.e, push C.g (p + k)⟩ := by
      intro b hb
      have hb1 : C.e.1 = b.elt.st := by rw [hb.e]; rfl
      have hb2 : C.e.2 = b.elt.count := by rw [hb.e]; rfl
      refine ⟨?_, by rw [hb.ss], ?_⟩
      · simp only [hb1, hb2]; rfl
      · simp only [map_push, hb.q, hb.e]
    cases d.matchedType a.elt.st a.elt.count <;> exact key _ ⟨h.e, h.ss, h.q⟩
  | pri x =>
    simp only [JPS.step, stepPri, Tok.shift]
    by_cases hl : a.ss.length ≥ 1
    · rw [if_pos hl]
      have h1 : ∀ b : SA, b.Is C →
          (if top b.ss = some .ky then ({ b.popQ with ss := pop b.popQ.ss } : SA)
          else if top b.ss = some .lb then { b with elt := { b.elt with count := b.elt.count + 1 } } else b).Is
          (ctlStep d C (.pri x)) := by
        intro b hb
        simp only [ctlStep, hb.ss, popQ_ss]
        split
        · exact hb.popQ.setSs _ _
        · split
          · refine ⟨?_, rfl, hb.q⟩
            simp only [hb.e]; rfl
          · exact hb
      cases d.matchedType a.elt.st a.elt.count <;> exact h1 _ ⟨h.e, h.ss, h.q⟩
    · rw [if_neg hl]
      have : a.ss = [] := by
        cases h : a.ss with
        | nil => rfl
        | cons => rw [h] at hl; simp at hl
      have hC : ctlStep d C (.pri x) = C := by simp [ctlStep, h.ss, this, top]
      rw [hC]; exact h
  | rcb p =>
    have h1 : ∀ b : SA, b.Is C →
        (if b.ss.length = 1 then ({ b with ss := pop b.ss } : SA)
        else if b.ss.length > 1 then
          if secondTop b.ss = some .ky then { b.popQ with ss := pop (pop b.popQ.ss) }
          else if secondTop b.ss = some .lb then
            let c : SA := { b with ss := pop b.ss, elt := { b.elt with count := b.elt.count + 1 } }
            if d.matchedType c.elt.st c.elt.count = .predicate then c.addTuple c.elt.st ['}'] else c
          else b
        else b).Is (ctlStep d C (.rcb (p + k))) := by
      intro b hb
      simp only [ctlStep, hb.ss, popQ_ss]
      by_cases h1 : b.ss.length = 1
      · rw [if_pos h1, if_pos h1]; exact hb.setSs _ _
      · rw [if_neg h1, if_neg h1]
        by_cases h2 : b.ss.length > 1
        · rw [if_pos h2]
          by_cases h3 : secondTop b.ss = some .ky
          · rw [if_pos h3, if_pos h3]; exact hb.popQ.setSs _ _
          · rw [if_neg h3, if_neg h3]
            by_cases h4 : secondTop b.ss = some .lb
            · rw [if_pos h4, if_pos h4]
              have : ({ b with ss := pop b.ss, elt := { b.elt with count := b.elt.count + 1 } } : SA).Is
                  ⟨(C.e.1, C.e.2 + 1), pop b.ss, C.q, pop C.g⟩ := by
                refine ⟨?_, rfl, hb.q⟩
                simp only [hb.e]; rfl
              split
              · exact this.addTuple _ _
              · exact this
            · rw [if_neg h4, if_neg h4]; exact hb
        · rw [if_neg h2]
          have : b.ss = [] := by
            cases h : b.ss with
            | nil => rfl
            | cons x l => rw [h] at h1 h2; simp at h1 h2; exact absurd h2 h1
          simp only [this, secondTop, List.tail_nil, List.head?_nil]
          exact hb
    exact h1 _ (h.rcbOutput d s p)
  | rb p =>
    have h1 : ∀ b : SA, b.Is C →
        (if b.ss.length = 1 then ({ b.popQ with ss := pop b.popQ.ss } : SA)
        else if secondTop b.ss = some .ky then
          { ({ b with qs := pop b.qs } : SA).popQ with ss := pop (pop ({ b with qs := pop b.qs } : SA).popQ.ss) }
        else if secondTop b.ss = some .lb then
          { b.popQ with ss := pop b.popQ.ss, elt := { b.popQ.elt with count := b.popQ.elt.count + 1 } }
        else b).Is (ctlStep d C (.rb (p + k))) := by
      intro b hb
      simp only [ctlStep, hb.ss, popQ_ss]
      split
      · exact hb.popQ.setSs _ _
      · split
        · have : ({ b with qs := pop b.qs } : SA).Is { C with ss := b.ss, q := pop C.q } :=
            ⟨hb.e, rfl, by simp only [map_pop, hb.q]⟩
          have h5 := this.popQ
          exact ⟨h5.e, rfl, h5.q⟩
        · split
          · have := hb.popQ
            refine ⟨?_, rfl, this.q⟩
            simp only [this.e]; rfl
          · exact hb
    simp only [JPS.step, stepRb]
    by_cases hl : a.ss.length ≥ 1
    · rw [if_pos hl]
      cases top a.qs with
      | none => exact h1 _ h
      | some e => exact h1 _ (h.close d s p e)
    · rw [if_neg hl]
      have : a.ss = [] := by
        cases h : a.ss with
        | nil => rfl
        | cons => rw [h] at hl; simp at hl
      have hC : ctlStep d C (.rb (p + k)) = C := by simp [ctlStep, h.ss, this, secondTop]
      show a.Is (ctlStep d C (.rb (p + k)))
      rw [hC]; exact h

theorem SA.Is.run {d : QDfa} {s : Str} {k : Nat} : ∀ (ts : List Tok) {a : SA} {C : Ctl}, a.Is C →
    (runToks d s a ts).Is (ctlRun d C (ts.map (Tok.shift k)))
  | [], _, _, h => h
  | t :: ts, a, C, h => by
    rw [runToks_cons, List.map_cons]
    exact SA.Is.run ts (h.step d s k t)

theorem SA.Is.exec {d : QDfa} {s : Str} {a : SA} {C : Ctl} (h : a.Is C) (k : Nat) :
    (execAutomaton d s a).Is (ctlRun d C ((lexAll s).map (Tok.shift k))) := by
  obtain ⟨_, h2, h3, h4⟩ := execAutomaton_fields d s a
  have := SA.Is.run (d := d) (s := s) (k := k) (lexAll s) h
  exact ⟨by rw [h4]; exact this.e, by rw [h2]; exact this.ss, by rw [h3]; exact this.q⟩

theorem ssRun_shift (k : Nat) : ∀ (ts : List Tok) (ss : List Sym), (ts.map (Tok.shift k)).foldl ssStep ss = ts.foldl ssStep ss
  | [], _ => rfl
  | t :: ts, ss => by simp only [List.map_cons, List.foldl_cons, ssStep_shift, ssRun_shift k ts]

theorem ctlStep_ss (d : QDfa) (C : Ctl) (t : Tok) : (ctlStep d C t).ss = ssStep C.ss t := by
  cases t with
  | pri x =>
    simp only [ctlStep, ssStep]
    split
    · rfl
    · split <;> rfl
  | rcb p =>
    simp only [ctlStep, ssStep]
    split
    · rfl
    · split
      · rfl
      · split <;> rfl
  | rb p =>
    simp only [ctlStep, ssStep]
    split
    · rfl
    · split
      · rfl
      · split <;> rfl
  | _ => rfl

theorem ctlRun_ss (d : QDfa) (ts : List Tok) (C : Ctl) : (ctlRun d C ts).ss = ts.foldl ssStep C.ss := by
  induction ts generalizing C with
  | nil => rfl
  | cons t ts ih => rw [List.foldl_cons, ← ctlStep_ss d]; exact ih _

end JPS
