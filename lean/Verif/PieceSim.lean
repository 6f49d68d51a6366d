import Verif.Serial
import Verif.StreamProofs
import Verif.LexerProofs
import Verif.Spec.Text
/-!
# Running the automaton on a piece of the text

The automaton that reads a piece of a text with positions counted from the start of the piece
behaves like the automaton that reads the whole text, as long as no container that is to be
reported was opened before the piece.
-/

set_option autoImplicit false

namespace JPS
open Spec

/-- A token of a piece, with positions of the whole text. -/
def Tok.shift (k : Nat) : Tok → Tok
  | .lcb p => .lcb (p + k)
  | .rcb p => .rcb (p + k)
  | .lb p => .lb (p + k)
  | .rb p => .rb (p + k)
  | t => t

/-- Position carried by a token (1 if it carries none). -/
def Tok.pos : Tok → Nat
  | .lcb p => p
  | .rcb p => p
  | .lb p => p
  | .rb p => p
  | _ => 1

/-- Entries of the two runs that will behave alike. -/
structure EltSim (d : QDfa) (k : Nat) (e e' : Elt) : Prop where
  st : e.st = e'.st
  cnt : e.count = e'.count
  ms : d.matchedType e.st e.count = .output → e.ms = e'.ms.map (· + k)

/-- Configurations of the two runs; `E` tells whether the start recorded in the current entry
matters. -/
structure SimE (d : QDfa) (k : Nat) (pre : List Tuple) (E : Prop) (a a' : SA) : Prop where
  ss : a.ss = a'.ss
  tl : a.tl = pre ++ a'.tl
  qs : All2 (EltSim d k) a.qs a'.qs
  st : a.elt.st = a'.elt.st
  cnt : a.elt.count = a'.elt.count
  ms : E → EltSim d k a.elt a'.elt
  ub : a'.ub = true → a.ub = true

/-- Corresponding configurations between tokens. -/
def Sim (d : QDfa) (k : Nat) (pre : List Tuple) (a a' : SA) : Prop :=
  SimE d k pre (top a.ss = some .lcb) a a'

theorem SimE.weaken {d : QDfa} {k : Nat} {pre : List Tuple} {E F : Prop} {a a' : SA}
    (h : SimE d k pre E a a') (hf : F → E) : SimE d k pre F a a' :=
  ⟨h.ss, h.tl, h.qs, h.st, h.cnt, fun f => h.ms (hf f), h.ub⟩

theorem SimE.addTuple {d : QDfa} {k : Nat} {pre : List Tuple} {E : Prop} {a a' : SA}
    (h : SimE d k pre E a a') (s : Nat) (t : Str) :
    SimE d k pre E (a.addTuple s t) (a'.addTuple s t) := by
  refine ⟨h.ss, ?_, h.qs, h.st, h.cnt, h.ms, ?_⟩
  · simp [SA.addTuple, h.tl]
  · simp only [SA.addTuple, Bool.or_eq_true, decide_eq_true_eq]
    rintro ((h1 | h1) | h1)
    · exact .inl (.inl (h.ub h1))
    · exact .inl (.inr h1)
    · refine .inr ?_
      rw [h.tl, List.length_append]; omega

theorem SimE.withSs {d : QDfa} {k : Nat} {pre : List Tuple} {E : Prop} {a a' : SA}
    (h : SimE d k pre E a a') (ss : List Sym) :
    SimE d k pre E { a with ss := ss } { a' with ss := ss } :=
  ⟨rfl, h.tl, h.qs, h.st, h.cnt, h.ms, h.ub⟩

theorem substring_shift {S s u w : Str} {k b p : Nat} (hS : S = u ++ s ++ w) (hk : u.length = k)
    (hl : lead S = 0) (hl' : lead s = 0) (hp : p ≤ s.length) :
    substring S (b + k) (p + k) = substring s b p ∧ substringOOB s p = false := by
  constructor
  · unfold substring ltrim
    rw [hl, hl', List.drop_zero, List.drop_zero, hS, List.append_assoc]
    rw [List.take_append, show p + k - u.length = p by omega,
      List.take_of_length_le (by omega), List.drop_append,
      List.drop_eq_nil_of_le (by omega), List.take_append_of_le_length hp]
    simp [← hk]
  · simp [substringOOB, hl']; omega

theorem SimE.closeOutput {d : QDfa} {S s u w : Str} {k p : Nat} {pre : List Tuple} {E : Prop}
    {a a' : SA} {e e' : Elt} (h : SimE d k pre E a a') (he : EltSim d k e e')
    (hS : S = u ++ s ++ w) (hk : u.length = k) (hl : lead S = 0) (hl' : lead s = 0)
    (hp : p ≤ s.length) :
    SimE d k pre E (a.closeOutput d S (p + k) e) (a'.closeOutput d s p e') := by
  by_cases ho : d.matchedType e.st e.count = .output
  · have hm := he.ms ho
    have ho' : d.matchedType e'.st e'.count = .output := by rw [← he.st, ← he.cnt]; exact ho
    unfold SA.closeOutput
    cases hb : e'.ms with
    | none => rw [hb] at hm; simp [hm]; exact h
    | some b =>
      rw [hb] at hm
      simp only [Option.map_some] at hm
      simp only [hm, ho, ho', if_true]
      obtain ⟨h1, h2⟩ := substring_shift (b := b) hS hk hl hl' hp
      rw [h1, h2, he.st]
      have := h.addTuple e'.st (substring s b p)
      refine ⟨this.ss, this.tl, this.qs, this.st, this.cnt, this.ms, ?_⟩
      simp only [Bool.or_false, Bool.or_eq_true, decide_eq_true_eq]
      rintro (hx | hx)
      · exact .inl (.inl (this.ub hx))
      · exact .inr (by omega)
  · have ho' : ¬ d.matchedType e'.st e'.count = .output := by rw [← he.st, ← he.cnt]; exact ho
    have e1 : a.closeOutput d S (p + k) e = a := by
      unfold SA.closeOutput; cases e.ms <;> simp [ho]
    have e2 : a'.closeOutput d s p e' = a' := by
      unfold SA.closeOutput; cases e'.ms <;> simp [ho']
    rw [e1, e2]; exact h

theorem SimE.popQ {d : QDfa} {k : Nat} {pre : List Tuple} {E : Prop} {a a' : SA}
    (h : SimE d k pre E a a') (hub : a.popQ.ub = false) : SimE d k pre True a.popQ a'.popQ := by
  have hq := h.qs
  unfold SA.popQ at hub ⊢
  cases hc : a.qs with
  | nil => rw [hc] at hub; simp at hub
  | cons e q =>
    rw [hc] at hq
    cases hc' : a'.qs with
    | nil => rw [hc'] at hq; cases hq
    | cons e' q' =>
      rw [hc'] at hq
      cases hq with
      | cons h1 h2 => exact ⟨h.ss, h.tl, h2, h1.st, h1.cnt, fun _ => h1, h.ub⟩

theorem All2.push {d : QDfa} {k : Nat} {q q' : List Elt} {e e' : Elt}
    (h : All2 (EltSim d k) q q') (he : EltSim d k e e') : All2 (EltSim d k) (push q e) (push q' e') := by
  have hlen : q.length = q'.length := by
    clear he
    induction h with
    | nil => rfl
    | cons _ _ ih => simp [ih]
  unfold JPS.push
  rw [hlen]
  split
  · exact .cons he h
  · exact h

theorem All2.popEl {d : QDfa} {k : Nat} {q q' : List Elt}
    (h : All2 (EltSim d k) q q') : All2 (EltSim d k) (pop q) (pop q') := by
  cases h with
  | nil => exact .nil
  | cons _ h => exact h

/-- A closing brace or a key must be read inside an object. -/
def okTok (ss : List Sym) : Tok → Prop
  | .rcb _ => top ss = some .lcb
  | .ky _ => top ss = some .lcb
  | _ => True

theorem enter_sim {d : QDfa} {k : Nat} {e e' : Elt} (key : Option Str) (h1 : e.st = e'.st)
    (h2 : e.count = e'.count) : EltSim d k (d.enter e key) (d.enter e' key) := by
  refine ⟨?_, rfl, fun _ => rfl⟩
  unfold QDfa.enter; rw [h1, h2]

/-- The first part of `stepRb`. -/
def rbOut (d : QDfa) (s : Str) (pos : Nat) (a : SA) : SA :=
  match top a.qs with
  | some e => a.closeOutput d s pos e
  | none => a

/-- The second part of `stepRb`. -/
def rbTail (a : SA) : SA :=
  if a.ss.length = 1 then
    let a := a.popQ
    { a with ss := pop a.ss }
  else if secondTop a.ss = some .ky then
    let a := { a with qs := pop a.qs }.popQ
    { a with ss := pop (pop a.ss) }
  else if secondTop a.ss = some .lb then
    let a := a.popQ
    { a with ss := pop a.ss, elt := { a.elt with count := a.elt.count + 1 } }
  else a

theorem stepRb_tail (d : QDfa) (s : Str) (pos : Nat) (a : SA) :
    stepRb d s pos a = if a.ss.length ≥ 1 then rbTail (rbOut d s pos a) else a := rfl

/-- The first part of `stepPri`. -/
def priOut (d : QDfa) (t : Str) (a : SA) : SA :=
  match d.matchedType a.elt.st a.elt.count with
  | .output => a.addTuple a.elt.st t
  | .condition => a.addTuple a.elt.st t
  | _ => a

/-- The second part of `stepPri`. -/
def priTail (a : SA) : SA :=
  if top a.ss = some .ky then
    let a := a.popQ
    { a with ss := pop a.ss }
  else if top a.ss = some .lb then
    { a with elt := { a.elt with count := a.elt.count + 1 } }
  else a

theorem stepPri_tail (d : QDfa) (t : Str) (a : SA) :
    stepPri d t a = if a.ss.length ≥ 1 then priTail (priOut d t a) else a := rfl

theorem Sim.step {d : QDfa} {S s u w : Str} {k : Nat} {pre : List Tuple} {a a' : SA} {t : Tok}
    (h : Sim d k pre a a') (hS : S = u ++ s ++ w) (hk : u.length = k) (hl : lead S = 0)
    (hl' : lead s = 0) (hp : t.pos ≤ s.length) (hp0 : 0 < t.pos) (hok : okTok a.ss t)
    (hub : (step d S a (t.shift k)).ub = false) :
    Sim d k pre (step d S a (t.shift k)) (step d s a' t) := by
  unfold Sim at h
  cases t with
  | com => exact h
  | lcb p =>
    have hpos : (p + k) - 1 = (p - 1) + k := by simp only [Tok.pos] at hp0; omega
    simp only [Tok.shift, JPS.step, stepLcb, Sim, ← h.ss, ← h.st, ← h.cnt]
    have hw := h.withSs (push a.ss .lcb)
    cases hm : d.matchedType a.elt.st a.elt.count with
    | output =>
      exact ⟨rfl, h.tl, h.qs, rfl, rfl, fun _ => ⟨rfl, rfl, fun _ => by simp [hpos]⟩, h.ub⟩
    | predicate =>
      refine SimE.addTuple (a := { a with ss := push a.ss .lcb })
        (a' := { a' with ss := push a.ss .lcb }) ⟨rfl, h.tl, h.qs, h.st, h.cnt, fun _ =>
          ⟨h.st, h.cnt, fun h' => ?_⟩, h.ub⟩ _ _
      have h' : d.matchedType a.elt.st a.elt.count = .output := h'
      rw [hm] at h'; cases h'
    | condition =>
      refine SimE.addTuple (a := { a with ss := push a.ss .lcb })
        (a' := { a' with ss := push a.ss .lcb }) ⟨rfl, h.tl, h.qs, h.st, h.cnt, fun _ =>
          ⟨h.st, h.cnt, fun h' => ?_⟩, h.ub⟩ _ _
      have h' : d.matchedType a.elt.st a.elt.count = .output := h'
      rw [hm] at h'; cases h'
    | none =>
      refine ⟨rfl, h.tl, h.qs, h.st, h.cnt, fun _ => ⟨h.st, h.cnt, fun h' => ?_⟩, h.ub⟩
      have h' : d.matchedType a.elt.st a.elt.count = .output := h'
      rw [hm] at h'; cases h'
  | rcb p =>
    have he := h.ms hok
    have hout : SimE d k pre True (rcbOutput d S (p + k) a) (rcbOutput d s p a') := by
      have hc := (h.weaken (F := True) (fun _ => hok)).closeOutput he hS hk hl hl' (p := p) hp
      have hce := hc.ms trivial
      unfold rcbOutput
      by_cases ho : d.matchedType a.elt.st a.elt.count = .output
      · have hms := he.ms ho
        have ho' : d.matchedType a'.elt.st a'.elt.count = .output := by rw [← he.st, ← he.cnt]; exact ho
        cases hb : a'.elt.ms with
        | none =>
          rw [hb] at hms
          simpa [hms, hb] using hc
        | some b =>
          rw [hb] at hms
          simp only [hms, ho, ho', Option.map_some]
          simp
          exact ⟨hc.ss, hc.tl, hc.qs, hc.st, hc.cnt, fun _ => ⟨hc.st, hc.cnt, fun _ => rfl⟩, hc.ub⟩
      · have ho' : ¬ d.matchedType a'.elt.st a'.elt.count = .output := by
          rw [← he.st, ← he.cnt]; exact ho
        simpa [ho, ho'] using hc
    simp only [Tok.shift, JPS.step, stepRcb] at hub ⊢
    revert hub hout
    generalize rcbOutput d S (p + k) a = b
    generalize rcbOutput d s p a' = b'
    intro hout hub
    rw [← hout.ss, ← hout.st, ← hout.cnt]
    have hp := fun hu => hout.popQ (hub := hu)
    split
    · simp only [Sim]
      exact (hout.withSs _).weaken fun _ => trivial
    · split
      · split
        · rename_i h1 h2 h3
          have hub : b.popQ.ub = false := by simpa [h1, h2, h3] using hub
          have := hp hub
          have hs1 : b.popQ.ss = b'.popQ.ss := this.ss
          simp only [Sim]
          rw [← hs1]
          exact (this.withSs _).weaken fun _ => trivial
        · split
          · rename_i h1 h2 h3 h4
            have hcs : SimE d k pre (top (pop b.ss) = some .lcb)
                { b with ss := pop b.ss, elt := { b.elt with count := b.elt.count + 1 } }
                { b' with ss := pop b.ss, elt := { st := b.elt.st, count := b.elt.count + 1, ms := b'.elt.ms } } := by
              refine ⟨rfl, hout.tl, hout.qs, rfl, rfl, ?_, hout.ub⟩
              intro hc
              exfalso
              simp only [secondTop] at h4
              simp only [top, pop] at hc
              rw [h4] at hc; cases hc
            split
            · simp only [Sim]; exact hcs.addTuple _ _
            · exact hcs
          · exact hout.weaken fun _ => trivial
      · exact hout.weaken fun _ => trivial
  | lb p =>
    have hpos : (p + k) - 1 = (p - 1) + k := by simp only [Tok.pos] at hp0; omega
    simp only [Tok.shift, JPS.step, stepLb, Sim]
    have hgen : ∀ b b' : SA, SimE d k pre True b b' →
        SimE d k pre (top (push b.ss .lb) = some .lcb)
          { b with ss := push b.ss .lb, qs := push b.qs b.elt, elt := d.enter b.elt none }
          { b' with ss := push b'.ss .lb, qs := push b'.qs b'.elt, elt := d.enter b'.elt none } := by
      intro b b' hb
      have hen := enter_sim (d := d) (k := k) none hb.st hb.cnt
      exact ⟨by simp only [hb.ss], hb.tl, All2.push hb.qs (hb.ms trivial), hen.st, hen.cnt,
        fun _ => hen, hb.ub⟩
    rw [← h.st, ← h.cnt]
    apply hgen
    have hno : ∀ {x : Acc}, d.matchedType a.elt.st a.elt.count = x → x ≠ .output →
        SimE d k pre True a a' := by
      intro x hx hne
      refine ⟨h.ss, h.tl, h.qs, h.st, h.cnt, fun _ => ⟨h.st, h.cnt, fun h' => ?_⟩, h.ub⟩
      rw [hx] at h'; exact absurd h' hne
    cases hm : d.matchedType a.elt.st a.elt.count with
    | output =>
      exact ⟨h.ss, h.tl, h.qs, rfl, rfl, fun _ => ⟨rfl, rfl, fun _ => by simp [hpos]⟩, h.ub⟩
    | predicate => exact hno hm (by simp)
    | condition => exact (hno hm (by simp)).addTuple _ _
    | none => exact hno hm (by simp)
  | rb p =>
    simp only [Tok.shift, JPS.step, stepRb_tail, Sim, ← h.ss] at hub ⊢
    split
    · rename_i hlen
      rw [if_pos hlen] at hub
      have hout : SimE d k pre (top a.ss = some .lcb)
          (rbOut d S (p + k) a) (rbOut d s p a') := by
        unfold rbOut
        have hq := h.qs
        cases hc : a.qs with
        | nil =>
          rw [hc] at hq
          cases hc' : a'.qs with
          | nil => simpa [top] using h
          | cons _ _ => rw [hc'] at hq; cases hq
        | cons e q =>
          rw [hc] at hq
          cases hc' : a'.qs with
          | nil => rw [hc'] at hq; cases hq
          | cons e' q' =>
            rw [hc'] at hq
            cases hq with
            | cons h1 _ => exact h.closeOutput h1 hS hk hl hl' hp
      have hssb : (rbOut d S (p + k) a).ss = a.ss := by
        unfold rbOut
        cases top a.qs with
        | none => rfl
        | some e =>
          simp only [SA.closeOutput]
          cases e.ms with
          | none => rfl
          | some m => simp only; split <;> rfl
      revert hub hout hssb
      generalize rbOut d S (p + k) a = b
      generalize rbOut d s p a' = b'
      intro hub hout hssb
      unfold rbTail at hub ⊢
      obtain ⟨e', ss', qs', tl', u'⟩ := b'
      obtain rfl : b.ss = ss' := hout.ss
      simp only []
      have hp := fun hu => hout.popQ (hub := hu)
      split
      · rename_i h1
        have hub : b.popQ.ub = false := by simpa [h1] using hub
        have := hp hub
        simp only []; rw [← this.ss]
        exact (this.withSs _).weaken fun _ => trivial
      · split
        · rename_i h1 h2
          have hub : ({ b with qs := pop b.qs } : SA).popQ.ub = false := by
            simpa [h1, h2] using hub
          have hw : SimE d k pre (top a.ss = some .lcb) { b with qs := pop b.qs } { elt := e', ss := b.ss, qs := pop qs', tl := tl', ub := u' } :=
            ⟨hout.ss, hout.tl, All2.popEl hout.qs, hout.st, hout.cnt, hout.ms, hout.ub⟩
          have := hw.popQ hub
          simp only []; rw [← this.ss]
          exact (this.withSs _).weaken fun _ => trivial
        · split
          · rename_i h1 h2 h3
            have hub : b.popQ.ub = false := by simpa [h1, h2, h3] using hub
            have := hp hub
            have hs : b.popQ.ss = b.ss := by unfold SA.popQ; cases b.qs <;> rfl
            have hs' := this.ss
            refine ⟨?_, this.tl, this.qs, this.st, ?_, ?_, this.ub⟩
            · exact congrArg pop hs'
            · exact congrArg (· + 1) this.cnt
            · intro hc
              exfalso
              simp only [hs, top, pop] at hc
              simp only [secondTop] at h3
              rw [h3] at hc; cases hc
          · rw [← hssb] at hout; exact hout
    · exact h
  | ky key =>
    have he := h.ms hok
    have hen := enter_sim (d := d) (k := k) (some key) h.st h.cnt
    simp only [Tok.shift, JPS.step, stepKy, Sim]
    exact ⟨by simp only [h.ss], h.tl, All2.push h.qs he, hen.st, hen.cnt, fun _ => hen, h.ub⟩
  | pri t =>
    simp only [Tok.shift, JPS.step, stepPri_tail, Sim, ← h.ss] at hub ⊢
    split
    · rename_i hlen
      rw [if_pos hlen] at hub
      have hout : SimE d k pre (top a.ss = some .lcb) (priOut d t a) (priOut d t a') := by
        unfold priOut
        rw [← h.st, ← h.cnt]
        cases d.matchedType a.elt.st a.elt.count <;> first | exact h.addTuple _ _ | exact h
      have hssb : (priOut d t a).ss = a.ss := by
        unfold priOut
        cases d.matchedType a.elt.st a.elt.count <;> rfl
      revert hub hout hssb
      generalize priOut d t a = b
      generalize priOut d t a' = b'
      intro hub hout hssb
      unfold priTail at hub ⊢
      obtain ⟨e', ss', qs', tl', u'⟩ := b'
      obtain rfl : b.ss = ss' := hout.ss
      simp only []
      split
      · rename_i h1
        have hub : b.popQ.ub = false := by simpa [h1] using hub
        have := hout.popQ hub
        simp only []; rw [← this.ss]
        exact (this.withSs _).weaken fun _ => trivial
      · split
        · rename_i h1 h2
          refine ⟨rfl, hout.tl, hout.qs, hout.st, congrArg (· + 1) hout.cnt, ?_, hout.ub⟩
          intro hc
          exfalso
          rw [h2] at hc; cases hc
        · rw [← hssb] at hout; exact hout
    · exact h

/-! ### Token sequences -/

/-- The syntax stack evolves independently of the query. -/
def ssStep (ss : List Sym) : Tok → List Sym
  | .lcb _ => push ss .lcb
  | .lb _ => push ss .lb
  | .ky _ => push ss .ky
  | .com => ss
  | .pri _ => if top ss = some .ky then pop ss else ss
  | .rcb _ =>
    if ss.length = 1 then pop ss
    else if secondTop ss = some .ky then pop (pop ss)
    else if secondTop ss = some .lb then pop ss
    else ss
  | .rb _ =>
    if ss.length = 1 then pop ss
    else if secondTop ss = some .ky then pop (pop ss)
    else if secondTop ss = some .lb then pop ss
    else ss

theorem popQ_ss (a : SA) : a.popQ.ss = a.ss := by unfold SA.popQ; cases a.qs <;> rfl

theorem closeOutput_ss (d : QDfa) (s : Str) (pos : Nat) (e : Elt) (a : SA) :
    (a.closeOutput d s pos e).ss = a.ss := by
  unfold SA.closeOutput
  cases e.ms with
  | none => rfl
  | some m => simp only; split <;> rfl

theorem step_ss (d : QDfa) (s : Str) (a : SA) (t : Tok) : (step d s a t).ss = ssStep a.ss t := by
  cases t with
  | com => rfl
  | lcb p =>
    simp only [step, stepLcb]
    cases d.matchedType a.elt.st a.elt.count <;> rfl
  | lb p =>
    simp only [step, stepLb]
    cases d.matchedType a.elt.st a.elt.count <;> rfl
  | ky k => rfl
  | pri t =>
    have ho : (priOut d t a).ss = a.ss := by
      unfold priOut
      cases d.matchedType a.elt.st a.elt.count <;> rfl
    simp only [step, stepPri_tail, ssStep]
    by_cases hl : a.ss.length ≥ 1
    · rw [if_pos hl]
      revert ho
      generalize priOut d t a = b
      intro ho
      unfold priTail
      rw [ho]
      split
      · simp only [popQ_ss, ho]
      · split <;> first | rfl | exact ho
    · rw [if_neg hl]
      have : a.ss = [] := List.length_eq_zero_iff.1 (by omega)
      simp [this, top]
  | rcb p =>
    have ho : (rcbOutput d s p a).ss = a.ss := by
      unfold rcbOutput
      simp only
      split <;> exact closeOutput_ss ..
    simp only [step, stepRcb, ssStep]
    revert ho
    generalize rcbOutput d s p a = b
    intro ho
    rw [ho]
    split
    · simp [ho]
    · by_cases hl : a.ss.length > 1
      · rw [if_pos hl]
        split
        · simp only [popQ_ss, ho]
        · split
          · split <;> simp [ho]
          · exact ho
      · rw [if_neg hl]
        have : a.ss = [] := List.length_eq_zero_iff.1 (by omega)
        simp [this, ho, secondTop]
  | rb p =>
    have ho : (rbOut d s p a).ss = a.ss := by
      unfold rbOut
      cases top a.qs with
      | none => rfl
      | some e => exact closeOutput_ss ..
    simp only [step, stepRb_tail, ssStep]
    by_cases hl : a.ss.length ≥ 1
    · rw [if_pos hl]
      revert ho
      generalize rbOut d s p a = b
      intro ho
      unfold rbTail
      rw [ho]
      split
      · simp only [popQ_ss, ho]
      · split
        · simp only [popQ_ss, ho]
        · split
          · simp only [popQ_ss, ho]
          · exact ho
    · rw [if_neg hl]
      have : a.ss = [] := List.length_eq_zero_iff.1 (by omega)
      simp [this, secondTop]

/-- Every closing brace and every key of a token sequence is read inside an object. -/
def okRun : List Sym → List Tok → Prop
  | _, [] => True
  | ss, t :: ts => okTok ss t ∧ okRun (ssStep ss t) ts

theorem okRun_append : ∀ (xs ys : List Tok) (ss : List Sym),
    okRun ss (xs ++ ys) ↔ okRun ss xs ∧ okRun (xs.foldl ssStep ss) ys
  | [], _, _ => by simp [okRun]
  | x :: xs, ys, ss => by
    simp only [List.cons_append, okRun, okRun_append xs ys, List.foldl_cons, and_assoc]

theorem step_ub (d : QDfa) (s : Str) (a : SA) (t : Tok) (h : a.ub = true) :
    (step d s a t).ub = true := by
  have : a.orUb true = a := by
    unfold SA.orUb; simp [← h]
  rw [← this, step_orUb]
  simp [SA.orUb]

theorem runToks_ub (d : QDfa) (s : Str) : ∀ (ts : List Tok) (a : SA), a.ub = true →
    (runToks d s a ts).ub = true
  | [], _, h => h
  | t :: ts, a, h => runToks_ub d s ts (step d s a t) (step_ub d s a t h)

theorem runToks_ss (d : QDfa) (s : Str) : ∀ (ts : List Tok) (a : SA),
    (runToks d s a ts).ss = ts.foldl ssStep a.ss
  | [], _ => rfl
  | t :: ts, a => by
    rw [runToks_cons, runToks_ss d s ts, step_ss, List.foldl_cons]

theorem okTok_shift (k : Nat) (ss : List Sym) (t : Tok) : okTok ss (t.shift k) ↔ okTok ss t := by
  cases t <;> exact Iff.rfl

theorem ssStep_shift (k : Nat) (ss : List Sym) (t : Tok) : ssStep ss (t.shift k) = ssStep ss t := by
  cases t <;> rfl

theorem okRun_shift (k : Nat) : ∀ (ts : List Tok) (ss : List Sym),
    okRun ss (ts.map (Tok.shift k)) ↔ okRun ss ts
  | [], _ => Iff.rfl
  | t :: ts, ss => by
    simp only [List.map_cons, okRun, okTok_shift, ssStep_shift, okRun_shift k ts]

theorem Sim.run {d : QDfa} {S s u w : Str} {k : Nat} {pre : List Tuple}
    (hS : S = u ++ s ++ w) (hk : u.length = k) (hl : lead S = 0) (hl' : lead s = 0) :
    ∀ (ts : List Tok) (a a' : SA), Sim d k pre a a' →
    (∀ t ∈ ts, 0 < t.pos ∧ t.pos ≤ s.length) → okRun a.ss ts →
    (runToks d S a (ts.map (Tok.shift k))).ub = false →
    Sim d k pre (runToks d S a (ts.map (Tok.shift k))) (runToks d s a' ts)
  | [], _, _, h, _, _, _ => h
  | t :: ts, a, a', h, hp, hok, hub => by
    rw [List.map_cons, runToks_cons] at hub ⊢
    have hu : (JPS.step d S a (t.shift k)).ub = false := by
      cases hc : (JPS.step d S a (t.shift k)).ub with
      | false => rfl
      | true => rw [runToks_ub d S _ _ hc] at hub; cases hub
    have hpt := hp t (by simp)
    have h1 := h.step hS hk hl hl' hpt.2 hpt.1 hok.1 hu
    refine Sim.run hS hk hl hl' ts _ _ h1 (fun x hx => hp x (List.mem_cons_of_mem _ hx)) ?_ hub
    rw [step_ss, ssStep_shift]; exact hok.2

/-- A token can only be read from a nonempty text. -/
theorem lexAll_pos (s : Str) (t : Tok) (h : t ∈ lexAll s) : 0 < t.pos ∧ t.pos ≤ s.length := by
  have hne : s ≠ [] := by
    rintro rfl
    simp [lexAll, lexFrom, nextToken, lexLoop, RTok.toTok] at h
  have hlen : 0 < s.length := List.length_pos_iff.2 hne
  have key : ∀ (n : Nat) (lx : Lexer), ∀ t ∈ lexFrom s n lx, 0 < t.pos ∧ t.pos ≤ s.length := by
    intro n
    induction n with
    | zero => intro lx t h; simp [lexFrom] at h
    | succ n ih =>
      intro lx t h
      simp only [lexFrom] at h
      have hpr := nextToken_progress s lx
      revert h hpr
      rcases nextToken s lx with ⟨r, lx'⟩
      intro h hpr
      simp only at h hpr
      cases r <;> simp only [RTok.toTok, List.mem_cons, List.not_mem_nil] at h <;>
        (try (rcases h with h | h)) <;>
        first
          | (subst h; simp only [Tok.pos]; simp at hpr; omega)
          | exact ih lx' t h
  exact key _ _ t h

/-! ### Consecutive pieces -/

/-- The tokens of consecutive pieces, with positions of the whole text. -/
def pieceToks : Nat → List Str → List Tok
  | _, [] => []
  | k, p :: ps => (lexAll p).map (Tok.shift k) ++ pieceToks (k + p.length) ps

/-- No container that is to be reported is open in this configuration. -/
def NoOpen (d : QDfa) (a : SA) : Prop :=
  (∀ e ∈ a.qs, d.matchedType e.st e.count ≠ .output) ∧
  (top a.ss = some .lcb → d.matchedType a.elt.st a.elt.count ≠ .output)

/-- The run over the pieces with positions of the whole text finds no container to be reported open
at a boundary, and no piece starts with a blank. -/
def CleanCuts (d : QDfa) (S : Str) : Nat → SA → List Str → Prop
  | _, _, [] => True
  | k, a, p :: ps => lead p = 0 ∧ NoOpen d a ∧
      CleanCuts d S (k + p.length) (runToks d S a ((lexAll p).map (Tok.shift k))) ps

/-- The automaton of `serialPartialRun` over consecutive pieces: the tuples of each piece and the
last configuration. -/
def runPieces (d : QDfa) : SA → List Str → List (List Tuple) × SA
  | a, [] => ([], a)
  | a, p :: ps =>
    let b := execAutomaton d p { a with tl := [] }
    let r := runPieces d b ps
    (b.tl :: r.1, r.2)

theorem execAutomaton_fields (d : QDfa) (s : Str) (a : SA) :
    (execAutomaton d s a).tl = (runToks d s a (lexAll s)).tl ∧
    (execAutomaton d s a).ss = (runToks d s a (lexAll s)).ss ∧
    (execAutomaton d s a).qs = (runToks d s a (lexAll s)).qs ∧
    (execAutomaton d s a).elt = (runToks d s a (lexAll s)).elt := by
  unfold execAutomaton lexAll
  rw [execLoop_eq]
  exact ⟨rfl, rfl, rfl, rfl⟩

theorem runPieces_sim {d : QDfa} {S : Str} (hl : lead S = 0) : ∀ (ps : List Str) (u : Str) (a c : SA),
    S = u ++ ps.flatten → a.ss = c.ss → a.elt.st = c.elt.st → a.elt.count = c.elt.count →
    All2 (fun e e' : Elt => e.st = e'.st ∧ e.count = e'.count) a.qs c.qs →
    okRun a.ss (pieceToks u.length ps) → CleanCuts d S u.length a ps →
    (runToks d S a (pieceToks u.length ps)).ub = false →
    (runToks d S a (pieceToks u.length ps)).tl = a.tl ++ (runPieces d c ps).1.flatten
  | [], u, a, c, _, _, _, _, _, _, _, _ => by simp [pieceToks, runPieces]
  | p :: ps, u, a, c, hS, hss, hst, hcnt, hqs, hok, hcl, hub => by
    obtain ⟨hlp, hno, hcl'⟩ := hcl
    simp only [pieceToks, runToks_append] at hub ⊢
    have hau : (runToks d S a ((lexAll p).map (Tok.shift u.length))).ub = false := by
      cases hc : (runToks d S a ((lexAll p).map (Tok.shift u.length))).ub with
      | false => rfl
      | true => rw [runToks_ub d S _ _ hc] at hub; cases hub
    have hsim : Sim d u.length a.tl a { c with tl := [], ub := a.ub } := by
      refine ⟨hss, by simp, ?_, hst, hcnt, ?_, fun h => h⟩
      · have hno := hno.1
        clear hok hcl' hub hau
        revert hno
        have : ∀ q q' : List Elt, All2 (fun e e' : Elt => e.st = e'.st ∧ e.count = e'.count) q q' →
            (∀ e ∈ q, d.matchedType e.st e.count ≠ .output) → All2 (EltSim d u.length) q q' := by
          intro q q' h
          induction h with
          | nil => intro _; exact .nil
          | cons h1 _ ih =>
            intro hn
            exact .cons ⟨h1.1, h1.2, fun ho => absurd ho (hn _ (by simp))⟩
              (ih fun e he => hn e (List.mem_cons_of_mem _ he))
        exact this _ _ hqs
      · intro ht
        exact ⟨hst, hcnt, fun ho => absurd ho (hno.2 ht)⟩
    rw [pieceToks, okRun_append, okRun_shift] at hok
    have hS1 : S = u ++ p ++ ps.flatten := by rw [hS]; simp
    have hr := Sim.run hS1 rfl hl hlp (lexAll p) _ _ hsim
      (fun t ht => lexAll_pos p t ht) hok.1 hau
    -- the piece run of the model differs from the one above in the flag only
    have hflag : ∀ (x : SA) (b : Bool), (runToks d p { x with ub := b } (lexAll p)).tl = (runToks d p x (lexAll p)).tl ∧
        (runToks d p { x with ub := b } (lexAll p)).ss = (runToks d p x (lexAll p)).ss ∧
        (runToks d p { x with ub := b } (lexAll p)).qs = (runToks d p x (lexAll p)).qs ∧
        (runToks d p { x with ub := b } (lexAll p)).elt = (runToks d p x (lexAll p)).elt := by
      intro x b
      have h1 := runToks_orUb d p (lexAll p) { x with ub := false } b
      have h2 := runToks_orUb d p (lexAll p) { x with ub := false } x.ub
      simp only [SA.orUb, Bool.false_or] at h1 h2
      rw [h1, h2]; exact ⟨rfl, rfl, rfl, rfl⟩
    have hf := hflag { c with tl := [] } a.ub
    have hx := execAutomaton_fields d p { c with tl := [] }
    simp only [runPieces, List.flatten_cons]
    have hlen : (u ++ p).length = u.length + p.length := by simp
    have htl : (runToks d S a ((lexAll p).map (Tok.shift u.length))).tl =
        a.tl ++ (execAutomaton d p { c with tl := [] }).tl := by
      rw [hr.tl, hx.1, ← hf.1]
    have ih := runPieces_sim hl ps (u ++ p) (runToks d S a ((lexAll p).map (Tok.shift u.length)))
      (execAutomaton d p { c with tl := [] }) hS1
      (by rw [hx.2.1, ← hf.2.1]; exact hr.ss)
      (by rw [hx.2.2.2, ← hf.2.2.2]; exact hr.st)
      (by rw [hx.2.2.2, ← hf.2.2.2]; exact hr.cnt)
      (by
        rw [hx.2.2.1, ← hf.2.2.1]
        have := hr.qs
        revert this
        generalize (runToks d S a ((lexAll p).map (Tok.shift u.length))).qs = q
        generalize (runToks d p _ (lexAll p)).qs = q'
        intro h
        induction h with
        | nil => exact .nil
        | cons h1 _ ih => exact .cons ⟨h1.st, h1.cnt⟩ ih)
      (by rw [runToks_ss, hlen]; exact hok.2)
      (by rw [hlen]; exact hcl')
      (by rw [hlen]; exact hub)
    rw [hlen] at ih
    rw [ih, htl, List.append_assoc]

end JPS
