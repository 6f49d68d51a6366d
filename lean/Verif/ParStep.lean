import Verif.ParJoin
/-!
# One step of all paths of a worker

`Comb` is `combine` with one path.  The invariant `Joint` ties together the serial automaton, the paths of the worker for all
start states, and what `combine` will make of the units the worker has closed so far.
-/

set_option autoImplicit false

namespace JPS
open Spec

/-! ### Control fields -/

/-- The units and symbols stay. -/
structure Keeps (v v' : P) : Prop where
  units : v'.units = v.units
  syms : v'.syms = v.syms

theorem Keeps.refl (v : P) : Keeps v v := ⟨rfl, rfl⟩

theorem pushQ_fields (v : P) (d : QDfa) (k : Option Str) : (v.pushQ d k).units = v.units ∧ (v.pushQ d k).syms = v.syms ∧
    (v.pushQ d k).st = v.st ∧ (v.pushQ d k).ss = v.ss ∧ (v.pushQ d k).shadow = v.shadow := by
  unfold P.pushQ; cases v.p <;> exact ⟨rfl, rfl, rfl, rfl, rfl⟩

/-! ### Steps, case by case -/

section
variable {E : WEnv} {s0 pos : Nat} {rest : List Tok} {v : P}

theorem rcb_open (h : v.ss = []) : v.step E s0 (.rcb pos) rest = (v.close s0).addSym .rcb (pos - 1) := by
  show v.rcb E s0 pos rest = _
  simp [P.rcb, h]

theorem rb_open (h : v.ss = []) : v.step E s0 (.rb pos) rest = (v.close s0).addSym .rb (pos - 1) := by
  show v.rb E s0 pos rest = _
  simp [P.rb, h]

theorem rcb_key {r : List Sym} (h : v.ss = .lcb :: .ky :: r) : v.step E s0 (.rcb pos) rest =
    { (v.cur (closeAct E false pos)).popQ with ss := pop (pop v.ss) } := by
  show v.rcb E s0 pos rest = _
  have h1 := (cur_fields v (closeAct E false pos)).2.2.2.1
  simp [P.rcb, h1, h, secondTop, P.popQ]

theorem rcb_elem {r : List Sym} (h : v.ss = .lcb :: .lb :: r) : v.step E s0 (.rcb pos) rest =
    P.cur (elemAct E false) { v.cur (closeAct E false pos) with ss := pop v.ss } := by
  show v.rcb E s0 pos rest = _
  have h1 := (cur_fields v (closeAct E false pos)).2.2.2.1
  simp [P.rcb, h1, h, secondTop]

theorem rcb_top (h : v.ss = [.lcb]) (hs : v.shadow = []) (hi : infer .rcb rest = none) : v.step E s0 (.rcb pos) rest =
    { v.cur (closeAct E false pos) with ss := pop v.ss } := by
  show v.rcb E s0 pos rest = _
  have h1 := cur_fields v (closeAct E false pos)
  simp [P.rcb, P.inferred, h1.2.2.2.1, h1.2.2.2.2, hs, h, hi]

theorem rcb_root (h : v.ss = [.lcb]) (hs : v.shadow = [] ∨ v.shadow = [.lb]) (hi : infer .rcb rest = some .lb) :
    v.step E s0 (.rcb pos) rest = P.cur (elemAct E true) { v.cur (closeAct E false pos) with shadow := [.lb], ss := pop v.ss } := by
  show v.rcb E s0 pos rest = _
  have h1 := cur_fields v (closeAct E false pos)
  rcases hs with hs | hs <;> simp [P.rcb, P.inferred, h1.2.2.2.1, h1.2.2.2.2, hs, h, hi, top]

theorem rb_key {r : List Sym} (h : v.ss = .lb :: .ky :: r) : v.step E s0 (.rb pos) rest =
    { (v.below (closeAct E true pos)).popQ.popQ with ss := pop (pop v.ss) } := by
  show v.rb E s0 pos rest = _
  have h1 := (below_fields v (closeAct E true pos)).2.2.2.1
  simp [P.rb, h1, h, secondTop, P.popQ]

theorem rb_elem {r : List Sym} (h : v.ss = .lb :: .lb :: r) : v.step E s0 (.rb pos) rest =
    P.cur incrAct { (v.below (closeAct E true pos)).popQ with ss := pop v.ss } := by
  show v.rb E s0 pos rest = _
  have h1 := (below_fields v (closeAct E true pos)).2.2.2.1
  simp [P.rb, h1, h, secondTop, P.popQ]

theorem rb_top (h : v.ss = [.lb]) (hs : v.shadow = []) (hi : infer .rb rest = none) : v.step E s0 (.rb pos) rest =
    { (v.below (closeAct E true pos)).popQ with ss := pop v.ss } := by
  show v.rb E s0 pos rest = _
  have h1 := below_fields v (closeAct E true pos)
  simp [P.rb, P.inferred, h1.2.2.2.1, h1.2.2.2.2, hs, h, hi, P.popQ]

theorem rb_root (h : v.ss = [.lb]) (hs : v.shadow = [] ∨ v.shadow = [.lb]) (hi : infer .rb rest = some .lb) :
    v.step E s0 (.rb pos) rest =
      P.cur incrAct { (v.below (closeAct E true pos)).popQ with shadow := [.lb], ss := pop v.ss } := by
  show v.rb E s0 pos rest = _
  have h1 := below_fields v (closeAct E true pos)
  rcases hs with hs | hs <;> simp [P.rb, P.inferred, h1.2.2.2.1, h1.2.2.2.2, hs, h, hi, top, P.popQ]
  
theorem pri_root {x : Str} (h : v.ss = []) (hs : v.shadow = [] ∨ v.shadow = [.lb]) (hi : infer .pri rest = some .lb) :
    v.step E s0 (.pri x) rest =
      P.cur (priAct E (if v.shadow = [] then clobber x rest else x) true) { v with shadow := [.lb], st := .matched } := by
  show v.pri E s0 x rest = _
  rcases hs with hs | hs <;> simp [P.pri, P.inferred, hs, h, hi, top]
  

theorem pri_in {x : Str} (h : v.ss ≠ []) : v.step E s0 (.pri x) rest =
    if top v.ss = some .ky then { (v.cur (priAct E x (decide (top v.ss = some .lb)))).popQ with ss := pop v.ss }
    else v.cur (priAct E x (decide (top v.ss = some .lb))) := by
  show v.pri E s0 x rest = _
  have hl : v.ss.length ≥ 1 := List.length_pos_iff.2 h
  have h1 := cur_fields v (priAct E x (decide (top v.ss = some .lb)))
  simp only [P.pri, if_pos hl, h1.2.2.2.1, P.popQ]

end

/-! ### Looking ahead -/

theorem infer_lb {L : List Sym} (hL : top L = some .lb) {rest : List Tok} (hf : fitsAll L .post rest) :
    infer .pri rest = some .lb ∧ (rest ≠ [] → infer .rcb rest = some .lb ∧ infer .rb rest = some .lb) := by
  cases rest with
  | nil => exact ⟨rfl, fun h => absurd rfl h⟩
  | cons t r =>
    obtain ⟨h1, h2⟩ := hf
    cases t with
    | lcb p => rcases h1.1 with h | ⟨_, h | h⟩ <;> cases h
    | lb p => rcases h1.1 with h | ⟨_, h | h⟩ <;> cases h
    | pri x => rcases h1.1 with h | ⟨_, h | h⟩ <;> cases h
    | ky k => rcases h1.2.1 with h | h <;> cases h
    | rcb p => have := h1.1; rw [hL] at this; cases this
    | rb p => exact ⟨by simp [infer, Tok.tt], fun _ => ⟨by simp [infer, Tok.tt], by simp [infer, Tok.tt]⟩⟩
    | com =>
      cases r with
      | nil => exact ⟨by simp [infer, Tok.tt], fun _ => ⟨by simp [infer, Tok.tt], by simp [infer, Tok.tt]⟩⟩
      | cons u r =>
        have hu : u.tt ≠ .ky := by
          cases u with
          | ky k => have := h2.1.1; simp only [ssStep] at this; rw [hL] at this; cases this
          | _ => simp [Tok.tt]
        have hc : Tok.tt .com = .com := rfl
        exact ⟨by simp [infer, hc, hu], fun _ => ⟨by simp [infer, hc, hu], by simp [infer, hc, hu]⟩⟩

theorem fits_end {rest : List Tok} (hf : fitsAll [] .post rest) : rest = [] := by
  cases rest with
  | nil => rfl
  | cons t r =>
    obtain ⟨h1, h2⟩ := hf
    cases t with
    | lcb p => rcases h1.1 with h | ⟨h, _⟩ <;> cases h
    | lb p => rcases h1.1 with h | ⟨h, _⟩ <;> cases h
    | pri x => exact absurd rfl h1.2
    | ky k => cases h1.1
    | rcb p => cases h1.1
    | rb p => cases h1.1
    | com => exact absurd rfl h1.2

/-! ### Combination with one path -/

/-- The state of `combine` (parallel_automata_execution.h:133-145) with one path: the entries, the current one first; the
syntax stack; the tuples. -/
structure Comb where
  p : List Elt
  ss : List Sym
  tl : List Tuple

/-- State of the current entry. -/
def Comb.st (C : Comb) : Nat := match C.p with
  | e :: _ => e.st
  | [] => 0

/-- `count++` for the current entry. -/
def Comb.incr (C : Comb) : Comb := { C with p := match C.p with
  | e :: t => ⟨e.st, e.count + 1, e.ms⟩ :: t
  | [] => [] }

/-- One unmatched symbol (`K.sym`, parallel_automata_execution.h:163-268) if the entries concerned are not selected. -/
def csym (d : QDfa) (C : Comb) (x : USym × Nat) : Comb :=
  match x.1 with
  | .rcb =>
    if C.ss.length = 1 then { C with ss := pop C.ss }
    else if C.ss.length > 1 then
      if secondTop C.ss = some .ky then { C with p := C.p.tail, ss := pop (pop C.ss) }
      else if secondTop C.ss = some .lb then
        { C.incr with ss := pop C.ss, tl := C.tl ++ (if d.accept C.st = .predicate then [⟨C.st, ['}']⟩] else []) }
      else C
    else C
  | .rb =>
    if C.ss.length = 1 then { C with p := C.p.tail, ss := pop C.ss }
    else if C.ss.length > 1 then
      if secondTop C.ss = some .ky then { C with p := C.p.tail.tail, ss := pop (pop C.ss) }
      else if secondTop C.ss = some .lb then Comb.incr { C with p := C.p.tail, ss := pop C.ss }
      else C
    else C
  | .object | .array => { C with p := C.p.tail, ss := pop C.ss }
  | .pri => C

/-- The tuples found by the worker if it began in the right state (`K.unit`, parallel_automata_execution.h:306-345). -/
def Comb.take (s : Str) (C : Comb) (outs : Nat → List MTuple) : Comb :=
  { C with tl := C.tl ++ (if C.st = 0 then [] else (outs C.st).map (resolve s)) }

/-- One unit (`K.unit`, parallel_automata_execution.h:154-346). -/
def cunit (d : QDfa) (s : Str) (C : Comb) (u : List (USym × Nat) × (Nat → List MTuple)) : Comb :=
  (u.1.foldl (csym d) C).take s u.2

/-- What is assumed where a chunk begins: no entry has a slice, and no selected container is open. -/
structure CInv (d : QDfa) (n : Nat) (C : Comb) : Prop where
  len : C.p.length = nk C.ss + 1
  idx : ∀ e ∈ C.p, NoIdx d e.st
  bnd : ∀ e ∈ C.p, e.st < n
  low : ∀ e ∈ C.p.tail, d.accept e.st ≠ .output
  cur : top C.ss = some .lcb → d.accept C.st ≠ .output
  ky : top C.ss ≠ some .ky

/-- The closings are those of open constructs, and the entries concerned are as in `CInv`. -/
def symsOK (d : QDfa) (n : Nat) : Comb → List (USym × Nat) → Prop
  | _, [] => True
  | C, x :: xs => (CInv d n C ∧ ((x.1 = .rcb ∧ top C.ss = some .lcb) ∨ (x.1 = .rb ∧ top C.ss = some .lb))) ∧
      symsOK d n (csym d C x) xs

/-- The same for all units. -/
def unitsOK (d : QDfa) (n : Nat) (s : Str) : Comb → List (List (USym × Nat) × (Nat → List MTuple)) → Prop
  | _, [] => True
  | C, u :: us => symsOK d n C u.1 ∧ CInv d n (u.1.foldl (csym d) C) ∧ unitsOK d n s (cunit d s C u) us

theorem symsOK_snoc {d : QDfa} {n : Nat} {x : USym × Nat} : ∀ {xs : List (USym × Nat)} {C : Comb}, symsOK d n C xs →
    CInv d n (xs.foldl (csym d) C) → ((x.1 = .rcb ∧ top (xs.foldl (csym d) C).ss = some .lcb) ∨
      (x.1 = .rb ∧ top (xs.foldl (csym d) C).ss = some .lb)) → symsOK d n C (xs ++ [x])
  | [], _, _, h1, h2 => ⟨⟨h1, h2⟩, trivial⟩
  | _ :: _, _, h, h1, h2 => ⟨h.1, symsOK_snoc h.2 h1 h2⟩

theorem unitsOK_snoc {d : QDfa} {n : Nat} {s : Str} {u : List (USym × Nat) × (Nat → List MTuple)} :
    ∀ {us : List (List (USym × Nat) × (Nat → List MTuple))} {C : Comb}, unitsOK d n s C us →
    symsOK d n (us.foldl (cunit d s) C) u.1 → CInv d n (u.1.foldl (csym d) (us.foldl (cunit d s) C)) → unitsOK d n s C (us ++ [u])
  | [], _, _, h1, h2 => ⟨h1, h2, trivial⟩
  | _ :: _, _, h, h1, h2 => ⟨h.1, h.2.1, unitsOK_snoc h.2.2 h1 h2⟩

/-- A path that has seen nothing. -/
def P.isNew (s : Nat) (v : P) : Prop := v.p = [⟨s, 0, none⟩] ∧ v.out = [] ∧ v.ss = [] ∧ v.shadow = []

/-- The invariant. -/
structure Joint (E : WEnv) (n : Nat) (C0 : Comb) (lo : Nat) (m : Mode) (S : SA) (f : Nat → P)
    (us : List (List (USym × Nat) × (Nat → List MTuple))) (C : Comb) : Prop where
  alike : ∀ s, Alike (f s) (f 0)
  units : ∀ s, (f s).units = us.map fun u => (u.1, u.2 s)
  inv : ∀ s, PInv E n s (f s)
  comb : C = (f 0).syms.foldl (csym E.d) (us.foldl (cunit E.d E.s) C0)
  ok : CInv E.d n C
  rel : Rel E C0.tl C.tl C.p.tail C.ss S (f C.st)
  fresh : (f 0).st ≠ .matched → ∀ s, (f s).isNew s
  shad : (f 0).shadow = [] ∨ ((f 0).shadow = [.lb] ∧ top C.ss = some .lb)
  wf : wfStack S.ss
  mode : modeOK S.ss m
  low : C.ss.length = lo
  uok : unitsOK E.d n E.s C0 us
  sok : symsOK E.d n (us.foldl (cunit E.d E.s) C0) (f 0).syms
  closed : C0.ss = [] → us = [] ∧ (f 0).syms = []

section
variable {E : WEnv} {n lo : Nat} {C0 C : Comb} {m : Mode} {S : SA} {f : Nat → P}
  {us : List (List (USym × Nat) × (Nat → List MTuple))}

theorem Joint.ss (h : Joint E n C0 lo m S f us C) : S.ss = (f 0).ss ++ C.ss := by rw [h.rel.ss, (h.alike _).ss]

theorem Joint.len (h : Joint E n C0 lo m S f us C) (s : Nat) : (f s).p.length = nk (f 0).ss + 1 := by
  have := h.rel.len
  rw [(h.alike _).len, (h.alike _).ss] at this
  rw [(h.alike s).len, this]

/-- A step inside the chunk. -/
theorem Joint.content (h : Joint E n C0 lo m S f us C) {t : Tok} {rest : List Tok} (hfit : fits S.ss m t)
    (hk : ∀ s, Keeps (f s) ((f s).step E s t rest)) (hi : ∀ s, PInv E n s ((f s).step E s t rest))
    (hr : Rel E C0.tl C.tl C.p.tail C.ss (step E.d E.s S t) ((f C.st).step E C.st t rest))
    (hst : ((f 0).step E 0 t rest).st = .matched)
    (hsh : ((f 0).step E 0 t rest).shadow = (f 0).shadow ∨ (((f 0).step E 0 t rest).shadow = [.lb] ∧ top C.ss = some .lb)) :
    Joint E n C0 (min lo (step E.d E.s S t).ss.length) t.mode (step E.d E.s S t) (fun s => (f s).step E s t rest) us C where
  alike s := (h.alike s).step s 0 t rest
  units s := by rw [(hk s).units]; exact h.units s
  inv := hi
  comb := by rw [(hk 0).syms]; exact h.comb
  ok := h.ok
  rel := hr
  fresh hne := absurd hst hne
  shad := by
    rcases hsh with hsh | hsh
    · rw [hsh]; exact h.shad
    · exact .inr hsh
  wf := by rw [step_ss]; exact (wf_step h.wf h.mode hfit).1
  mode := by rw [step_ss]; exact (wf_step h.wf h.mode hfit).2
  low := by
    have : C.ss.length ≤ (step E.d E.s S t).ss.length := by rw [hr.ss]; simp
    have := h.low
    omega
  uok := h.uok
  sok := by rw [(hk 0).syms]; exact h.sok
  closed := by rw [(hk 0).syms]; exact h.closed


theorem Joint.matched (h : Joint E n C0 lo m S f us C) (hne : (f 0).ss ≠ []) : (f 0).st = .matched := by
  refine Classical.byContradiction fun hst => hne ?_
  exact ((h.fresh hst 0).2.2.1)

theorem Joint.step_open (h : Joint E n C0 lo m S f us C) (hd : Dead E.d n) {t : Tok} {rest : List Tok} (hfit : fits S.ss m t)
    (ht : (∃ p, t = .lcb p) ∨ (∃ p, t = .lb p) ∨ ∃ k, t = .ky k) :
    Joint E n C0 (min lo (step E.d E.s S t).ss.length) t.mode (step E.d E.s S t) (fun s => (f s).step E s t rest) us C := by
  rcases ht with ⟨p, rfl⟩ | ⟨p, rfl⟩ | ⟨k, rfl⟩
  · refine h.content hfit (fun s => ?_) (fun s => ?_) (h.rel.lcb _ _ _ hfit.2) ?_ (.inl ?_)
    · exact ⟨(cur_fields _ _).1, (cur_fields _ _).2.1⟩
    · refine PInv.cur (v := { f s with st := .matched, ss := push (f s).ss .lcb }) ?_ (tame_lcb hd p)
      exact (h.inv s).congr rfl rfl
    · exact (cur_fields _ _).2.2.1
    · exact (cur_fields _ _).2.2.2.2
  · refine h.content hfit (fun s => ?_) (fun s => ?_) (h.rel.lb _ _ _ hfit.2) ?_ (.inl ?_)
    · exact ⟨(pushQ_fields _ _ _).1.trans (cur_fields _ _).1, (pushQ_fields _ _ _).2.1.trans (cur_fields _ _).2.1⟩
    · exact PInv.congr (PInv.pushQ hd (PInv.cur (v := { f s with st := .matched }) ((h.inv s).congr rfl rfl) (tame_lb hd p)) none)
        rfl rfl
    · exact (pushQ_fields _ _ _).2.2.1.trans (cur_fields _ _).2.2.1
    · exact (pushQ_fields _ _ _).2.2.2.2.trans (cur_fields _ _).2.2.2.2
  · refine h.content hfit (fun s => ?_) (fun s => ?_) (h.rel.ky _ _ _ hfit.2.2 hfit.1) ?_ (.inl ?_)
    · exact ⟨(pushQ_fields _ _ _).1, (pushQ_fields _ _ _).2.1⟩
    · exact PInv.congr (PInv.pushQ hd (v := { f s with st := .matched }) ((h.inv s).congr rfl rfl) (some k)) rfl rfl
    · exact (pushQ_fields _ _ _).2.2.1
    · exact (pushQ_fields _ _ _).2.2.2.2

theorem Joint.step_com (h : Joint E n C0 lo m S f us C) {rest : List Tok} (hfit : fits S.ss m .com) :
    Joint E n C0 (min lo (step E.d E.s S .com).ss.length) .com (step E.d E.s S .com) (fun s => (f s).step E s .com rest) us C where
  alike := h.alike
  units := h.units
  inv := h.inv
  comb := h.comb
  ok := h.ok
  rel := h.rel
  fresh := h.fresh
  shad := h.shad
  wf := h.wf
  mode := (wf_step h.wf h.mode hfit).2
  low := by
    have h1 : C.ss.length ≤ S.ss.length := by rw [h.rel.ss]; simp
    have h2 := h.low
    show C.ss.length = min lo S.ss.length
    omega
  uok := h.uok
  sok := h.sok
  closed := h.closed

/-- With nothing opened in the chunk, a value is an element of an array. -/
theorem Joint.top_lb (h : Joint E n C0 lo m S f us C) (hv : (f 0).ss = []) (hne : S.ss ≠ []) (hval : valueAt S.ss m) :
    top C.ss = some .lb ∧ S.ss = C.ss := by
  have hs : S.ss = C.ss := by rw [h.ss, hv]; rfl
  refine ⟨?_, hs⟩
  rcases hval with hm | hm
  · rcases h.mode.1 hm with h1 | h1
    · exact absurd h1 hne
    · rw [hs] at h1; exact absurd h1 h.ok.ky
  · rw [← hs]; exact hm.1

theorem Joint.shad' (h : Joint E n C0 lo m S f us C) (s : Nat) : (f s).shadow = [] ∨ (f s).shadow = [.lb] := by
  rw [(h.alike s).shadow]
  exact h.shad.imp_right And.left

theorem Joint.step_pri (h : Joint E n C0 lo m S f us C) (hd : Dead E.d n) {x : Str} {rest : List Tok} (hfit : fitsAll S.ss m (.pri x :: rest))
    (hcl : S.ss.length ≤ lo → E.d.matchedType S.elt.st S.elt.count = .output ∨ E.d.matchedType S.elt.st S.elt.count = .condition →
      clobber x rest = x) :
    Joint E n C0 (min lo (step E.d E.s S (.pri x)).ss.length) .post (step E.d E.s S (.pri x)) (fun s => (f s).step E s (.pri x) rest)
      us C := by
  have hf1 := hfit.1
  by_cases hv : (f 0).ss = []
  · obtain ⟨htop, hs⟩ := h.top_lb hv hf1.2 hf1.1
    have hi : infer .pri rest = some .lb := by
      have h2 := hfit.2
      have h3 : ssStep S.ss (.pri x) = S.ss := by
        simp only [ssStep, hs, htop]; rfl
      rw [h3] at h2
      exact (infer_lb (by rw [hs]; exact htop) h2).1
    have hv' : ∀ s, (f s).ss = [] := fun s => by rw [(h.alike s).ss, hv]
    refine h.content (t := .pri x) hf1 (fun s => ?_) (fun s => ?_) ?_ ?_ (.inr ⟨?_, htop⟩)
    · rw [pri_root (hv' s) (h.shad' s) hi]
      exact ⟨(cur_fields _ _).1, (cur_fields _ _).2.1⟩
    · rw [pri_root (hv' s) (h.shad' s) hi]
      refine PInv.cur ?_ (tame_pri hd _ _)
      exact (h.inv s).congr rfl rfl
    · rw [pri_root (hv' _) (h.shad' _) hi]
      refine h.rel.priRoot x _ _ _ (by rw [hs]; exact htop) fun hx => ?_
      split
      · exact hcl (by rw [hs]; exact Nat.le_of_eq h.low) hx
      · rfl
    · rw [pri_root hv (h.shad' 0) hi]; exact (cur_fields _ _).2.2.1
    · rw [pri_root hv (h.shad' 0) hi]; exact (cur_fields _ _).2.2.2.2
  · have hv' : ∀ s, (f s).ss ≠ [] := fun s => by rw [(h.alike s).ss]; exact hv
    have htop : top S.ss = some .ky ∨ top S.ss = some .lb := by
      rcases hf1.1 with hm | hm
      · rcases h.mode.1 hm with h1 | h1
        · exact absurd h1 hf1.2
        · exact .inl h1
      · exact .inr hm.1
    have hlen : ∀ s, top (f s).ss = some .ky → 2 ≤ (f s).p.length := by
      intro s ht
      rw [h.len s]
      rw [(h.alike s).ss] at ht
      cases h1 : (f 0).ss with
      | nil => exact absurd h1 hv
      | cons y r =>
        rw [h1] at ht
        have : y = .ky := by simpa [top] using ht
        rw [this]; simp [nk]
    refine h.content (t := .pri x) hf1 (fun s => ?_) (fun s => ?_) (h.rel.priTop _ _ _ (hv' _) htop) ?_ (.inl ?_)
    · rw [pri_in (hv' s)]
      split
      · exact ⟨(cur_fields _ _).1, (cur_fields _ _).2.1⟩
      · exact ⟨(cur_fields _ _).1, (cur_fields _ _).2.1⟩
    · rw [pri_in (hv' s)]
      have h1 := (h.inv s).cur (tame_pri (E := E) hd x (decide (top (f s).ss = some .lb)))
      split
      next ht => exact (h1.popQ (by rw [cur_len]; exact hlen s ht)).congr rfl rfl
      · exact h1
    · rw [pri_in hv]
      split
      · exact (cur_fields _ _).2.2.1.trans (h.matched hv)
      · exact (cur_fields _ _).2.2.1.trans (h.matched hv)
    · rw [pri_in hv]
      split
      · exact (cur_fields _ _).2.2.2.2
      · exact (cur_fields _ _).2.2.2.2


theorem Joint.step_rcb_in (h : Joint E n C0 lo m S f us C) (hd : Dead E.d n) {p : Nat} {rest : List Tok}
    (hfit : fitsAll S.ss m (.rcb p :: rest)) (hstop : stopsAt (rest.foldl ssStep (ssStep S.ss (.rcb p))) (modeAfter .post rest))
    (hv : (f 0).ss ≠ []) :
    Joint E n C0 (min lo (step E.d E.s S (.rcb p)).ss.length) .post (step E.d E.s S (.rcb p)) (fun s => (f s).step E s (.rcb p) rest)
      us C := by
  have hf1 := hfit.1
  have hst := h.matched hv
  cases hL : (f 0).ss with
  | nil => exact absurd hL hv
  | cons x r =>
    have hS : S.ss = x :: (r ++ C.ss) := by rw [h.ss, hL]; rfl
    have hx : x = .lcb := by
      have := hf1.1
      rw [hS] at this; simpa [top] using this
    subst hx
    have hss : ∀ s, (f s).ss = .lcb :: r := fun s => by rw [(h.alike s).ss, hL]
    have hlen : ∀ s, (f s).p.length = nk r + 1 := fun s => by rw [h.len s, hL]; rfl
    have hrel := h.rel.closeCur p hf1.1
    have hSo : (rcbOutput E.d E.s p S).ss = S.ss := by rw [hrel.ss, (cur_fields _ _).2.2.2.1, h.rel.ss]
    have hpi : ∀ s, PInv E n s ((f s).cur (closeAct E false p)) := fun s => (h.inv s).cur (tame_close hd false p)
    have hwf := h.wf
    rw [hS] at hwf
    have hw := wf_below hwf (by simp)
    cases r with
    | cons y r =>
      cases y with
      | lcb => rcases hw with hw | ⟨q, hw⟩ | ⟨q, hw⟩ <;> simp at hw
      | lb =>
        refine h.content (t := .rcb p) hf1 (fun s => ?_) (fun s => ?_) ?_ ?_ (.inl ?_)
        · rw [rcb_elem (hss s)]
          exact ⟨(cur_fields _ _).1.trans (cur_fields _ _).1, (cur_fields _ _).2.1.trans (cur_fields _ _).2.1⟩
        · rw [rcb_elem (hss s)]
          refine PInv.cur ?_ (tame_elem hd false)
          exact (hpi s).congr rfl rfl
        · rw [rcb_elem (hss _)]
          have := hrel.endElem false ((f C.st).cur (closeAct E false p)).shadow (r := .lb :: r) (q := r ++ C.ss)
            (by rw [(cur_fields _ _).2.2.2.1, hss]) (by rw [hSo, hS]; rfl)
          rw [(cur_fields _ _).2.2.2.1] at this
          exact this
        · rw [rcb_elem (hss 0)]; exact (cur_fields _ _).2.2.1.trans ((cur_fields _ _).2.2.1.trans hst)
        · rw [rcb_elem (hss 0)]; exact (cur_fields _ _).2.2.2.2.trans (cur_fields _ _).2.2.2.2
      | ky =>
        refine h.content (t := .rcb p) hf1 (fun s => ?_) (fun s => ?_) ?_ ?_ (.inl ?_)
        · rw [rcb_key (hss s)]
          exact ⟨(cur_fields _ _).1, (cur_fields _ _).2.1⟩
        · rw [rcb_key (hss s)]
          exact ((hpi s).popQ (by rw [cur_len, hlen s]; simp [nk])).congr rfl rfl
        · rw [rcb_key (hss _)]
          have := hrel.endKey (r := r) (by rw [(cur_fields _ _).2.2.2.1, hss])
          rw [(cur_fields _ _).2.2.2.1] at this
          exact this
        · rw [rcb_key (hss 0)]; exact (cur_fields _ _).2.2.1.trans hst
        · rw [rcb_key (hss 0)]; exact (cur_fields _ _).2.2.2.2
    | nil =>
      have hw : C.ss = [] ∨ (∃ q, C.ss = .lb :: q) ∨ ∃ q, C.ss = .ky :: .lcb :: q := hw
      rcases hw with hC | ⟨q, hC⟩ | ⟨q, hC⟩
      · have hr : rest = [] := by
          have h2 := hfit.2
          have h3 : ssStep S.ss (.rcb p) = [] := by rw [hS, hC]; rfl
          rw [h3] at h2
          exact fits_end h2
        have hi : infer .rcb rest = none := by rw [hr]; rfl
        have hsh : ∀ s, (f s).shadow = [] := by
          intro s
          rw [(h.alike s).shadow]
          rcases h.shad with h1 | h1
          · exact h1
          · rw [hC] at h1; simp [top] at h1
        refine h.content (t := .rcb p) hf1 (fun s => ?_) (fun s => ?_) ?_ ?_ (.inl ?_)
        · rw [rcb_top (hss s) (hsh s) hi]
          exact ⟨(cur_fields _ _).1, (cur_fields _ _).2.1⟩
        · rw [rcb_top (hss s) (hsh s) hi]
          exact (hpi s).congr rfl rfl
        · rw [rcb_top (hss _) (hsh _) hi]
          rw [hC] at hrel ⊢
          have := hrel.endTop (by rw [(cur_fields _ _).2.2.2.1, hss])
          rw [(cur_fields _ _).2.2.2.1] at this
          exact this
        · rw [rcb_top (hss 0) (hsh 0) hi]; exact (cur_fields _ _).2.2.1.trans hst
        · rw [rcb_top (hss 0) (hsh 0) hi]; exact (cur_fields _ _).2.2.2.2
      · have h3 : ssStep S.ss (.rcb p) = .lb :: q := by rw [hS, hC]; rfl
        have hi : infer .rcb rest = some .lb := by
          have h2 := hfit.2
          rw [h3] at h2 hstop
          refine ((infer_lb rfl h2).2 fun hr => ?_).1
          rw [hr] at hstop
          rcases hstop with h | h | h <;> cases h
        refine h.content (t := .rcb p) hf1 (fun s => ?_) (fun s => ?_) ?_ ?_ (.inr ⟨?_, by rw [hC]; rfl⟩)
        · rw [rcb_root (hss s) (h.shad' s) hi]
          exact ⟨(cur_fields _ _).1.trans (cur_fields _ _).1, (cur_fields _ _).2.1.trans (cur_fields _ _).2.1⟩
        · rw [rcb_root (hss s) (h.shad' s) hi]
          refine PInv.cur ?_ (tame_elem hd true)
          exact (hpi s).congr rfl rfl
        · rw [rcb_root (hss _) (h.shad' _) hi]
          have := hrel.endElem true [.lb] (r := []) (q := q)
            (by rw [(cur_fields _ _).2.2.2.1, hss]) (by rw [hSo, hS, hC]; rfl)
          rw [(cur_fields _ _).2.2.2.1] at this
          exact this
        · rw [rcb_root (hss 0) (h.shad' 0) hi]; exact (cur_fields _ _).2.2.1.trans ((cur_fields _ _).2.2.1.trans hst)
        · rw [rcb_root (hss 0) (h.shad' 0) hi]; exact (cur_fields _ _).2.2.2.2
      · exact absurd (by rw [hC]; rfl) h.ok.ky

theorem Joint.step_rb_in (h : Joint E n C0 lo m S f us C) (hd : Dead E.d n) {p : Nat} {rest : List Tok}
    (hfit : fitsAll S.ss m (.rb p :: rest)) (hstop : stopsAt (rest.foldl ssStep (ssStep S.ss (.rb p))) (modeAfter .post rest))
    (hv : (f 0).ss ≠ []) :
    Joint E n C0 (min lo (step E.d E.s S (.rb p)).ss.length) .post (step E.d E.s S (.rb p)) (fun s => (f s).step E s (.rb p) rest)
      us C := by
  have hf1 := hfit.1
  have hst := h.matched hv
  cases hL : (f 0).ss with
  | nil => exact absurd hL hv
  | cons x r =>
    have hS : S.ss = x :: (r ++ C.ss) := by rw [h.ss, hL]; rfl
    have hx : x = .lb := by
      have := hf1.1
      rw [hS] at this; simpa [top] using this
    subst hx
    have hss : ∀ s, (f s).ss = .lb :: r := fun s => by rw [(h.alike s).ss, hL]
    have hlen : ∀ s, (f s).p.length = nk r + 2 := fun s => by rw [h.len s, hL]; rfl
    have hpi : ∀ s, PInv E n s ((f s).below (closeAct E true p)) := fun s => (h.inv s).below (tame_close hd true p)
    have hpo : ∀ s, PInv E n s ((f s).below (closeAct E true p)).popQ := fun s =>
      (hpi s).popQ (by rw [below_len, hlen s]; omega)
    have hwf := h.wf
    rw [hS] at hwf
    have hw := wf_below hwf (by simp)
    cases r with
    | cons y r =>
      cases y with
      | lcb => rcases hw with hw | ⟨q, hw⟩ | ⟨q, hw⟩ <;> simp at hw
      | lb =>
        refine h.content (t := .rb p) hf1 (fun s => ?_) (fun s => ?_) ?_ ?_ (.inl ?_)
        · rw [rb_elem (hss s)]
          exact ⟨(cur_fields _ _).1.trans (below_fields _ _).1, (cur_fields _ _).2.1.trans (below_fields _ _).2.1⟩
        · rw [rb_elem (hss s)]
          refine PInv.cur ?_ (tame_incr E)
          exact (hpo s).congr rfl rfl
        · rw [rb_elem (hss _)]
          exact h.rel.rbElem p ((f C.st).below (closeAct E true p)).shadow (r := .lb :: r) (q := r ++ C.ss) (hss _) rfl
        · rw [rb_elem (hss 0)]; exact (cur_fields _ _).2.2.1.trans ((below_fields _ _).2.2.1.trans hst)
        · rw [rb_elem (hss 0)]; exact (cur_fields _ _).2.2.2.2.trans (below_fields _ _).2.2.2.2
      | ky =>
        refine h.content (t := .rb p) hf1 (fun s => ?_) (fun s => ?_) ?_ ?_ (.inl ?_)
        · rw [rb_key (hss s)]
          exact ⟨(below_fields _ _).1, (below_fields _ _).2.1⟩
        · rw [rb_key (hss s)]
          exact ((hpo s).popQ (by
            show 2 ≤ ((f s).below (closeAct E true p)).p.tail.length
            rw [List.length_tail, below_len, hlen s]; simp [nk])).congr rfl rfl
        · rw [rb_key (hss _)]
          exact h.rel.rbKey p (hss _)
        · rw [rb_key (hss 0)]; exact (below_fields _ _).2.2.1.trans hst
        · rw [rb_key (hss 0)]; exact (below_fields _ _).2.2.2.2
    | nil =>
      have hw : C.ss = [] ∨ (∃ q, C.ss = .lb :: q) ∨ ∃ q, C.ss = .ky :: .lcb :: q := hw
      rcases hw with hC | ⟨q, hC⟩ | ⟨q, hC⟩
      · have hr : rest = [] := by
          have h2 := hfit.2
          have h3 : ssStep S.ss (.rb p) = [] := by rw [hS, hC]; rfl
          rw [h3] at h2
          exact fits_end h2
        have hi : infer .rb rest = none := by rw [hr]; rfl
        have hsh : ∀ s, (f s).shadow = [] := by
          intro s
          rw [(h.alike s).shadow]
          rcases h.shad with h1 | h1
          · exact h1
          · rw [hC] at h1; simp [top] at h1
        refine h.content (t := .rb p) hf1 (fun s => ?_) (fun s => ?_) ?_ ?_ (.inl ?_)
        · rw [rb_top (hss s) (hsh s) hi]
          exact ⟨(below_fields _ _).1, (below_fields _ _).2.1⟩
        · rw [rb_top (hss s) (hsh s) hi]
          exact (hpo s).congr rfl rfl
        · rw [rb_top (hss _) (hsh _) hi]
          have hrel := h.rel
          rw [hC] at hrel ⊢
          exact hrel.rbTop p ((f C.st).below (closeAct E true p)).shadow (hss _)
        · rw [rb_top (hss 0) (hsh 0) hi]; exact (below_fields _ _).2.2.1.trans hst
        · rw [rb_top (hss 0) (hsh 0) hi]; exact (below_fields _ _).2.2.2.2
      · have h3 : ssStep S.ss (.rb p) = .lb :: q := by rw [hS, hC]; rfl
        have hi : infer .rb rest = some .lb := by
          have h2 := hfit.2
          rw [h3] at h2 hstop
          refine ((infer_lb rfl h2).2 fun hr => ?_).2
          rw [hr] at hstop
          rcases hstop with h | h | h <;> cases h
        refine h.content (t := .rb p) hf1 (fun s => ?_) (fun s => ?_) ?_ ?_ (.inr ⟨?_, by rw [hC]; rfl⟩)
        · rw [rb_root (hss s) (h.shad' s) hi]
          exact ⟨(cur_fields _ _).1.trans (below_fields _ _).1, (cur_fields _ _).2.1.trans (below_fields _ _).2.1⟩
        · rw [rb_root (hss s) (h.shad' s) hi]
          refine PInv.cur ?_ (tame_incr E)
          exact (hpo s).congr rfl rfl
        · rw [rb_root (hss _) (h.shad' _) hi]
          exact h.rel.rbElem p [.lb] (r := []) (q := q) (hss _) hC
        · rw [rb_root (hss 0) (h.shad' 0) hi]; exact (cur_fields _ _).2.2.1.trans ((below_fields _ _).2.2.1.trans hst)
        · rw [rb_root (hss 0) (h.shad' 0) hi]; exact (cur_fields _ _).2.2.2.2
      · exact absurd (by rw [hC]; rfl) h.ok.ky


/-! ### Closing brackets of constructs opened before the chunk -/

/-- The combined state is that of the serial automaton. -/
structure CRel (d : QDfa) (pre : List Tuple) (C : Comb) (S : SA) : Prop where
  ss : S.ss = C.ss
  path : ∃ c kp, C.p = c :: kp ∧ ERel d S.elt c ∧ All2 (QRel d) S.qs kp
  tl : pre ++ S.tl = C.tl

theorem CRel.new {pre : List Tuple} (h : CRel E.d pre C S) (hc : CInv E.d n C) {v : P} (hv : v.isNew C.st) :
    Rel E pre C.tl C.p.tail C.ss S v := by
  obtain ⟨hss, ⟨c, kp, hp, he, hq⟩, htl⟩ := h
  have hst : C.st = c.st := by simp [Comb.st, hp]
  have hi : NoIdx E.d c.st := hc.idx c (by rw [hp]; exact List.mem_cons_self)
  obtain ⟨h1, h2, h3, h4⟩ := hv
  rw [hst] at h1
  refine ⟨by rw [h3]; exact hss, ⟨_, [], h1, ⟨he.st, .inr (by rw [he.st]; exact hi)⟩, fun ht hm => ?_, by rw [hp]; exact hq⟩, ?_, ?_, ?_, ?_⟩
  · rw [hss] at ht
    have h5 := hc.cur ht
    have h6 : NoIdx E.d S.elt.st := by rw [he.st]; exact hi
    rw [h6.matchedType, he.st, ← hst] at hm
    exact absurd hm h5
  · intro l e hl
    rw [h1] at hl
    cases l with
    | nil => simp at hl; rw [← hl]; exact hi
    | cons y l => simp at hl
  · rw [h1, h3]; rfl
  · have := hc.len
    rw [hp] at this ⊢
    simpa using this
  · rw [h2, htl]; simp

theorem CRel.rcb {pre : List Tuple} (h : CRel E.d pre C S) (hc : CInv E.d n C) (hw : wfStack S.ss) (ht : top S.ss = some .lcb)
    (p i : Nat) : CInv E.d n (csym E.d C (.rcb, i)) ∧ CRel E.d pre (csym E.d C (.rcb, i)) (step E.d E.s S (.rcb p)) ∧
      (csym E.d C (.rcb, i)).ss.length ≤ C.ss.length := by
  obtain ⟨hss, ⟨c, kp, hp, he, hq⟩, htl⟩ := h
  have hst : C.st = c.st := by simp [Comb.st, hp]
  have hi : NoIdx E.d c.st := hc.idx c (by rw [hp]; exact List.mem_cons_self)
  have hi' : NoIdx E.d S.elt.st := by rw [he.st]; exact hi
  have hacc : E.d.accept c.st ≠ .output := by rw [← hst]; exact hc.cur (by rw [← hss]; exact ht)
  have hout : E.d.matchedType S.elt.st S.elt.count ≠ .output := by rw [hi'.matchedType, he.st]; exact hacc
  have hno : rcbOutput E.d E.s p S = S := by
    simp only [rcbOutput, hout, and_false, if_false, SA.closeOutput]
    cases S.elt.ms <;> simp
  have hstep : step E.d E.s S (.rcb p) = rcbEnd E.d S := by
    show stepRcb E.d E.s p S = _
    rw [stepRcb_end, hno]
  rw [hstep]
  cases hS : S.ss with
  | nil => rw [hS] at ht; cases ht
  | cons x r =>
    have hx : x = .lcb := by rw [hS] at ht; simpa [top] using ht
    subst hx
    rw [hS] at hw hss
    have hlen := hc.len
    have hidx := hc.idx
    have hbnd := hc.bnd
    have hlow := hc.low
    rw [← hss] at hlen
    rw [hp] at hlen hidx hbnd hlow
    rcases wf_below hw (by simp) with rfl | ⟨q, rfl⟩ | ⟨q, rfl⟩
    · have h1 : csym E.d C (.rcb, i) = { C with ss := [] } := by simp [csym, ← hss, pop]
      have h2 : rcbEnd E.d S = { S with ss := [] } := by simp [rcbEnd, hS, pop]
      rw [h1, h2]
      refine ⟨⟨?_, hc.idx, hc.bnd, hc.low, fun h => (by cases h), fun h => (by cases h)⟩, ⟨rfl, ⟨c, kp, hp, he, hq⟩, htl⟩, by simp⟩
      rw [hp, hlen]; rfl
    · have h1 : csym E.d C (.rcb, i) = ⟨⟨c.st, c.count + 1, c.ms⟩ :: kp, .lb :: q,
          C.tl ++ (if E.d.accept c.st = .predicate then [⟨c.st, ['}']⟩] else [])⟩ := by
        simp [csym, ← hss, pop, secondTop, Comb.incr, hp, hst]
      rw [h1]
      refine ⟨⟨?_, ?_, ?_, hlow, fun h => (by cases h), fun h => (by cases h)⟩, ⟨?_, ⟨_, kp, rfl, ?_, ?_⟩, ?_⟩, by simp [← hss]⟩
      · simpa [nk] using hlen
      · intro e he
        rcases List.mem_cons.1 he with rfl | he
        · exact hi
        · exact hidx e (List.mem_cons_of_mem _ he)
      · intro e he
        rcases List.mem_cons.1 he with rfl | he
        · exact hbnd c List.mem_cons_self
        · exact hbnd e (List.mem_cons_of_mem _ he)
      · have := (step_ss E.d E.s S (.rcb p)).symm
        rw [hstep, hS] at this
        rw [← this]; simp [ssStep, secondTop, pop]
      · simp only [rcbEnd, hS, secondTop, pop]
        simp
        split
        · exact ⟨he.st, .inr hi'⟩
        · exact ⟨he.st, .inr hi'⟩
      · simp only [rcbEnd, hS, secondTop, pop]
        simp
        split
        · exact hq
        · exact hq
      · have hpd : E.d.matchedType S.elt.st (S.elt.count + 1) = .predicate ↔ E.d.accept c.st = .predicate := by
          rw [matchedType_pred, he.st]
        simp only [rcbEnd, hS, secondTop, pop]
        simp
        simp only [hpd]
        split
        · simp [SA.addTuple, ← htl, he.st]
        · simp [← htl]
    · cases kp with
      | nil => simp [nk] at hlen
      | cons k kp =>
        cases hqs : S.qs with
        | nil => rw [hqs] at hq; cases hq
        | cons q1 Q =>
          rw [hqs] at hq
          obtain ⟨hq1, hq2⟩ : QRel E.d q1 k ∧ All2 (QRel E.d) Q kp := by cases hq; exact ⟨‹_›, ‹_›⟩
          have h1 : csym E.d C (.rcb, i) = ⟨k :: kp, .lcb :: q, C.tl⟩ := by
            simp [csym, ← hss, pop, secondTop, hp]
          have h2 : rcbEnd E.d S = { S with elt := q1, qs := Q, ss := .lcb :: q } := by
            simp [rcbEnd, hS, secondTop, pop, SA.popQ, hqs]
          rw [h1, h2]
          refine ⟨⟨?_, ?_, ?_, ?_, fun h => ?_, fun h => (by cases h)⟩, ⟨rfl, ⟨_, _, rfl, hq1.1, hq2⟩, htl⟩, by simp [← hss]⟩
          · simpa [nk] using hlen
          · exact fun e he => hidx e (List.mem_cons_of_mem _ he)
          · exact fun e he => hbnd e (List.mem_cons_of_mem _ he)
          · exact fun e he => hlow e (List.mem_cons_of_mem _ he)
          · exact hlow k List.mem_cons_self

theorem CRel.rb {pre : List Tuple} (h : CRel E.d pre C S) (hc : CInv E.d n C) (hw : wfStack S.ss) (ht : top S.ss = some .lb)
    (p i : Nat) : CInv E.d n (csym E.d C (.rb, i)) ∧ CRel E.d pre (csym E.d C (.rb, i)) (step E.d E.s S (.rb p)) ∧
      (csym E.d C (.rb, i)).ss.length ≤ C.ss.length := by
  obtain ⟨hss, ⟨c, kp, hp, he, hq⟩, htl⟩ := h
  cases hS : S.ss with
  | nil => rw [hS] at ht; cases ht
  | cons x r =>
    have hx : x = .lb := by rw [hS] at ht; simpa [top] using ht
    subst hx
    rw [hS] at hw hss
    have hlen := hc.len
    have hidx := hc.idx
    have hbnd := hc.bnd
    have hlow := hc.low
    rw [← hss] at hlen
    rw [hp] at hlen hidx hbnd hlow
    cases kp with
    | nil => simp [nk] at hlen
    | cons k kp =>
      cases hqs : S.qs with
      | nil => rw [hqs] at hq; cases hq
      | cons q1 Q =>
        rw [hqs] at hq
        obtain ⟨hq1, hq2⟩ : QRel E.d q1 k ∧ All2 (QRel E.d) Q kp := by cases hq; exact ⟨‹_›, ‹_›⟩
        have hik : NoIdx E.d k.st := hidx k (by simp)
        have hiq : NoIdx E.d q1.st := by rw [hq1.1.st]; exact hik
        have hout : E.d.matchedType q1.st q1.count ≠ .output := by
          rw [hiq.matchedType, hq1.1.st]; exact hlow k List.mem_cons_self
        have hno : JPS.rbOut E.d E.s p S = S := by
          simp only [JPS.rbOut, hqs, top, List.head?_cons, SA.closeOutput, hout, if_false]
          cases q1.ms <;> rfl
        have hstep : step E.d E.s S (.rb p) = rbTail S := by
          rw [stepRb_cons (by rw [hS]; simp), hno]
        rw [hstep]
        rcases wf_below hw (by simp) with rfl | ⟨q, rfl⟩ | ⟨q, rfl⟩
        · have h1 : csym E.d C (.rb, i) = ⟨k :: kp, [], C.tl⟩ := by simp [csym, ← hss, pop, hp]
          have h2 : rbTail S = { S with elt := q1, qs := Q, ss := [] } := by simp [rbTail, hS, pop, SA.popQ, hqs]
          rw [h1, h2]
          refine ⟨⟨?_, ?_, ?_, ?_, fun h => (by cases h), fun h => (by cases h)⟩, ⟨rfl, ⟨_, _, rfl, hq1.1, hq2⟩, htl⟩, by simp⟩
          · simpa [nk] using hlen
          · exact fun e he => hidx e (List.mem_cons_of_mem _ he)
          · exact fun e he => hbnd e (List.mem_cons_of_mem _ he)
          · exact fun e he => hlow e (List.mem_cons_of_mem _ he)
        · have h1 : csym E.d C (.rb, i) = ⟨⟨k.st, k.count + 1, k.ms⟩ :: kp, .lb :: q, C.tl⟩ := by
            simp [csym, ← hss, pop, secondTop, Comb.incr, hp]
          have h2 : rbTail S = { S with elt := ⟨q1.st, q1.count + 1, q1.ms⟩, qs := Q, ss := .lb :: q } := by
            simp [rbTail, hS, secondTop, pop, SA.popQ, hqs]
          rw [h1, h2]
          refine ⟨⟨?_, ?_, ?_, ?_, fun h => (by cases h), fun h => (by cases h)⟩,
            ⟨rfl, ⟨_, _, rfl, hq1.1.incr _ _, hq2⟩, htl⟩, by simp [← hss]⟩
          · simpa [nk] using hlen
          · intro e he
            rcases List.mem_cons.1 he with rfl | he
            · exact hik
            · exact hidx e (List.mem_cons_of_mem _ (List.mem_cons_of_mem _ he))
          · intro e he
            rcases List.mem_cons.1 he with rfl | he
            · exact hbnd k (by simp)
            · exact hbnd e (List.mem_cons_of_mem _ (List.mem_cons_of_mem _ he))
          · exact fun e he => hlow e (List.mem_cons_of_mem _ he)
        · cases kp with
          | nil => simp [nk] at hlen
          | cons k2 kp =>
            cases Q with
            | nil => cases hq2
            | cons q2 Q =>
              obtain ⟨hq2, hq3⟩ : QRel E.d q2 k2 ∧ All2 (QRel E.d) Q kp := by cases hq2; exact ⟨‹_›, ‹_›⟩
              have h1 : csym E.d C (.rb, i) = ⟨k2 :: kp, .lcb :: q, C.tl⟩ := by
                simp [csym, ← hss, pop, secondTop, hp]
              have h2 : rbTail S = { S with elt := q2, qs := Q, ss := .lcb :: q } := by
                simp [rbTail, hS, secondTop, pop, SA.popQ, hqs]
              rw [h1, h2]
              refine ⟨⟨?_, ?_, ?_, ?_, fun h => ?_, fun h => (by cases h)⟩, ⟨rfl, ⟨_, _, rfl, hq2.1, hq3⟩, htl⟩, by simp [← hss]⟩
              · simpa [nk] using hlen
              · exact fun e he => hidx e (List.mem_cons_of_mem _ (List.mem_cons_of_mem _ he))
              · exact fun e he => hbnd e (List.mem_cons_of_mem _ (List.mem_cons_of_mem _ he))
              · exact fun e he => hlow e (List.mem_cons_of_mem _ (List.mem_cons_of_mem _ he))
              · exact hlow k2 (by simp)

/-- Before a closing bracket of a construct opened earlier, all tuples are accounted for. -/
theorem Joint.crel (h : Joint E n C0 lo m S f us C) (hv : (f 0).ss = []) : CRel E.d C0.tl { C with tl := C0.tl ++ S.tl } S := by
  refine ⟨by show S.ss = C.ss; rw [h.ss, hv]; rfl, ?_, rfl⟩
  obtain ⟨e, t, hp, he, _, hq⟩ := h.rel.path
  have hl := h.len C.st
  rw [hp, hv] at hl
  have ht : t = [] := by
    cases t with
    | nil => rfl
    | cons a b => simp [nk] at hl
  subst ht
  obtain ⟨l, c, ms, hr⟩ := (h.inv C.st).root
  rw [hp] at hr
  have hst : e.st = C.st := by
    cases l with
    | nil => simp at hr; rw [hr]
    | cons a b => simp at hr
  have hcl := h.ok.len
  cases hC : C.p with
  | nil => rw [hC] at hcl; simp at hcl
  | cons c kp =>
    have hcs : C.st = c.st := by simp [Comb.st, hC]
    refine ⟨c, kp, rfl, ⟨he.st.trans (hst.trans hcs), .inr ?_⟩, ?_⟩
    · rw [he.st, hst, hcs]; exact h.ok.idx c (by rw [hC]; exact List.mem_cons_self)
    · rw [hC] at hq; exact hq

theorem Joint.close_tl (h : Joint E n C0 lo m S f us C) : C.take E.s (fun s => (f s).out) = { C with tl := C0.tl ++ S.tl } := by
  unfold Comb.take
  rw [h.rel.tl]
  congr 2
  split
  next h0 => rw [h0, ((h.inv 0).dead rfl).2]; rfl
  · rfl

/-- What a step does to the units and the combined state: nothing, or a bracket of a construct opened earlier is closed. -/
def JMove (f : Nat → P) (us : List (List (USym × Nat) × (Nat → List MTuple))) (C : Comb) (f' : Nat → P)
    (us' : List (List (USym × Nat) × (Nat → List MTuple))) (C' : Comb) : Prop :=
  (us' = us ∧ C' = C) ∨
  ((f 0).ss = [] ∧ (f' 0).st ≠ .matched ∧ (us' = us ∨ us' = us ++ [((f 0).syms, fun s => (f s).out)]))

/-- A closing bracket of a construct opened earlier. -/
theorem Joint.step_close (h : Joint E n C0 lo m S f us C) {t : Tok} {rest : List Tok} (hfit : fits S.ss m t) (hv : (f 0).ss = [])
    {x : USym} {i : Nat} (hf : ∀ s, (f s).step E s t rest = ((f s).close s).addSym x i)
    (hx : (x = .rcb ∧ top S.ss = some .lcb) ∨ (x = .rb ∧ top S.ss = some .lb))
    (hc : ∀ C1 : Comb, CRel E.d C0.tl C1 S → CInv E.d n C1 → CInv E.d n (csym E.d C1 (x, i)) ∧
      CRel E.d C0.tl (csym E.d C1 (x, i)) (step E.d E.s S t) ∧ (csym E.d C1 (x, i)).ss.length ≤ C1.ss.length) :
    ∃ us' C', Joint E n C0 (min lo (step E.d E.s S t).ss.length) t.mode (step E.d E.s S t) (fun s => (f s).step E s t rest) us' C' ∧
      JMove f us C (fun s => (f s).step E s t rest) us' C' := by
  have hst' : ((f 0).step E 0 t rest).st ≠ .matched := by rw [hf 0]; simp [P.addSym]
  have h1 := h.crel hv
  have hC1 : CInv E.d n { C with tl := C0.tl ++ S.tl } := ⟨h.ok.len, h.ok.idx, h.ok.bnd, h.ok.low, h.ok.cur, h.ok.ky⟩
  obtain ⟨h2, h3, h4⟩ := hc _ h1 hC1
  have hnew : ∀ s, (((f s).close s).addSym x i).isNew s := by
    intro s
    by_cases hm : (f s).st = .matched
    · simp only [P.close, if_pos hm]; exact ⟨rfl, rfl, rfl, rfl⟩
    · have := h.fresh (by rw [← (h.alike s).st]; exact hm) s
      simp only [P.close, if_neg hm]; exact this
  have hlow : (csym E.d { C with tl := C0.tl ++ S.tl } (x, i)).ss.length ≤ lo := by
    have := h.low
    dsimp only at h4
    omega
  have hlow' : (csym E.d { C with tl := C0.tl ++ S.tl } (x, i)).ss.length = (step E.d E.s S t).ss.length := by rw [h3.ss]
  have hw := wf_step h.wf h.mode hfit
  have hxC : (x = .rcb ∧ top C.ss = some .lcb) ∨ (x = .rb ∧ top C.ss = some .lb) := by
    have : S.ss = C.ss := h1.ss
    rw [← this]; exact hx
  have hcC : CInv E.d n ((f 0).syms.foldl (csym E.d) (us.foldl (cunit E.d E.s) C0)) := by rw [← h.comb]; exact h.ok
  have hC0 : C0.ss ≠ [] := by
    intro h0
    obtain ⟨e1, e2⟩ := h.closed h0
    have e3 := h.comb
    rw [e1, e2] at e3
    rw [e3] at hxC
    simp [h0, top] at hxC
  have hrel : Rel E C0.tl (csym E.d { C with tl := C0.tl ++ S.tl } (x, i)).tl (csym E.d { C with tl := C0.tl ++ S.tl } (x, i)).p.tail
      (csym E.d { C with tl := C0.tl ++ S.tl } (x, i)).ss (step E.d E.s S t)
      ((f (csym E.d { C with tl := C0.tl ++ S.tl } (x, i)).st).step E (csym E.d { C with tl := C0.tl ++ S.tl } (x, i)).st t rest) := by
    rw [hf]; exact h3.new h2 (hnew _)
  by_cases hm : (f 0).st = .matched
  · refine ⟨us ++ [((f 0).syms, fun s => (f s).out)], csym E.d { C with tl := C0.tl ++ S.tl } (x, i),
      ⟨fun s => (h.alike s).step s 0 t rest, fun s => ?_, fun s => ?_, ?_, h2, hrel, fun _ s => ?_, .inl ?_, ?_, ?_,
      (by omega), ?_, ?_, fun h0 => absurd h0 hC0⟩, .inr ⟨hv, hst', .inr rfl⟩⟩
    · have hms : (f s).st = .matched := by rw [(h.alike s).st, hm]
      show ((f s).step E s t rest).units = _
      rw [hf s]
      simp only [P.close, if_pos hms, P.addSym, List.map_append, h.units s, (h.alike s).syms, List.map_cons, List.map_nil]
    · show PInv E n s ((f s).step E s t rest)
      rw [hf s]; exact PInv.new E n s (hnew s).1 (hnew s).2.1
    · show _ = ((f 0).step E 0 t rest).syms.foldl _ _
      rw [hf 0]
      simp only [P.close, if_pos hm, P.addSym, List.nil_append, List.foldl_cons, List.foldl_nil, List.foldl_append]
      rw [cunit, ← h.comb, h.close_tl]
    · show ((f s).step E s t rest).isNew s
      rw [hf s]; exact hnew s
    · show ((f 0).step E 0 t rest).shadow = []
      rw [hf 0]; exact (hnew 0).2.2.2
    · rw [step_ss]; exact hw.1
    · rw [step_ss]; exact hw.2
    · exact unitsOK_snoc h.uok h.sok hcC
    · show symsOK E.d n _ ((f 0).step E 0 t rest).syms
      rw [hf 0]
      simp only [P.close, if_pos hm, P.addSym, List.nil_append, List.foldl_append, List.foldl_cons, List.foldl_nil]
      rw [cunit, ← h.comb, h.close_tl]
      exact ⟨⟨hC1, hxC⟩, trivial⟩
  · have hC : ({ C with tl := C0.tl ++ S.tl } : Comb) = C := by
      have := h.rel.tl
      rw [(h.fresh hm C.st).2.1] at this
      simp at this
      rw [this]
    refine ⟨us, csym E.d { C with tl := C0.tl ++ S.tl } (x, i),
      ⟨fun s => (h.alike s).step s 0 t rest, fun s => ?_, fun s => ?_, ?_, h2, hrel, fun _ s => ?_, .inl ?_, ?_, ?_,
      (by omega), ?_, ?_, fun h0 => absurd h0 hC0⟩, .inr ⟨hv, hst', .inl rfl⟩⟩
    · have hms : (f s).st ≠ .matched := by rw [(h.alike s).st]; exact hm
      show ((f s).step E s t rest).units = _
      rw [hf s]
      simp only [P.close, if_neg hms, P.addSym, h.units s]
    · show PInv E n s ((f s).step E s t rest)
      rw [hf s]; exact PInv.new E n s (hnew s).1 (hnew s).2.1
    · show _ = ((f 0).step E 0 t rest).syms.foldl _ _
      rw [hf 0, hC]
      simp only [P.close, if_neg hm, P.addSym, List.foldl_append, List.foldl_cons, List.foldl_nil]
      rw [← h.comb]
    · show ((f s).step E s t rest).isNew s
      rw [hf s]; exact hnew s
    · show ((f 0).step E 0 t rest).shadow = []
      rw [hf 0]; exact (hnew 0).2.2.2
    · rw [step_ss]; exact hw.1
    · rw [step_ss]; exact hw.2
    · exact h.uok
    · show symsOK E.d n _ ((f 0).step E 0 t rest).syms
      rw [hf 0]
      simp only [P.close, if_neg hm, P.addSym]
      exact symsOK_snoc h.sok hcC (by rw [← h.comb]; exact hxC)

end

/-- No selected scalar of an array opened before the chunk loses its text to a look-ahead (`clobber`). -/
def noClob (d : QDfa) (s : Str) : Nat → SA → List Tok → Prop
  | _, _, [] => True
  | lo, a, t :: ts => (∀ x, t = .pri x → a.ss.length ≤ lo →
      d.matchedType a.elt.st a.elt.count = .output ∨ d.matchedType a.elt.st a.elt.count = .condition → clobber x ts = x) ∧
    noClob d s (min lo (step d s a t).ss.length) (step d s a t) ts

/-- The lowest height of the syntax stack. -/
def lowSs : Nat → List Sym → List Tok → Nat
  | lo, _, [] => lo
  | lo, ss, t :: ts => lowSs (min lo (ssStep ss t).length) (ssStep ss t) ts

section
variable {E : WEnv} {n : Nat} {C0 : Comb}

theorem Joint.step {lo : Nat} {C : Comb} {m : Mode} {S : SA} {f : Nat → P} {us : List (List (USym × Nat) × (Nat → List MTuple))}
    (h : Joint E n C0 lo m S f us C) (hd : Dead E.d n) {t : Tok} {rest : List Tok} (hfit : fitsAll S.ss m (t :: rest))
    (hstop : stopsAt ((t :: rest).foldl ssStep S.ss) (modeAfter m (t :: rest))) (hcl : noClob E.d E.s lo S (t :: rest)) :
    ∃ us' C', Joint E n C0 (min lo (step E.d E.s S t).ss.length) t.mode (step E.d E.s S t) (fun s => (f s).step E s t rest) us' C' ∧
      JMove f us C (fun s => (f s).step E s t rest) us' C' := by
  have hss : ∀ s, (f s).ss = (f 0).ss := fun s => (h.alike s).ss
  cases t with
  | lcb p => exact ⟨_, _, h.step_open hd hfit.1 (.inl ⟨p, rfl⟩), .inl ⟨rfl, rfl⟩⟩
  | lb p => exact ⟨_, _, h.step_open hd hfit.1 (.inr (.inl ⟨p, rfl⟩)), .inl ⟨rfl, rfl⟩⟩
  | ky k => exact ⟨_, _, h.step_open hd hfit.1 (.inr (.inr ⟨k, rfl⟩)), .inl ⟨rfl, rfl⟩⟩
  | com => exact ⟨_, _, h.step_com hfit.1, .inl ⟨rfl, rfl⟩⟩
  | pri x => exact ⟨_, _, h.step_pri hd hfit (hcl.1 x rfl), .inl ⟨rfl, rfl⟩⟩
  | rcb p =>
    by_cases hv : (f 0).ss = []
    · exact h.step_close hfit.1 hv (fun s => rcb_open (by rw [hss, hv])) (.inl ⟨rfl, hfit.1.1⟩) (fun C1 h1 h2 => h1.rcb h2 h.wf hfit.1.1 p _)
    · exact ⟨_, _, h.step_rcb_in hd hfit hstop hv, .inl ⟨rfl, rfl⟩⟩
  | rb p =>
    by_cases hv : (f 0).ss = []
    · exact h.step_close hfit.1 hv (fun s => rb_open (by rw [hss, hv])) (.inr ⟨rfl, hfit.1.1⟩) (fun C1 h1 h2 => h1.rb h2 h.wf hfit.1.1 p _)
    · exact ⟨_, _, h.step_rb_in hd hfit hstop hv, .inl ⟨rfl, rfl⟩⟩

/-- The whole chunk. -/
theorem Joint.run (hd : Dead E.d n) : ∀ (ts : List Tok) {lo : Nat} {C : Comb} {m : Mode} {S : SA} {f : Nat → P}
    {us : List (List (USym × Nat) × (Nat → List MTuple))}, Joint E n C0 lo m S f us C → fitsAll S.ss m ts →
    stopsAt (ts.foldl ssStep S.ss) (modeAfter m ts) → noClob E.d E.s lo S ts →
    ∃ us' C', Joint E n C0 (lowSs lo S.ss ts) (modeAfter m ts) (runToks E.d E.s S ts) (fun s => P.run E s (f s) ts) us' C'
  | [], _, _, _, _, _, _, h, _, _, _ => ⟨_, _, h⟩
  | t :: ts, lo, C, m, S, f, us, h, hfit, hstop, hcl => by
    obtain ⟨us', C', h1, _⟩ := h.step hd hfit hstop hcl
    have hf := hfit.2
    have hs := hstop
    rw [List.foldl_cons] at hs
    rw [← step_ss E.d E.s] at hf hs
    have := Joint.run hd ts h1 hf hs hcl.2
    rw [step_ss] at this
    exact this

theorem Joint.flat {lo : Nat} {C : Comb} {m : Mode} {S : SA} {f : Nat → P} {us : List (List (USym × Nat) × (Nat → List MTuple))}
    (h : Joint E n C0 lo m S f us C) (hd : Dead E.d n) {t : Tok} {rest : List Tok} (hfit : fitsAll S.ss m (t :: rest))
    (hstop : stopsAt ((t :: rest).foldl ssStep S.ss) (modeAfter m (t :: rest))) (hcl : noClob E.d E.s lo S (t :: rest)) (s : Nat)
    (hu : ((f s).step E s t rest).units ≠ (f s).units) : (f s).p.length = 1 := by
  obtain ⟨us', C', h1, h2⟩ := h.step hd hfit hstop hcl
  rcases h2 with ⟨rfl, rfl⟩ | ⟨hv, _⟩
  · exact absurd ((h1.units s).trans (h.units s).symm) hu
  · rw [h.len s, hv]; rfl

end

end JPS
