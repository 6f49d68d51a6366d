import Verif.Doc
/-!
# The token machine computes `emit`
-/

namespace JPS
open Spec

/-- Add several tuples. -/
def SA.emitAll (a : SA) (ts : List Tuple) : SA := ts.foldl (fun a t => a.addTuple t.st t.text) a

/-- Replace the control part of a configuration. -/
def SA.ctl (a : SA) (e : Elt) (ss : List Sym) (qs : List Elt) : SA :=
  { a with elt := e, ss := ss, qs := qs }

@[simp] theorem emitAll_nil (a : SA) : a.emitAll [] = a := rfl
@[simp] theorem emitAll_cons (a : SA) (t : Tuple) (ts) :
    a.emitAll (t :: ts) = (a.addTuple t.st t.text).emitAll ts := rfl
theorem emitAll_append (a : SA) (xs ys : List Tuple) :
    a.emitAll (xs ++ ys) = (a.emitAll xs).emitAll ys := by
  simp [SA.emitAll, List.foldl_append]

@[simp] theorem addTuple_elt (a : SA) (s t) : (a.addTuple s t).elt = a.elt := rfl
@[simp] theorem addTuple_ss (a : SA) (s t) : (a.addTuple s t).ss = a.ss := rfl
@[simp] theorem addTuple_qs (a : SA) (s t) : (a.addTuple s t).qs = a.qs := rfl

@[simp] theorem emitAll_elt (a : SA) (ts) : (a.emitAll ts).elt = a.elt := by
  induction ts generalizing a with
  | nil => rfl
  | cons t ts ih => simp [ih]
@[simp] theorem emitAll_ss (a : SA) (ts) : (a.emitAll ts).ss = a.ss := by
  induction ts generalizing a with
  | nil => rfl
  | cons t ts ih => simp [ih]
@[simp] theorem emitAll_qs (a : SA) (ts) : (a.emitAll ts).qs = a.qs := by
  induction ts generalizing a with
  | nil => rfl
  | cons t ts ih => simp [ih]

theorem addTuple_ctl (a : SA) (e ss qs s t) :
    (a.ctl e ss qs).addTuple s t = (a.addTuple s t).ctl e ss qs := rfl
theorem emitAll_ctl (a : SA) (e ss qs ts) :
    (a.ctl e ss qs).emitAll ts = (a.emitAll ts).ctl e ss qs := by
  induction ts generalizing a with
  | nil => rfl
  | cons t ts ih => simp [addTuple_ctl, ih]

@[simp] theorem ctl_elt (a : SA) (e ss qs) : (a.ctl e ss qs).elt = e := rfl
@[simp] theorem ctl_ss (a : SA) (e ss qs) : (a.ctl e ss qs).ss = ss := rfl
@[simp] theorem ctl_qs (a : SA) (e ss qs) : (a.ctl e ss qs).qs = qs := rfl
@[simp] theorem ctl_ctl (a : SA) (e ss qs e' ss' qs') :
    (a.ctl e ss qs).ctl e' ss' qs' = a.ctl e' ss' qs' := rfl
theorem ctl_self (a : SA) : a.ctl a.elt a.ss a.qs = a := rfl

theorem runToks_append (d : QDfa) (s a xs ys) :
    runToks d s a (xs ++ ys) = runToks d s (runToks d s a xs) ys := by
  simp [runToks, List.foldl_append]
@[simp] theorem runToks_nil (d : QDfa) (s a) : runToks d s a [] = a := rfl
@[simp] theorem runToks_cons (d : QDfa) (s a t ts) :
    runToks d s a (t :: ts) = runToks d s (step d s a t) ts := rfl

theorem substring_render {s : Str} {off : Nat} {r tail : Str} (hl : lead s = 0)
    (h : s.drop off = r ++ tail) (hr : r ≠ []) :
    substring s off (off + r.length) = r ∧ substringOOB s (off + r.length) = false := by
  have hlen : off + r.length ≤ s.length := by
    have := congrArg List.length h
    simp at this
    have : 0 < r.length := List.length_pos_iff.mpr hr
    omega
  constructor
  · unfold substring ltrim
    rw [hl, List.drop_zero, List.drop_take, h]
    simp
  · simp [substringOOB, hl]; omega

theorem push_lt {α : Type} {s : List α} {x : α} (h : s.length < MAX_STACK) : push s x = x :: s := by
  simp [push, h]

theorem drop_cons_append {s : Str} {off : Nat} {x r tail : Str}
    (h : s.drop off = x ++ r ++ tail) : s.drop (off + x.length) = r ++ tail := by
  rw [← List.drop_drop, h, List.append_assoc, List.drop_left]

/-- Tuples written at the opening brace of an object. -/
def openObj (d : QDfa) (st cnt : Nat) : List Tuple :=
  match d.matchedType st cnt with
  | .predicate => [⟨st, ['{']⟩]
  | .condition => [⟨st, []⟩]
  | _ => []

/-- Tuples written at the opening bracket of an array. -/
def openArr (d : QDfa) (st cnt : Nat) : List Tuple :=
  match d.matchedType st cnt with
  | .condition => [⟨st, []⟩]
  | _ => []

/-- Tuple for a matched value with source text `r`. -/
def outT (d : QDfa) (st cnt : Nat) (r : Str) : List Tuple :=
  if d.matchedType st cnt = .output then [⟨st, r⟩] else []

/-- Marker written after an array element that is an object. -/
def closePred (d : QDfa) (st cnt : Nat) : List Tuple :=
  if d.matchedType st cnt = .predicate then [⟨st, ['}']⟩] else []

/-- Tuples written for a scalar. -/
def priT (d : QDfa) (st cnt : Nat) (r : Str) : List Tuple :=
  match d.matchedType st cnt with
  | .output => [⟨st, r⟩]
  | .condition => [⟨st, r⟩]
  | _ => []

/-- Start position remembered at an opening bracket. -/
def openMs (d : QDfa) (e : Elt) (pos : Nat) : Option Nat :=
  if d.matchedType e.st e.count = .output then some (pos - 1) else e.ms

theorem matchedType_pred_iff (d : QDfa) (st c c' : Nat) :
    d.matchedType st c = .predicate ↔ d.matchedType st c' = .predicate := by
  unfold QDfa.matchedType
  cases d.accept st <;> simp <;> split <;> split <;> simp

theorem closePred_count (d : QDfa) (st c c' : Nat) : closePred d st c = closePred d st c' := by
  simp only [closePred, matchedType_pred_iff d st c c']

theorem emit_lit (d : QDfa) (obs el st cnt t) :
    emit d obs el st cnt (.lit t) = priT d st cnt (obs t) := by
  rw [emit, priT]; cases d.matchedType st cnt <;> rfl
theorem emit_str (d : QDfa) (obs el st cnt r) :
    emit d obs el st cnt (.str r) = priT d st cnt ('"' :: r ++ ['"']) := by
  rw [emit, priT]; cases d.matchedType st cnt <;> rfl
theorem emit_arr (d : QDfa) (obs el st cnt w es) :
    emit d obs el st cnt (.arr w es) =
      openArr d st cnt ++ emitE d (d.go st cnt none) 0 es ++ outT d st cnt (J.arr w es).render := by
  rw [emit, openArr, outT]
  cases d.matchedType st cnt <;> simp
theorem emit_obj (d : QDfa) (obs el st cnt w ms) :
    emit d obs el st cnt (.obj w ms) =
      openObj d st cnt ++ emitM d st cnt ms ++ outT d st cnt (J.obj w ms).render
        ++ (if el then closePred d st cnt else []) := by
  rw [emit, openObj, outT, closePred]
  cases d.matchedType st cnt <;> cases el <;> simp

/-! ### Single steps -/

theorem stepLcb_eq (d : QDfa) (pos) (a : SA) (h : a.ss.length < MAX_STACK) :
    stepLcb d pos a = (a.emitAll (openObj d a.elt.st a.elt.count)).ctl
      { a.elt with ms := openMs d a.elt pos } (.lcb :: a.ss) a.qs := by
  unfold stepLcb openObj openMs
  simp only [push_lt h]
  cases d.matchedType a.elt.st a.elt.count <;> rfl

theorem stepLb_eq (d : QDfa) (pos) (a : SA) (h : a.ss.length < MAX_STACK)
    (hq : a.qs.length < MAX_STACK) :
    stepLb d pos a = (a.emitAll (openArr d a.elt.st a.elt.count)).ctl
      ⟨d.go a.elt.st a.elt.count none, 0, none⟩ (.lb :: a.ss)
      ({ a.elt with ms := openMs d a.elt pos } :: a.qs) := by
  unfold stepLb openArr openMs QDfa.enter QDfa.go
  cases hm : d.matchedType a.elt.st a.elt.count <;> simp [push_lt h, push_lt hq, SA.ctl, SA.addTuple]

theorem stepKy_eq (d : QDfa) (k) (a : SA) (h : a.ss.length < MAX_STACK)
    (hq : a.qs.length < MAX_STACK) :
    stepKy d k a = a.ctl ⟨d.go a.elt.st a.elt.count (some k), 0, none⟩ (.ky :: a.ss)
      (a.elt :: a.qs) := by
  simp [stepKy, push_lt h, push_lt hq, SA.ctl, QDfa.enter, QDfa.go]

theorem stepPri_ky (d : QDfa) (t) (a : SA) {ss e qs} (h : a.ss = .ky :: ss) (hq : a.qs = e :: qs) :
    stepPri d t a = (a.emitAll (priT d a.elt.st a.elt.count t)).ctl e ss qs := by
  unfold stepPri priT
  cases hm : d.matchedType a.elt.st a.elt.count <;>
    simp [h, top, SA.popQ, hq, pop, SA.ctl, SA.addTuple]

theorem stepPri_lb (d : QDfa) (t) (a : SA) {ss} (h : a.ss = .lb :: ss) :
    stepPri d t a = (a.emitAll (priT d a.elt.st a.elt.count t)).ctl
      { a.elt with count := a.elt.count + 1 } a.ss a.qs := by
  unfold stepPri priT
  cases hm : d.matchedType a.elt.st a.elt.count <;>
    simp [h, top, SA.ctl, SA.addTuple]

/-- What a closing bracket writes for element `e`, if the start position is right. -/
theorem closeOutput_eq (d : QDfa) {s : Str} {off : Nat} {r tail : Str} (hl : lead s = 0)
    (hs : s.drop off = r ++ tail) (hr : r ≠ []) (a : SA) (e : Elt)
    (he : d.matchedType e.st e.count = .output → e.ms = some off) :
    a.closeOutput d s (off + r.length) e = a.emitAll (outT d e.st e.count r) := by
  obtain ⟨h1, h2⟩ := substring_render hl hs hr
  unfold SA.closeOutput outT
  by_cases hm : d.matchedType e.st e.count = .output
  · simp [he hm, hm, h1, h2, show ¬ off + r.length < off by omega]; rfl
  · cases e.ms <;> simp [hm]

theorem stepRcb_ky (d : QDfa) {s : Str} {off : Nat} {r tail : Str} (hl : lead s = 0)
    (hs : s.drop off = r ++ tail) (hr : r ≠ []) (a : SA) {ss e qs}
    (he : d.matchedType a.elt.st a.elt.count = .output → a.elt.ms = some off)
    (h : a.ss = .lcb :: .ky :: ss) (hq : a.qs = e :: qs) :
    stepRcb d s (off + r.length) a =
      (a.emitAll (outT d a.elt.st a.elt.count r)).ctl e ss qs := by
  unfold stepRcb rcbOutput
  rw [closeOutput_eq d hl hs hr a a.elt he]
  split <;> simp [h, secondTop, SA.popQ, hq, pop, SA.ctl]

theorem stepRcb_lb (d : QDfa) {s : Str} {off : Nat} {r tail : Str} (hl : lead s = 0)
    (hs : s.drop off = r ++ tail) (hr : r ≠ []) (a : SA) {ss}
    (he : d.matchedType a.elt.st a.elt.count = .output → a.elt.ms = some off)
    (h : a.ss = .lcb :: .lb :: ss) :
    ∃ ms', stepRcb d s (off + r.length) a =
      (a.emitAll (outT d a.elt.st a.elt.count r ++ closePred d a.elt.st a.elt.count)).ctl
        ⟨a.elt.st, a.elt.count + 1, ms'⟩ (.lb :: ss) a.qs := by
  unfold stepRcb rcbOutput
  rw [closeOutput_eq d hl hs hr a a.elt he, closePred_count d _ _ (a.elt.count + 1)]
  split
  · refine ⟨none, ?_⟩
    by_cases hp : d.matchedType a.elt.st (a.elt.count + 1) = .predicate <;>
      simp [emitAll_ss, h, secondTop, pop, emitAll_append, closePred, emitAll_elt, hp, SA.ctl,
        SA.addTuple]
  · refine ⟨a.elt.ms, ?_⟩
    by_cases hp : d.matchedType a.elt.st (a.elt.count + 1) = .predicate <;>
      simp [emitAll_ss, h, secondTop, pop, emitAll_append, closePred, emitAll_elt, hp, SA.ctl,
        SA.addTuple]

theorem stepRcb_root (d : QDfa) {s : Str} {off : Nat} {r tail : Str} (hl : lead s = 0)
    (hs : s.drop off = r ++ tail) (hr : r ≠ []) (a : SA)
    (he : d.matchedType a.elt.st a.elt.count = .output → a.elt.ms = some off)
    (h : a.ss = [.lcb]) :
    ∃ ms', stepRcb d s (off + r.length) a =
      (a.emitAll (outT d a.elt.st a.elt.count r)).ctl
        { a.elt with ms := ms' } [] a.qs := by
  unfold stepRcb rcbOutput
  rw [closeOutput_eq d hl hs hr a a.elt he]
  split
  · exact ⟨none, by simp [h, pop, SA.ctl]⟩
  · exact ⟨a.elt.ms, by simp [h, pop, SA.ctl]⟩

theorem stepRb_ky (d : QDfa) {s : Str} {off : Nat} {r tail : Str} (hl : lead s = 0)
    (hs : s.drop off = r ++ tail) (hr : r ≠ []) (a : SA) {ss e e0 qs}
    (he : d.matchedType e.st e.count = .output → e.ms = some off)
    (h : a.ss = .lb :: .ky :: ss) (hq : a.qs = e :: e0 :: qs) :
    stepRb d s (off + r.length) a =
      (a.emitAll (outT d e.st e.count r)).ctl e0 ss qs := by
  unfold stepRb
  simp only [hq, top, List.head?_cons, closeOutput_eq d hl hs hr a e he]
  simp [h, secondTop, SA.popQ, hq, pop, SA.ctl]

theorem stepRb_lb (d : QDfa) {s : Str} {off : Nat} {r tail : Str} (hl : lead s = 0)
    (hs : s.drop off = r ++ tail) (hr : r ≠ []) (a : SA) {ss e qs}
    (he : d.matchedType e.st e.count = .output → e.ms = some off)
    (h : a.ss = .lb :: .lb :: ss) (hq : a.qs = e :: qs) :
    stepRb d s (off + r.length) a =
      (a.emitAll (outT d e.st e.count r)).ctl { e with count := e.count + 1 } (.lb :: ss) qs := by
  unfold stepRb
  simp only [hq, top, List.head?_cons, closeOutput_eq d hl hs hr a e he]
  simp [h, secondTop, SA.popQ, hq, pop, SA.ctl]

theorem stepRb_root (d : QDfa) {s : Str} {off : Nat} {r tail : Str} (hl : lead s = 0)
    (hs : s.drop off = r ++ tail) (hr : r ≠ []) (a : SA) {e qs}
    (he : d.matchedType e.st e.count = .output → e.ms = some off)
    (h : a.ss = [.lb]) (hq : a.qs = e :: qs) :
    stepRb d s (off + r.length) a =
      (a.emitAll (outT d e.st e.count r)).ctl e [] qs := by
  unfold stepRb
  simp only [hq, top, List.head?_cons, closeOutput_eq d hl hs hr a e he]
  simp [h, SA.popQ, hq, pop, SA.ctl]

theorem render_ne_nil_arr (w es) : (J.arr w es).render ≠ [] := by simp [J.render]
theorem render_ne_nil_obj (w ms) : (J.obj w ms).render ≠ [] := by simp [J.render]

/-! ### Whole values -/

/-- Behaviour on a value in member position: the pushed element comes back. -/
def MemberOK (d : QDfa) (s : Str) (obs : Str → Str) (off : Nat) (v : J) : Prop :=
  ∀ (a : SA) (ss : List Sym) (e : Elt) (qs : List Elt),
    a.ss = .ky :: ss → a.qs = e :: qs →
    a.ss.length + v.depth ≤ MAX_STACK → a.qs.length + v.depth ≤ MAX_STACK →
    runToks d s a (toks obs off v) =
      (a.emitAll (emit d obs false a.elt.st a.elt.count v)).ctl e ss qs

/-- Behaviour on a value in element position: only the element counter moves. -/
def ElemOK (d : QDfa) (s : Str) (obs : Str → Str) (off : Nat) (v : J) : Prop :=
  ∀ (a : SA) (ss : List Sym),
    a.ss = .lb :: ss →
    a.ss.length + v.depth ≤ MAX_STACK → a.qs.length + v.depth ≤ MAX_STACK →
    ∃ ms', runToks d s a (toks obs off v) =
      (a.emitAll (emit d obs true a.elt.st a.elt.count v)).ctl
        ⟨a.elt.st, a.elt.count + 1, ms'⟩ a.ss a.qs

mutual
theorem run_value (d : QDfa) (s : Str) (hl : lead s = 0) :
    ∀ (v : J) (obs : Str → Str) (off : Nat) (tail : Str), s.drop off = v.render ++ tail →
      MemberOK d s obs off v ∧ ElemOK d s obs off v
  | .lit t, obs, off, tail, _ => by
    constructor
    · intro a ss e qs h hq _ _
      simp only [toks, runToks_cons, step, runToks_nil]
      rw [stepPri_ky d _ a h hq, emit_lit]
    · intro a ss h _ _
      refine ⟨a.elt.ms, ?_⟩
      simp only [toks, runToks_cons, step, runToks_nil]
      rw [stepPri_lb d _ a h, emit_lit]
  | .str r, obs, off, tail, _ => by
    constructor
    · intro a ss e qs h hq _ _
      simp only [toks, runToks_cons, step, runToks_nil]
      rw [stepPri_ky d _ a h hq, emit_str]
    · intro a ss h _ _
      refine ⟨a.elt.ms, ?_⟩
      simp only [toks, runToks_cons, step, runToks_nil]
      rw [stepPri_lb d _ a h, emit_str]
  | .arr w es, obs, off, tail, hs => by
    have hr := render_ne_nil_arr w es
    have hes : s.drop (off + 1 + w.length) = es.render ++ (']' :: tail) := by
      have h1 : s.drop off = ('[' :: w) ++ es.render ++ (']' :: tail) := by
        rw [hs]; simp [J.render]
      have := drop_cons_append h1
      rw [← this]; congr 1; simp; omega
    have ih := run_elems d s hl es _ _ hes
    constructor
    · intro a ss e qs h hq hd hdq
      rw [J.depth] at hd hdq
      simp only [toks, List.cons_append, runToks_cons, step, runToks_append, runToks_nil]
      rw [stepLb_eq d _ a (by omega) (by omega)]
      obtain ⟨ms', ih⟩ := ih ((a.emitAll (openArr d a.elt.st a.elt.count)).ctl
        ⟨d.go a.elt.st a.elt.count none, 0, none⟩ (.lb :: a.ss)
        ({ a.elt with ms := openMs d a.elt (off + 1) } :: a.qs))
        a.ss (ctl_ss _ _ _ _) (by simp; omega) (by simp; omega)
      rw [ih]
      rw [stepRb_ky d hl hs hr _ (e := { a.elt with ms := openMs d a.elt (off + 1) })
        (e0 := e) (qs := qs) (ss := ss) (by intro hm; simp [openMs] at hm ⊢; simp [hm])
        (by simp [h]) (by simp [hq])]
      simp [emit_arr, emitAll_append, emitAll_ctl]
    · intro a ss h hd hdq
      rw [J.depth] at hd hdq
      simp only [toks, List.cons_append, runToks_cons, step, runToks_append, runToks_nil]
      rw [stepLb_eq d _ a (by omega) (by omega)]
      obtain ⟨ms', ih⟩ := ih ((a.emitAll (openArr d a.elt.st a.elt.count)).ctl
        ⟨d.go a.elt.st a.elt.count none, 0, none⟩ (.lb :: a.ss)
        ({ a.elt with ms := openMs d a.elt (off + 1) } :: a.qs))
        a.ss (ctl_ss _ _ _ _) (by simp; omega) (by simp; omega)
      rw [ih]
      refine ⟨openMs d a.elt (off + 1), ?_⟩
      rw [stepRb_lb d hl hs hr _ (e := { a.elt with ms := openMs d a.elt (off + 1) })
        (qs := a.qs) (ss := ss) (by intro hm; simp [openMs] at hm ⊢; simp [hm])
        (by simp [h]) (by simp)]
      simp [emit_arr, emitAll_append, emitAll_ctl, h]
  | .obj w ms, obs, off, tail, hs => by
    have hr := render_ne_nil_obj w ms
    have hes : s.drop (off + 1 + w.length) = ms.render ++ ('}' :: tail) := by
      have h1 : s.drop off = ('{' :: w) ++ ms.render ++ ('}' :: tail) := by
        rw [hs]; simp [J.render]
      have := drop_cons_append h1
      rw [← this]; congr 1; simp; omega
    have ih := run_members d s hl ms _ _ hes
    constructor
    · intro a ss e qs h hq hd hdq
      rw [J.depth] at hd hdq
      simp only [toks, List.cons_append, runToks_cons, step, runToks_append, runToks_nil]
      rw [stepLcb_eq d _ a (by omega)]
      rw [ih _ (by simp; omega) (by simp; omega)]
      rw [stepRcb_ky d hl hs hr _ (e := e) (qs := qs) (ss := ss)
        (by simp only [emitAll_elt, ctl_elt]; intro hm; simp [openMs, hm])
        (by simp [h]) (by simp [hq])]
      simp [emit_obj, emitAll_append, emitAll_ctl]
    · intro a ss h hd hdq
      rw [J.depth] at hd hdq
      simp only [toks, List.cons_append, runToks_cons, step, runToks_append, runToks_nil]
      rw [stepLcb_eq d _ a (by omega)]
      rw [ih _ (by simp; omega) (by simp; omega)]
      obtain ⟨ms', hst⟩ := stepRcb_lb d hl hs hr (ss := ss) (a :=
          (((a.emitAll (openObj d a.elt.st a.elt.count)).ctl
            { a.elt with ms := openMs d a.elt (off + 1) } (.lcb :: a.ss) a.qs).emitAll
              (emitM d a.elt.st a.elt.count ms)))
        (by simp only [emitAll_elt, ctl_elt]; intro hm; simp [openMs, hm])
        (by simp [h])
      refine ⟨ms', ?_⟩
      simp only [ctl_elt]
      rw [hst]
      simp [emit_obj, emitAll_append, emitAll_ctl, h]
theorem run_elems (d : QDfa) (s : Str) (hl : lead s = 0) :
    ∀ (es : Elems) (off : Nat) (tail : Str), s.drop off = es.render ++ tail →
      ∀ (a : SA) (ss : List Sym), a.ss = .lb :: ss →
        a.ss.length + es.depth ≤ MAX_STACK → a.qs.length + es.depth ≤ MAX_STACK →
        ∃ elt', runToks d s a (toksE off es) =
          (a.emitAll (emitE d a.elt.st a.elt.count es)).ctl elt' a.ss a.qs
  | .nil, off, tail, _ => by
    intro a ss h _ _
    exact ⟨a.elt, by simp [toksE, emitE, ctl_self]⟩
  | .cons pre v post rest, off, tail, hs => by
    intro a ss h hd hdq
    rw [Elems.depth] at hd hdq
    obtain ⟨tl', hv⟩ : ∃ tl', s.drop (off + pre.length) = v.render ++ tl' := by
      rw [Elems.render, List.append_assoc (pre ++ v.render), List.append_assoc (pre ++ v.render)] at hs
      exact ⟨_, drop_cons_append hs⟩
    obtain ⟨ms', hstep⟩ := (run_value d s hl v _ _ _ hv).2 a ss h (by omega) (by omega)
    rw [toksE, runToks_append, hstep]
    match rest, hs, hd, hdq with
    | .nil, hs, hd, hdq => exact ⟨_, by simp [emitE, Elems.sep]; rfl⟩
    | .cons pre' v' post' rest', hs, hd, hdq =>
      have hrest : s.drop (off + pre.length + v.render.length + post.length + 1) =
          (Elems.cons pre' v' post' rest').render ++ tail := by
        have h1 : s.drop off = (pre ++ v.render ++ post ++ [',']) ++
            (Elems.cons pre' v' post' rest').render ++ tail := by
          rw [hs, Elems.render]; simp [Elems.sep]
        have := drop_cons_append h1
        rw [← this]; congr 1; simp; omega
      simp only [Elems.sep, runToks_cons, step]
      obtain ⟨e', ih⟩ := run_elems d s hl (.cons pre' v' post' rest') _ _ hrest
        ((a.emitAll (emit d (litObs false post (nextE (.cons pre' v' post' rest'))) true
          a.elt.st a.elt.count v)).ctl
          ⟨a.elt.st, a.elt.count + 1, ms'⟩ a.ss a.qs) ss (by simp [h])
        (by simp only [ctl_ss]; omega) (by simp only [ctl_qs]; omega)
      refine ⟨e', ?_⟩
      rw [ih]
      conv => rhs; rw [emitE]
      simp [emitAll_append, emitAll_ctl]
theorem run_members (d : QDfa) (s : Str) (hl : lead s = 0) :
    ∀ (ms : Members) (off : Nat) (tail : Str), s.drop off = ms.render ++ tail →
      ∀ (a : SA),
        a.ss.length + ms.depth ≤ MAX_STACK → a.qs.length + ms.depth ≤ MAX_STACK →
        runToks d s a (toksM off ms) = a.emitAll (emitM d a.elt.st a.elt.count ms)
  | .nil, off, tail, _ => by
    intro a _ _
    simp [toksM, emitM]
  | .cons pre k mid pre2 v post rest, off, tail, hs => by
    intro a hd hdq
    rw [Members.depth] at hd hdq
    obtain ⟨tl', hv⟩ : ∃ tl', s.drop (off + pre.length + (k.length + 2) + mid.length + 1
        + pre2.length) = v.render ++ tl' := by
      rw [Members.render, List.append_assoc (_ ++ v.render), List.append_assoc (_ ++ v.render)] at hs
      refine ⟨post ++ rest.sep ',' rest.render ++ tail, ?_⟩
      rw [← drop_cons_append hs]; congr 1; simp; omega
    simp only [toksM, List.cons_append, runToks_cons, step]
    rw [stepKy_eq d k a (by omega) (by omega), runToks_append]
    rw [(run_value d s hl v _ _ _ hv).1 _ a.ss a.elt a.qs (by simp) (by simp)
      (by simp; omega) (by simp; omega)]
    match rest, hs, hd, hdq with
    | .nil, hs, hd, hdq => simp [emitM, emitAll_ctl, Members.sep]; rw [← emitAll_ctl, ctl_self]
    | .cons pre' k' mid' pre2' v' post' rest', hs, hd, hdq =>
      have hrest : s.drop (off + pre.length + (k.length + 2) + mid.length + 1 + pre2.length
          + v.render.length + post.length + 1) =
          (Members.cons pre' k' mid' pre2' v' post' rest').render ++ tail := by
        have h1 : s.drop off = (pre ++ ('"' :: k ++ ['"']) ++ mid ++ (':' :: pre2) ++ v.render ++
            post ++ [',']) ++
            (Members.cons pre' k' mid' pre2' v' post' rest').render ++ tail := by
          rw [hs, Members.render]; simp [Members.sep]
        have := drop_cons_append h1
        rw [← this]; congr 1; simp; omega
      simp only [Members.sep, runToks_cons, step]
      rw [run_members d s hl (.cons pre' k' mid' pre2' v' post' rest') _ _ hrest _
        (by simp; omega) (by simp; omega)]
      conv => rhs; rw [emitM]
      simp only [ctl_elt, emitAll_ctl, ctl_ctl, emitAll_append]
      rw [← emitAll_ctl, ← emitAll_ctl, ctl_self]
end

/-- A whole document whose root is a container: stacks and state return to where they were. -/
theorem run_root (d : QDfa) (s : Str) (hl : lead s = 0) (v : J) (obs : Str → Str) (off : Nat)
    (tail : Str) (hs : s.drop off = v.render ++ tail) (hv : v.isContainer = true) (a : SA)
    (h : a.ss = []) (hd : v.depth ≤ MAX_STACK) (hdq : a.qs.length + v.depth ≤ MAX_STACK) :
    ∃ ms', runToks d s a (toks obs off v) =
      (a.emitAll (emit d obs false a.elt.st a.elt.count v)).ctl { a.elt with ms := ms' } [] a.qs := by
  match v, hv with
  | .arr w es, _ =>
    have hr := render_ne_nil_arr w es
    have hes : s.drop (off + 1 + w.length) = es.render ++ (']' :: tail) := by
      have h1 : s.drop off = ('[' :: w) ++ es.render ++ (']' :: tail) := by
        rw [hs]; simp [J.render]
      have := drop_cons_append h1
      rw [← this]; congr 1; simp; omega
    rw [J.depth] at hd hdq
    simp only [toks, List.cons_append, runToks_cons, step, runToks_append, runToks_nil]
    rw [stepLb_eq d _ a (by simp [h, MAX_STACK]) (by omega)]
    obtain ⟨ms', ih⟩ := run_elems d s hl es _ _ hes
      ((a.emitAll (openArr d a.elt.st a.elt.count)).ctl
        ⟨d.go a.elt.st a.elt.count none, 0, none⟩ (.lb :: a.ss)
        ({ a.elt with ms := openMs d a.elt (off + 1) } :: a.qs))
        a.ss (ctl_ss _ _ _ _) (by simp [h]; omega) (by simp; omega)
    rw [ih]
    refine ⟨openMs d a.elt (off + 1), ?_⟩
    rw [stepRb_root d hl hs hr _ (e := { a.elt with ms := openMs d a.elt (off + 1) })
        (qs := a.qs) (by intro hm; simp [openMs] at hm ⊢; simp [hm])
        (by simp [h]) (by simp)]
    simp [emit_arr, emitAll_append, emitAll_ctl]
  | .obj w ms, _ =>
    have hr := render_ne_nil_obj w ms
    have hes : s.drop (off + 1 + w.length) = ms.render ++ ('}' :: tail) := by
      have h1 : s.drop off = ('{' :: w) ++ ms.render ++ ('}' :: tail) := by
        rw [hs]; simp [J.render]
      have := drop_cons_append h1
      rw [← this]; congr 1; simp; omega
    rw [J.depth] at hd hdq
    simp only [toks, List.cons_append, runToks_cons, step, runToks_append, runToks_nil]
    rw [stepLcb_eq d _ a (by simp [h, MAX_STACK])]
    rw [run_members d s hl ms _ _ hes _ (by simp [h]; omega) (by simp; omega)]
    obtain ⟨ms', hst⟩ := stepRcb_root d hl hs hr
      (((a.emitAll (openObj d a.elt.st a.elt.count)).ctl
        { a.elt with ms := openMs d a.elt (off + 1) } (.lcb :: a.ss) a.qs).emitAll
          (emitM d a.elt.st a.elt.count ms))
      (by simp only [emitAll_elt, ctl_elt]; intro hm; simp [openMs, hm])
      (by simp [h])
    refine ⟨ms', ?_⟩
    simp only [ctl_elt]
    rw [hst]
    simp [emit_obj, emitAll_append, emitAll_ctl]

end JPS
