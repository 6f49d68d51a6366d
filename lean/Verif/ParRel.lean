import Verif.Grammar
import Verif.WorkerView
/-!
# One path of a worker and the serial automaton

The worker knows the part of the stacks that was opened in its chunk; the rest (`kp`, `kss`) is known to `combine`.
-/

set_option autoImplicit false

namespace JPS
open Spec

/-- No slice at this state. -/
def NoIdx (d : QDfa) (s : Nat) : Prop := d.lower s = 0 ∧ d.upper s = 0

/-- Entry of the serial automaton and entry of a path. -/
structure ERel (d : QDfa) (e e' : Elt) : Prop where
  st : e.st = e'.st
  cnt : e.count = e'.count ∨ NoIdx d e.st

/-- The starts recorded agree if they matter. -/
def msOK (d : QDfa) (e e' : Elt) : Prop := d.matchedType e.st e.count = .output → e.ms = e'.ms

/-- Entries on the query stack. -/
def QRel (d : QDfa) (e e' : Elt) : Prop := ERel d e e' ∧ msOK d e e'

theorem NoIdx.inRange {d : QDfa} {s : Nat} (h : NoIdx d s) (n : Nat) : d.inRange s n = true := by
  simp [QDfa.inRange, h.1, h.2]

theorem NoIdx.matchedType {d : QDfa} {s : Nat} (h : NoIdx d s) (n : Nat) : d.matchedType s n = d.accept s := by
  unfold QDfa.matchedType
  rw [h.inRange]
  cases d.accept s <;> rfl

theorem ERel.inRange {d : QDfa} {e e' : Elt} (h : ERel d e e') : d.inRange e'.st e'.count = d.inRange e.st e.count := by
  rcases h.cnt with hc | hc
  · rw [h.st, hc]
  · rw [← h.st, hc.inRange, hc.inRange]

theorem ERel.matched {d : QDfa} {e e' : Elt} (h : ERel d e e') {b : Bool} (hb : b = true → NoIdx d e'.st) :
    e'.matched d b = (d.matchedType e.st e.count).toW := by
  have hr := h.inRange
  unfold Elt.matched Node.matched QDfa.matchedType
  cases b with
  | false =>
    simp only [Bool.false_eq_true, if_false, h.st] at *
    rw [hr]
    cases ha : d.accept e'.st <;> simp [Acc.toW]
    cases d.inRange e'.st e.count <;> simp
  | true =>
    have hi := hb rfl
    simp only [if_true, h.st, hi.1, hi.2, and_self]
    cases ha : d.accept e'.st <;> simp [Acc.toW, hi.inRange]

theorem ERel.next {d : QDfa} {e e' : Elt} (h : ERel d e e') {b : Bool} (hb : b = true → NoIdx d e'.st) (k : Option Str) :
    e'.next d b k = (d.enter e k).st := by
  have hr := h.inRange
  unfold Elt.next Node.next QDfa.enter
  cases b with
  | false => simp only [Bool.false_eq_true, if_false, h.st] at *; rw [hr]; simp
  | true =>
    have hi := hb rfl
    simp only [if_true, h.st, hi.1, hi.2, and_self, true_or, hi.inRange]

theorem selects_toW (E : WEnv) (a : Acc) : E.selects a.toW = decide (a = .output) := by
  cases a <;> cases h : E.id0 <;> simp [WEnv.selects, Acc.toW, h]

theorem ERel.refl_enter {d : QDfa} {e : Elt} {k : Option Str} : ERel d (d.enter e k) ⟨(d.enter e k).st, 0, none⟩ := ⟨rfl, .inl rfl⟩

theorem ERel.incr {d : QDfa} {e e' : Elt} (h : ERel d e e') (ms ms' : Option Nat) :
    ERel d ⟨e.st, e.count + 1, ms⟩ ⟨e'.st, e'.count + 1, ms'⟩ :=
  ⟨h.st, h.cnt.imp (congrArg (· + 1)) id⟩

theorem ERel.setMs {d : QDfa} {e e' : Elt} (h : ERel d e e') (ms ms' : Option Nat) :
    ERel d ⟨e.st, e.count, ms⟩ ⟨e'.st, e'.count, ms'⟩ := ⟨h.st, h.cnt⟩

/-- A tuple of a chunk as a tuple with text, parallel_automata_execution.h:337-343. -/
def resolve (s : Str) (t : MTuple) : Tuple :=
  match t.span with
  | none => ⟨t.st, t.text.getD []⟩
  | some (b, e) => ⟨t.st, substring s b e⟩

/-- The serial automaton `S` and the path `v`; `kp` and `kss` lie below the path, `pre` and `ctl` are the tuples found
before. -/
structure Rel (E : WEnv) (pre ctl : List Tuple) (kp : List Elt) (kss : List Sym) (S : SA) (v : P) : Prop where
  ss : S.ss = v.ss ++ kss
  path : ∃ e t, v.p = e :: t ∧ ERel E.d S.elt e ∧ (top S.ss = some .lcb → msOK E.d S.elt e) ∧ All2 (QRel E.d) S.qs (t ++ kp)
  idx : ∀ l e, v.p = l ++ [e] → NoIdx E.d e.st
  len : v.p.length = nk v.ss + 1
  klen : kp.length = nk kss
  tl : pre ++ S.tl = ctl ++ v.out.map (resolve E.s)

theorem all2_length {α β : Type} {R : α → β → Prop} {a : List α} {b : List β} (h : All2 R a b) : a.length = b.length := by
  induction h with
  | nil => rfl
  | cons _ _ ih => simp [ih]

theorem Rel.qlen {E : WEnv} {pre ctl : List Tuple} {kp : List Elt} {kss : List Sym} {S : SA} {v : P}
    (h : Rel E pre ctl kp kss S v) : S.qs.length = nk S.ss := by
  obtain ⟨e, t, hp, _, _, hq⟩ := h.path
  have h1 := all2_length hq
  have h2 := h.len
  rw [hp] at h2
  rw [h1, h.ss, nk_append, List.length_append, h.klen]
  simp at h2; omega

theorem idx_last {d : QDfa} {p : List Elt} {e : Elt} {t : List Elt} (h : ∀ l e, p = l ++ [e] → NoIdx d e.st) (hp : p = e :: t) :
    (t == []) = true → NoIdx d e.st := by
  intro ht
  have : t = [] := by simpa using ht
  exact h [] e (by rw [hp, this]; rfl)

theorem cur_eq {v : P} {e : Elt} {t : List Elt} (hp : v.p = e :: t) (act : PAct) :
    v.cur act = { v with p := act.upd (t == []) e :: t, out := v.out ++ (act (t == []) e).1.toList } := by
  unfold P.cur; rw [hp]

theorem below_eq {v : P} {e e1 : Elt} {t : List Elt} (hp : v.p = e :: e1 :: t) (act : PAct) :
    v.below act = { v with p := e :: act.upd (t == []) e1 :: t, out := v.out ++ (act (t == []) e1).1.toList } := by
  unfold P.below; rw [hp]

theorem pushQ_eq {v : P} {e : Elt} {t : List Elt} (hp : v.p = e :: t) (d : QDfa) (k : Option Str) :
    v.pushQ d k = { v with p := ⟨e.next d (t == []) k, 0, none⟩ :: e :: t } := by
  unfold P.pushQ; rw [hp]

/-- Replacing the first entry keeps the state of the last. -/
theorem idx_head {d : QDfa} {e e' : Elt} {t : List Elt} (h : ∀ l x, e :: t = l ++ [x] → NoIdx d x.st) (hs : e'.st = e.st) :
    ∀ l x, e' :: t = l ++ [x] → NoIdx d x.st := by
  intro l x hl
  cases l with
  | nil =>
    simp at hl
    obtain ⟨rfl, rfl⟩ := hl
    rw [hs]; exact h [] e rfl
  | cons y l =>
    simp at hl
    exact h (e :: l) x (by rw [hl.2]; rfl)

theorem idx_push {d : QDfa} {e : Elt} {t : List Elt} (h : ∀ l x, t = l ++ [x] → NoIdx d x.st) (hne : t ≠ []) :
    ∀ l x, e :: t = l ++ [x] → NoIdx d x.st := by
  intro l x hl
  cases l with
  | nil => simp at hl; exact absurd hl.2 hne
  | cons y l => simp at hl; exact h l x hl.2

theorem idx_pop {d : QDfa} {e : Elt} {t : List Elt} (h : ∀ l x, e :: t = l ++ [x] → NoIdx d x.st) :
    ∀ l x, t = l ++ [x] → NoIdx d x.st := fun l x hl => h (e :: l) x (by rw [hl]; rfl)

theorem tl_snoc {s : Str} {pre ctl tl : List Tuple} {out : List MTuple} (h : pre ++ tl = ctl ++ out.map (resolve s)) (t : MTuple) :
    pre ++ (tl ++ [resolve s t]) = ctl ++ (out ++ [t]).map (resolve s) := by
  rw [← List.append_assoc, h]; simp

theorem Rel.lcb {E : WEnv} {pre ctl : List Tuple} {kp : List Elt} {kss : List Sym} {S : SA} {v : P}
    (h : Rel E pre ctl kp kss S v) (s0 p : Nat) (rest : List Tok) (hl : S.ss.length < MAX_STACK) :
    Rel E pre ctl kp kss (step E.d E.s S (.lcb p)) (v.step E s0 (.lcb p) rest) := by
  obtain ⟨hss, ⟨e, t, hp, he, hms, hq⟩, hi, hlen, hk, htl⟩ := h
  have hm := he.matched (idx_last hi hp)
  have hvl : v.ss.length < MAX_STACK := by rw [hss, List.length_append] at hl; omega
  simp only [step, stepLcb, P.step]
  rw [cur_eq (v := { v with st := .matched, ss := push v.ss .lcb }) (e := e) (t := t) hp, push_lt hl, push_lt hvl]
  rw [hp] at hi hlen
  have hidx := fun (e' : Elt) (hs : e'.st = e.st) => idx_head hi hs
  simp only [PAct.upd, lcbAct, hm, selects_toW]
  cases hmt : E.d.matchedType S.elt.st S.elt.count with
  | output =>
    simp only [decide_true, if_true, Option.toList, List.append_nil]
    exact ⟨by simp [hss], ⟨_, _, rfl, he.setMs _ _, fun _ _ => rfl, hq⟩, hidx _ rfl, by simpa [nk] using hlen, hk, htl⟩
  | predicate =>
    simp only [Acc.toW, reduceCtorEq, decide_false, Bool.false_eq_true, if_false, if_true, Option.toList, SA.addTuple]
    refine ⟨by simp [hss], ⟨_, _, rfl, he.setMs _ _, fun _ ho => ?_, hq⟩, hidx _ rfl, by simpa [nk] using hlen, hk, ?_⟩
    · rw [hmt] at ho; cases ho
    · have := tl_snoc htl (.ofText e.st ['{'])
      rw [show resolve E.s (.ofText e.st ['{']) = ⟨S.elt.st, ['{']⟩ by rw [he.st]; rfl] at this
      exact this
  | condition =>
    simp only [Acc.toW, reduceCtorEq, decide_false, Bool.false_eq_true, if_false, if_true, Option.toList, SA.addTuple]
    refine ⟨by simp [hss], ⟨_, _, rfl, he.setMs _ _, fun _ ho => ?_, hq⟩, hidx _ rfl, by simpa [nk] using hlen, hk, ?_⟩
    · rw [hmt] at ho; cases ho
    · have := tl_snoc htl (.ofText e.st [])
      rw [show resolve E.s (.ofText e.st []) = ⟨S.elt.st, []⟩ by rw [he.st]; rfl] at this
      exact this
  | none =>
    simp only [Acc.toW, reduceCtorEq, decide_false, Bool.false_eq_true, if_false, Option.toList, List.append_nil]
    refine ⟨by simp [hss], ⟨_, _, rfl, he.setMs _ _, fun _ ho => ?_, hq⟩, hidx _ rfl, by simpa [nk] using hlen, hk, htl⟩
    rw [hmt] at ho; cases ho

theorem Rel.lb {E : WEnv} {pre ctl : List Tuple} {kp : List Elt} {kss : List Sym} {S : SA} {v : P}
    (h : Rel E pre ctl kp kss S v) (s0 p : Nat) (rest : List Tok) (hl : S.ss.length < MAX_STACK) :
    Rel E pre ctl kp kss (step E.d E.s S (.lb p)) (v.step E s0 (.lb p) rest) := by
  have hql := h.qlen
  have hnk := nk_le S.ss
  obtain ⟨hss, ⟨e, t, hp, he, hms, hq⟩, hi, hlen, hk, htl⟩ := h
  have hm := he.matched (idx_last hi hp)
  have hn := he.next (idx_last hi hp) none
  have hvl : v.ss.length < MAX_STACK := by rw [hss, List.length_append] at hl; omega
  have hq' : ∀ x : Elt, push S.qs x = x :: S.qs := fun x => push_lt (by omega)
  simp only [step, stepLb, P.step]
  rw [cur_eq (v := { v with st := .matched }) (e := e) (t := t) hp, pushQ_eq (e := (lbAct E p).upd (t == []) e) (t := t) rfl]
  have hnx : ((lbAct E p).upd (t == []) e).next E.d (t == []) none = (E.d.enter S.elt none).st := by
    rw [← hn]; simp only [PAct.upd, lbAct, hm, selects_toW]
    split
    · rfl
    · split <;> rfl
  rw [hnx]
  simp only [push_lt hvl]
  rw [hp] at hi hlen
  have hidx : ∀ a b, ∀ l x, a :: (lbAct E p).upd b e :: t = l ++ [x] → NoIdx E.d x.st := fun a b =>
    idx_push (idx_head hi rfl) (by simp)
  have hlen' : ∀ a b : Elt, (a :: b :: t).length = nk (Sym.lb :: v.ss) + 1 := by
    intro a b; simp [nk] at hlen ⊢; omega
  have hupd : (lbAct E p).upd (t == []) e = ⟨e.st, e.count, if E.d.matchedType S.elt.st S.elt.count = .output then some (p - 1) else e.ms⟩ := by
    simp only [PAct.upd, lbAct, hm, selects_toW, decide_eq_true_eq]
    split
    · rfl
    · split <;> rfl
  have hact : (lbAct E p (t == []) e).1.toList = if E.d.matchedType S.elt.st S.elt.count = .condition then [.ofText e.st []] else [] := by
    simp only [lbAct, hm, selects_toW, decide_eq_true_eq]
    cases E.d.matchedType S.elt.st S.elt.count <;> simp [Acc.toW]
  cases hmt : E.d.matchedType S.elt.st S.elt.count with
  | output =>
    simp only [push_lt hl, hq']
    refine ⟨by simp [hss], ⟨_, _, rfl, ERel.refl_enter, fun _ _ => rfl, ?_⟩, hidx _ _, hlen' _ _, hk, ?_⟩
    · refine .cons ⟨?_, ?_⟩ hq
      · rw [hupd]; exact he.setMs _ _
      · intro _; rw [hupd, if_pos hmt]
    · rw [hact, hmt]; simpa using htl
  | condition =>
    simp only [push_lt hl, hq', SA.addTuple]
    refine ⟨by simp [hss], ⟨_, _, rfl, ERel.refl_enter, fun _ _ => rfl, ?_⟩, hidx _ _, hlen' _ _, hk, ?_⟩
    · refine .cons ⟨?_, ?_⟩ hq
      · rw [hupd]; exact he.setMs _ _
      · intro ho; rw [hmt] at ho; cases ho
    · rw [hact, hmt, if_pos rfl]
      have := tl_snoc htl (.ofText e.st [])
      rw [show resolve E.s (.ofText e.st []) = ⟨S.elt.st, []⟩ by rw [he.st]; rfl] at this
      exact this
  | predicate =>
    simp only [push_lt hl, hq']
    refine ⟨by simp [hss], ⟨_, _, rfl, ERel.refl_enter, fun _ _ => rfl, ?_⟩, hidx _ _, hlen' _ _, hk, ?_⟩
    · refine .cons ⟨?_, ?_⟩ hq
      · rw [hupd]; exact he.setMs _ _
      · intro ho; rw [hmt] at ho; cases ho
    · rw [hact, hmt]; simpa using htl
  | none =>
    simp only [push_lt hl, hq']
    refine ⟨by simp [hss], ⟨_, _, rfl, ERel.refl_enter, fun _ _ => rfl, ?_⟩, hidx _ _, hlen' _ _, hk, ?_⟩
    · refine .cons ⟨?_, ?_⟩ hq
      · rw [hupd]; exact he.setMs _ _
      · intro ho; rw [hmt] at ho; cases ho
    · rw [hact, hmt]; simpa using htl

theorem Rel.ky {E : WEnv} {pre ctl : List Tuple} {kp : List Elt} {kss : List Sym} {S : SA} {v : P}
    (h : Rel E pre ctl kp kss S v) (s0 : Nat) (k : Str) (rest : List Tok) (hl : S.ss.length < MAX_STACK)
    (htop : top S.ss = some .lcb) :
    Rel E pre ctl kp kss (step E.d E.s S (.ky k)) (v.step E s0 (.ky k) rest) := by
  have hql := h.qlen
  have hnk := nk_le S.ss
  obtain ⟨hss, ⟨e, t, hp, he, hms, hq⟩, hi, hlen, hk, htl⟩ := h
  have hn := he.next (idx_last hi hp) (some k)
  have hvl : v.ss.length < MAX_STACK := by rw [hss, List.length_append] at hl; omega
  have hq' : ∀ x : Elt, push S.qs x = x :: S.qs := fun x => push_lt (by omega)
  simp only [step, stepKy, P.step]
  rw [pushQ_eq (v := { v with st := .matched }) (e := e) (t := t) hp, hn]
  simp only [push_lt hl, push_lt hvl, hq']
  rw [hp] at hi hlen
  refine ⟨by simp [hss], ⟨_, _, rfl, ERel.refl_enter, fun _ _ => rfl, .cons ⟨he, hms htop⟩ hq⟩, idx_push hi (by simp), ?_, hk, htl⟩
  simp [nk] at hlen ⊢; omega

/-- Emission of a primitive. -/
theorem priAct_tl {E : WEnv} {pre ctl : List Tuple} {S : SA} {out : List MTuple} {e : Elt} {b : Bool} (he : ERel E.d S.elt e)
    (hb : b = true → NoIdx E.d e.st) (htl : pre ++ S.tl = ctl ++ out.map (resolve E.s)) (x x' : Str) (inc : Bool)
    (hx : E.d.matchedType S.elt.st S.elt.count = .output ∨ E.d.matchedType S.elt.st S.elt.count = .condition → x' = x) :
    pre ++ (priOut E.d x S).tl = ctl ++ (out ++ (priAct E x' inc b e).1.toList).map (resolve E.s) ∧
    (priOut E.d x S).ss = S.ss ∧ (priOut E.d x S).qs = S.qs ∧ (priOut E.d x S).elt = S.elt := by
  have hm := he.matched hb
  simp only [priAct, hm, selects_toW, priOut]
  have h1 := tl_snoc htl (.ofText e.st x)
  rw [show resolve E.s (.ofText e.st x) = ⟨S.elt.st, x⟩ by rw [he.st]; rfl] at h1
  cases hmt : E.d.matchedType S.elt.st S.elt.count with
  | output => rw [hx (.inl hmt)]; exact ⟨h1, rfl, rfl, rfl⟩
  | condition => rw [hx (.inr hmt)]; exact ⟨h1, rfl, rfl, rfl⟩
  | predicate => exact ⟨by simpa [Acc.toW] using htl, rfl, rfl, rfl⟩
  | none => exact ⟨by simpa [Acc.toW] using htl, rfl, rfl, rfl⟩

theorem Rel.priTop {E : WEnv} {pre ctl : List Tuple} {kp : List Elt} {kss : List Sym} {S : SA} {v : P}
    (h : Rel E pre ctl kp kss S v) (s0 : Nat) (x : Str) (rest : List Tok) (hne : v.ss ≠ [])
    (htop : top S.ss = some .ky ∨ top S.ss = some .lb) :
    Rel E pre ctl kp kss (step E.d E.s S (.pri x)) (v.step E s0 (.pri x) rest) := by
  obtain ⟨hss, ⟨e, t, hp, he, hms, hq⟩, hi, hlen, hk, htl⟩ := h
  obtain ⟨h1, h2, h3, h4⟩ := priAct_tl he (idx_last hi hp) htl x x (decide (top v.ss = some .lb)) fun _ => rfl
  have hvt : top v.ss = top S.ss := by
    rw [hss]; cases hv : v.ss with
    | nil => exact absurd hv hne
    | cons a r => rfl
  have hl1 : v.ss.length ≥ 1 := List.length_pos_iff.2 hne
  have hl2 : S.ss.length ≥ 1 := by rw [hss, List.length_append]; omega
  have hcur : (v.cur (priAct E x (decide (top v.ss = some .lb)))).ss = v.ss := by rw [cur_eq hp]
  simp only [step, stepPri_tail, P.step, P.pri, if_pos hl1, if_pos hl2, hcur]
  rw [cur_eq hp]
  rw [hp] at hi hlen
  generalize priOut E.d x S = b at *
  unfold priTail
  rw [h2, hvt]
  rcases htop with htop | htop
  · rw [if_pos htop, if_pos htop]
    cases hv : v.ss with
    | nil => exact absurd hv hne
    | cons a r =>
      have ha : a = .ky := by rw [hv] at hvt; rw [htop] at hvt; simpa [top] using hvt
      subst ha
      rw [hv] at hlen hss
      cases t with
      | nil => simp [nk] at hlen
      | cons e1 t =>
        simp only [List.cons_append] at hq
        have hbq : b.qs = S.qs := h3
        generalize S.qs = Q at hq hbq
        cases hq with
        | cons hq1 hq2 =>
          simp only [SA.popQ, hbq, P.popQ, h2]
          refine ⟨by simp [hss, pop], ⟨_, _, rfl, hq1.1, fun _ => hq1.2, hq2⟩, idx_pop hi, by simp [nk, pop] at hlen ⊢; omega, hk, ?_⟩
          simpa [hvt, htop] using h1
  · have : ¬ top S.ss = some .ky := by rw [htop]; simp
    rw [if_neg this, if_neg this, if_pos htop]
    refine ⟨by simp [h2, hss], ⟨_, _, rfl, ?_, fun hh => ?_, ?_⟩, idx_head hi rfl, by simpa using hlen, hk, ?_⟩
    · simp only [PAct.upd, priAct, htop, decide_true, if_true, h4]
      exact he.incr _ _
    · simp only [h2] at hh
      rw [htop] at hh; cases hh
    · simp only [h3]; exact hq
    · simpa [hvt, htop] using h1

/-- An array element that began in an earlier chunk. -/
theorem Rel.priRoot {E : WEnv} {pre ctl : List Tuple} {kp : List Elt} {kss : List Sym} {S : SA} {v : P}
    (h : Rel E pre ctl kp kss S v) (x x' : Str) (sh : List Sym) (st : UState)
    (htop : top S.ss = some .lb)
    (hx : E.d.matchedType S.elt.st S.elt.count = .output ∨ E.d.matchedType S.elt.st S.elt.count = .condition → x' = x) :
    Rel E pre ctl kp kss (step E.d E.s S (.pri x)) (P.cur (priAct E x' true) { v with shadow := sh, st := st }) := by
  obtain ⟨hss, ⟨e, t, hp, he, hms, hq⟩, hi, hlen, hk, htl⟩ := h
  obtain ⟨h1, h2, h3, h4⟩ := priAct_tl he (idx_last hi hp) htl x x' true hx
  have hl2 : S.ss.length ≥ 1 := by
    cases hs : S.ss with
    | nil => rw [hs] at htop; simp [top] at htop
    | cons a r => simp
  simp only [step, stepPri_tail, if_pos hl2]
  rw [cur_eq (v := { v with shadow := sh, st := st }) hp]
  rw [hp] at hi hlen
  generalize priOut E.d x S = b at *
  unfold priTail
  have : ¬ top S.ss = some .ky := by rw [htop]; simp
  rw [h2, if_neg this, if_pos htop]
  refine ⟨by simp [h2, hss], ⟨_, _, rfl, ?_, fun hh => ?_, ?_⟩, idx_head hi rfl, by simpa using hlen, hk, ?_⟩
  · simp only [PAct.upd, priAct, if_true, h4]
    exact he.incr _ _
  · simp only [h2] at hh
    rw [htop] at hh; cases hh
  · simp only [h3]; exact hq
  · exact h1

/-- Emission of a container. -/
theorem closeAct_tl {E : WEnv} {pre ctl : List Tuple} {S : SA} {out : List MTuple} {q e : Elt} {b : Bool} (he : ERel E.d q e)
    (hms : msOK E.d q e) (hb : b = true → NoIdx E.d e.st) (htl : pre ++ S.tl = ctl ++ out.map (resolve E.s)) (arr : Bool) (pos : Nat) :
    (pre ++ (S.closeOutput E.d E.s pos q).tl = ctl ++ (out ++ (closeAct E arr pos b e).1.toList).map (resolve E.s) ∧
    (S.closeOutput E.d E.s pos q).qs = S.qs ∧ (S.closeOutput E.d E.s pos q).elt = S.elt) ∧
    (closeAct E arr pos b e).2.1 = e.count ∧
    (closeAct E arr pos b e).2.2 = if E.d.matchedType q.st q.count = .output then none else e.ms := by
  have hm := he.matched hb
  simp only [closeAct, hm, selects_toW, decide_eq_true_eq]
  by_cases ho : E.d.matchedType q.st q.count = .output
  · have h1 := hms ho
    unfold SA.closeOutput
    simp only [ho, if_true]
    rw [← h1]
    cases q.ms with
    | none => exact ⟨⟨by simpa using htl, rfl, rfl⟩, rfl, rfl⟩
    | some p0 =>
      refine ⟨⟨?_, rfl, rfl⟩, rfl, rfl⟩
      have h2 := tl_snoc htl (if E.id0 = true then .ofText e.st (substring E.s p0 pos) else .ofSpan e.st p0 pos)
      rw [show resolve E.s (if E.id0 = true then .ofText e.st (substring E.s p0 pos) else .ofSpan e.st p0 pos) =
        ⟨q.st, substring E.s p0 pos⟩ by rw [he.st]; split <;> rfl] at h2
      exact h2
  · have h1 : S.closeOutput E.d E.s pos q = S := by
      unfold SA.closeOutput; cases q.ms <;> simp [ho]
    rw [h1]
    have h2 : (arr && (E.d.matchedType q.st q.count).toW == WAcc.incomplete) = false := by
      cases E.d.matchedType q.st q.count <;> simp [Acc.toW]
    simp only [ho, if_false, h2, Bool.false_eq_true]
    cases e.ms <;> simpa using htl

theorem Rel.closeCur {E : WEnv} {pre ctl : List Tuple} {kp : List Elt} {kss : List Sym} {S : SA} {v : P}
    (h : Rel E pre ctl kp kss S v) (pos : Nat) (htop : top S.ss = some .lcb) :
    Rel E pre ctl kp kss (rcbOutput E.d E.s pos S) (v.cur (closeAct E false pos)) := by
  obtain ⟨hss, ⟨e, t, hp, he, hms, hq⟩, hi, hlen, hk, htl⟩ := h
  have hms := hms htop
  obtain ⟨⟨h1, h3, h4⟩, h5, h6⟩ := closeAct_tl he hms (idx_last hi hp) htl false pos
  have h2 := closeOutput_ss E.d E.s pos S.elt S
  rw [cur_eq hp]
  rw [hp] at hi hlen
  unfold rcbOutput
  generalize S.closeOutput E.d E.s pos S.elt = b at *
  have hupd : ∀ x : Option Nat, x = (closeAct E false pos (t == []) e).2.2 →
      ERel E.d ⟨b.elt.st, b.elt.count, x⟩ ((closeAct E false pos).upd (t == []) e) := by
    intro x _
    simp only [PAct.upd, h5, h4]
    exact he.setMs _ _
  dsimp only
  split
  · rename_i ho
    refine ⟨by rw [← hss, ← h2], ⟨_, _, rfl, hupd none (by rw [h6, if_pos ho.2]), fun _ _ => ?_, ?_⟩, idx_head hi rfl, hlen, hk, h1⟩
    · simp only [PAct.upd, h6, if_pos ho.2]
    · rw [h3]; exact hq
  · rename_i ho
    refine ⟨by rw [← hss, ← h2], ⟨_, _, rfl, ?_, fun _ ho' => ?_, ?_⟩, idx_head hi rfl, hlen, hk, h1⟩
    · simp only [PAct.upd, h5, h4]
      exact he.setMs S.elt.ms _
    · rw [h4] at ho' ⊢
      simp only [PAct.upd, h6, if_pos ho']
      cases hx : S.elt.ms with
      | none => rfl
      | some y => exact absurd ⟨by rw [hx]; simp, ho'⟩ ho
    · rw [h3]; exact hq

/-- The second part of `stepRcb` (streaming_automaton.c:194-217). -/
def rcbEnd (d : QDfa) (a : SA) : SA :=
  if a.ss.length = 1 then { a with ss := pop a.ss }
  else if a.ss.length > 1 then
    if secondTop a.ss = some .ky then
      let a := a.popQ
      { a with ss := pop (pop a.ss) }
    else if secondTop a.ss = some .lb then
      let a := { a with ss := pop a.ss, elt := { a.elt with count := a.elt.count + 1 } }
      if d.matchedType a.elt.st a.elt.count = .predicate then a.addTuple a.elt.st ['}'] else a
    else a
  else a

theorem stepRcb_end (d : QDfa) (s : Str) (pos : Nat) (a : SA) : stepRcb d s pos a = rcbEnd d (rcbOutput d s pos a) := rfl

theorem matchedType_pred (d : QDfa) (s n : Nat) : d.matchedType s n = .predicate ↔ d.accept s = .predicate := by
  unfold QDfa.matchedType
  cases d.accept s <;> simp
  split <;> simp

/-- The end of an object in an array. -/
theorem Rel.endElem {E : WEnv} {pre ctl : List Tuple} {kp : List Elt} {kss : List Sym} {S : SA} {v : P}
    (h : Rel E pre ctl kp kss S v) (root : Bool) (sh : List Sym) {r q : List Sym} (hv : v.ss = .lcb :: r)
    (hS : S.ss = .lcb :: .lb :: q) :
    Rel E pre ctl kp kss (rcbEnd E.d S) (P.cur (elemAct E root) { v with shadow := sh, ss := pop v.ss }) := by
  obtain ⟨hss, ⟨e, t, hp, he, hms, hq⟩, hi, hlen, hk, htl⟩ := h
  have hm := he.matched (idx_last hi hp)
  rw [cur_eq (v := { v with shadow := sh, ss := pop v.ss }) hp]
  rw [hp] at hi hlen
  have e1 : rcbEnd E.d S = if E.d.accept S.elt.st = .predicate then
      SA.addTuple { S with ss := .lb :: q, elt := { S.elt with count := S.elt.count + 1 } } S.elt.st ['}']
      else { S with ss := .lb :: q, elt := { S.elt with count := S.elt.count + 1 } } := by
    simp only [rcbEnd, hS, secondTop, pop, matchedType_pred]
    simp
  have e2 : (elemAct E root (t == []) e).1.toList = if E.d.accept S.elt.st = .predicate then [.ofText e.st ['}']] else [] := by
    simp only [elemAct, hm]
    by_cases ha : E.d.accept S.elt.st = .predicate
    · rw [(matchedType_pred _ _ _).2 ha, if_pos ha]; rfl
    · have := mt (matchedType_pred E.d S.elt.st S.elt.count).1 ha
      rw [if_neg ha]
      revert this
      cases E.d.matchedType S.elt.st S.elt.count <;> cases root <;> simp [Acc.toW]
  have hssr : .lb :: q = r ++ kss := by
    rw [hS, hv] at hss; simpa using hss
  rw [e1]
  have hbase : ∀ (tl : List Tuple) (ub : Bool) (out : List MTuple), pre ++ tl = ctl ++ out.map (resolve E.s) →
      Rel E pre ctl kp kss ⟨⟨S.elt.st, S.elt.count + 1, S.elt.ms⟩, .lb :: q, S.qs, tl, ub⟩
        ⟨(elemAct E root).upd (t == []) e :: t, out, pop v.ss, sh, v.syms, v.st, v.units⟩ := by
    intro tl ub out ho
    refine ⟨by simp [hv, pop, hssr], ⟨_, _, rfl, ?_, fun hh => ?_, hq⟩, idx_head hi rfl, ?_, hk, ho⟩
    · exact he.incr _ _
    · simp [top] at hh
    · rw [hv] at hlen ⊢
      simpa [nk, pop] using hlen
  split
  · rename_i ha
    refine hbase _ _ _ ?_
    rw [e2, if_pos ha]
    have := tl_snoc htl (.ofText e.st ['}'])
    rw [show resolve E.s (.ofText e.st ['}']) = ⟨S.elt.st, ['}']⟩ by rw [he.st]; rfl] at this
    exact this
  · rename_i ha
    refine hbase _ _ _ ?_
    rw [e2, if_neg ha, List.append_nil]; exact htl

/-- The end of an object that is the value of a key. -/
theorem Rel.endKey {E : WEnv} {pre ctl : List Tuple} {kp : List Elt} {kss : List Sym} {S : SA} {v : P}
    (h : Rel E pre ctl kp kss S v) {r : List Sym} (hv : v.ss = .lcb :: .ky :: r) :
    Rel E pre ctl kp kss (rcbEnd E.d S) { v.popQ with ss := pop (pop v.ss) } := by
  obtain ⟨hss, ⟨e, t, hp, he, hms, hq⟩, hi, hlen, hk, htl⟩ := h
  have hS : S.ss = .lcb :: .ky :: (r ++ kss) := by rw [hss, hv]; rfl
  have e1 : rcbEnd E.d S = { S.popQ with ss := r ++ kss } := by
    simp only [rcbEnd, hS, secondTop, pop, popQ_ss]
    simp
  rw [e1]
  rw [hp] at hi hlen
  rw [hv] at hlen
  cases t with
  | nil => simp [nk] at hlen
  | cons e1 t =>
    have hq : All2 (QRel E.d) S.qs (e1 :: (t ++ kp)) := hq
    cases hQ : S.qs with
    | nil => rw [hQ] at hq; cases hq
    | cons q1 Q =>
      rw [hQ] at hq
      cases hq with
      | cons hq1 hq2 =>
        simp only [SA.popQ, hQ, P.popQ, hp, List.tail_cons]
        refine ⟨by simp [hv, pop], ⟨_, _, rfl, hq1.1, fun _ => hq1.2, hq2⟩, idx_pop hi, ?_, hk, htl⟩
        simp [hv, pop, nk] at hlen ⊢; omega

/-- The end of the outermost object. -/
theorem Rel.endTop {E : WEnv} {pre ctl : List Tuple} {kp : List Elt} {S : SA} {v : P}
    (h : Rel E pre ctl kp [] S v) (hv : v.ss = [.lcb]) : Rel E pre ctl kp [] (rcbEnd E.d S) { v with ss := pop v.ss } := by
  obtain ⟨hss, ⟨e, t, hp, he, hms, hq⟩, hi, hlen, hk, htl⟩ := h
  have hS : S.ss = [.lcb] := by rw [hss, hv]; rfl
  have e1 : rcbEnd E.d S = { S with ss := [] } := by
    simp only [rcbEnd, hS, pop]; simp
  rw [e1]
  refine ⟨by simp [hv, pop], ⟨e, t, hp, he, fun hh => (by simp [top] at hh), hq⟩, hi, ?_, hk, htl⟩
  rw [hlen, hv]; simp [nk, pop]

/-- What happens at the end of an array before the stacks are popped: the entry below may have lost its start. -/
theorem Rel.rbOut {E : WEnv} {pre ctl : List Tuple} {kp : List Elt} {kss : List Sym} {S : SA} {v : P}
    (h : Rel E pre ctl kp kss S v) (pos : Nat) {r : List Sym} (hv : v.ss = .lb :: r) :
    ∃ e e1 t q1 Q, v.below (closeAct E true pos) = { v with p := e :: e1 :: t, out := (v.below (closeAct E true pos)).out } ∧
      (JPS.rbOut E.d E.s pos S).ss = .lb :: (r ++ kss) ∧ (JPS.rbOut E.d E.s pos S).qs = q1 :: Q ∧
      ERel E.d q1 e1 ∧ All2 (QRel E.d) Q (t ++ kp) ∧ (∀ l x, e1 :: t = l ++ [x] → NoIdx E.d x.st) ∧
      (e1 :: t).length = nk r + 1 ∧
      pre ++ (JPS.rbOut E.d E.s pos S).tl = ctl ++ (v.below (closeAct E true pos)).out.map (resolve E.s) := by
  obtain ⟨hss, ⟨e, t, hp, he, hms, hq⟩, hi, hlen, hk, htl⟩ := h
  rw [hp] at hi hlen
  rw [hv] at hlen
  cases t with
  | nil => simp [nk] at hlen
  | cons e1 t =>
    have hq : All2 (QRel E.d) S.qs (e1 :: (t ++ kp)) := hq
    cases hQ : S.qs with
    | nil => rw [hQ] at hq; cases hq
    | cons q1 Q =>
      rw [hQ] at hq
      cases hq with
      | cons hq1 hq2 =>
        obtain ⟨⟨h1, h3, h4⟩, h5, h6⟩ := closeAct_tl (b := t == []) hq1.1 hq1.2 (idx_last (idx_pop hi) rfl) htl true pos
        have h2 := closeOutput_ss E.d E.s pos q1 S
        rw [below_eq hp]
        have hr : JPS.rbOut E.d E.s pos S = S.closeOutput E.d E.s pos q1 := by
          simp [JPS.rbOut, hQ, top]
        rw [hr]
        refine ⟨e, _, t, q1, Q, rfl, by rw [h2, hss, hv]; rfl, by rw [h3, hQ], ?_, hq2, idx_head (idx_pop hi) rfl, ?_, h1⟩
        · simp only [PAct.upd, h5]; exact hq1.1.setMs q1.ms _
        · simp [nk] at hlen ⊢; omega

theorem stepRb_cons {E : WEnv} {S : SA} {pos : Nat} (hne : S.ss ≠ []) :
    step E.d E.s S (.rb pos) = rbTail (JPS.rbOut E.d E.s pos S) := by
  simp only [step, stepRb_tail]
  exact if_pos (List.length_pos_iff.2 hne)

/-- The end of an array in an array. -/
theorem Rel.rbElem {E : WEnv} {pre ctl : List Tuple} {kp : List Elt} {kss : List Sym} {S : SA} {v : P}
    (h : Rel E pre ctl kp kss S v) (pos : Nat) (sh : List Sym) {r q : List Sym} (hv : v.ss = .lb :: r) (hr : r ++ kss = .lb :: q) :
    Rel E pre ctl kp kss (step E.d E.s S (.rb pos))
      (P.cur incrAct { (v.below (closeAct E true pos)).popQ with shadow := sh, ss := pop v.ss }) := by
  obtain ⟨e, e1, t, q1, Q, h1, h2, h3, h4, h5, h6, h7, h8⟩ := h.rbOut pos hv
  rw [stepRb_cons (by rw [h.ss, hv]; simp)]
  have hp : ({ (v.below (closeAct E true pos)).popQ with shadow := sh, ss := pop v.ss } : P).p = e1 :: t := by
    rw [h1]; rfl
  rw [cur_eq hp]
  generalize JPS.rbOut E.d E.s pos S = b at *
  have e1' : rbTail b = { b with elt := ⟨q1.st, q1.count + 1, q1.ms⟩, qs := Q, ss := r ++ kss } := by
    simp only [rbTail, h2, hr, secondTop, SA.popQ, h3, pop]
    simp
  rw [e1']
  refine ⟨by simp [hv, pop], ⟨_, _, rfl, h4.incr _ _, fun hh => ?_, h5⟩, idx_head h6 rfl, ?_, h.klen, ?_⟩
  · simp only [hr] at hh; simp [top] at hh
  · rw [hv]; simpa [pop] using h7
  · simpa [incrAct, P.popQ] using h8

/-- The end of an array that is the value of a key. -/
theorem Rel.rbKey {E : WEnv} {pre ctl : List Tuple} {kp : List Elt} {kss : List Sym} {S : SA} {v : P}
    (h : Rel E pre ctl kp kss S v) (pos : Nat) {r : List Sym} (hv : v.ss = .lb :: .ky :: r) :
    Rel E pre ctl kp kss (step E.d E.s S (.rb pos))
      { (v.below (closeAct E true pos)).popQ.popQ with ss := pop (pop v.ss) } := by
  obtain ⟨e, e1, t, q1, Q, h1, h2, h3, h4, h5, h6, h7, h8⟩ := h.rbOut pos hv
  rw [stepRb_cons (by rw [h.ss, hv]; simp)]
  generalize JPS.rbOut E.d E.s pos S = b at *
  cases t with
  | nil => simp [nk] at h7
  | cons e2 t =>
    have h5 : All2 (QRel E.d) Q (e2 :: (t ++ kp)) := h5
    cases h5 with
    | cons hq1 hq2 =>
      rename_i q2 Q
      have e1' : rbTail b = { b with elt := q2, qs := Q, ss := r ++ kss } := by
        simp only [rbTail, h2, secondTop, SA.popQ, h3, pop]
        simp
      rw [e1']
      refine ⟨by simp [hv, pop], ⟨e2, t, by rw [h1]; rfl, hq1.1, fun _ => hq1.2, hq2⟩, ?_, ?_, h.klen, ?_⟩
      · rw [h1]; exact idx_pop h6
      · rw [h1]; simp [hv, pop, nk, P.popQ] at h7 ⊢; omega
      · exact h8

/-- The end of the outermost array. -/
theorem Rel.rbTop {E : WEnv} {pre ctl : List Tuple} {kp : List Elt} {S : SA} {v : P}
    (h : Rel E pre ctl kp [] S v) (pos : Nat) (sh : List Sym) (hv : v.ss = [.lb]) :
    Rel E pre ctl kp [] (step E.d E.s S (.rb pos))
      { (v.below (closeAct E true pos)).popQ with shadow := sh, ss := pop v.ss } := by
  obtain ⟨e, e1, t, q1, Q, h1, h2, h3, h4, h5, h6, h7, h8⟩ := h.rbOut pos hv
  rw [stepRb_cons (by rw [h.ss, hv]; simp)]
  generalize JPS.rbOut E.d E.s pos S = b at *
  have e1' : rbTail b = { b with elt := q1, qs := Q, ss := [] } := by
    simp only [rbTail, h2, SA.popQ, h3, pop]
    simp
  rw [e1']
  refine ⟨by simp [hv, pop], ⟨e1, t, by rw [h1]; rfl, h4, fun hh => (by simp [top] at hh), h5⟩, ?_, ?_, h.klen, ?_⟩
  · rw [h1]; exact h6
  · rw [h1]; simpa [hv, pop, nk, P.popQ] using h7
  · exact h8

end JPS
