import Verif.ParStep
import Verif.CtlSim
/-!
# The inside of a chunk

One path of a worker and the serial automaton started in the state of the path's start, as long as nothing is closed
that was open before.
-/

set_option autoImplicit false

namespace JPS
open Spec

/-- What lies above what was open where the chunk begins. -/
structure Inside (d : QDfa) (kss : List Sym) (q0 : List (Nat × Nat)) (C : Ctl) (v : P) : Prop where
  ss : C.ss = v.ss ++ kss
  path : C.e :: C.q = v.p.map Elt.key ++ q0
  len : v.p.length = nk v.ss + 1
  root : ∀ l x, v.p = l ++ [x] → NoIdx d x.st
  shad : v.shadow = [] ∨ (v.shadow = [.lb] ∧ top kss = some .lb)
  syms : v.syms = []
  units : v.units = []

theorem PAct.upd_key (a : PAct) (b : Bool) (e : Elt) : (a.upd b e).key = (e.st, (a b e).2.1) := rfl

theorem closeAct_count (E : WEnv) (arr : Bool) (pos : Nat) (b : Bool) (e : Elt) : (closeAct E arr pos b e).2.1 = e.count := by
  unfold closeAct; cases e.ms with
  | none => rfl
  | some p => simp only; split <;> (try split) <;> rfl

theorem lcbAct_count (E : WEnv) (pos : Nat) (b : Bool) (e : Elt) : (lcbAct E pos b e).2.1 = e.count := by
  unfold lcbAct; split <;> (try split) <;> (try split) <;> rfl

theorem lbAct_count (E : WEnv) (pos : Nat) (b : Bool) (e : Elt) : (lbAct E pos b e).2.1 = e.count := by
  unfold lbAct; split <;> (try split) <;> rfl

theorem root_head {d : QDfa} {e e' : Elt} {t : List Elt} (h : ∀ l x, e :: t = l ++ [x] → NoIdx d x.st) (hs : e'.st = e.st) :
    ∀ l x, e' :: t = l ++ [x] → NoIdx d x.st := idx_head h hs

theorem root_tail {d : QDfa} {e : Elt} {t : List Elt} (h : ∀ l x, e :: t = l ++ [x] → NoIdx d x.st) :
    ∀ l x, t = l ++ [x] → NoIdx d x.st := fun l x hl => h (e :: l) x (by rw [hl]; rfl)

theorem next_go {d : QDfa} {e : Elt} {b : Bool} (hb : b = true → NoIdx d e.st) (k : Option Str) :
    e.next d b k = d.go e.st e.count k := (ERel.next (e := e) (e' := e) ⟨rfl, .inl rfl⟩ hb k)

section
variable {E : WEnv} {kss : List Sym} {q0 : List (Nat × Nat)} {C : Ctl} {v : P} {m : Mode} {s0 : Nat} {rest : List Tok}

theorem Inside.cons (h : Inside E.d kss q0 C v) : ∃ e t, v.p = e :: t ∧ C.e = e.key ∧ C.q = t.map Elt.key ++ q0 := by
  have hl := h.len
  have hp := h.path
  cases hv : v.p with
  | nil => rw [hv] at hl; simp at hl
  | cons e t =>
    rw [hv] at hp
    simp only [List.map_cons, List.cons_append, List.cons.injEq] at hp
    exact ⟨e, t, rfl, hp.1, hp.2⟩

theorem Inside.qlen (h : Inside E.d kss q0 C v) (hq : q0.length = nk kss) : C.q.length = nk C.ss := by
  have := congrArg List.length h.path
  simp only [List.length_cons, List.length_append, List.length_map, h.len, hq] at this
  rw [h.ss, nk_append]; omega

/-- A change of the current entry and of the control fields. -/
theorem Inside.cur (h : Inside E.d kss q0 C v) {a : PAct} {C' : Ctl} {v' : P} (hv : v' = v.cur a) (hss : C'.ss = C.ss) (hq : C'.q = C.q)
    (he : ∀ b e, C.e = e.key → C'.e = (a.upd b e).key) : Inside E.d kss q0 C' v' := by
  obtain ⟨e, t, hp, he0, hq0⟩ := h.cons
  have hf := cur_fields v a
  have hp' : v'.p = a.upd (t == []) e :: t := by rw [hv, P.cur, hp]
  refine ⟨by rw [hss, h.ss, hv, hf.2.2.2.1], ?_, ?_, ?_, ?_, ?_, ?_⟩
  · rw [hp', hq, hq0, he _ _ he0]; rfl
  · have := h.len; rw [hp] at this; rw [hp', hv, hf.2.2.2.1]; exact this
  · rw [hp']; refine root_head (e := e) (by rw [← hp]; exact h.root) rfl
  · rw [hv, hf.2.2.2.2]; exact h.shad
  · rw [hv, hf.2.1]; exact h.syms
  · rw [hv, hf.1]; exact h.units

/-- Changes of control fields that the relation does not see. -/
theorem Inside.mark (h : Inside E.d kss q0 C v) (st : UState) : Inside E.d kss q0 C { v with st := st } :=
  ⟨h.ss, h.path, h.len, h.root, h.shad, h.syms, h.units⟩

theorem Inside.shadow (h : Inside E.d kss q0 C v) (hk : top kss = some .lb) : Inside E.d kss q0 C { v with shadow := [.lb] } :=
  ⟨h.ss, h.path, h.len, h.root, .inr ⟨rfl, hk⟩, h.syms, h.units⟩

theorem Inside.push (h : Inside E.d kss q0 C v) (hq : q0.length = nk kss) (hm : C.ss.length < MAX_STACK) (x : Sym) (g : List Nat)
    (hx : x ≠ .lcb) (k : Option Str) : Inside E.d kss q0 ⟨(E.d.go C.e.1 C.e.2 k, 0), JPS.push C.ss x, JPS.push C.q C.e, g⟩
      { (v.pushQ E.d k) with ss := JPS.push (v.pushQ E.d k).ss x } := by
  obtain ⟨e, t, hp, he0, hq0⟩ := h.cons
  have hf := pushQ_fields v E.d k
  have hp' : (v.pushQ E.d k).p = ⟨e.next E.d (t == []) k, 0, none⟩ :: e :: t := by rw [P.pushQ, hp]
  have hl : v.ss.length < MAX_STACK := by rw [h.ss, List.length_append] at hm; omega
  have hql : C.q.length < MAX_STACK := by rw [h.qlen hq]; exact Nat.lt_of_le_of_lt (nk_le _) hm
  have hroot : (t == []) = true → NoIdx E.d e.st := idx_last h.root hp
  refine ⟨?_, ?_, ?_, ?_, ?_, ?_, ?_⟩
  · simp only [JPS.push, hf.2.2.2.1, hl, hm, if_true]; rw [h.ss]; rfl
  · simp only [JPS.push, hql, if_true, hp', next_go hroot]; rw [he0, hq0]; rfl
  · have := h.len
    rw [hp] at this
    simp only [JPS.push, hf.2.2.2.1, hl, if_true, hp']
    cases x with
    | lcb => exact absurd rfl hx
    | lb => simp only [nk, List.length_cons] at *; omega
    | ky => simp only [nk, List.length_cons] at *; omega
  · simp only [hp']
    refine idx_push (by rw [← hp]; exact h.root) (by simp)
  · simp only [hf.2.2.2.2]; exact h.shad
  · simp only [hf.2.1]; exact h.syms
  · simp only [hf.1]; exact h.units

/-- The entries of a construct are dropped. -/
theorem Inside.pop (h : Inside E.d kss q0 C v) {v' : P} {r : List Sym} {x : Sym} (hx : v.ss = x :: r) (hne : x ≠ .lcb) (g : List Nat)
    (hp' : v'.p = v.p.tail) (hs' : v'.ss = r) (h1 : v'.shadow = v.shadow) (h2 : v'.syms = v.syms) (h3 : v'.units = v.units) :
    Inside E.d kss q0 { C.popQ with ss := r ++ kss, g := g } v' := by
  obtain ⟨e, t, hp, he0, hq0⟩ := h.cons
  have hl := h.len
  rw [hp, hx] at hl
  have ht : t.length = nk r + 1 := by cases x <;> simp [nk] at hl hne ⊢ <;> omega
  cases t with
  | nil => simp at ht
  | cons e1 t =>
    have hq' : C.q = e1.key :: (t.map Elt.key ++ q0) := by rw [hq0]; rfl
    rw [hp] at hp'
    refine ⟨by rw [hs'], ?_, by rw [hp', hs']; exact ht, ?_, by rw [h1]; exact h.shad, by rw [h2]; exact h.syms, by rw [h3]; exact h.units⟩
    · simp only [Ctl.popQ, hq', hp']; rfl
    · rw [hp']
      have hr := h.root
      rw [hp] at hr
      exact root_tail hr

theorem cur_step (h : Inside E.d kss q0 C v) {a : PAct} (ha : ∀ b e, (a b e).2.1 = e.count) : Inside E.d kss q0 C (v.cur a) :=
  h.cur rfl rfl rfl fun b e he => by rw [PAct.upd_key, ha, he]; rfl

theorem below_step (h : Inside E.d kss q0 C v) {a : PAct} (ha : ∀ b e, (a b e).2.1 = e.count) :
    Inside E.d kss q0 C (v.below a) := by
  obtain ⟨e, t, hp, he0, hq0⟩ := h.cons
  have hf := below_fields v a
  have hl := below_len v a
  cases t with
  | nil =>
    have : v.below a = v := by rw [P.below]; simp only [hp]
    rw [this]; exact h
  | cons e1 t =>
    have hp' : (v.below a).p = e :: a.upd (t == []) e1 :: t := by rw [P.below]; simp only [hp]
    refine ⟨by rw [hf.2.2.2.1]; exact h.ss, ?_, by rw [hl, hf.2.2.2.1]; exact h.len, ?_, by rw [hf.2.2.2.2]; exact h.shad,
      by rw [hf.2.1]; exact h.syms, by rw [hf.1]; exact h.units⟩
    · have := h.path
      rw [this, hp', hp]
      simp only [List.map_cons, PAct.upd_key, ha]; rfl
    · rw [hp']
      have hr := h.root
      rw [hp] at hr
      exact idx_push (root_head (root_tail hr) rfl) (by simp)

theorem Inside.close (h : Inside E.d kss q0 C v) (hss : C.ss ≠ []) (x : Sym) (hx : x ≠ .ky) (hwf : wfStack C.ss)
    (htop : top C.ss = some x) (hstay : kss.length ≤ (ssStep C.ss (.rcb 0)).length) (hk : kss ≠ []) (hkk : top kss ≠ some .ky) :
    (∃ r, v.ss = x :: .ky :: r) ∨ (∃ r, v.ss = x :: .lb :: r) ∨ (v.ss = [x] ∧ top kss = some .lb) := by
  rw [h.ss] at *
  cases hv : v.ss with
  | nil =>
    exfalso
    rw [hv] at hstay
    simp only [List.nil_append] at hstay
    rw [hv] at htop hwf
    simp only [List.nil_append] at htop hwf
    cases kss with
    | nil => exact hk rfl
    | cons y r =>
      have hy : y = x := by simpa [top] using htop
      subst hy
      rcases wf_below hwf hx with rfl | ⟨q, rfl⟩ | ⟨q, rfl⟩ <;> simp [ssStep, JPS.pop, secondTop] at hstay <;> omega
  | cons y r =>
    rw [hv] at htop hwf
    have hy : y = x := by simpa [top] using htop
    subst hy
    cases r with
    | nil =>
      refine .inr (.inr ⟨rfl, ?_⟩)
      rcases wf_below (r := kss) hwf hx with h1 | ⟨q, h1⟩ | ⟨q, h1⟩
      · exact absurd h1 hk
      · rw [h1]; rfl
      · rw [h1] at hkk; exact absurd rfl hkk
    | cons z r =>
      rcases wf_below (r := z :: r ++ kss) hwf hx with h1 | ⟨q, h1⟩ | ⟨q, h1⟩
      · cases h1
      · simp at h1; exact .inr (.inl ⟨r, by rw [h1.1]⟩)
      · simp at h1; exact .inl ⟨r, by rw [h1.1]⟩

theorem Inside.incr (h : Inside E.d kss q0 C v) {a : PAct} (ha : ∀ b e, (a b e).2.1 = e.count + 1) (g : List Nat) :
    Inside E.d kss q0 ⟨(C.e.1, C.e.2 + 1), C.ss, C.q, g⟩ (v.cur a) :=
  h.cur rfl rfl rfl fun b e he => by rw [PAct.upd_key, ha, he]; rfl

/-- The bracket of an element is closed. -/
theorem Inside.setSs (h : Inside E.d kss q0 C v) {r : List Sym} (hx : v.ss = .lcb :: r) (g : List Nat) :
    Inside E.d kss q0 ⟨C.e, r ++ kss, C.q, g⟩ { v with ss := r } :=
  ⟨rfl, h.path, by rw [h.len, hx]; rfl, h.root, h.shad, h.syms, h.units⟩

theorem Inside.shad' (h : Inside E.d kss q0 C v) : v.shadow = [] ∨ v.shadow = [.lb] := by
  rcases h.shad with h | h
  · exact .inl h
  · exact .inr h.1

theorem popQ_ctl (C : Ctl) (ss ss' : List Sym) (g g' : List Nat) :
    ({ (⟨C.e, ss, C.q, g⟩ : Ctl).popQ with ss := ss', g := g' } : Ctl) = { C.popQ with ss := ss', g := g' } := by
  obtain ⟨e, s, q, g0⟩ := C
  cases q <;> rfl

/-- One token. -/
theorem Inside.step (h : Inside E.d kss q0 C v) (hk : kss ≠ []) (hkk : top kss ≠ some .ky) (hq : q0.length = nk kss)
    (hwf : wfStack C.ss) (hm : modeOK C.ss m) {t : Tok} (hfit : fitsAll C.ss m (t :: rest))
    (hstop : stopsAt ((t :: rest).foldl ssStep C.ss) (modeAfter m (t :: rest)))
    (hstay : ∀ n, kss.length ≤ (((t :: rest).take n).foldl ssStep C.ss).length) :
    Inside E.d kss q0 (ctlStep E.d C t) (v.step E s0 t rest) := by
  have hkl : 0 < kss.length := List.length_pos_iff.2 hk
  have hrest : t.mode = .post → rest ≠ [] := by
    intro hp hr
    subst hr
    rcases hstop with hs | hs
    · have := hstay 1
      simp only [List.take_succ_cons, List.take_zero] at this
      rw [hs] at this; simp at this; exact hk this
    · rw [modeAfter_cons] at hs
      rcases hs with hs | hs <;> rw [show modeAfter t.mode [] = t.mode from rfl, hp] at hs <;> cases hs
  have hne : C.ss ≠ [] := by rw [h.ss]; simp [hk]
  have h1 : kss.length ≤ (ssStep C.ss t).length := by simpa using hstay 1
  have hf1 := hfit.1
  have hlen : ∀ (x : Sym) (r : List Sym), v.ss = x :: r → C.ss.length ≠ 1 := by
    intro x r hx; rw [h.ss, hx]; simp [hk]
  cases t with
  | com => exact h
  | lcb p =>
    simp only [ctlStep, P.step]
    have hl : v.ss.length < MAX_STACK := by have := hf1.2; rw [h.ss, List.length_append] at this; omega
    refine cur_step (v := { v with st := .matched, ss := JPS.push v.ss .lcb }) ?_ (lcbAct_count E p)
    refine ⟨?_, h.path, ?_, h.root, h.shad, h.syms, h.units⟩
    · simp only [JPS.push, hf1.2, hl, if_true]; rw [h.ss]; rfl
    · simp only [JPS.push, hl, if_true]; exact h.len
  | lb p =>
    simp only [ctlStep, P.step]
    exact (cur_step (h.mark .matched) (lbAct_count E p)).push hq hf1.2 .lb _ (by simp) none
  | ky k =>
    simp only [ctlStep, P.step]
    exact (h.mark .matched).push hq hf1.2.2 .ky _ (by simp) (some k)
  | pri x =>
    by_cases hv : v.ss = []
    · have hss : C.ss = kss := by rw [h.ss, hv]; rfl
      have htop : top kss = some .lb := by
        rcases hf1.1 with h2 | h2
        · rcases hm.1 h2 with h3 | h3
          · exact absurd h3 hne
          · rw [hss] at h3; exact absurd h3 hkk
        · rw [← hss]; exact h2.1
      have hi : infer .pri rest = some .lb := by
        refine (infer_lb (L := C.ss) (by rw [hss]; exact htop) ?_).1
        have := hfit.2
        have hs : ssStep C.ss (.pri x) = C.ss := by simp [ssStep, hss, htop]
        rw [hs] at this
        exact this
      rw [pri_root hv h.shad' hi]
      have : ctlStep E.d C (.pri x) = ⟨(C.e.1, C.e.2 + 1), C.ss, C.q, C.g⟩ := by simp [ctlStep, hss, htop]
      rw [this]
      exact ((h.shadow htop).mark .matched).incr (fun _ _ => by simp [priAct]) _
    · rw [pri_in hv]
      cases hL : v.ss with
      | nil => exact absurd hL hv
      | cons y r =>
        have ht : top C.ss = some y := by rw [h.ss, hL]; rfl
        cases y with
        | lcb =>
          exfalso
          rcases hf1.1 with h2 | h2
          · rcases hm.1 h2 with h3 | h3
            · exact absurd h3 hne
            · rw [ht] at h3; cases h3
          · rw [ht] at h2; cases h2.1
        | lb =>
          have : ctlStep E.d C (.pri x) = ⟨(C.e.1, C.e.2 + 1), C.ss, C.q, C.g⟩ := by simp [ctlStep, ht]
          rw [this, if_neg (by simp [top])]
          exact h.incr (fun _ _ => by simp [priAct, top]) _
        | ky =>
          have : ctlStep E.d C (.pri x) = { C.popQ with ss := r ++ kss, g := JPS.pop C.g } := by
            simp [ctlStep, h.ss, hL, JPS.pop, top]
          rw [this, if_pos (by rfl)]
          have h2 : Inside E.d kss q0 C (v.cur (priAct E x (decide (top (Sym.ky :: r) = some .lb)))) :=
            cur_step h (fun _ _ => by simp [priAct, top])
          exact h2.pop (x := .ky) (r := r) ((cur_fields _ _).2.2.2.1.trans hL) (by simp) _ rfl rfl rfl rfl rfl
  | rcb p =>
    have h2 := cur_step h (closeAct_count E false p)
    have hcss := (cur_fields v (closeAct E false p)).2.2.2.1
    rcases h.close hne .lcb (by simp) hwf hf1.1 h1 hk hkk with ⟨r, hL⟩ | ⟨r, hL⟩ | ⟨hL, htop⟩
    · have : ctlStep E.d C (.rcb p) = { C.popQ with ss := r ++ kss, g := JPS.pop (JPS.pop C.g) } := by
        simp [ctlStep, h.ss, hL, JPS.pop, secondTop, Ctl.popQ]
      rw [this, rcb_key hL]
      have h3 := h2.setSs (r := .ky :: r) (hcss.trans hL) C.g
      have h4 := h3.pop (v' := { (v.cur (closeAct E false p)).popQ with ss := JPS.pop (JPS.pop v.ss) }) (x := .ky) (r := r) rfl (by simp)
        (JPS.pop (JPS.pop C.g)) rfl (by rw [hL]; rfl) rfl rfl rfl
      rw [popQ_ctl] at h4
      exact h4
    · have : ctlStep E.d C (.rcb p) = ⟨(C.e.1, C.e.2 + 1), .lb :: r ++ kss, C.q, JPS.pop C.g⟩ := by
        simp [ctlStep, h.ss, hL, JPS.pop, secondTop]
      rw [this, rcb_elem hL]
      have h3 := h2.setSs (r := .lb :: r) (hcss.trans hL) C.g
      have := h3.incr (a := elemAct E false) (fun _ _ => rfl) (JPS.pop C.g)
      rw [hL]; exact this
    · have : ctlStep E.d C (.rcb p) = ⟨(C.e.1, C.e.2 + 1), kss, C.q, JPS.pop C.g⟩ := by
        cases kss with
        | nil => exact absurd rfl hk
        | cons y r =>
          have : y = .lb := by simpa [top] using htop
          subst this
          simp [ctlStep, h.ss, hL, JPS.pop, secondTop]
      have hi : infer .rcb rest = some .lb := by
        refine ((infer_lb (L := ssStep C.ss (.rcb p)) ?_ hfit.2).2 (hrest rfl)).1
        rw [← ctlStep_ss E.d, this]; exact htop
      rw [this, rcb_root hL h.shad' hi]
      have h3 := (h2.setSs (r := []) (hcss.trans hL) C.g).shadow htop
      have := h3.incr (a := elemAct E true) (fun _ _ => rfl) (JPS.pop C.g)
      rw [hL]; exact this
  | rb p =>
    have h2 := below_step h (closeAct_count E true p)
    have hcss := (below_fields v (closeAct E true p)).2.2.2.1
    rcases h.close hne .lb (by simp) hwf hf1.1 h1 hk hkk with ⟨r, hL⟩ | ⟨r, hL⟩ | ⟨hL, htop⟩
    · rw [rb_key hL]
      have h3 := h2.pop (v' := { (v.below (closeAct E true p)).popQ with ss := .ky :: r }) (hcss.trans hL) (by simp) C.g rfl rfl rfl rfl rfl
      have h4 := h3.pop (v' := { (v.below (closeAct E true p)).popQ.popQ with ss := JPS.pop (JPS.pop v.ss) }) (x := .ky) (r := r) rfl (by simp)
        (JPS.pop (JPS.pop C.g)) rfl (by rw [hL]; rfl) rfl rfl rfl
      have hq2 : ∃ a b q, C.q = a :: b :: q := by
        obtain ⟨e, t, hp, he0, hq0⟩ := h.cons
        have hl := h.len
        rw [hp, hL] at hl
        simp only [nk, List.length_cons] at hl
        cases t with
        | nil => simp at hl
        | cons e1 t =>
          cases t with
          | nil => simp at hl
          | cons e2 t => exact ⟨e1.key, e2.key, t.map Elt.key ++ q0, by rw [hq0]; rfl⟩
      obtain ⟨a, b, q, hq2⟩ := hq2
      have : ctlStep E.d C (.rb p) = ⟨b, r ++ kss, q, JPS.pop (JPS.pop C.g)⟩ := by
        simp [ctlStep, h.ss, hL, JPS.pop, secondTop, Ctl.popQ, hq2]
      rw [this]
      simpa [Ctl.popQ, hq2] using h4
    · rw [rb_elem hL]
      have h3 := h2.pop (v' := { (v.below (closeAct E true p)).popQ with ss := .lb :: r }) (hcss.trans hL) (by simp) C.g rfl rfl rfl rfl rfl
      have h4 := h3.incr (a := incrAct) (fun _ _ => rfl) (JPS.pop C.g)
      have : ctlStep E.d C (.rb p) = ⟨(C.popQ.e.1, C.popQ.e.2 + 1), .lb :: r ++ kss, C.popQ.q, JPS.pop C.g⟩ := by
        simp [ctlStep, h.ss, hL, JPS.pop, secondTop]
      rw [this, hL]
      exact h4
    · have : ctlStep E.d C (.rb p) = ⟨(C.popQ.e.1, C.popQ.e.2 + 1), kss, C.popQ.q, JPS.pop C.g⟩ := by
        cases kss with
        | nil => exact absurd rfl hk
        | cons y r =>
          have : y = .lb := by simpa [top] using htop
          subst this
          simp [ctlStep, h.ss, hL, JPS.pop, secondTop]
      have hi : infer .rb rest = some .lb := by
        refine ((infer_lb (L := ssStep C.ss (.rb p)) ?_ hfit.2).2 (hrest rfl)).2
        rw [← ctlStep_ss E.d, this]; exact htop
      rw [this, rb_root hL h.shad' hi]
      have h3 := (h2.pop (v' := { (v.below (closeAct E true p)).popQ with ss := [] }) (hcss.trans hL) (by simp) C.g rfl rfl rfl rfl rfl).shadow htop
      have h4 := h3.incr (a := incrAct) (fun _ _ => rfl) (JPS.pop C.g)
      rw [hL]
      exact h4

/-- Some tokens. -/
theorem Inside.run (hk : kss ≠ []) (hkk : top kss ≠ some .ky) (hq : q0.length = nk kss) : ∀ (ts : List Tok) {C : Ctl} {v : P} {m : Mode},
    Inside E.d kss q0 C v → wfStack C.ss → modeOK C.ss m → fitsAll C.ss m ts → stopsAt (ts.foldl ssStep C.ss) (modeAfter m ts) →
    (∀ n, kss.length ≤ ((ts.take n).foldl ssStep C.ss).length) → Inside E.d kss q0 (ctlRun E.d C ts) (P.run E s0 v ts)
  | [], _, _, _, h, _, _, _, _, _ => h
  | t :: ts, C, v, m, h, hwf, hm, hfit, hstop, hstay => by
    have h1 := h.step (s0 := s0) hk hkk hq hwf hm hfit hstop hstay
    have hw := wf_step hwf hm hfit.1
    have hss := ctlStep_ss E.d C t
    refine Inside.run hk hkk hq ts h1 (by rw [hss]; exact hw.1) (by rw [hss]; exact hw.2) (by rw [hss]; exact hfit.2)
      (by rw [hss]; exact hstop) fun n => ?_
    have := hstay (n + 1)
    rwa [List.take_succ_cons, List.foldl_cons, ← hss] at this

end

/-! ### Control of the serial automaton -/

/-- One entry of the query stack for each key and bracket; all states are states of the automaton. -/
structure CtlOK (n : Nat) (C : Ctl) : Prop where
  len : C.q.length = nk C.ss
  cur : C.e.1 < n
  bnd : ∀ x ∈ C.q, x.1 < n

theorem CtlOK.popQ {n : Nat} {C : Ctl} (h : CtlOK n C) : C.popQ.e.1 < n ∧ (∀ x ∈ C.popQ.q, x.1 < n) ∧ C.popQ.q.length = C.q.length - 1 := by
  unfold Ctl.popQ
  cases hq : C.q with
  | nil => exact ⟨h.cur, by rw [hq]; simp, by rw [hq]; rfl⟩
  | cons e q =>
    have := h.bnd
    rw [hq] at this
    exact ⟨this e (by simp), fun x hx => this x (by simp [hx]), by simp⟩

theorem go_lt {d : QDfa} {n : Nat} (hd : Dead d n) (s c : Nat) (k : Option Str) : d.go s c k < n := by
  unfold QDfa.go; split
  · exact hd.bnd _ _
  · exact hd.pos

theorem CtlOK.pushed {d : QDfa} {n : Nat} {C : Ctl} (h : CtlOK n C) (hd : Dead d n) (hl : C.ss.length < MAX_STACK) (x : Sym)
    (hx : x ≠ .lcb) (k : Option Str) (g : List Nat) : CtlOK n ⟨(d.go C.e.1 C.e.2 k, 0), push C.ss x, push C.q C.e, g⟩ := by
  have hql : C.q.length < MAX_STACK := by rw [h.len]; exact Nat.lt_of_le_of_lt (nk_le _) hl
  refine ⟨?_, go_lt hd _ _ _, ?_⟩
  · simp only [push, hl, hql, if_true]
    cases x with
    | lcb => exact absurd rfl hx
    | lb => simp [nk, h.len]
    | ky => simp [nk, h.len]
  · simp only [push, hql, if_true]
    intro y hy
    rcases List.mem_cons.1 hy with rfl | hy
    · exact h.cur
    · exact h.bnd y hy

theorem CtlOK.step {d : QDfa} {n : Nat} {C : Ctl} {m : Mode} (h : CtlOK n C) (hd : Dead d n) (hwf : wfStack C.ss) {t : Tok}
    (hf : fits C.ss m t) : CtlOK n (ctlStep d C t) := by
  obtain ⟨p1, p2, p3⟩ := h.popQ
  cases t with
  | com => exact h
  | lcb p =>
    simp only [ctlStep]
    refine ⟨?_, h.cur, h.bnd⟩
    simp only [push, hf.2, if_true, nk]; exact h.len
  | lb p => exact h.pushed hd hf.2 .lb (by simp) none _
  | ky k => exact h.pushed hd hf.2.2 .ky (by simp) (some k) _
  | pri x =>
    simp only [ctlStep]
    split
    · rename_i ht
      cases hs : C.ss with
      | nil => rw [hs] at ht; simp [top] at ht
      | cons y r =>
        have hy : y = .ky := by rw [hs] at ht; simpa [top] using ht
        refine ⟨?_, p1, p2⟩
        show C.popQ.q.length = nk r
        rw [p3, h.len, hs, hy]; simp [nk]
    · split
      · exact ⟨h.len, h.cur, h.bnd⟩
      · exact h
  | rcb p =>
    have hs := hf.1
    cases hC : C.ss with
    | nil => rw [hC] at hs; simp [top] at hs
    | cons y r =>
      have hy : y = .lcb := by rw [hC] at hs; simpa [top] using hs
      subst hy
      rw [hC] at hwf
      have hl := h.len
      rw [hC] at hl
      simp only [nk] at hl
      rcases wf_below hwf (by simp) with rfl | ⟨q, rfl⟩ | ⟨q, rfl⟩
      · simp only [ctlStep, hC]; exact ⟨hl, h.cur, h.bnd⟩
      · simp [ctlStep, hC, secondTop, pop]; exact ⟨hl, h.cur, h.bnd⟩
      · simp [ctlStep, hC, secondTop, pop]
        refine ⟨?_, p1, p2⟩
        show C.popQ.q.length = nk (.lcb :: q)
        rw [p3, hl]; simp [nk]
  | rb p =>
    have hs := hf.1
    cases hC : C.ss with
    | nil => rw [hC] at hs; simp [top] at hs
    | cons y r =>
      have hy : y = .lb := by rw [hC] at hs; simpa [top] using hs
      subst hy
      rw [hC] at hwf
      have hl := h.len
      rw [hC] at hl
      simp only [nk] at hl
      rcases wf_below hwf (by simp) with rfl | ⟨q, rfl⟩ | ⟨q, rfl⟩
      · simp [ctlStep, hC, pop]
        exact ⟨by show C.popQ.q.length = 0; rw [p3, hl]; simp [nk], p1, p2⟩
      · simp [ctlStep, hC, secondTop, pop]
        exact ⟨by show C.popQ.q.length = _; rw [p3, hl]; simp [nk], p1, p2⟩
      · simp [ctlStep, hC, secondTop, pop]
        simp only [nk] at hl
        cases hq : C.q with
        | nil => rw [hq] at hl; simp at hl
        | cons a q1 =>
          have hb := h.bnd
          rw [hq] at hb hl
          cases q1 with
          | nil => simp at hl
          | cons b q2 =>
            simp only [List.length_cons] at hl
            refine ⟨?_, hb b (by simp), fun x hx => hb x ?_⟩
            · show q2.length = nk q; omega
            · have : x ∈ q2 := hx
              simp [this]

theorem CtlOK.run {d : QDfa} {n : Nat} (hd : Dead d n) : ∀ (ts : List Tok) {C : Ctl} {m : Mode}, CtlOK n C → wfStack C.ss → modeOK C.ss m →
    fitsAll C.ss m ts → CtlOK n (ctlRun d C ts)
  | [], _, _, h, _, _, _ => h
  | t :: ts, C, m, h, hw, hm, hf => by
    have h1 := h.step hd hw hf.1
    have h2 := wf_step hw hm hf.1
    have hss := ctlStep_ss d C t
    exact CtlOK.run hd ts (m := t.mode) h1 (by rw [hss]; exact h2.1) (by rw [hss]; exact h2.2) (by rw [hss]; exact hf.2)

/-- The same but for the indices. -/
structure Ctl.Sim (C C' : Ctl) : Prop where
  e : C.e.1 = C'.e.1
  ss : C.ss = C'.ss
  q : C.q.map (·.1) = C'.q.map (·.1)

theorem Ctl.Sim.popQ {C C' : Ctl} (h : C.Sim C') : C.popQ.e.1 = C'.popQ.e.1 ∧ C.popQ.q.map (·.1) = C'.popQ.q.map (·.1) := by
  obtain ⟨e, s, q, g⟩ := C
  obtain ⟨e', s', q', g'⟩ := C'
  have h3 := h.q
  have h1 := h.e
  cases q <;> cases q' <;> simp_all [Ctl.popQ]

/-- Without slices the indices do not matter. -/
theorem Ctl.Sim.step {d : QDfa} (hidx : ∀ s, NoIdx d s) {C C' : Ctl} (h : C.Sim C') (t : Tok) : (ctlStep d C t).Sim (ctlStep d C' t) := by
  obtain ⟨p1, p2⟩ := h.popQ
  have hgo : ∀ k, d.go C.e.1 C.e.2 k = d.go C'.e.1 C'.e.2 k := by
    intro k; simp only [QDfa.go, (hidx _).inRange, h.e]
  have hpush : (push C.q C.e).map (·.1) = (push C'.q C'.e).map (·.1) := by rw [map_push, map_push, h.q, h.e]
  have hss := h.ss
  cases t with
  | com => exact h
  | lcb p => exact ⟨h.e, by simp only [ctlStep, hss], h.q⟩
  | lb p => exact ⟨hgo _, by simp only [ctlStep, hss], hpush⟩
  | ky k => exact ⟨hgo _, by simp only [ctlStep, hss], hpush⟩
  | pri x =>
    simp only [ctlStep, hss]
    split
    · exact ⟨p1, rfl, p2⟩
    · split
      · exact ⟨h.e, rfl, h.q⟩
      · exact h
  | rcb p =>
    simp only [ctlStep, hss]
    split
    · exact ⟨h.e, rfl, h.q⟩
    · split
      · exact ⟨p1, rfl, p2⟩
      · split
        · exact ⟨h.e, rfl, h.q⟩
        · exact h
  | rb p =>
    simp only [ctlStep, hss]
    split
    · exact ⟨p1, rfl, p2⟩
    · split
      · have h2 : Ctl.Sim { C with ss := C'.ss, q := pop C.q } { C' with q := pop C'.q } :=
          ⟨h.e, rfl, by simp only [map_pop, h.q]⟩
        obtain ⟨r1, r2⟩ := h2.popQ
        exact ⟨r1, rfl, r2⟩
      · split
        · exact ⟨p1, rfl, p2⟩
        · exact h

theorem Ctl.Sim.run {d : QDfa} (hidx : ∀ s, NoIdx d s) : ∀ (ts : List Tok) {C C' : Ctl}, C.Sim C' → (ctlRun d C ts).Sim (ctlRun d C' ts)
  | [], _, _, h => h
  | t :: ts, _, _, h => Ctl.Sim.run hidx ts (h.step hidx t)

end JPS
