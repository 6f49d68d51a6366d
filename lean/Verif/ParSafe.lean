import Verif.WorkerSafe
/-!
# The workers of a parallel run stay within their buffers
-/

set_option autoImplicit false

namespace JPS
open Spec

/-! ### Counting units and unmatched symbols -/

theorem csym_len {d : QDfa} {C : Comb} {x : USym × Nat}
    (hx : (x.1 = .rcb ∧ top C.ss = some .lcb) ∨ (x.1 = .rb ∧ top C.ss = some .lb)) (hw : wfStack C.ss) :
    wfStack (csym d C x).ss ∧ (csym d C x).ss.length + 1 ≤ C.ss.length := by
  obtain ⟨p, ss, tl⟩ := C
  obtain ⟨x, i⟩ := x
  cases ss with
  | nil => rcases hx with ⟨_, h⟩ | ⟨_, h⟩ <;> cases h
  | cons y r =>
    have hy : y ≠ .ky := by
      rintro rfl
      rcases hx with ⟨_, h⟩ | ⟨_, h⟩ <;> cases h
    rcases wf_below hw hy with rfl | ⟨q, rfl⟩ | ⟨q, rfl⟩ <;> rcases hx with ⟨rfl, _⟩ | ⟨rfl, _⟩
    · exact ⟨trivial, Nat.le_refl _⟩
    · exact ⟨trivial, Nat.le_refl _⟩
    · simp only [csym, secondTop, List.length_cons, pop]
      exact ⟨by simpa using wf_pop hw, by simp⟩
    · simp only [csym, secondTop, List.length_cons, pop]
      exact ⟨by simpa [Comb.incr] using wf_pop hw, by simp [Comb.incr]⟩
    · simp only [csym, secondTop, List.length_cons, pop]
      exact ⟨by simpa using wf_pop (wf_pop hw), by simp⟩
    · simp only [csym, secondTop, List.length_cons, pop]
      exact ⟨by simpa using wf_pop (wf_pop hw), by simp⟩

theorem symsOK_len {d : QDfa} {n : Nat} : ∀ {xs : List (USym × Nat)} {C : Comb}, symsOK d n C xs → wfStack C.ss →
    wfStack (xs.foldl (csym d) C).ss ∧ xs.length + (xs.foldl (csym d) C).ss.length ≤ C.ss.length
  | [], _, _, hw => ⟨hw, by simp⟩
  | x :: xs, C, h, hw => by
    obtain ⟨h1, h2⟩ := csym_len (d := d) h.1.2 hw
    obtain ⟨h3, h4⟩ := symsOK_len h.2 h1
    exact ⟨h3, by simp only [List.foldl_cons, List.length_cons]; omega⟩

/-- The unmatched symbols in some units. -/
def symsIn (us : List (List (USym × Nat) × (Nat → List MTuple))) : Nat := (us.map (·.1.length)).sum

theorem unitsOK_len {d : QDfa} {n : Nat} {s : Str} : ∀ {us : List (List (USym × Nat) × (Nat → List MTuple))} {C : Comb},
    unitsOK d n s C us → wfStack C.ss →
    wfStack (us.foldl (cunit d s) C).ss ∧ symsIn us + (us.foldl (cunit d s) C).ss.length ≤ C.ss.length
  | [], _, _, hw => ⟨hw, by simp [symsIn]⟩
  | u :: us, C, h, hw => by
    obtain ⟨h1, h2⟩ := symsOK_len h.1 hw
    obtain ⟨h3, h4⟩ := unitsOK_len h.2.2 (show wfStack (cunit d s C u).ss from h1)
    refine ⟨h3, ?_⟩
    have h5 : (cunit d s C u).ss = (u.1.foldl (csym d) C).ss := rfl
    rw [h5] at h4
    simp only [symsIn, List.map_cons, List.sum_cons, List.foldl_cons] at h4 ⊢
    omega

/-- Every unit but the first begins with an unmatched symbol. -/
def P.Led (v : P) : Prop := v.units.length ≤ (v.units.map (·.1.length)).sum + v.syms.length

theorem P.led_cur {v : P} (a : PAct) (h : v.Led) : (v.cur a).Led := by
  unfold P.cur; split
  · exact h
  · exact h

theorem P.led_below {v : P} (a : PAct) (h : v.Led) : (v.below a).Led := by
  unfold P.below; split
  · exact h
  · exact h

theorem P.led_pushQ {v : P} (d : QDfa) (k : Option Str) (h : v.Led) : (v.pushQ d k).Led := by
  unfold P.pushQ; split
  · exact h
  · exact h

theorem P.led_inferred {v : P} (x : TT) (rest : List Tok) (h : v.Led) : (v.inferred x rest).Led := by
  unfold P.inferred; split
  · exact h
  · exact h

theorem P.led_ends {v : P} (s0 : Nat) (x : USym) (i : Nat) (h : v.Led) : ((v.close s0).addSym x i).Led := by
  unfold P.Led P.close at *
  split
  · simp [P.addSym]; omega
  · simp only [P.addSym, List.length_append]; omega

theorem P.led_step {v : P} (E : WEnv) (s0 : Nat) (t : Tok) (rest : List Tok) (h : v.Led) : (v.step E s0 t rest).Led := by
  unfold P.step
  cases t with
  | lcb p => exact P.led_cur (v := { v with st := .matched, ss := push v.ss .lcb }) _ h
  | lb p => exact P.led_pushQ _ _ (P.led_cur (v := { v with st := .matched }) _ h)
  | com => exact h
  | ky k => exact P.led_pushQ (v := { v with st := .matched }) _ _ h
  | rcb p =>
    simp only [P.rcb]
    split
    · exact P.led_ends _ _ _ h
    · have h1 := P.led_cur (closeAct E false p) h
      generalize v.cur (closeAct E false p) = v1 at h1
      split
      · have h2 := P.led_inferred .rcb rest h1
        generalize v1.inferred .rcb rest = v2 at h2
        split
        · exact h2
        · split
          · exact P.led_ends _ _ _ h2
          · split
            · exact P.led_cur (v := { v2 with ss := pop v2.ss }) _ h2
            · exact h2
      · split
        · exact h1
        · split
          · exact P.led_cur (v := { v1 with ss := pop v1.ss }) _ h1
          · exact h1
  | rb p =>
    simp only [P.rb]
    split
    · exact P.led_ends _ _ _ h
    · have h1 := P.led_below (closeAct E true p) h
      generalize v.below (closeAct E true p) = v1 at h1
      split
      · have h2 := P.led_inferred .rb rest h1
        generalize v1.inferred .rb rest = v2 at h2
        split
        · exact h2
        · split
          · exact P.led_ends _ _ _ h2
          · split
            · exact P.led_cur (v := { v2.popQ with ss := pop v2.popQ.ss }) _ h2
            · exact h2
      · split
        · exact h1
        · split
          · exact P.led_cur (v := { v1.popQ with ss := pop v1.popQ.ss }) _ h1
          · exact h1
  | pri x =>
    simp only [P.pri]
    split
    · have h1 := P.led_cur (priAct E x (decide (top v.ss = some .lb))) h
      generalize v.cur (priAct E x (decide (top v.ss = some .lb))) = v1 at h1
      split
      · exact h1
      · exact h1
    · have h2 := P.led_inferred .pri rest h
      generalize v.inferred .pri rest = v2 at h2
      split
      · exact P.led_ends _ _ _ h2
      · split
        · exact P.led_cur (v := { v2 with st := .matched }) _ h2
        · exact h2

/-- Units and symbols are no more than the open brackets where the chunk began. -/
theorem Joint.counts {E : WEnv} {n : Nat} {C0 C : Comb} {lo : Nat} {m : Mode} {S : SA} {f : Nat → P}
    {us : List (List (USym × Nat) × (Nat → List MTuple))} (h : Joint E n C0 lo m S f us C) (hw : wfStack C0.ss) (hl : (f 0).Led) :
    (f 0).units.length ≤ C0.ss.length ∧ (f 0).syms.length ≤ C0.ss.length := by
  obtain ⟨h1, h2⟩ := unitsOK_len h.uok hw
  obtain ⟨_, h3⟩ := symsOK_len h.sok h1
  unfold P.Led at hl
  have hu := h.units 0
  have h4 : ((f 0).units.map (·.1.length)).sum = symsIn us := by
    rw [hu, List.map_map]; rfl
  omega

/-! ### A worker other than the first -/

/-- The nesting is below `D` before and after each token. -/
def shallow (D : Nat) : List Sym → List Tok → Prop
  | ss, [] => nk ss < D
  | ss, t :: ts => nk ss < D ∧ shallow D (ssStep ss t) ts

theorem shallow_now {D : Nat} {ss : List Sym} : ∀ {ts : List Tok}, shallow D ss ts → nk ss < D
  | [], h => h
  | _ :: _, h => h.1

/-- The scalars and keys are short. -/
def shortToks (ts : List Tok) : Prop := ∀ t ∈ ts, ∀ x, t = .pri x ∨ t = .ky x → strcopyBytes x.length ≤ MAX_TEXT

theorem clobber_short {s : Str} {rest : List Tok} (h : shortToks (.pri s :: rest)) : strcopyBytes (clobber s rest).length ≤ MAX_TEXT := by
  unfold clobber
  have : ∀ (l : List Tok) (x : Str), strcopyBytes x.length ≤ MAX_TEXT → shortToks l →
      strcopyBytes (l.foldl (fun t x => match x with
        | .ky k => k
        | .pri p => p
        | _ => t) x).length ≤ MAX_TEXT := by
    intro l
    induction l with
    | nil => intro x hx _; exact hx
    | cons t l ih =>
      intro x hx hl
      refine ih _ ?_ (fun t ht => hl t (List.mem_cons_of_mem _ ht))
      have h1 := hl t List.mem_cons_self
      cases t <;> first | exact hx | exact h1 _ (.inl rfl) | exact h1 _ (.inr rfl)
  exact this _ _ (h _ List.mem_cons_self s (.inl rfl)) fun t ht => h t (List.mem_cons_of_mem _ (List.mem_of_mem_take ht))

/-- The size limits of the buffers of a worker: `n` states, nesting below `D`. -/
structure Limits (n D : Nat) : Prop where
  states : n ≤ MAX_STATE
  deep : D ≤ MAX_STACK
  nodes : n * (D + 1) ≤ MAX_NODE

theorem nk_le_append (a b : List Sym) : nk a ≤ nk (a ++ b) := by rw [nk_append]; omega

/-- The keys fit into the buffer of line 505 of worker_automaton.c. -/
def shortKeys (ts : List Tok) : Prop := ∀ t ∈ ts, ∀ k, t = .ky k → longKey (some k) = false

theorem Joint.safe {E : WEnv} {n D : Nat} {C0 : Comb} (hd : Dead E.d n) (hE : E.starts = some (List.range n)) (hT : TableOK E (List.range n))
    (hTI : TableIn E (List.range n)) (hid : E.id0 = false) (hlim : Limits n D) (hw0 : wfStack C0.ss) (hc0 : C0.ss.length < MAX_STACK) :
    ∀ (ts : List Tok) {lo : Nat} {C : Comb} {m : Mode} {S : SA} {f : Nat → P} {us : List (List (USym × Nat) × (Nat → List MTuple))}
      {cs : List (List Nat)} {cur : List Nat} {w : W}, Joint E n C0 lo m S f us C →
    (∀ s, PTracks E True (List.range n) cs cur s w (f s)) → fitsAll S.ss m ts →
    stopsAt (ts.foldl ssStep S.ss) (modeAfter m ts) → noClob E.d E.s lo S ts → (f 0).Led → shallow D S.ss ts → shortToks ts → (E.noPrune ∨ shortKeys ts) →
    cur.length ≤ n → w.q.tl.length + 2 * n * ts.length ≤ MAX_TUPLE_LIST → w.bad = false →
    (w.run E ts).bad = false ∧ ∃ cs' cur', PTracks E True (List.range n) cs' cur' 0 (w.run E ts) (P.run E 0 (f 0) ts) ∧
      cur'.length ≤ n ∧ (P.run E 0 (f 0) ts).units.length ≤ C0.ss.length
  | [], _, _, _, _, _, _, _, _, _, h, hp, _, _, _, hled, _, _, _, hcur, _, hb => ⟨hb, _, _, hp 0, hcur, (h.counts hw0 hled).1⟩
  | t :: ts, lo, C, m, S, f, us, cs, cur, w, h, hp, hfit, hstop, hcl, hled, hsh, hsm, hks, hcur, htl, hb => by
    have hne : List.range n ≠ [] := by
      intro e
      have := congrArg List.length e
      have := hd.pos
      simp at *; omega
    obtain ⟨us', C', h1, hmv⟩ := h.step hd hfit hstop hcl
    obtain ⟨hcu, hcs⟩ := h.counts hw0 hled
    have hlen := h.len 0
    have hss := h.ss
    have hnk : nk (f 0).ss < D := by
      have := shallow_now hsh
      rw [hss] at this
      exact Nat.lt_of_le_of_lt (nk_le_append _ _) this
    have hstates := hlim.states
    have hdeep := hlim.deep
    have hnodes := hlim.nodes
    have hnode : n * ((f 0).p.length + 1) ≤ MAX_NODE := Nat.le_trans (Nat.mul_le_mul_left n (by omega)) hnodes
    have hstep1 := (hp 0).step_safe (N := n) hE hT hTI t ts (fun hu => h.flat hd hfit hstop hcl 0 hu) hlen
      (by
        rintro p rfl hv
        have := hfit.1.1
        rw [hss] at this
        cases hf0 : (f 0).ss with
        | nil => exact absurd hf0 hv
        | cons y r => rw [hf0] at this; exact this)
      ⟨hcur, by simp, hnode, by omega, hstates, by
          have : 2 * n * (ts.length + 1) = 2 * n * ts.length + 2 * n := by rw [Nat.mul_add, Nat.mul_one]
          simp only [List.length_cons] at htl
          omega, by
          simp only [MAX_UNIT, MAX_STACK] at *; omega, by
          simp only [MAX_UNMATCHED_SYMBOL, MAX_STACK] at *; omega⟩
      (fun s k => Nat.lt_of_lt_of_le (hd.bnd s k) (by simp only [MAX_STATE, MAX_NODE] at *; omega))
      (by rw [hid]; intro e; cases e)
      (.inr ⟨hid, fun s hs => by
        subst hs
        exact ⟨hsm _ List.mem_cons_self s (.inl rfl), clobber_short hsm⟩⟩)
      (hks.imp id fun h => h t List.mem_cons_self) hb
    obtain ⟨hb1, hgrow⟩ := hstep1
    have hstep := fun s => (hp s).step hE hne hT t ts (fun _ hu => h.flat hd hfit hstop hcl s hu) hb1
    obtain ⟨cs', cur', p0, hmove⟩ := hstep 0
    have hp' : ∀ s, PTracks E True (List.range n) cs' cur' s (w.step E t ts) ((f s).step E s t ts) := by
      intro s
      obtain ⟨cs2, cur2, p2, _⟩ := hstep s
      obtain ⟨rfl, rfl⟩ := p0.unique p2
      exact p2
    have hf := hfit.2
    have hs := hstop
    have hsh' := hsh.2
    rw [List.foldl_cons] at hs
    rw [← step_ss E.d E.s] at hf hs hsh'
    refine Joint.safe hd hE hT hTI hid hlim hw0 hc0 ts h1 hp' hf hs hcl.2 (P.led_step _ _ _ _ hled) hsh'
      (fun t ht => hsm t (List.mem_cons_of_mem _ ht)) (hks.imp id fun h t ht => h t (List.mem_cons_of_mem _ ht)) ?_ ?_ hb1
    · rcases hmove with ⟨_, rfl | ⟨ct, k, e1, e2, e3, _⟩⟩ | ⟨_, rfl⟩
      · exact hcur
      · have h5 := ((hT ct e1 hid).2 k cur' e3)
        have h6 := hTI ct e1 hid k cur' e3
        have h7 := List.Nodup.length_le_of_subset h5 (l₂ := List.range n) (fun s hs => by simpa using h6 s hs)
        simpa using h7
      · simp
    · have : 2 * n * (ts.length + 1) = 2 * n * ts.length + 2 * n := by rw [Nat.mul_add, Nat.mul_one]
      simp only [List.length_cons] at htl
      omega

/-! ### What the tuples of a worker look like -/

/-- A text, or a span that ends at the token read. -/
def GoodAt (pos : Nat) (x : MTuple) : Prop := (x.span = none ∧ x.text ≠ none) ∨ ∃ b, x.span = some (b, pos)

def P.Emits (v v' : P) (pos : Nat) : Prop := (∀ x ∈ v.all, x ∈ v'.all) ∧ ∀ x ∈ v'.all, x ∈ v.all ∨ GoodAt pos x

theorem P.Emits.refl (v : P) (pos : Nat) : v.Emits v pos := ⟨fun _ h => h, fun _ h => .inl h⟩

theorem P.Emits.trans {a b c : P} {pos : Nat} (h : a.Emits b pos) (h' : b.Emits c pos) : a.Emits c pos :=
  ⟨fun x hx => h'.1 x (h.1 x hx), fun x hx => (h'.2 x hx).elim (h.2 x) .inr⟩

/-- The action gives such tuples. -/
def Gives (a : PAct) (pos : Nat) : Prop := ∀ b e t, (a b e).1 = some t → GoodAt pos t

theorem P.emits_out {v v' : P} {pos : Nat} {o : Option MTuple} (hu : v'.units = v.units) (ho : v'.out = v.out ++ o.toList)
    (h : ∀ t, o = some t → GoodAt pos t) : v.Emits v' pos := by
  unfold P.Emits P.all
  rw [hu, ho]
  constructor
  · intro x hx
    simp only [List.mem_append] at hx ⊢
    exact hx.imp id .inl
  · intro x hx
    simp only [List.mem_append, Option.mem_toList] at hx ⊢
    rcases hx with hx | hx | hx
    · exact .inl (.inl hx)
    · exact .inl (.inr hx)
    · exact .inr (h x hx)

theorem P.emits_cur {v : P} {a : PAct} {pos : Nat} (h : Gives a pos) : v.Emits (v.cur a) pos := by
  unfold P.cur
  split
  · exact P.emits_out rfl rfl (h _ _)
  · exact P.Emits.refl _ _

theorem P.emits_below {v : P} {a : PAct} {pos : Nat} (h : Gives a pos) : v.Emits (v.below a) pos := by
  unfold P.below
  split
  · exact P.emits_out rfl rfl (h _ _)
  · exact P.Emits.refl _ _

theorem P.emits_same {v v' : P} {pos : Nat} (h : v'.all = v.all) : v.Emits v' pos := by
  unfold P.Emits
  rw [h]; exact P.Emits.refl v pos

theorem gives_text {s : Nat} {t : Str} {pos : Nat} : GoodAt pos (.ofText s t) := .inl ⟨rfl, by simp [MTuple.ofText]⟩

theorem gives_close (E : WEnv) (arr : Bool) (pos : Nat) : Gives (closeAct E arr pos) pos := by
  intro b e t h
  unfold closeAct at h
  split at h
  · split at h
    · cases h
      split
      · exact gives_text
      · exact .inr ⟨_, rfl⟩
    · split at h
      · cases h; exact gives_text
      · cases h
  · cases h

theorem gives_lcb (E : WEnv) (p pos : Nat) : Gives (lcbAct E p) pos := by
  intro b e t h
  unfold lcbAct at h
  repeat' split at h
  all_goals first | (cases h; exact gives_text) | cases h

theorem gives_lb (E : WEnv) (p pos : Nat) : Gives (lbAct E p) pos := by
  intro b e t h
  unfold lbAct at h
  repeat' split at h
  all_goals first | (cases h; exact gives_text) | cases h

theorem gives_elem (E : WEnv) (r : Bool) (pos : Nat) : Gives (elemAct E r) pos := by
  intro b e t h
  unfold elemAct at h
  dsimp only at h
  repeat' split at h
  all_goals first | (cases h; exact gives_text) | cases h

theorem gives_incr (pos : Nat) : Gives incrAct pos := by
  intro b e t h
  cases h

theorem gives_pri (E : WEnv) (s : Str) (inc : Bool) (pos : Nat) : Gives (priAct E s inc) pos := by
  intro b e t h
  unfold priAct at h
  dsimp only at h
  repeat' split at h
  all_goals first | (cases h; exact gives_text) | cases h

theorem pushQ_all (v : P) (d : QDfa) (k : Option Str) : (v.pushQ d k).all = v.all := by
  unfold P.pushQ; split <;> rfl

theorem P.emits_step {v : P} (E : WEnv) (s0 : Nat) (t : Tok) (rest : List Tok) : v.Emits (v.step E s0 t rest) t.pos := by
  unfold P.step
  cases t with
  | lcb p => exact P.emits_cur (v := { v with st := .matched, ss := push v.ss .lcb }) (gives_lcb E p _)
  | lb p =>
    exact (P.emits_cur (v := { v with st := .matched }) (gives_lb E p _)).trans
      (P.emits_same (by
        show (P.pushQ _ _ _).all = _
        exact pushQ_all _ _ _))
  | com => exact P.Emits.refl _ _
  | ky k => exact P.emits_same (by
        show (P.pushQ _ _ _).all = _
        exact pushQ_all _ _ _)
  | rcb p =>
    simp only [P.rcb]
    split
    · exact P.emits_same (all_close _ _ _ _)
    · refine (P.emits_cur (gives_close E false p)).trans ?_
      generalize v.cur (closeAct E false p) = v1
      split
      · refine (P.emits_same (all_inferred v1 .rcb rest)).trans ?_
        generalize v1.inferred .rcb rest = v2
        split
        · exact P.emits_same rfl
        · split
          · exact P.emits_same (all_close _ _ _ _)
          · split
            · exact P.emits_cur (v := { v2 with ss := pop v2.ss }) (gives_elem E _ _)
            · exact P.Emits.refl _ _
      · split
        · exact P.emits_same rfl
        · split
          · exact P.emits_cur (v := { v1 with ss := pop v1.ss }) (gives_elem E _ _)
          · exact P.Emits.refl _ _
  | rb p =>
    simp only [P.rb]
    split
    · exact P.emits_same (all_close _ _ _ _)
    · refine (P.emits_below (gives_close E true p)).trans ?_
      generalize v.below (closeAct E true p) = v1
      split
      · refine (P.emits_same (all_inferred v1 .rb rest)).trans ?_
        generalize v1.inferred .rb rest = v2
        split
        · exact P.emits_same rfl
        · split
          · exact P.emits_same (all_close _ _ _ _)
          · split
            · exact P.emits_cur (v := { v2.popQ with ss := pop v2.popQ.ss }) (gives_incr _)
            · exact P.Emits.refl _ _
      · split
        · exact P.emits_same rfl
        · split
          · exact P.emits_cur (v := { v1.popQ with ss := pop v1.popQ.ss }) (gives_incr _)
          · exact P.Emits.refl _ _
  | pri x =>
    simp only [P.pri]
    split
    · refine (P.emits_cur (gives_pri E x (decide (top v.ss = some .lb)) _)).trans ?_
      split
      · exact P.emits_same rfl
      · exact P.Emits.refl _ _
    · refine (P.emits_same (all_inferred v .pri rest)).trans ?_
      generalize v.inferred .pri rest = v2
      split
      · exact P.emits_same (all_close _ _ _ _)
      · split
        · exact P.emits_cur (v := { v2 with st := .matched }) (gives_pri E _ _ _)
        · exact P.Emits.refl _ _

theorem P.all_run (E : WEnv) (s0 : Nat) : ∀ (ts : List Tok) (v : P),
    (∀ x ∈ v.all, x ∈ (P.run E s0 v ts).all) ∧ ∀ x ∈ (P.run E s0 v ts).all, x ∈ v.all ∨ ∃ t ∈ ts, GoodAt t.pos x
  | [], v => ⟨fun _ h => h, fun _ h => .inl h⟩
  | t :: ts, v => by
    obtain ⟨h1, h2⟩ := P.emits_step (v := v) E s0 t ts
    obtain ⟨h3, h4⟩ := P.all_run E s0 ts (v.step E s0 t ts)
    refine ⟨fun x hx => h3 x (h1 x hx), fun x hx => ?_⟩
    rcases h4 x hx with h | ⟨t', ht, hg⟩
    · exact (h2 x h).imp id fun hg => ⟨t, List.mem_cons_self, hg⟩
    · exact .inr ⟨t', List.mem_cons_of_mem _ ht, hg⟩

/-! ### Whole workers -/

theorem PTracks.finish_safe {E : WEnv} {F : Prop} {sts : List Nat} {cs : List (List Nat)} {cur : List Nat} {s0 : Nat} {w : W} {v : P}
    (h : PTracks E F sts cs cur s0 w v) (hc : cur.length ≤ MAX_STATE) (hu : v.units.length < MAX_UNIT) (hb : w.bad = false) :
    w.finish.bad = false := by
  have h1 := W.finish_units h.inv h.ne
  have h2 := h.units_len
  have h3 : (w.q.copyRoots (List.range cur.length)).length ≤ cur.length := by
    unfold QS.copyRoots
    exact Nat.le_trans (List.length_filterMap_le _ _) (by simp)
  simp only [W.finish] at h1 ⊢
  have h4 := (List.append_cancel_left h1)
  simp only [List.cons.injEq, and_true] at h4
  have h5 := congrArg PUnit.roots h4
  dsimp only at h5
  obtain ⟨b1, b2⟩ := W.bad_parts hb
  refine W.bad_of ?_ b2
  dsimp only
  rw [h5, b1]
  simp only [Bool.false_or, Bool.or_eq_false_iff, decide_eq_false_iff_not]
  omega

theorem contentUb_short {s : Str} (h : shortToks (lexAll s)) : contentUb s = false := by
  unfold contentUb
  rw [List.any_eq_false]
  intro t ht
  have h1 := h t ht
  cases t with
  | ky k =>
    have := h1 k (.inr rfl)
    have h2 : ¬ strcopyBytes k.length > MAX_SIZE_PRIMITIVE := by simp only [MAX_SIZE_PRIMITIVE, MAX_TEXT] at *; omega
    simp [h2]
  | pri k =>
    have := h1 k (.inl rfl)
    have h2 : ¬ strcopyBytes k.length > MAX_SIZE_PRIMITIVE := by simp only [MAX_SIZE_PRIMITIVE, MAX_TEXT] at *; omega
    simp [h2]
  | _ => simp

/-- The states in the table are below `n`. -/
def _root_.Option.StatesIn (ct : Option CTable) (n : Nat) : Prop := ∀ c, ct = some c → ∀ k ks, c.lookup k = some ks → ∀ s ∈ ks, s < n

/-- A worker other than the first does not leave its buffers. -/
theorem worker_safe {d : QDfa} {ct : Option CTable} (hnd : ct.NodupOK) (hin : ct.StatesIn d.statesNum) {right : Str} {u : UState} {i D : Nat}
    (hi : i ≠ 0) (hd : Dead d d.statesNum) (hlim : Limits d.statesNum D) {C0 : Comb}
    {S : SA} {m : Mode} (hr : CRel d C0.tl C0 S) (hc : CInv d d.statesNum C0) (hw : wfStack S.ss) (hm : modeOK S.ss m)
    (hfit : fitsAll S.ss m (lexAll right))
    (hstop : stopsAt ((lexAll right).foldl ssStep S.ss) (modeAfter m (lexAll right)))
    (hcl : noClob d right S.ss.length S (lexAll right)) (hS : S.ss.length < MAX_STACK) (hsh : shallow D S.ss (lexAll right))
    (hsm : shortToks (lexAll right)) (hks : ct = none ∨ shortKeys (lexAll right))
    (htl : 2 * d.statesNum * (lexAll right).length ≤ MAX_TUPLE_LIST) :
    (runWorker d ct u i right).bad = false := by
  have hi0 : (i == 0) = false := by simpa using hi
  have hst : startStates d i = List.range d.statesNum := by simp [startStates, hi]
  have hne : List.range d.statesNum ≠ [] := by
    intro e
    have := congrArg List.length e
    have := hd.pos
    simp at *; omega
  unfold runWorker
  rw [hi0, hst]
  generalize hE : (⟨d, false, right, ct, some (List.range d.statesNum)⟩ : WEnv) = E
  have hE1 : E.d = d := by rw [← hE]
  have hE2 : E.s = right := by rw [← hE]
  have hss : S.ss = C0.ss := hr.ss
  have hJ0 : Joint E d.statesNum C0 C0.ss.length m S (fun s => P.init s u) [] C0 := by
    apply Joint.init u _ _ hw hm <;> rw [hE1] <;> assumption
  have hs1 := hlim.states
  obtain ⟨g1, cs', cur', g2, g3, g4⟩ := Joint.safe (E := E) (n := d.statesNum) (D := D) (C0 := C0) (by rw [hE1]; exact hd) (by rw [← hE])
    (by
      intro c hc _
      refine ⟨by simp, fun k ks hk => hnd c ?_ k ks hk⟩
      rw [← hE] at hc; exact hc)
    (by
      intro c hc _ k ks hk s hs
      rw [List.length_range]
      refine hin c ?_ k ks hk s hs
      rw [← hE] at hc; exact hc)
    (by rw [← hE]) hlim (by rw [← hss]; exact hw) (by rw [← hss]; exact hS) (lexAll right) hJ0
    (fun s => PTracks.init u hne) hfit hstop (by rw [hE1, hE2, ← hss]; exact hcl) (by simp [P.Led, P.init]) hsh hsm
    (hks.imp (fun h => .inl (by rw [← hE]; exact h)) id) (by simp)
    (by
      have : (W.init (List.range d.statesNum) u).q.tl = [] := rfl
      rw [this]; simpa using htl)
    (by
      simp only [W.bad, W.init, Bool.or_eq_false_iff, decide_eq_false_iff_not, List.length_range]
      refine ⟨by omega, ?_⟩
      simp only [QS.start, QS.blank, List.length_range, Bool.false_or, decide_eq_false_iff_not]
      simp only [MAX_STATE, MAX_NODE] at *; omega)
  have h5 := g2.finish_safe (by omega) (by rw [← hss] at g4; simp only [MAX_UNIT, MAX_STACK] at *; omega) g1
  obtain ⟨b1, b2⟩ := W.bad_parts h5
  exact W.bad_of (by simp only [W.orUb, contentUb_short hsm, b1, Bool.or_false]) b2

/-! ### The first worker -/

/-- The texts of tuples are short. -/
def shortTl (tl : List Tuple) : Prop := ∀ t ∈ tl, strcopyBytes t.text.length ≤ MAX_TEXT

theorem Joint.safe0 {E : WEnv} {n D : Nat} {C0 : Comb} (hd : Dead E.d n) (hE : E.starts = some [1]) (hid : E.id0 = true) (hn : n ≤ MAX_NODE)
    (hlim : D ≤ MAX_STACK) (hw0 : wfStack C0.ss) (hc0 : C0.ss.length < MAX_STACK) (hoob : ∀ t ∈ lexAll E.s, substringOOB E.s t.pos = false) :
    ∀ (ts : List Tok) {lo : Nat} {C : Comb} {m : Mode} {S : SA} {f : Nat → P} {us : List (List (USym × Nat) × (Nat → List MTuple))}
      {cs : List (List Nat)} {w : W}, Joint E n C0 lo m S f us C →
    PTracks E False [1] cs [1] 1 w (f 1) → fitsAll S.ss m ts →
    stopsAt (ts.foldl ssStep S.ss) (modeAfter m ts) → noClob E.d E.s lo S ts → (f 0).Led → shallow D S.ss ts → (∀ t ∈ ts, t ∈ lexAll E.s) →
    (∀ x ∈ (P.run E 1 (f 1) ts).all, TextOK x) → w.q.tl.length + 2 * ts.length ≤ MAX_TUPLE_LIST →
    (∃ b, w.q.MsLe b ∧ upward b ts) → w.bad = false →
    (w.run E ts).bad = false ∧ ∃ cs', PTracks E False [1] cs' [1] 1 (w.run E ts) (P.run E 1 (f 1) ts)
  | [], _, _, _, _, _, _, _, _, h, hp, _, _, _, hled, _, _, _, _, _, hb => ⟨hb, _, hp⟩
  | t :: ts, lo, C, m, S, f, us, cs, w, h, hp, hfit, hstop, hcl, hled, hsh, hmem, htx, htl, ⟨lb, hms, hup⟩, hb => by
    obtain ⟨us', C', h1, hmv⟩ := h.step hd hfit hstop hcl
    obtain ⟨hcu, hcs⟩ := h.counts hw0 hled
    have hlen := h.len 1
    have hss := h.ss
    have hnk : nk (f 0).ss < D := by
      have := shallow_now hsh
      rw [hss] at this
      exact Nat.lt_of_le_of_lt (nk_le_append _ _) this
    have hul : (f 1).units.length = (f 0).units.length := by rw [h.units 1, h.units 0]; simp
    have hTO : TableOK E [1] := by intro c _ e; rw [hid] at e; cases e
    have hTI : TableIn E [1] := by intro c _ e; rw [hid] at e; cases e
    have hsy := (h.alike 1).syms
    have hs1 := (h.alike 1).ss
    obtain ⟨hb1, hgrow⟩ := hp.step_safe (N := 1) hE hTO hTI t ts (fun hu => h.flat hd hfit hstop hcl 1 hu) (by rw [hlen, hs1])
      (by
        rintro p rfl hv
        have := hfit.1.1
        rw [hs1] at hv ⊢
        rw [hss] at this
        cases hf0 : (f 0).ss with
        | nil => exact absurd hf0 hv
        | cons y r => rw [hf0] at this; exact this)
      ⟨by simp, by simp, by simp only [MAX_NODE, MAX_STACK] at *; omega, by omega, by decide, by
          simp only [List.length_cons] at htl
          omega, by
          simp only [MAX_UNIT, MAX_STACK] at *; omega, by
          rw [hsy]
          simp only [MAX_UNMATCHED_SYMBOL, MAX_STACK] at *; omega⟩
      (fun s k => Nat.lt_of_lt_of_le (hd.bnd s k) hn)
      (by
        intro _ p hp
        have := hoob t (hmem t List.mem_cons_self)
        rcases hp with rfl | rfl <;> exact ⟨this, hms.mono (hup.1 p rfl)⟩)
      (.inl ⟨.inr hid, rfl, fun x hx => htx x ((P.all_run E 1 ts _).1 x hx)⟩) (.inl (.inr hid)) hb
    obtain ⟨cs', cur', p0, hmove⟩ := hp.step hE (by simp) hTO t ts (fun e => e.elim) hb1
    have hcur : cur' = [1] := p0.fresh (p0.nopr (.inr hid))
    subst hcur
    have hf := hfit.2
    have hs := hstop
    have hsh' := hsh.2
    rw [List.foldl_cons] at hs
    rw [← step_ss E.d E.s] at hf hs hsh'
    exact Joint.safe0 hd hE hid hn hlim hw0 hc0 hoob ts h1 p0 hf hs hcl.2 (P.led_step _ _ _ _ hled) hsh'
      (fun t ht => hmem t (List.mem_cons_of_mem _ ht)) htx (by simp only [List.length_cons] at htl; omega)
      ⟨_, W.step_starts hms ts hup, hup.2⟩ hb1

theorem worker0_safe {d : QDfa} {ct : Option CTable} {u : UState} {s : Str} {D : Nat} (hd : Dead d d.statesNum) (h1n : 1 < d.statesNum) (hi1 : NoIdx d 1)
    (hfit : fitsAll [] .val (lexAll s)) (hstop : stopsAt ((lexAll s).foldl ssStep []) (modeAfter .val (lexAll s)))
    (hcl : noClob d s 0 SA.init (lexAll s)) (hn : d.statesNum ≤ MAX_NODE) (hD : D ≤ MAX_STACK) (hlead : lead s = 0)
    (hsh : shallow D [] (lexAll s)) (hsm : shortToks (lexAll s)) (htx : shortTl (runToks d s SA.init (lexAll s)).tl)
    (htl : 2 * (lexAll s).length ≤ MAX_TUPLE_LIST) : (K.ofW (runWorker d ct u 0 s)).bad = false := by
  suffices hgoal : (runWorker d ct u 0 s).bad = false by
    obtain ⟨b1, b2⟩ := W.bad_parts hgoal
    simp [K.ofW, K.bad, b1, b2]
  unfold runWorker
  have hst : startStates d 0 = [1] := rfl
  rw [hst]
  generalize hE : (⟨d, 0 == 0, s, ct, some [1]⟩ : WEnv) = E
  have hE1 : E.d = d := by rw [← hE]
  have hE2 : E.s = s := by rw [← hE]
  have hE3 : E.id0 = true := by rw [← hE]; rfl
  have hci : CInv d d.statesNum .start := by
    refine ⟨rfl, ?_, ?_, ?_, ?_, ?_⟩
    · intro e he; simp [Comb.start] at he; subst he; exact hi1
    · intro e he; simp [Comb.start] at he; subst he; exact h1n
    · intro e he; simp [Comb.start] at he
    · intro ht; cases ht
    · intro ht; cases ht
  have hcr : CRel d [] .start SA.init := ⟨rfl, ⟨_, _, rfl, ⟨rfl, .inl rfl⟩, .nil⟩, rfl⟩
  have hJ0 : Joint E d.statesNum .start 0 .val SA.init (fun s => P.init s u) [] .start := by
    refine Joint.init (C0 := .start) u ?_ ?_ trivial ⟨fun _ => .inl rfl, fun ht => by cases ht⟩
    · rw [hE1]; exact hcr
    · rw [hE1]; exact hci
  obtain ⟨us, C, hJ⟩ := Joint.run (by rw [hE1]; exact hd) (lexAll s) hJ0 hfit hstop (by rw [hE1, hE2]; exact hcl)
  rw [hE1, hE2] at hJ
  obtain ⟨rfl, hsy⟩ := hJ.closed rfl
  have hC := hJ.comb
  rw [hsy] at hC
  have hC : C = .start := hC
  subst hC
  have hrel := hJ.rel.tl
  have hst1 : Comb.st .start = 1 := rfl
  have hun := hJ.units 1
  rw [hst1] at hrel
  have hinv := hJ.inv 1
  have hall : ∀ x ∈ (P.run E 1 (P.init 1 u) (lexAll s)).all, TextOK x := by
    intro x hx
    unfold P.all at hx
    rw [hun] at hx
    have hx : x ∈ (P.run E 1 (P.init 1 u) (lexAll s)).out := by simpa using hx
    have hsp := hinv.span hE3 x hx
    have h1 : resolve E.s x ∈ (runToks d s SA.init (lexAll s)).tl := by
      have : Comb.start.tl ++ (runToks d s SA.init (lexAll s)).tl = Comb.start.tl ++ (P.run E 1 (P.init 1 u) (lexAll s)).out.map (resolve E.s) := hrel
      rw [List.append_cancel_left this]
      exact List.mem_map_of_mem hx
    have h2 := htx _ h1
    simp only [resolve, hsp] at h2
    exact h2
  obtain ⟨g1, cs', g2⟩ := Joint.safe0 (E := E) (n := d.statesNum) (D := D) (C0 := .start) (by rw [hE1]; exact hd) (by rw [← hE]) hE3 hn hD
    trivial (by decide) (by
      intro t ht
      rw [hE2] at ht ⊢
      have := (lexAll_pos _ _ ht).2
      unfold substringOOB
      rw [hlead]
      simp; omega) (lexAll s) hJ0 (cs := []) (PTracks.init u (by simp)) hfit hstop (by rw [hE1, hE2]; exact hcl) (by simp [P.Led, P.init]) hsh
    (by rw [hE2]; exact fun _ h => h) hall (by
      have : (W.init [1] u).q.tl = [] := rfl
      rw [this]; simpa using htl) ⟨0, QS.MsLe.start [1], hE2 ▸ lexAll_upward s⟩ rfl
  have h5 := g2.finish_safe (by decide) (by rw [hun]; decide) g1
  obtain ⟨b1, b2⟩ := W.bad_parts h5
  exact W.bad_of (by simp only [W.orUb, contentUb_short hsm, b1, Bool.or_false]) b2

end JPS
