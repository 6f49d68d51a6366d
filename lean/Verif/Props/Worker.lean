import Verif.InChunk
import Verif.WorkerTrack
import Verif.ParChunk
import Verif.Eval
import Verif.Props.Parallel
/-!
# C31: a worker started with all states at once
-/

set_option autoImplicit false

namespace JPS
open Spec

/-- Nothing is closed that was not opened: `k` brackets are open that were opened here. -/
def closesOwn : Nat → List Tok → Prop
  | _, [] => True
  | k, .lcb _ :: ts => closesOwn (k + 1) ts
  | k, .lb _ :: ts => closesOwn (k + 1) ts
  | k, .rcb _ :: ts => 0 < k ∧ closesOwn (k - 1) ts
  | k, .rb _ :: ts => 0 < k ∧ closesOwn (k - 1) ts
  | k, .com :: ts => closesOwn k ts
  | k, .ky _ :: ts => closesOwn k ts
  | k, .pri _ :: ts => closesOwn k ts

/-- `closesOwn` as a test. -/
def closesOwnB : Nat → List Tok → Bool
  | _, [] => true
  | k, .lcb _ :: ts => closesOwnB (k + 1) ts
  | k, .lb _ :: ts => closesOwnB (k + 1) ts
  | k, .rcb _ :: ts => decide (0 < k) && closesOwnB (k - 1) ts
  | k, .rb _ :: ts => decide (0 < k) && closesOwnB (k - 1) ts
  | k, .com :: ts => closesOwnB k ts
  | k, .ky _ :: ts => closesOwnB k ts
  | k, .pri _ :: ts => closesOwnB k ts

theorem closesOwn_of : ∀ (ts : List Tok) (k : Nat), closesOwnB k ts = true → closesOwn k ts
  | [], _, _ => trivial
  | .lcb _ :: ts, k, h => closesOwn_of ts (k + 1) h
  | .lb _ :: ts, k, h => closesOwn_of ts (k + 1) h
  | .rcb _ :: ts, k, h => by
    simp only [closesOwnB, Bool.and_eq_true, decide_eq_true_eq] at h
    exact ⟨h.1, closesOwn_of ts (k - 1) h.2⟩
  | .rb _ :: ts, k, h => by
    simp only [closesOwnB, Bool.and_eq_true, decide_eq_true_eq] at h
    exact ⟨h.1, closesOwn_of ts (k - 1) h.2⟩
  | .com :: ts, k, h => closesOwn_of ts k h
  | .ky _ :: ts, k, h => closesOwn_of ts k h
  | .pri _ :: ts, k, h => closesOwn_of ts k h

/-- The brackets of a syntax stack. -/
def brackets (ss : List Sym) : Nat := ss.countP (· != .ky)

/-- What was open stays open. -/
theorem closesOwn_stays {kss : List Sym} (hk : kss ≠ []) (hkk : top kss ≠ some .ky) : ∀ (ts : List Tok) (L : List Sym) (m : Mode),
    wfStack (L ++ kss) → modeOK (L ++ kss) m → fitsAll (L ++ kss) m ts → closesOwn (brackets L) ts → ∀ n,
    kss.length ≤ ((ts.take n).foldl ssStep (L ++ kss)).length
  | [], L, _, _, _, _, _, n => by simp
  | t :: ts, L, m, hw, hm, hf, hc, 0 => by simp
  | t :: ts, L, m, hw, hm, hf, hc, n + 1 => by
    rw [List.take_succ_cons, List.foldl_cons]
    have h1 := wf_step hw hm hf.1
    have hf1 := hf.1
    have key : ∀ L', ssStep (L ++ kss) t = L' ++ kss → closesOwn (brackets L') ts →
        kss.length ≤ ((ts.take n).foldl ssStep (ssStep (L ++ kss) t)).length := by
      intro L' h2 h3
      rw [h2] at h1 ⊢
      have h4 := hf.2
      rw [h2] at h4
      exact closesOwn_stays hk hkk ts L' t.mode h1.1 h1.2 h4 h3 n
    have hclose : ∀ x : Sym, x ≠ .ky → top (L ++ kss) = some x → 0 < brackets L →
        (∃ L', ssStep (L ++ kss) (.rcb 0) = L' ++ kss ∧ brackets L' = brackets L - 1) := by
      intro x hx ht hb
      cases L with
      | nil => simp [brackets] at hb
      | cons y r =>
        have hy : y = x := by simpa [top] using ht
        subst hy
        have hbr : brackets (y :: r) = brackets r + 1 := by
          cases y <;> simp_all [brackets]
        rcases wf_below (r := r ++ kss) hw hx with h2 | ⟨q, h2⟩ | ⟨q, h2⟩
        · simp at h2; exact absurd h2.2 hk
        · refine ⟨r, ?_, by omega⟩
          simp [ssStep, pop, h2, secondTop]
        · cases r with
          | nil => rw [List.nil_append] at h2; rw [h2] at hkk; exact absurd rfl hkk
          | cons z r =>
            simp only [List.cons_append, List.cons.injEq] at h2
            refine ⟨r, ?_, by rw [hbr, h2.1]; simp [brackets]⟩
            simp [ssStep, pop, h2.1, secondTop]
    cases t with
    | lcb p =>
      refine key (.lcb :: L) ?_ (by simpa [brackets, closesOwn] using hc)
      simp only [ssStep, push, if_pos hf1.2]; rfl
    | lb p =>
      refine key (.lb :: L) ?_ (by simpa [brackets, closesOwn] using hc)
      simp only [ssStep, push, if_pos hf1.2]; rfl
    | ky k =>
      refine key (.ky :: L) ?_ (by simpa [brackets, closesOwn] using hc)
      simp only [ssStep, push, if_pos hf1.2.2]; rfl
    | com => exact key L rfl hc
    | pri x =>
      by_cases ht : top (L ++ kss) = some .ky
      · cases L with
        | nil => exact absurd ht hkk
        | cons y r =>
          have hy : y = .ky := by simpa [top] using ht
          subst hy
          refine key r ?_ (by simpa [brackets, closesOwn] using hc)
          simp [ssStep, top, pop]
      · refine key L ?_ hc
        simp [ssStep, ht]
    | rcb p =>
      obtain ⟨L', h2, h3⟩ := hclose .lcb (by simp) hf1.1 hc.1
      exact key L' h2 (by rw [h3]; exact hc.2)
    | rb p =>
      obtain ⟨L', h2, h3⟩ := hclose .lb (by simp) hf1.1 hc.1
      exact key L' h2 (by rw [h3]; exact hc.2)

/-- The serial automaton (`initStreamingAutomaton`, streaming_automaton.h:34-47) started in the middle of a document: in state
`s0`, with given stacks. -/
def SA.startAt (s0 : Nat) (kss : List Sym) (kq : List Elt) : SA := { SA.init with elt := ⟨s0, 0, none⟩, ss := kss, qs := kq }

/-- The current states a worker has for the start state with number `r`, worker_automaton.c:136-152 and multi_stack.h:100-217. -/
def W.now (w : W) (r : Nat) : List Nat :=
  (w.elt.list.filter fun i => decide (r ∈ ((w.q.nodes[i]?).map (·.org i)).getD [])).filterMap fun i => (w.q.nodes[i]?).map (·.st)

theorem filter_one {α : Type} {f : α → Bool} {i : α} : ∀ {l : List α}, l.Nodup → i ∈ l → (∀ j ∈ l, f j = true ↔ j = i) →
    l.filter f = [i]
  | [], _, h, _ => by cases h
  | a :: l, hn, h, hu => by
    obtain ⟨h1, h2⟩ := List.nodup_cons.1 hn
    by_cases ha : a = i
    · subst ha
      rw [List.filter_cons_of_pos ((hu a (by simp)).2 rfl)]
      have : l.filter f = [] := by
        rw [List.filter_eq_nil_iff]
        intro j hj hf
        have := (hu j (by simp [hj])).1 hf
        subst this; exact h1 hj
      rw [this]
    · rw [List.filter_cons_of_neg (fun hf => ha ((hu a (by simp)).1 hf))]
      refine filter_one h2 ?_ fun j hj => hu j (by simp [hj])
      rcases List.mem_cons.1 h with h | h
      · exact absurd h.symm ha
      · exact h

/-- A worker's path for a start state tells its current state. -/
theorem Tracks.now {sts : List Nat} {r s0 : Nat} {w : W} {v : P} (h : Tracks sts r s0 w v) {e : Elt} {t : List Elt} (hp : v.p = e :: t) :
    w.now r = [e.st] := by
  have hv := h.view
  rw [hp] at hv
  cases hv with
  | cons h1 _ =>
    obtain ⟨n, ⟨i, h2, h3, h4⟩, h5⟩ := h1
    unfold W.now
    rw [filter_one (i := i) (rlist_nodup w.elt) h2]
    · simp only [List.filterMap_cons, List.filterMap_nil, h3, Option.map_some]
      rw [← h5]; rfl
    · intro j hj
      rw [decide_eq_true_eq]
      constructor
      · intro hm
        cases hn : w.q.nodes[j]? with
        | none => rw [hn] at hm; simp at hm
        | some m =>
          rw [hn] at hm
          simp only [Option.map_some, Option.getD_some] at hm
          exact nodup_flatMap_unique (h.inv.orgs_nodup (rng := w.elt) (by simp)) (rlist_nodup _) (x := r) hj h2 (by rw [hn]; exact hm)
            (by rw [h3]; exact h4)
      · intro hji
        subst hji
        rw [h3]; exact h4

theorem SA.Is.startAt (s0 : Nat) (kss : List Sym) (kq : List Elt) :
    (SA.startAt s0 kss kq).Is ⟨(s0, 0), kss, kq.map Elt.key, []⟩ := ⟨rfl, rfl, rfl⟩

theorem shift_zero (ts : List Tok) : ts.map (Tok.shift 0) = ts := by
  have : Tok.shift 0 = id := by funext t; cases t <;> rfl
  rw [this, List.map_id]

/-- **C31** A worker started in the middle of a document, in all states of the automaton at once: if the chunk goes on with a JSON
text inside the constructs `kss`, begins before a string or a value after `{`, `[` or `,` and ends after one of these, and closes
only what it opens, then for each start state without a slice the worker ends in exactly one state, the state in which the
serial automaton ends if started in this state on the same chunk; and its syntax stack holds what the serial automaton's holds
above `kss`. -/
theorem c31_states_partial (d : QDfa) (u : UState) (i : Nat) (hi : i ≠ 0) (c : Str) (kss : List Sym) (m : Mode) (kq : List Elt) (s0 : Nat)
    (hk : kss ≠ []) (hkk : top kss ≠ some .ky) (hwf : wfStack kss) (hm : m = .fst ∨ m = .com) (hq : kq.length = nk kss)
    (hfit : fitsAll kss m (lexAll c)) (hstop : modeAfter m (lexAll c) = .fst ∨ modeAfter m (lexAll c) = .com)
    (hown : closesOwn 0 (lexAll c)) (hs : s0 < d.statesNum) (hno : NoIdx d s0)
    (hb : (runWorker d none u i c).bad = false) :
    (runWorker d none u i c).now s0 = [(runToks d c (SA.startAt s0 kss kq) (lexAll c)).elt.st] ∧
    (runWorker d none u i c).ss ++ kss = (runToks d c (SA.startAt s0 kss kq) (lexAll c)).ss := by
  have hsts : startStates d i = List.range d.statesNum := by simp [startStates, hi]
  have hr : (startStates d i)[s0]? = some s0 := by rw [hsts]; simp [hs]
  have hb' := runWorker_bad (d := d) (ct := none) (u := u) (i := i) (s := c) hb
  have h1 := Tracks.run (E := ⟨d, i == 0, c, none, some (startStates d i)⟩) (.inl rfl) rfl u hr (lexAll c) hb'
  have hmo : modeOK kss m := by
    refine ⟨fun h => ?_, fun h => absurd h hkk⟩
    rcases hm with hm | hm <;> rw [hm] at h <;> cases h
  have h0 : Inside d kss (kq.map Elt.key) ⟨(s0, 0), kss, kq.map Elt.key, []⟩ (P.init s0 u) := by
    refine ⟨rfl, rfl, rfl, ?_, .inl rfl, rfl, rfl⟩
    intro l x hl
    cases l with
    | nil => simp [P.init] at hl; rw [← hl]; exact hno
    | cons a l => simp [P.init] at hl
  have h2 := Inside.run (E := ⟨d, i == 0, c, none, some (startStates d i)⟩) (s0 := s0) hk hkk (by rw [List.length_map]; exact hq)
    (lexAll c) h0 hwf hmo hfit (.inr hstop) (closesOwn_stays hk hkk (lexAll c) [] m hwf hmo hfit hown)
  have h3 := SA.Is.run (d := d) (s := c) (k := 0) (lexAll c) (SA.Is.startAt s0 kss kq)
  rw [shift_zero] at h3
  obtain ⟨e, t, hp, he, _⟩ := h2.cons
  constructor
  · have := h1.now hp
    have h4 : (runToks d c (SA.startAt s0 kss kq) (lexAll c)).elt.st = e.st := by
      have := h3.e
      rw [he] at this
      exact (congrArg Prod.fst this).symm
    rw [h4, ← this]; rfl
  · have h4 := h2.ss
    rw [h3.ss] at h4
    rw [h4, ← h1.ss]; rfl

/-- Where the serial automaton stands after some chunks, serial execution of jpstream.c:104-138 without the output. -/
def after (d : QDfa) (xs : List Str) : SA := (runPieces d SA.init xs).2

theorem Is.pieces {d : QDfa} : ∀ (xs : List Str) {a : SA} {C : Ctl} (k : Nat), a.Is C → (runPieces d a xs).2.Is (ctlRun d C (pieceToks k xs))
  | [], _, _, _, h => h
  | x :: xs, a, C, k, h => by
    have h1 : ({ a with tl := [] } : SA).Is C := ⟨h.e, h.ss, h.q⟩
    have h2 := h1.exec (d := d) (s := x) k
    rw [pieceToks, ctlRun_append]
    exact Is.pieces xs (k + x.length) h2

/-- **C31 for the chunks of a document.**  A document is cut as for a parallel run; the chunk `c` lies in the middle and closes only
what it opens; the query has no slices.  Then the worker of `c`, which started in all states, has for the state in which the
serial automaton reaches `c` exactly one current state, that in which the serial automaton leaves `c`; and its syntax stack holds
what the serial automaton has opened in `c`. -/
theorem c31_document_partial (d : QDfa) (hd : Dead d d.statesNum) (h1n : 1 < d.statesNum) (hidx : ∀ s, NoIdx d s)
    (pre trail : Str) (v : J) (h : Readable pre trail v) (hpl : v.plainStrings = true) (h0 : NUL ∉ pre ++ v.render ++ trail)
    (cores : Nat) (hc : 0 < cores) (xs ys : List Str) (c : Str) (hxs : xs ≠ []) (hys : ys ≠ [])
    (hp : partition cores (pre ++ v.render ++ trail) = some ((xs ++ c :: ys).map some))
    (u : UState) (i : Nat) (hi : i ≠ 0) (hown : closesOwn 0 (lexAll c)) (hb : (runWorker d none u i c).bad = false) :
    (runWorker d none u i c).now (after d xs).elt.st = [(after d (xs ++ [c])).elt.st] ∧
    (runWorker d none u i c).ss ++ (after d xs).ss = (after d (xs ++ [c])).ss := by
  have hhead : (pre ++ v.render ++ trail).head? ≠ some ' ' := by
    have hn := h.noBlank
    have hcn := h.container
    cases pre with
    | nil => cases v <;> simp [J.isContainer, J.render] at hcn ⊢
    | cons z pre => simpa using hn
  obtain ⟨ps, q1, q2, _, q4, q5⟩ := partition_spec hc h.nonempty h0 hhead hp
  have hpe : ps = xs ++ c :: ys := (map_some_inj q1).symm
  have hne : [] ∉ ps := fun hm => q4 _ hm rfl
  have hcut : CutsAtStrings pre v ps := by
    intro xs ys e hx hy
    obtain ⟨r', u', w', c', a1, a2, a3, a4⟩ := q5 xs ys e hx hy
    exact opens_string h.preWs h.trailWs h.wf hpl a1 a2 a3 a4
  have hcm : ∀ xs' ys', ps = xs' ++ ys' → xs' ≠ [] → ys' ≠ [] →
      modeAfter .val (pieceToks 0 xs') = .fst ∨ modeAfter .val (pieceToks 0 xs') = .com := by
    intro xs' ys' e' hx' hy'
    obtain ⟨r', u', w', c', a1, a2, a3, a4⟩ := q5 xs' ys' e' hx' hy'
    exact doc_mode h.doc q2 hne hcut e' hx' hy' a2 a3 a4
  obtain ⟨h1, h2, hadj⟩ := doc_pieceToks h.doc q2 hne hcut
  have hfit := (fits_value v id pre.length [] .val (.inl rfl) (.inl rfl) (fun hc => by rw [h.container] at hc; cases hc)
    (by simpa using h.doc.depth)).1
  have hrest := doc_rest h.doc q2 hne hcut hpe hxs (by simp)
  rw [← h2, hpe, pieceToks_append, Nat.zero_add, fitsAll_append] at hfit
  obtain ⟨f1, f2⟩ := hfit
  obtain ⟨w1, w2⟩ := fits_wf (pieceToks 0 xs) (ss := []) (m := .val) trivial ⟨fun _ => .inl rfl, fun hz => by simp [top] at hz⟩ f1
  have hm1 := hcm xs (c :: ys) hpe hxs (by simp)
  have hm2 := hcm (xs ++ [c]) ys (by rw [hpe]; simp) (by simp) hys
  have hxc : pieceToks 0 (xs ++ [c]) = pieceToks 0 xs ++ (lexAll c).map (Tok.shift xs.flatten.length) := by
    rw [pieceToks_append]; simp [pieceToks]
  have hk : (pieceToks 0 xs).foldl ssStep [] ≠ [] := by
    intro hz
    rw [hz] at f2
    cases ht : pieceToks xs.flatten.length (c :: ys) with
    | nil => exact hrest ht
    | cons t ts =>
      rw [ht] at f2
      have := f2.1
      cases t with
      | lcb p => rcases this.1 with hv | hv
                 · rw [hv] at hm1; rcases hm1 with hm1 | hm1 <;> cases hm1
                 · cases hv.1
      | lb p => rcases this.1 with hv | hv
                · rw [hv] at hm1; rcases hm1 with hm1 | hm1 <;> cases hm1
                · cases hv.1
      | pri p => exact this.2 rfl
      | com => exact this.2 rfl
      | ky k => cases this.1
      | rcb k => cases this.1
      | rb k => cases this.1
  have hkk : top ((pieceToks 0 xs).foldl ssStep []) ≠ some .ky := by
    intro hz
    have := w2.2 hz
    rcases hm1 with h5 | h5 <;> (rw [this] at h5; cases h5)
  rw [pieceToks, fitsAll_append, fitsAll_shift] at f2
  have hctl := Is.pieces (d := d) xs 0 Is.init
  have hctl2 := Is.pieces (d := d) (xs ++ [c]) 0 Is.init
  have hok : CtlOK d.statesNum (ctlRun d Ctl.init (pieceToks 0 xs)) :=
    CtlOK.run hd (pieceToks 0 xs) (C := Ctl.init) (m := .val) ⟨rfl, h1n, by simp [Ctl.init]⟩ trivial
      ⟨fun _ => .inl rfl, fun hz => by simp [Ctl.init, top] at hz⟩ f1
  have hss : (after d xs).ss = (pieceToks 0 xs).foldl ssStep [] := by
    show (runPieces d SA.init xs).2.ss = _
    rw [← hctl.ss, ctlRun_ss]; rfl
  have hst : (ctlRun d Ctl.init (pieceToks 0 xs)).e.1 = (after d xs).elt.st := congrArg Prod.fst hctl.e
  have key := c31_states_partial d u i hi c (after d xs).ss (modeAfter .val (pieceToks 0 xs)) (after d xs).qs (after d xs).elt.st
    (by rw [hss]; exact hk) (by rw [hss]; exact hkk) (by rw [hss]; exact w1) hm1
    (by
      have := hok.len
      rw [hctl.q, List.length_map, hctl.ss] at this
      exact this)
    (by rw [hss]; exact f2.1)
    (by rw [hxc, modeAfter_append, modeAfter_shift] at hm2; exact hm2) hown
    (by rw [← hst]; exact hok.cur) (hidx _) hb
  have hsim : Ctl.Sim ⟨((after d xs).elt.st, 0), (after d xs).ss, (after d xs).qs.map Elt.key, []⟩
      (ctlRun d Ctl.init (pieceToks 0 xs)) := ⟨hst.symm, hctl.ss.symm, by rw [hctl.q]; rfl⟩
  have hs2 := hsim.run hidx ((lexAll c).map (Tok.shift xs.flatten.length))
  rw [← ctlRun_append, ← hxc] at hs2
  have hs3 := SA.Is.run (d := d) (s := c) (k := xs.flatten.length) (lexAll c) (SA.Is.startAt (after d xs).elt.st (after d xs).ss (after d xs).qs)
  have e1 : (runToks d c (SA.startAt (after d xs).elt.st (after d xs).ss (after d xs).qs) (lexAll c)).elt.st =
      (after d (xs ++ [c])).elt.st := by
    have a1 := congrArg Prod.fst hs3.e
    have a2 := congrArg Prod.fst hctl2.e
    have a3 := hs2.e
    exact a1.symm.trans (a3.trans a2)
  have e2 : (runToks d c (SA.startAt (after d xs).elt.st (after d xs).ss (after d xs).qs) (lexAll c)).ss =
      (after d (xs ++ [c])).ss := hs3.ss.symm.trans (hs2.ss.trans hctl2.ss)
  rw [← e1, ← e2]
  exact key

/-- `fits` as a test. -/
instance (ss : List Sym) (m : Mode) (t : Tok) : Decidable (fits ss m t) := by
  cases t <;> unfold fits valueAt <;> infer_instance

/-- `fitsAll` as a test. -/
def fitsAllB : List Sym → Mode → List Tok → Bool
  | _, _, [] => true
  | ss, m, t :: ts => decide (fits ss m t) && fitsAllB (ssStep ss t) t.mode ts

theorem fitsAll_of : ∀ (ts : List Tok) (ss : List Sym) (m : Mode), fitsAllB ss m ts = true → fitsAll ss m ts
  | [], _, _, _ => trivial
  | t :: ts, ss, m, h => by
    simp only [fitsAllB, Bool.and_eq_true, decide_eq_true_eq] at h
    exact ⟨h.1, fitsAll_of ts _ _ h.2⟩

/-- A chunk of an object, with an object of its own, and two constructs left open. -/
def exInside : Str := "\"b\": {\"a\": 2, \"x\": [1]}, \"a\": [1, {".toList

/-- The hypotheses of `c31_states_partial` hold for `$..a` from each of its three states; from state 1 the worker ends in state 1,
via state 2. -/
example : [Sym.lcb] ≠ [] ∧ top [Sym.lcb] ≠ some .ky ∧ wfStack [Sym.lcb] ∧ ([] : List Elt).length = nk [Sym.lcb] ∧
    fitsAll [.lcb] .com (lexAll exInside) ∧ modeAfter .com (lexAll exInside) = .fst ∧ closesOwn 0 (lexAll exInside) ∧
    (∀ s0, NoIdx exWorker s0) ∧ (runWorker exWorker none .other 3 exInside).bad = false ∧
    [0, 1, 2].map (runWorker exWorker none .other 3 exInside).now = [[0], [1], [1]] ∧
    (runWorker exWorker none .other 3 exInside).ss = [.lcb, .lb, .ky] := by
  refine ⟨by decide, by decide, ⟨by decide, trivial⟩, rfl, fitsAll_of _ _ _ (by decide), by decide, closesOwn_of _ _ (by decide),
    fun _ => ⟨rfl, rfl⟩, by decide, by decide, by decide⟩

/-- `{"k": 1, "a": {"b": [1, 2]}, "c": {"d": [3]}, "e": {"f": 4}}`. -/
def exMiddle : J := .obj [] (.cons [] ['k'] [] [' '] (.lit ['1']) [] (.cons [' '] ['a'] [] [' ']
  (.obj [] (.cons [] ['b'] [] [' '] (.arr [] (.cons [] (.lit ['1']) [] (.cons [' '] (.lit ['2']) [] .nil))) [] .nil)) []
  (.cons [' '] ['c'] [] [' '] (.obj [] (.cons [] ['d'] [] [' '] (.arr [] (.cons [] (.lit ['3']) [] .nil)) [] .nil)) []
  (.cons [' '] ['e'] [] [' '] (.obj [] (.cons [] ['f'] [] [' '] (.lit ['4']) [] .nil)) [] .nil))))

/-- An automaton for `$.e.f`. -/
def exMiddleDfa : QDfa :=
  { statesNum := 4, inputsNum := 5
    table := fun s c => if s = 1 ∧ c = 3 then 2 else if s = 2 ∧ c = 4 then 3 else 0
    stop := fun _ => 0, accept := fun s => if s = 3 then .output else .none, lower := fun _ => 0, upper := fun _ => 0
    names := fun c => if c = 3 then ['e'] else if c = 4 then ['f'] else [] }

/-- The claim of C31 for the chunks of a document, without the condition on slices. -/
def C31Full : Prop := ∀ (d : QDfa), Dead d d.statesNum → 1 < d.statesNum →
  ∀ (pre trail : Str) (v : J), Readable pre trail v → v.plainStrings = true → NUL ∉ pre ++ v.render ++ trail →
  ∀ (cores : Nat), 0 < cores → ∀ (xs ys : List Str) (c : Str), xs ≠ [] → ys ≠ [] →
  partition cores (pre ++ v.render ++ trail) = some ((xs ++ c :: ys).map some) →
  ∀ (u : UState) (i : Nat), i ≠ 0 → closesOwn 0 (lexAll c) → (runWorker d none u i c).bad = false →
  (runWorker d none u i c).now (after d xs).elt.st = [(after d (xs ++ [c])).elt.st]

theorem dead_of {d : QDfa} {n : Nat} (h1 : d.accept 0 = .none) (h2 : NoIdx d 0) (h3 : ∀ c, d.table 0 c = 0) (h4 : ∀ s c, d.table s c < n) :
    Dead d n := by
  refine ⟨h1, h2, fun k => ?_, fun s k => ?_, Nat.lt_of_le_of_lt (Nat.zero_le _) (h4 0 0)⟩ <;>
  · unfold QDfa.nextByStr
    split
    · first | exact h3 _ | exact h4 _ _
    · split <;> first | exact h3 _ | exact h4 _ _

theorem exMiddle_dead : Dead exMiddleDfa 4 := by
  refine dead_of rfl ⟨rfl, rfl⟩ (fun c => by simp [exMiddleDfa]) fun s c => ?_
  simp only [exMiddleDfa]
  split
  · decide
  · split <;> decide

set_option maxRecDepth 100000 in
/-- The hypotheses of `c31_document_partial` hold for `exMiddle` cut for three threads; the serial automaton reaches the middle chunk
in state 1 and leaves it in state 2. -/
example : Readable [] [] exMiddle ∧ exMiddle.plainStrings = true ∧ NUL ∉ [] ++ exMiddle.render ++ [] ∧
    Dead exMiddleDfa exMiddleDfa.statesNum ∧ (∀ s, NoIdx exMiddleDfa s) ∧
    partition 3 ([] ++ exMiddle.render ++ []) = some ((["{\"k\": 1, \"a\": {\"b\": [1, 2]}, ".toList] ++
      "\"c\": {\"d\": [3]}, \"e\": {".toList :: ["\"f\": 4}}".toList]).map some) ∧
    closesOwn 0 (lexAll "\"c\": {\"d\": [3]}, \"e\": {".toList) ∧
    (runWorker exMiddleDfa none .other 1 "\"c\": {\"d\": [3]}, \"e\": {".toList).bad = false ∧
    (after exMiddleDfa ["{\"k\": 1, \"a\": {\"b\": [1, 2]}, ".toList]).elt.st = 1 ∧
    (runWorker exMiddleDfa none .other 1 "\"c\": {\"d\": [3]}, \"e\": {".toList).now 1 = [2] := by
  refine ⟨⟨by decide, by decide, by decide, by decide, by decide, by decide, by decide, by decide⟩, by decide, by decide,
    exMiddle_dead, fun s => ⟨rfl, rfl⟩, by decide, closesOwn_of _ _ (by decide), by decide, by decide, by decide⟩

/-- `[1, 2, 3, "xxxxx", ["y", 5]]`. -/
def exSliced : J := .arr [] (.cons [] (.lit ['1']) [] (.cons [' '] (.lit ['2']) [] (.cons [' '] (.lit ['3']) []
  (.cons [' '] (.str ['x', 'x', 'x', 'x', 'x']) [] (.cons [' '] (.arr [] (.cons [] (.str ['y']) [] (.cons [' '] (.lit ['5']) [] .nil))) [] .nil)))))

/-- An automaton for `$[0:2][*]`. -/
def exSlicedDfa : QDfa :=
  { statesNum := 4, inputsNum := 3
    table := fun s c => if s = 1 ∧ c = 2 then 2 else if s = 2 ∧ c = 2 then 3 else 0
    stop := fun _ => 0, accept := fun s => if s = 3 then .output else .none
    lower := fun _ => 0, upper := fun s => if s = 2 then 2 else 0, names := fun _ => [] }

set_option maxRecDepth 100000 in
/-- **C31 fails with slices.**  `$[0:2][*]` on `[1, 2, 3, "xxxxx", ["y", 5]]` for three threads: the worker of the chunk
`"xxxxx", [` counts elements from 0, so for it the inner array is still one of the first two; the serial automaton is in state 0
there. -/
theorem c31_false : ¬ C31Full := by
  intro h
  have h1 := h exSlicedDfa (dead_of (n := 4) rfl ⟨rfl, rfl⟩ (fun c => by simp [exSlicedDfa]) fun s c => by
      simp only [exSlicedDfa]
      split
      · decide
      · split <;> decide) (by decide) [] [] exSliced
    ⟨by decide, by decide, by decide, by decide, by decide, by decide, by decide, by decide⟩ (by decide) (by decide) 3 (by decide)
    ["[1, 2, 3, ".toList] ["\"y\", 5]]".toList] "\"xxxxx\", [".toList (by decide) (by decide) (by decide) .other 1 (by decide)
    (closesOwn_of _ _ (by decide)) (by decide)
  revert h1
  decide

end JPS
