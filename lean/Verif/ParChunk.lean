import Verif.ParUnits
/-!
# One chunk of `combine`, worker 0, and the loop over the chunks
-/

set_option autoImplicit false

namespace JPS
open Spec

theorem all2_family {α β γ : Type} {n : Nat} {R : Nat → α → γ → Prop} {g : Nat → β → γ} (hn : 0 < n) : ∀ {b : List β} {a : List α},
    (∀ s, s < n → All2 (R s) a (b.map (g s))) → All2 (fun x y => ∀ s, s < n → R s x (g s y)) a b
  | [], a, h => by
    have := h 0 hn
    cases this; exact .nil
  | y :: b, [], h => by have := h 0 hn; cases this
  | y :: b, x :: a, h => by
    refine .cons (fun s hs => ?_) (all2_family hn fun s hs => ?_)
    · have := h s hs; cases this; assumption
    · have := h s hs; cases this; assumption

theorem ssStep_max {ss : List Sym} (h : ss.length ≤ MAX_STACK) (t : Tok) : (ssStep ss t).length ≤ MAX_STACK := by
  have hp : ∀ x : Sym, (push ss x).length ≤ MAX_STACK := by
    intro x; unfold push; split
    · simp; omega
    · exact h
  cases t with
  | lcb p => exact hp _
  | lb p => exact hp _
  | ky k => exact hp _
  | com => exact h
  | pri x => simp only [ssStep]; split <;> simp [pop] <;> omega
  | rcb p => simp only [ssStep]; repeat' split
             all_goals simp [pop] <;> omega
  | rb p => simp only [ssStep]; repeat' split
            all_goals simp [pop] <;> omega

theorem ssRun_max : ∀ (ts : List Tok) {ss : List Sym}, ss.length ≤ MAX_STACK → (ts.foldl ssStep ss).length ≤ MAX_STACK
  | [], _, h => h
  | t :: ts, _, h => ssRun_max ts (ssStep_max h t)

/-- The symbols of a chunk that begins after the symbols of `S` are as for the serial automaton. -/
theorem runWorker_bad {d : QDfa} {ct : Option CTable} {u : UState} {i : Nat} {s : Str}
    (h : ((runWorker d ct u i s).ub || (runWorker d ct u i s).q.ub) = false) :
    (W.run ⟨d, i == 0, s, ct, some (startStates d i)⟩ (W.init (startStates d i) u) (lexAll s)).bad = false := by
  simp only [runWorker, W.orUb, W.finish, Bool.or_eq_false_iff] at h
  simp only [W.bad, Bool.or_eq_false_iff]
  exact ⟨h.1.1.1.1, h.2⟩

/-! ### A worker that prunes -/

theorem QInv.unique {a b : List Nat} {q : QS} {elt : Rng} (h : QInv a q elt) (h' : QInv b q elt) : a = b := by
  have hl : a.length = b.length := by
    have := h.contig.roots
    rw [h'.contig.roots] at this
    simpa using this.symm
  apply List.ext_getElem?
  intro i
  by_cases hi : i < a.length
  · have hg : q.nodes[i]? = some (q.nodes[i]'(Nat.lt_of_lt_of_le hi h.roots_le)) := List.getElem?_eq_getElem _
    rw [(h.root i _ hi hg).2, (h'.root i _ (by omega) hg).2]
  · rw [List.getElem?_eq_none (by omega), List.getElem?_eq_none (by omega)]

theorem PTracks.cs_eq {E : WEnv} {sts : List Nat} {cs : List (List Nat)} {cur : List Nat} {s0 : Nat} {w : W} {v : P}
    (h : PTracks E True sts cs cur s0 w v) : cs = w.units.map fun u => u.roots.map (·.1) := by
  obtain ⟨base, log, _, _, hu, _⟩ := h.logd
  have hc := h.count
  generalize w.units = us at hu
  generalize v.units = vs at hu hc
  clear h
  induction cs generalizing us vs with
  | nil => cases hu; rfl
  | cons c cs ih =>
    cases vs with
    | nil => cases hc
    | cons x vs =>
      cases hu with
      | cons h1 h2 =>
        have h3 := h1.states
        rw [List.take_of_length_le (by rw [h1.full trivial]; exact Nat.le_refl _)] at h3
        rw [List.map_cons, h3, ← ih _ _ h2 (by simpa using hc)]

theorem PTracks.unique {E : WEnv} {sts : List Nat} {cs cs' : List (List Nat)} {cur cur' : List Nat} {s0 s0' : Nat} {w : W} {v v' : P}
    (h : PTracks E True sts cs cur s0 w v) (h' : PTracks E True sts cs' cur' s0' w v') : cs' = cs ∧ cur' = cur :=
  ⟨by rw [h.cs_eq, h'.cs_eq], h'.inv.unique h.inv⟩

/-- At every key and array start the states of the table contain the one the automaton is in. -/
def ctSound (d : QDfa) (s : Str) (ct : Option CTable) : SA → List Tok → Prop
  | _, [] => True
  | a, t :: ts => (∀ c k ks, ct = some c → t.ckey = some k → c.lookup k = some ks → a.elt.st ∈ ks) ∧
      ctSound d s ct (step d s a t) ts

theorem Comb.st_lt {d : QDfa} {n : Nat} {C : Comb} (h : CInv d n C) : C.st < n := by
  have := h.len
  cases hC : C.p with
  | nil => rw [hC] at this; simp at this
  | cons e t =>
    have h1 : C.st = e.st := by simp [Comb.st, hC]
    rw [h1]; exact h.bnd e (by rw [hC]; simp)

theorem Joint.prunes {E : WEnv} {n : Nat} {C0 : Comb} (hd : Dead E.d n) (hE : E.starts = some (List.range n)) (hT : TableOK E (List.range n)) :
    ∀ (ts : List Tok) {lo : Nat} {C : Comb} {m : Mode} {S : SA} {f : Nat → P} {us : List (List (USym × Nat) × (Nat → List MTuple))}
      {cs : List (List Nat)} {cur : List Nat} {w : W}, Joint E n C0 lo m S f us C →
    (∀ s, PTracks E True (List.range n) cs cur s w (f s)) → fitsAll S.ss m ts →
    stopsAt (ts.foldl ssStep S.ss) (modeAfter m ts) → noClob E.d E.s lo S ts → (w.run E ts).bad = false →
    ∃ us' C' cs' cur', Joint E n C0 (lowSs lo S.ss ts) (modeAfter m ts) (runToks E.d E.s S ts) (fun s => P.run E s (f s) ts) us' C' ∧
      (∀ s, PTracks E True (List.range n) cs' cur' s (w.run E ts) (P.run E s (f s) ts)) ∧
      (C.st ∈ cur → unitsIn E.d E.s C0 (cs.zip us) → ctSound E.d E.s E.ct S ts → C'.st ∈ cur' ∧ unitsIn E.d E.s C0 (cs'.zip us'))
  | [], _, _, _, _, _, _, _, _, _, h, hp, _, _, _, _ => ⟨_, _, _, _, h, hp, fun h1 h2 _ => ⟨h1, h2⟩⟩
  | t :: ts, lo, C, m, S, f, us, cs, cur, w, h, hp, hfit, hstop, hcl, hb => by
    have hne : List.range n ≠ [] := by
      intro e
      have := congrArg List.length e
      have := hd.pos
      simp at *; omega
    obtain ⟨us', C', h1, hmv⟩ := h.step hd hfit hstop hcl
    have hb : (W.run E (w.step E t ts) ts).bad = false := hb
    have hb1 := not_bad (b := W.bad) (f := fun w => w.run E ts) (fun w hw => W.run_bad hw) hb
    have hstep := fun s => (hp s).step hE hne hT t ts (fun _ hu => h.flat hd hfit hstop hcl s hu) hb1
    obtain ⟨cs', cur', p0, hmove⟩ := hstep 0
    have hp' : ∀ s, PTracks E True (List.range n) cs' cur' s (w.step E t ts) ((f s).step E s t ts) := by
      intro s
      obtain ⟨cs2, cur2, p2, _⟩ := hstep s
      obtain ⟨rfl, rfl⟩ := p0.unique p2
      exact p2
    have hf := hfit.2
    have hs := hstop
    rw [List.foldl_cons] at hs
    rw [← step_ss E.d E.s] at hf hs
    obtain ⟨us2, C2, cs2, cur2, g1, g2, g3⟩ := Joint.prunes hd hE hT ts h1 hp' hf hs hcl.2 hb
    rw [step_ss] at g1
    refine ⟨us2, C2, cs2, cur2, g1, g2, fun hC hU hS => ?_⟩
    have hcount : cs.length = us.length := by
      have := (hp 0).count
      rw [h.units 0] at this; simpa using this
    have hcount' : cs'.length = us'.length := by
      have := (hp' 0).count
      have hu := h1.units 0
      rw [hu] at this; simpa using this
    suffices hsuf : C'.st ∈ cur' ∧ unitsIn E.d E.s C0 (cs'.zip us') from g3 hsuf.1 hsuf.2 hS.2
    rcases hmv with ⟨rfl, rfl⟩ | ⟨hv, hst, hus⟩
    · have hcs : cs' = cs := by
        rcases hmove with ⟨e, _⟩ | ⟨e, _⟩
        · exact e
        · rw [e] at hcount'; simp at hcount'; omega
      subst hcs
      refine ⟨?_, hU⟩
      rcases hmove with ⟨_, e | ⟨ct, k, e1, e2, e3, e4⟩⟩ | ⟨e, _⟩
      · rw [e]; exact hC
      · have hel : S.elt.st = C'.st := by
          obtain ⟨e, t', a1, a2, _⟩ := h.rel.path
          obtain ⟨l, c, ms, a3⟩ := (h.inv C'.st).root
          have a4 : (f C'.st).p.length = 1 := by rw [(h.alike C'.st).len]; exact e4
          rw [a1] at a4
          have : t' = [] := List.length_eq_zero_iff.1 (by simpa using a4)
          subst this
          rw [a1] at a3
          have : l = [] := by
            have := congrArg List.length a3
            simp at this
            exact this
          subst this
          rw [a2.st]
          simp at a3
          rw [a3]
        rw [← hel]
        exact hS.1 ct k cur' e1 e2 e3
      · have := congrArg List.length e
        simp at this
    · have hlt := Comb.st_lt h1.ok
      have hcur : cur' = List.range n := by
        refine p0.fresh ?_
        cases e : (w.step E t ts).unit.pruned with
        | false => rfl
        | true => exact absurd (p0.mat e) hst
      refine ⟨by rw [hcur]; exact List.mem_range.2 hlt, ?_⟩
      rcases hmove with ⟨e, _⟩ | ⟨e, _⟩
      · rw [e] at hcount' ⊢
        rcases hus with rfl | rfl
        · exact hU
        · simp at hcount'; omega
      · rw [e] at hcount' ⊢
        rcases hus with rfl | rfl
        · simp at hcount'; omega
        · rw [List.zip_append hcount]
          refine unitsIn_snoc hU ?_
          have hmap : (cs.zip us).map (·.2) = us := by
            rw [show (fun x : List Nat × List (USym × Nat) × (Nat → List MTuple) => x.2) = Prod.snd from rfl, List.map_snd_zip (by omega)]
          rw [hmap, ← h.comb]
          exact hC

/-- No list of the table names a state twice. -/
def _root_.Option.NodupOK (ct : Option CTable) : Prop := ∀ c, ct = some c → ∀ k ks, c.lookup k = some ks → ks.Nodup

/-- What `combine` does with one chunk. -/
theorem chunk_sim {d : QDfa} {ct : Option CTable} (hnd : ct.NodupOK) {left right : Str} {u : UState} {i : Nat} (hi : i ≠ 0) (hd : Dead d d.statesNum) {k : K} {C0 : Comb}
    {S : SA} {m : Mode} (hk : KC k C0) (hr : CRel d C0.tl C0 S) (hc : CInv d d.statesNum C0) (hw : wfStack S.ss) (hm : modeOK S.ss m)
    (hmax : S.ss.length ≤ MAX_STACK) (hfit : fitsAll S.ss m (lexAll right))
    (hstop : stopsAt ((lexAll right).foldl ssStep S.ss) (modeAfter m (lexAll right)))
    (hcl : noClob d right S.ss.length S (lexAll right)) (hb : (k.chunk d left right (runWorker d ct u i right)).bad = false)
    (hre : ctSound d right ct S (lexAll right) ∨ (k.chunk d left right (runWorker d ct u i right)).re = false) :
    ∃ C', KC (k.chunk d left right (runWorker d ct u i right)) C' ∧ (k.chunk d left right (runWorker d ct u i right)).re = k.re ∧
      C'.tl = C0.tl ++ (runToks d right S (lexAll right)).tl ∧
      wfStack (runToks d right S (lexAll right)).ss ∧
      modeOK (runToks d right S (lexAll right)).ss (modeAfter m (lexAll right)) ∧
      (CutOK d (modeAfter m (lexAll right)) (runToks d right S (lexAll right)) →
        CRel d C'.tl C' { runToks d right S (lexAll right) with tl := [] } ∧ CInv d d.statesNum C') := by
  have hwb : ((runWorker d ct u i right).ub || (runWorker d ct u i right).q.ub) = false := by
    simp only [K.chunk, K.orUb, K.bad, Bool.or_eq_false_iff] at hb ⊢
    exact hb.1.2
  have hrun := runWorker_bad hwb
  have hi0 : (i == 0) = false := by simpa using hi
  have hst : startStates d i = List.range d.statesNum := by simp [startStates, hi]
  rw [hi0, hst] at hrun
  generalize hE : (⟨d, false, right, ct, some (List.range d.statesNum)⟩ : WEnv) = E at hrun
  have hE1 : E.d = d := by rw [← hE]
  have hE2 : E.s = right := by rw [← hE]
  have hTab : TableOK E (List.range d.statesNum) := by
    intro c hc _
    refine ⟨by simp, fun k ks hk => hnd c ?_ k ks hk⟩
    rw [← hE] at hc; exact hc
  have hEs : E.starts = some (List.range d.statesNum) := by rw [← hE]
  have hE3 : E.ct = ct := by rw [← hE]
  have hne : List.range d.statesNum ≠ [] := by
    intro e
    have := congrArg List.length e
    have := hd.pos
    simp at *; omega
  have hJ0 : Joint E d.statesNum C0 C0.ss.length m S (fun s => P.init s u) [] C0 := by
    apply Joint.init u _ _ hw hm <;> rw [hE1] <;> assumption
  have hss : S.ss = C0.ss := hr.ss
  obtain ⟨us, C, cs, cur, hJ, htr, hsound⟩ := Joint.prunes (by rw [hE1]; exact hd) hEs hTab (lexAll right) hJ0
    (fun s => PTracks.init u hne) hfit hstop (by rw [hE1, hE2, ← hss]; exact hcl) hrun
  rw [hE1, hE2] at hJ
  have hsound' : ctSound d right ct S (lexAll right) → C.st ∈ cur ∧ unitsIn d right C0 (cs.zip us) := by
    intro h1
    rw [hE1, hE2, hE3] at hsound
    exact hsound (List.mem_range.2 (Comb.st_lt hc)) trivial h1
  generalize hS' : runToks d right S (lexAll right) = S' at hJ ⊢
  have hcC := hJ.ok
  rw [hE1] at hcC
  have hCl : C.st < d.statesNum := by
    have := hcC.len
    cases hC : C.p with
    | nil => rw [hC] at this; simp at this
    | cons e t =>
      have h1 : C.st = e.st := by simp [Comb.st, hC]
      rw [h1]; exact hcC.bnd e (by rw [hC]; simp)
  -- the units
  have hcount : cs.length = us.length := by
    have := (htr 0).count
    have hu := hJ.units 0
    rw [hu] at this; simpa using this
  have hmapys : ((cs ++ [cur]).zip (us ++ [((P.run E 0 (P.init 0 u) (lexAll right)).syms, fun s => (P.run E s (P.init s u) (lexAll right)).out)])).map (·.2) =
      us ++ [((P.run E 0 (P.init 0 u) (lexAll right)).syms, fun s => (P.run E s (P.init s u) (lexAll right)).out)] := by
    rw [show (fun x : List Nat × List (USym × Nat) × (Nat → List MTuple) => x.2) = Prod.snd from rfl, List.map_snd_zip (by simp; omega)]
  have hu : All2 (fun x y => UnitAll d.statesNum (W.run E (W.init (List.range d.statesNum) u) (lexAll right)).q.tl y.1 x y.2)
      (W.run E (W.init (List.range d.statesNum) u) (lexAll right)).finish.units
      ((cs ++ [cur]).zip (us ++ [((P.run E 0 (P.init 0 u) (lexAll right)).syms, fun s => (P.run E s (P.init s u) (lexAll right)).out)])) := by
    refine all2_family (R := fun s x z => PUnitOK True (List.range d.statesNum) s _ z.1 x z.2)
      (g := fun s (y : List Nat × List (USym × Nat) × (Nat → List MTuple)) => (y.1, (y.2.1, y.2.2 s))) hd.pos fun s hs => ?_
    have h1 := htr s
    rw [W.finish_units h1.inv h1.ne]
    have h4 := h1.unitsNow (n := cur.length) h1.inv.roots_le (Nat.le_refl _) (fun _ => rfl) (by
      cases e : (W.run E (W.init (List.range d.statesNum) u) (lexAll right)).unit.pruned with
      | false => exact .inr rfl
      | true => exact .inl (h1.mat e))
    have h2 := hJ.units s
    have h3 := (hJ.alike s).syms
    rw [h2, h3] at h4
    have h5 : (us.map fun x => (x.1, x.2 s)) ++ [((P.run E 0 (P.init 0 u) (lexAll right)).syms, (P.run E s (P.init s u) (lexAll right)).out)] =
        (us ++ [((P.run E 0 (P.init 0 u) (lexAll right)).syms, fun s => (P.run E s (P.init s u) (lexAll right)).out)]).map fun x => (x.1, x.2 s) := by simp
    rw [h5, List.zip_map_right] at h4
    exact h4
  have hkb : ((runWorker d ct u i right).units.foldl (K.unit d left right (runWorker d ct u i right).q.tl) k).bad = false := by
    cases e : ((runWorker d ct u i right).units.foldl (K.unit d left right (runWorker d ct u i right).q.tl) k).bad with
    | false => rfl
    | true =>
      have : (k.chunk d left right (runWorker d ct u i right)).bad = true := K.orUb_bad (K.merge_bad e)
      rw [this] at hb; cases hb
  have hwq : (runWorker d ct u i right).q = (W.run E (W.init (List.range d.statesNum) u) (lexAll right)).q := by
    simp only [runWorker, hi0, hst, hE]; rfl
  have hwe : (runWorker d ct u i right).elt = (W.run E (W.init (List.range d.statesNum) u) (lexAll right)).elt := by
    simp only [runWorker, hi0, hst, hE]; rfl
  have hws : (runWorker d ct u i right).ss = (W.run E (W.init (List.range d.statesNum) u) (lexAll right)).ss := by
    simp only [runWorker, hi0, hst, hE]; rfl
  have hwu : (runWorker d ct u i right).units = (W.run E (W.init (List.range d.statesNum) u) (lexAll right)).finish.units := by
    simp only [runWorker, hi0, hst, hE]; rfl
  have huok := hJ.uok
  have hsok := hJ.sok
  have hcomb := hJ.comb
  rw [hE1, hE2] at huok hsok hcomb
  have hcc : CInv d d.statesNum ((P.run E 0 (P.init 0 u) (lexAll right)).syms.foldl (csym d) (us.foldl (cunit d right) C0)) := by
    rw [← hcomb]; exact hcC
  have hkre : (k.chunk d left right (runWorker d ct u i right)).re =
      ((runWorker d ct u i right).units.foldl (K.unit d left right (runWorker d ct u i right).q.tl) k).re := rfl
  rw [hkre, hwu, hwq] at hre
  rw [hwu, hwq] at hkb
  obtain ⟨hku, hin, hres⟩ := KC.units (d := d) (left := left) (right := right) hd.pos hu hk
    (by rw [hmapys]; exact unitsOK_snoc huok hsok hcc) hkb (by
      rcases hre with hre | hre
      · left
        obtain ⟨a1, a2⟩ := hsound' hre
        rw [List.zip_append hcount]
        refine unitsIn_snoc a2 ?_
        rw [show (fun x : List Nat × List (USym × Nat) × (Nat → List MTuple) => x.2) = Prod.snd from rfl, List.map_snd_zip (by omega), ← hcomb]
        exact a1
      · exact .inr hre)
  have hmem : C.st ∈ cur := by
    rw [List.zip_append hcount] at hin
    have := unitsIn_last hin
    rw [show (fun x : List Nat × List (USym × Nat) × (Nat → List MTuple) => x.2) = Prod.snd from rfl, List.map_snd_zip (by omega), ← hcomb] at this
    exact this
  rw [hmapys] at hku
  rw [List.foldl_append] at hku
  simp only [List.foldl_cons, List.foldl_nil] at hku
  have hcu : cunit d right (us.foldl (cunit d right) C0)
      ((P.run E 0 (P.init 0 u) (lexAll right)).syms, fun s => (P.run E s (P.init s u) (lexAll right)).out) =
      { C with tl := C.tl ++ (P.run E C.st (P.init C.st u) (lexAll right)).out.map (resolve right) } := by
    rw [cunit]
    dsimp only
    rw [← hcomb]
    unfold Comb.take
    by_cases h0 : C.st = 0
    · rw [if_pos h0, ((hJ.inv C.st).dead h0).2]; rfl
    · rw [if_neg h0]
  rw [hcu] at hku
  have hrel := hJ.rel
  have hS'm : S'.ss.length ≤ MAX_STACK := by
    rw [← hS', runToks_ss]; exact ssRun_max _ hmax
  have hmerge0 := hku.merge hmem (w := W.run E (W.init (List.range d.statesNum) u) (lexAll right)) (htr C.st)
    (by obtain ⟨l, c, ms, hl⟩ := (hJ.inv C.st).root; exact ⟨l, _, hl⟩) (by
      have := hrel.ss
      dsimp only at this ⊢
      rw [← this]; exact hS'm)
  have hmerge := hmerge0.1
  have hnext : (⟨(P.run E C.st (P.init C.st u) (lexAll right)).p.dropLast ++ C.p,
      (P.run E C.st (P.init C.st u) (lexAll right)).ss ++ C.ss,
      C.tl ++ (P.run E C.st (P.init C.st u) (lexAll right)).out.map (resolve right)⟩ : Comb) =
      C.next E.s (P.run E C.st (P.init C.st u) (lexAll right)) := by rw [hE2]; rfl
  refine ⟨C.next E.s (P.run E C.st (P.init C.st u) (lexAll right)), ?_, by rw [hkre, hwu, hwq]; exact hres, ?_, hJ.wf, hJ.mode, fun hcut => ?_⟩
  · rw [← hnext]
    have hh : ∀ k' : K, (k'.merge (runWorker d ct u i right)) = k'.merge (W.run E (W.init (List.range d.statesNum) u) (lexAll right)) := by
      intro k'
      simp only [K.merge, hwq, hwe, hws]
    unfold K.chunk
    rw [hh, hwu, hwq]
    exact ⟨hmerge.lv, hmerge.p, hmerge.ss, hmerge.tl, hmerge.roots⟩
  · exact hrel.tl.symm
  · obtain ⟨h1, h2⟩ := hJ.cut (by rw [hE1]; exact hcut)
    rw [hE1] at h1 h2
    exact ⟨⟨h1.ss, h1.path, by simp⟩, h2⟩

/-! ### Worker 0 -/

theorem levels_of_contig : ∀ {l : List Rng}, Contig 1 l → (∀ r ∈ l, r.e = r.s + 1) → ∀ r, l.head? = some r → l = levels r.e
  | [], h, _, _, _ => h.elim
  | [r], h, _, x, hx => by
    have : r = ⟨0, 1⟩ := h
    simp at hx; subst hx; rw [this]; rfl
  | r :: r' :: rs, h, hl, x, hx => by
    simp at hx; subst hx
    have ih := levels_of_contig h.2.2 (fun y hy => hl y (List.mem_cons_of_mem _ hy)) r' rfl
    have h1 := hl r (by simp)
    rw [h1, levels, ih, ← h.1]
    obtain ⟨a, b⟩ := r
    simp at h1 ⊢; exact h1

theorem length_le_flatMap {α β : Type} {f : α → List β} : ∀ {l : List α}, (∀ x ∈ l, f x ≠ []) → l.length ≤ (l.flatMap f).length
  | [], _ => by simp
  | x :: l, h => by
    have ih := length_le_flatMap fun y hy => h y (List.mem_cons_of_mem _ hy)
    have h1 : (f x).length ≠ 0 := fun e => h x (by simp) (List.length_eq_zero_iff.1 e)
    simp only [List.flatMap_cons, List.length_append, List.length_cons]
    omega

theorem QInv.org_ne {sts : List Nat} {q : QS} {elt : Rng} (h : QInv sts q elt) {i : Nat} {m : Node} (hm : q.nodes[i]? = some m) :
    m.org i ≠ [] := by
  cases hmr : m.roots with
  | none => exact absurd hmr (h.roots_some hm)
  | some rs =>
    cases rs with
    | nil => simp [Node.org, Node.origins, hmr]
    | cons x xs => simp [Node.org, Node.origins, hmr]

/-- With one start state there is one node per level. -/
theorem QInv.single {s0 : Nat} {q : QS} {elt : Rng} (h : QInv [s0] q elt) : elt :: q.items = levels q.nodes.length := by
  rw [h.len]
  refine levels_of_contig h.contig (fun r hr => ?_) elt rfl
  have hb := h.contig.bound r hr
  have hp := (h.perm r hr).length_eq
  rw [List.length_range] at hp
  have h1 : r.list.length ≤ (orgsOf q.nodes r.list).length := by
    refine length_le_flatMap fun i hi => ?_
    have hlt := h.below hr hi
    rw [List.getElem?_eq_getElem hlt]
    exact h.org_ne (List.getElem?_eq_getElem hlt)
  have h2 : r.list.length = r.e - r.s := by simp [Rng.list]
  have h3 : r.list ≠ [] := by
    intro e
    rw [e] at hp; simp [orgsOf] at hp
  have h4 : r.list.length ≠ 0 := fun e => h3 (List.length_eq_zero_iff.1 e)
  simp at hp
  omega

theorem view_levels {nodes : List Node} {r : Nat} : ∀ {N : Nat} {p : List Elt}, N ≤ nodes.length →
    All2 (fun rng e => ∃ n, Own nodes rng r n ∧ n.elt = e) (levels N) p → (nodes.take N).reverse.map Node.st = p.map Elt.st
  | 0, _, _, h => by cases h; simp
  | N + 1, _, hl, .cons h1 h2 => by
    obtain ⟨n, ⟨i, i1, i2, _⟩, rfl⟩ := h1
    have hi := mem_rlist.1 i1
    have : i = N := by simp at hi; omega
    subst this
    rw [List.take_add_one, i2]
    have ih := view_levels (Nat.le_of_succ_le hl) h2
    rw [List.reverse_append, List.map_append, ih]
    rfl

/-- The states worker 0 starts with. -/
def Comb.start : Comb := ⟨[⟨1, 0, none⟩], [], []⟩

theorem mem_levels : ∀ {N j : Nat}, j < N → ⟨j, j + 1⟩ ∈ levels N
  | 0, _, h => by omega
  | N + 1, j, h => by
    by_cases e : j = N
    · subst e; exact List.mem_cons_self
    · exact List.mem_cons_of_mem _ (mem_levels (by omega))

theorem worker0_sim {d : QDfa} {ct : Option CTable} {u : UState} {s : Str} (hd : Dead d d.statesNum) (h1n : 1 < d.statesNum) (hi1 : NoIdx d 1)
    (hfit : fitsAll [] .val (lexAll s)) (hstop : stopsAt ((lexAll s).foldl ssStep []) (modeAfter .val (lexAll s)))
    (hcl : noClob d s 0 SA.init (lexAll s)) (hb : (K.ofW (runWorker d ct u 0 s)).bad = false) :
    ∃ C', KC (K.ofW (runWorker d ct u 0 s)) C' ∧
      C'.tl = (runToks d s SA.init (lexAll s)).tl ∧
      wfStack (runToks d s SA.init (lexAll s)).ss ∧
      modeOK (runToks d s SA.init (lexAll s)).ss (modeAfter .val (lexAll s)) ∧
      (CutOK d (modeAfter .val (lexAll s)) (runToks d s SA.init (lexAll s)) →
        CRel d C'.tl C' { runToks d s SA.init (lexAll s) with tl := [] } ∧ CInv d d.statesNum C') := by
  have hwb : ((runWorker d ct u 0 s).ub || (runWorker d ct u 0 s).q.ub) = false := by
    simp only [K.ofW, K.bad, Bool.or_eq_false_iff] at hb ⊢
    exact hb.1
  have hrun := runWorker_bad hwb
  have hst : startStates d 0 = [1] := rfl
  rw [hst] at hrun
  generalize hE : (⟨d, 0 == 0, s, ct, some [1]⟩ : WEnv) = E at hrun
  have hE1 : E.d = d := by rw [← hE]
  have hE2 : E.s = s := by rw [← hE]
  have hE3 : E.id0 = true := by rw [← hE]; rfl
  have htr : Tracks [1] 0 1 (W.run E (W.init [1] u) (lexAll s)) (P.run E 1 (P.init 1 u) (lexAll s)) :=
    Tracks.run (.inr hE3) (by rw [← hE]) u rfl _ hrun
  have hci : CInv d d.statesNum .start := by
    refine ⟨rfl, ?_, ?_, ?_, ?_, ?_⟩
    · intro e he; simp [Comb.start] at he; subst he; exact hi1
    · intro e he; simp [Comb.start] at he; subst he; exact h1n
    · intro e he; simp [Comb.start] at he
    · intro ht; cases ht
    · intro ht; cases ht
  have hcr : CRel d [] .start SA.init := ⟨rfl, ⟨_, _, rfl, ⟨rfl, .inl rfl⟩, .nil⟩, rfl⟩
  have hJ0 : Joint E d.statesNum .start 0 .val SA.init (fun s => P.init s u) [] .start := by
    refine Joint.init (C0 := .start) u ?_ ?_ trivial ⟨fun _ => .inl rfl, fun ht => by cases ht⟩
    · rw [hE1]; exact hcr
    · rw [hE1]; exact hci
  obtain ⟨us, C, hJ⟩ := Joint.run (by rw [hE1]; exact hd) (lexAll s) hJ0 hfit hstop (by rw [hE1, hE2]; exact hcl)
  rw [hE1, hE2] at hJ
  generalize hS' : runToks d s SA.init (lexAll s) = S' at hJ ⊢
  obtain ⟨rfl, hsy⟩ := hJ.closed rfl
  have hC := hJ.comb
  rw [hsy] at hC
  have hC : C = .start := hC
  subst hC
  have hrel := hJ.rel
  have hst1 : Comb.st .start = 1 := rfl
  have hun := hJ.units 1
  rw [hst1] at hrel
  have hinv := hJ.inv 1
  obtain ⟨l, cc, ms, hl⟩ := hinv.root
  refine ⟨Comb.start.next E.s (P.run E 1 (P.init 1 u) (lexAll s)), ?_, ?_, hJ.wf, hJ.mode, fun hcut => ?_⟩
  · have hw : ∀ {α : Type} (g : QS → Rng → List Sym → α), g (runWorker d ct u 0 s).q (runWorker d ct u 0 s).elt (runWorker d ct u 0 s).ss =
        g (W.run E (W.init [1] u) (lexAll s)).q (W.run E (W.init [1] u) (lexAll s)).elt (W.run E (W.init [1] u) (lexAll s)).ss := by
      intro α g
      simp only [runWorker, hst, hE]; rfl
    have hlv := htr.inv.single
    refine ⟨?_, ?_, ?_, ?_, ?_⟩
    · have := hw fun q e _ => e :: q.items = levels q.nodes.length
      show (runWorker d ct u 0 s).elt :: (runWorker d ct u 0 s).q.items = levels (runWorker d ct u 0 s).q.nodes.length
      rw [this]; exact hlv
    · have := hw fun q _ _ => q.nodes
      show (runWorker d ct u 0 s).q.nodes.reverse.map _ = _
      rw [this]
      have hv := htr.view
      unfold View at hv
      rw [hlv] at hv
      have := view_levels (Nat.le_refl _) hv
      rw [List.take_length] at this
      rw [this, hl]
      simp [Comb.next, hl, Comb.start]
    · have := hw fun _ _ ss => ss
      show (runWorker d ct u 0 s).ss = _
      rw [this, htr.ss]
      simp [Comb.next, Comb.start]
    · have := hw fun q _ _ => q.tl
      show (runWorker d ct u 0 s).q.tl.map _ = _
      rw [this]
      have h2 := htr.finish.2 rfl
      rw [hun] at h2
      simp only [List.map_nil, List.nil_append, List.map_cons, List.flatten_cons, List.flatten_nil, List.append_nil] at h2
      have h3 : (W.run E (W.init [1] u) (lexAll s)).q.tl.map (fun t => (⟨t.st, t.text.getD []⟩ : Tuple)) =
          ((W.run E (W.init [1] u) (lexAll s)).q.tl.map MTuple.strip).map fun t => ⟨t.st, t.text.getD []⟩ := by
        rw [List.map_map]; rfl
      rw [h3, h2]
      simp only [Comb.next, Comb.start, List.nil_append]
      refine List.map_congr_left fun t ht => ?_
      have hsp := hinv.span hE3 t ht
      simp only [resolve, hsp]
    · have := hw fun q _ _ => q.nodes
      show ∀ n ∈ (runWorker d ct u 0 s).q.nodes, _
      rw [this]
      intro n hn
      obtain ⟨j, hj, rfl⟩ := List.getElem_of_mem hn
      have hm : (⟨j, j + 1⟩ : Rng) ∈ (W.run E (W.init [1] u) (lexAll s)).elt :: (W.run E (W.init [1] u) (lexAll s)).q.items := by
        rw [hlv]; exact mem_levels hj
      have hp := (htr.inv.perm _ hm).length_eq
      have hg := List.getElem?_eq_getElem hj
      have ho : orgsOf (W.run E (W.init [1] u) (lexAll s)).q.nodes (Rng.list ⟨j, j + 1⟩) = ((W.run E (W.init [1] u) (lexAll s)).q.nodes[j]).org j := by
        simp [orgsOf, Rng.list, hg]
      rw [ho] at hp
      generalize (W.run E (W.init [1] u) (lexAll s)).q.nodes[j] = m at hp
      cases hr : m.roots with
      | none => exact .inl rfl
      | some rs =>
        cases rs with
        | nil => exact .inr (.inl rfl)
        | cons x xs =>
          simp [Node.org, Node.origins, hr] at hp
          exact .inr (.inr ⟨x, by rw [hp]⟩)
  · exact hrel.tl.symm
  · obtain ⟨h1, h2⟩ := hJ.cut (by rw [hE1]; exact hcut)
    rw [hE1] at h1 h2
    exact ⟨⟨h1.ss, h1.path, by simp⟩, h2⟩

/-! ### All chunks -/

/-- What is assumed of the chunks of a document: the tokens come in the order of a document, no selected scalar loses its
text, and each chunk but the last ends as `CutOK` says. -/
def ChunksOK (d : QDfa) : SA → Mode → List Str → Prop
  | _, _, [] => True
  | a, m, c :: cs =>
    fitsAll a.ss m (lexAll c) ∧ noClob d c a.ss.length { a with tl := [] } (lexAll c) ∧
    stopsAt ((lexAll c).foldl ssStep a.ss) (modeAfter m (lexAll c)) ∧
    (cs ≠ [] → CutOK d (modeAfter m (lexAll c)) (execAutomaton d c { a with tl := [] })) ∧
    ChunksOK d (execAutomaton d c { a with tl := [] }) (modeAfter m (lexAll c)) cs

/-- The same along the chunks. -/
def ctChunks (d : QDfa) (ct : Option CTable) : SA → List Str → Prop
  | _, [] => True
  | a, c :: cs => ctSound d c ct { a with tl := [] } (lexAll c) ∧ ctChunks d ct (execAutomaton d c { a with tl := [] }) cs

theorem K.units_re {d : QDfa} {left right : Str} {tl : List MTuple} : ∀ (us : List PUnit) {k : K}, k.re = true →
    (us.foldl (K.unit d left right tl) k).re = true
  | [], _, h => h
  | u :: us, _, h => K.units_re us (K.unit_re h)

theorem K.chunk_re {d : QDfa} {left right : Str} {k : K} {w : W} (h : k.re = true) : (k.chunk d left right w).re = true :=
  K.units_re w.units h

theorem combineLoop_re {d : QDfa} : ∀ (ws : List (Str × W)) {k : K} {left : Str}, k.re = true → (combineLoop d k left ws).re = true
  | [], _, _, h => h
  | (c, w) :: ws, _, _, h => combineLoop_re ws (K.chunk_re h)

theorem loop_sim {d : QDfa} {ct : Option CTable} (hnd : ct.NodupOK) {u : Nat → UState} (hd : Dead d d.statesNum) : ∀ (cs : List Str) {k : K} {C0 : Comb} {left : Str} {a : SA}
    {m : Mode} {i : Nat}, i ≠ 0 → KC k C0 → (cs ≠ [] → CRel d C0.tl C0 { a with tl := [] } ∧ CInv d d.statesNum C0) → wfStack a.ss →
    modeOK a.ss m → a.ss.length ≤ MAX_STACK → ChunksOK d a m cs →
    (combineLoop d k left (workersFrom d ct u i cs)).bad = false →
    (ctChunks d ct a cs ∨ (combineLoop d k left (workersFrom d ct u i cs)).re = false) →
    (combineLoop d k left (workersFrom d ct u i cs)).tuples = C0.tl ++ (runPieces d a cs).1.flatten ∧
      (combineLoop d k left (workersFrom d ct u i cs)).re = k.re
  | [], k, C0, _, _, _, _, _, hk, _, _, _, _, _, _, _ => by
    have := hk.tl
    refine ⟨?_, rfl⟩
    simpa [combineLoop, workersFrom, runPieces] using this
  | c :: cs, k, C0, left, a, m, i, hi, hk, hrc, hw, hm, hmax, hok, hb, hre => by
    obtain ⟨hr, hc⟩ := hrc (by simp)
    obtain ⟨o1, o2, o3, o4, o5⟩ := hok
    have hb1 : (k.chunk d left c (runWorker d ct (u i) i c)).bad = false := by
      cases e : (k.chunk d left c (runWorker d ct (u i) i c)).bad with
      | false => rfl
      | true =>
        have := combineLoop_bad (d := d) (left := c) (workersFrom d ct u (i + 1) cs) e
        have hb' : (combineLoop d (k.chunk d left c (runWorker d ct (u i) i c)) c (workersFrom d ct u (i + 1) cs)).bad = false := hb
        rw [this] at hb'; cases hb'
    have hre1 : ctSound d c ct { a with tl := [] } (lexAll c) ∨ (k.chunk d left c (runWorker d ct (u i) i c)).re = false := by
      rcases hre with hre | hre
      · exact .inl hre.1
      · right
        cases e : (k.chunk d left c (runWorker d ct (u i) i c)).re with
        | false => rfl
        | true =>
          have := combineLoop_re (d := d) (left := c) (workersFrom d ct u (i + 1) cs) e
          have hb' : (combineLoop d (k.chunk d left c (runWorker d ct (u i) i c)) c (workersFrom d ct u (i + 1) cs)).re = false := hre
          rw [this] at hb'; cases hb'
    obtain ⟨C', k1, k0, k2, k3, k4, k5⟩ := chunk_sim hnd (left := left) (u := u i) hi hd hk hr hc hw hm hmax o1 o3 o2 hb1 hre1
    obtain ⟨f1, f2, f3, f4⟩ := execAutomaton_fields d c { a with tl := [] }
    have ih := loop_sim hnd hd cs (u := u) (i := i + 1) (left := c) (a := execAutomaton d c { a with tl := [] })
      (m := modeAfter m (lexAll c)) (by omega) k1 ?_ ?_ ?_ ?_ o5 hb (hre.imp (·.2) id)
    · show (combineLoop d (k.chunk d left c (runWorker d ct (u i) i c)) c (workersFrom d ct u (i + 1) cs)).tuples = _ ∧
        (combineLoop d (k.chunk d left c (runWorker d ct (u i) i c)) c (workersFrom d ct u (i + 1) cs)).re = _
      refine ⟨?_, by rw [ih.2, k0]⟩
      rw [ih.1, k2]
      simp only [runPieces, List.flatten_cons, f1, List.append_assoc]
    · intro hne
      have hcut := o4 hne
      obtain ⟨g1, g2⟩ := k5 ⟨hcut.mode, by rw [← f4]; exact hcut.elt, by rw [← f3]; exact hcut.qs, by rw [← f2, ← f4]; exact hcut.cur⟩
      refine ⟨⟨?_, ?_, by simp⟩, g2⟩
      · rw [← g1.ss]; exact f2
      · have := g1.path
        dsimp only at this ⊢
        rw [f3, f4]; exact this
    · rw [f2]; exact k3
    · rw [f2]; exact k4
    · rw [f2, runToks_ss]; exact ssRun_max _ hmax

/-- **The parallel run on the chunks of a piece finds the tuples of the serial automaton on these chunks,** whatever the
constraint table, if no unit has to be reprocessed; and none has to be if the table is right about the document. -/
theorem parallel_sim_ct {d : QDfa} {ct : Option CTable} (hnd : ct.NodupOK) {u : Nat → UState} (hd : Dead d d.statesNum) (h1n : 1 < d.statesNum) (hi1 : NoIdx d 1)
    (cs : List Str) {k : K} (hk : executeParallel d ct u none cs = some k) (hok : ChunksOK d SA.init .val cs) (hb : k.bad = false)
    (hre : ctChunks d ct SA.init cs ∨ k.re = false) :
    k.tuples = (runPieces d SA.init cs).1.flatten ∧ k.re = false := by
  cases cs with
  | nil => cases hk
  | cons c cs =>
    simp only [executeParallel, Option.some.injEq] at hk
    subst hk
    have hb1 : (combineLoop d (K.ofW (worker0 d ct (u 0) none c)) c (workersFrom d ct u 1 cs)).bad = false := by
      cases e : (combineLoop d (K.ofW (worker0 d ct (u 0) none c)) c (workersFrom d ct u 1 cs)).bad with
      | false => rfl
      | true => rw [K.orUb_bad e] at hb; cases hb
    have hb2 : (K.ofW (runWorker d ct (u 0) 0 c)).bad = false := by
      cases e : (K.ofW (runWorker d ct (u 0) 0 c)).bad with
      | false => rfl
      | true =>
        have := combineLoop_bad (d := d) (left := c) (workersFrom d ct u 1 cs) e
        have hb' : (combineLoop d (K.ofW (runWorker d ct (u 0) 0 c)) c (workersFrom d ct u 1 cs)).bad = false := hb1
        rw [this] at hb'; cases hb'
    obtain ⟨o1, o2, o3, o4, o5⟩ := hok
    obtain ⟨C', k1, k2, k3, k4, k5⟩ := worker0_sim hd h1n hi1 o1 o3 o2 hb2
    obtain ⟨f1, f2, f3, f4⟩ := execAutomaton_fields d c { SA.init with tl := [] }
    have ih := loop_sim hnd hd cs (u := u) (i := 1) (left := c) (a := execAutomaton d c { SA.init with tl := [] })
      (m := modeAfter .val (lexAll c)) (by omega) k1 ?_ ?_ ?_ ?_ o5 hb1 (hre.imp (·.2) id)
    · refine ⟨?_, ih.2⟩
      show (combineLoop d (K.ofW (runWorker d ct (u 0) 0 c)) c (workersFrom d ct u 1 cs)).tuples = _
      rw [ih.1, k2]
      simp only [runPieces, List.flatten_cons, f1]
      rfl
    · intro hne
      have hcut := o4 hne
      obtain ⟨g1, g2⟩ := k5 ⟨hcut.mode, by have := hcut.elt; rw [f4] at this; exact this, by have := hcut.qs; rw [f3] at this; exact this,
        by have := hcut.cur; rw [f2, f4] at this; exact this⟩
      refine ⟨⟨?_, ?_, by simp⟩, g2⟩
      · rw [← g1.ss]; exact f2
      · have := g1.path
        dsimp only at this ⊢
        rw [f3, f4]; exact this
    · rw [f2]; exact k3
    · rw [f2]; exact k4
    · rw [f2, runToks_ss]; exact ssRun_max _ (by simp [SA.init])

theorem ctSound_none {d : QDfa} {s : Str} : ∀ (ts : List Tok) (a : SA), ctSound d s none a ts
  | [], _ => trivial
  | _ :: ts, _ => ⟨(fun _ _ _ h => by cases h), ctSound_none ts _⟩

theorem ctChunks_none {d : QDfa} : ∀ (cs : List Str) (a : SA), ctChunks d none a cs
  | [], _ => trivial
  | _ :: cs, _ => ⟨ctSound_none _ _, ctChunks_none cs _⟩

theorem nodup_none : Option.NodupOK none := fun _ h => by cases h

/-- The same without a table. -/
theorem parallel_sim {d : QDfa} {u : Nat → UState} (hd : Dead d d.statesNum) (h1n : 1 < d.statesNum) (hi1 : NoIdx d 1)
    (cs : List Str) {k : K} (hk : executeParallel d none u none cs = some k) (hok : ChunksOK d SA.init .val cs) (hb : k.bad = false) :
    k.tuples = (runPieces d SA.init cs).1.flatten :=
  (parallel_sim_ct nodup_none hd h1n hi1 cs hk hok hb (.inl (ctChunks_none _ _))).1

end JPS
