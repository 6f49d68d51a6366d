import Verif.Reprocess
import Verif.ParResume
import Verif.LexerUnit
import Verif.Props.Prune
/-!
# C44: what a unit that is processed again finds

The counterexamples of `Verif/Props/Prune.lean` could have two causes: the text given to the worker, or what the worker makes of it.  Here it is
shown that the worker is right about the text it gets: from a combined state that stands for the serial automaton it finds what the serial
automaton finds on the tokens of that text, and stands for the serial automaton after them.
-/

set_option autoImplicit false

namespace JPS
open Spec

/-- The worker of `K.reprocess`, parallel_automata_execution.h:288-299, worker_automaton.c:130-135. -/
def again0 (d : QDfa) (ct : Option CTable) (u : UState) (text : Str) (k : K) : W :=
  (W.run ⟨d, true, text, ct, none⟩ (W.resume k.q k.elt k.ss u) (lexAll text)).finish.orUb (contentUb text)

/-- Worker 0 goes on from the combined state, keeping its tuples. -/
theorem reprocess_sim {d : QDfa} {ct : Option CTable} {u : UState} {s : Str} {k : K} {C0 : Comb} {a : SA} {m : Mode}
    (hd : Dead d d.statesNum) (hk : KC k C0) (hspan : ∀ t ∈ k.q.tl, t.span = none) (hr : CRel d C0.tl C0 { a with tl := [] })
    (hc : CInv d d.statesNum C0)
    (hw : wfStack a.ss) (hm : modeOK a.ss m) (hfit : fitsAll a.ss m (lexAll s))
    (hb : (k.reprocess d ct u s).bad = false) :
    ∃ C', KC (k.reprocess d ct u s) C' ∧
      C'.tl = (runToks d s { a with tl := C0.tl } (lexAll s)).tl ∧
      wfStack (runToks d s { a with tl := C0.tl } (lexAll s)).ss ∧
      modeOK (runToks d s { a with tl := C0.tl } (lexAll s)).ss (modeAfter m (lexAll s)) ∧
      (k.reprocess d ct u s).ss = (runToks d s { a with tl := C0.tl } (lexAll s)).ss ∧
      (∀ t ∈ (k.reprocess d ct u s).q.tl, t.span = none) ∧
      (CutOK d (modeAfter m (lexAll s)) (runToks d s { a with tl := C0.tl } (lexAll s)) →
        CRel d C'.tl C' { runToks d s { a with tl := C0.tl } (lexAll s) with tl := [] } ∧ CInv d d.statesNum C') := by
  generalize hE : (⟨d, true, s, ct, none⟩ : WEnv) = E
  have hE1 : E.d = d := by rw [← hE]
  have hE2 : E.s = s := by rw [← hE]
  have hE3 : E.id0 = true := by rw [← hE]
  obtain ⟨c, kp, hp, he, hq⟩ := hr.path
  have hst : C0.st = c.st := by simp [Comb.st, hp]
  have hidx : ∀ n ∈ k.q.nodes, NoIdx d n.st ∧ n.st < d.statesNum := by
    intro n hn
    have : n.st ∈ C0.p.map Elt.st := by
      rw [← hk.p]; exact List.mem_map_of_mem (f := Node.st) (List.mem_reverse.2 hn)
    obtain ⟨e, h1, h2⟩ := List.mem_map.1 this
    rw [← h2]; exact ⟨hc.idx e h1, hc.bnd e h1⟩
  let v0 : P := ⟨k.q.nodes.reverse.map Node.elt, k.q.tl.map MTuple.strip, k.ss, [], [], u, []⟩
  have hpst : v0.p.map Elt.st = C0.p.map Elt.st := by
    rw [← hk.p]
    show (k.q.nodes.reverse.map Node.elt).map Elt.st = _
    rw [List.map_map]; rfl
  have hrt : RT E.d (W.resume k.q k.elt k.ss u) v0 := by
    rw [hE1]
    exact ⟨hk.lv, rfl, hk.roots, fun i n hn => .inl (hidx n (List.mem_of_getElem? hn)).1, rfl, rfl, rfl⟩
  have hpb : PB d.statesNum v0 := by
    refine ⟨fun e he => ?_, fun t ht => by obtain ⟨x, hx, rfl⟩ := List.mem_map.1 ht; exact hspan x hx⟩
    obtain ⟨n, h1, rfl⟩ := List.mem_map.1 he
    exact (hidx n (List.mem_reverse.1 h1)).2
  have hrel : Rel E [] [] [] [] { a with tl := C0.tl } v0 := by
    have hss : a.ss = k.ss := hr.ss.trans hk.ss.symm
    have hall : ∀ e ∈ v0.p, NoIdx E.d e.st := by
      intro e he
      obtain ⟨n, h1, rfl⟩ := List.mem_map.1 he
      rw [hE1]; exact (hidx n (List.mem_reverse.1 h1)).1
    refine ⟨by rw [List.append_nil]; exact hss, ?_, fun l e hl => hall e (by rw [hl]; simp), ?_, rfl, ?_⟩
    · rw [hp] at hpst
      cases hv : v0.p with
      | nil => rw [hv] at hpst; cases hpst
      | cons e t =>
        rw [hv] at hpst
        simp only [List.map_cons, List.cons.injEq] at hpst
        have he0 : a.elt.st = c.st := he.st
        have hci := hc.idx c (by rw [hp]; exact List.mem_cons_self)
        rw [hE1]
        refine ⟨e, t, rfl, ⟨he0.trans hpst.1.symm, .inr (by rw [he0]; exact hci)⟩, fun ht hx => ?_, ?_⟩
        · have h5 : d.accept C0.st ≠ .output := hc.cur (by rw [← hr.ss]; exact ht)
          rw [show ({ a with tl := C0.tl } : SA).elt = a.elt from rfl, he0, hci.matchedType] at hx
          rw [hst] at h5
          exact absurd hx h5
        · rw [List.append_nil]
          refine all2_states (E := kp) hq hpst.2.symm fun x hx => ⟨hc.idx x (by rw [hp]; exact List.mem_cons_of_mem _ hx), hc.low x (by rw [hp]; exact hx)⟩
    · have h1 := congrArg List.length hpst
      simp only [List.length_map] at h1
      rw [h1, hc.len]
      show nk C0.ss + 1 = nk k.ss + 1
      rw [hk.ss]
    · rw [List.nil_append, List.nil_append, ← hk.tl]
      show k.tuples = (k.q.tl.map MTuple.strip).map (resolve E.s)
      rw [List.map_map]
      refine List.map_congr_left fun t ht => ?_
      have : t.strip.span = none := hspan t ht
      simp only [Function.comp, resolve, this]
      rfl
  have hwb : ((again0 d ct u s k).ub || (again0 d ct u s k).q.ub) = false := by
    have hb' : ((k.ub || (again0 d ct u s k).ub) || (again0 d ct u s k).q.ub) = false := hb
    simp only [Bool.or_eq_false_iff] at hb' ⊢
    exact ⟨hb'.1.2, hb'.2⟩
  have hrun : (W.run E (W.resume k.q k.elt k.ss u) (lexAll s)).bad = false := by
    simp only [again0, W.orUb, W.finish, Bool.or_eq_false_iff, hE] at hwb
    simp only [W.bad, Bool.or_eq_false_iff]
    exact ⟨hwb.1.1.1.1, hwb.2⟩
  obtain ⟨r1, r2, r3, r4, r5⟩ := resume_run (by rw [hE1]; exact hd) hE3 0 (lexAll s) hrt hpb hrel rfl hw hm hfit hrun
  rw [hE1, hE2] at r3 r4 r5
  generalize hv : P.run E 0 v0 (lexAll s) = v at r1 r2 r3
  have hw0 : ∀ {α : Type} (g : QS → Rng → List Sym → α), g (again0 d ct u s k).q (again0 d ct u s k).elt (again0 d ct u s k).ss =
      g (W.run E (W.resume k.q k.elt k.ss u) (lexAll s)).q (W.run E (W.resume k.q k.elt k.ss u) (lexAll s)).elt
        (W.run E (W.resume k.q k.elt k.ss u) (lexAll s)).ss := by
    intro α g
    simp only [again0, hE]; rfl
  generalize W.run E (W.resume k.q k.elt k.ss u) (lexAll s) = w at r1 hw0
  generalize runToks d s { a with tl := C0.tl } (lexAll s) = S at r3 r4 r5 ⊢
  have hSs : S.ss = v.ss := by rw [r3.ss, List.append_nil]
  have htl : v.out.map (resolve s) = S.tl := by have := r3.tl; rw [hE2] at this; simpa using this.symm
  refine ⟨⟨v.p, v.ss, v.out.map (resolve s)⟩, ⟨?_, ?_, ?_, ?_, ?_⟩, htl, r4, r5, ?_, ?_, fun hcut => ?_⟩
  · have := hw0 fun q e _ => e :: q.items = levels q.nodes.length
    show (again0 d ct u s k).elt :: (again0 d ct u s k).q.items = levels (again0 d ct u s k).q.nodes.length
    rw [this]; exact r1.lv
  · have := hw0 fun q _ _ => q.nodes
    show (again0 d ct u s k).q.nodes.reverse.map _ = _
    rw [this, ← r1.view, List.map_map]; rfl
  · have := hw0 fun _ _ ss => ss
    show (again0 d ct u s k).ss = _
    rw [this, r1.ss]
  · have := hw0 fun q _ _ => q.tl
    show (again0 d ct u s k).q.tl.map _ = _
    rw [this]
    have h3 : w.q.tl.map (fun t => (⟨t.st, t.text.getD []⟩ : Tuple)) =
        (w.q.tl.map MTuple.strip).map fun t => ⟨t.st, t.text.getD []⟩ := by
      rw [List.map_map]; rfl
    rw [h3, r1.tl]
    refine List.map_congr_left fun t ht => ?_
    simp only [resolve, r2.span t ht]
  · have := hw0 fun q _ _ => q.nodes
    show ∀ n ∈ (again0 d ct u s k).q.nodes, _
    rw [this]
    exact r1.one
  · have := hw0 fun _ _ ss => ss
    show (again0 d ct u s k).ss = _
    rw [this, r1.ss, hSs]
  · have := hw0 fun q _ _ => q.tl
    show ∀ t ∈ (again0 d ct u s k).q.tl, _
    rw [this]
    intro t ht
    exact r2.span t.strip (by rw [← r1.tl]; exact List.mem_map_of_mem ht)
  · obtain ⟨e, t, hp1, he1, hms1, hq1⟩ := r3.path
    rw [List.append_nil, hE1] at hq1
    rw [hE1] at he1
    have hst1 : Comb.st ⟨v.p, v.ss, v.out.map (resolve s)⟩ = e.st := by simp [Comb.st, hp1]
    refine ⟨⟨hSs, ⟨e, t, hp1, he1, hq1⟩, by simp⟩, ?_⟩
    refine ⟨?_, ?_, r2.bnd, ?_, ?_, ?_⟩
    · exact r3.len
    · intro x hx
      have hx : x ∈ v.p := hx
      rw [hp1] at hx
      rcases List.mem_cons.1 hx with rfl | hx
      · rw [← he1.st]; exact hcut.elt
      · obtain ⟨y, hy, h1⟩ := all2_mem_right hq1 x hx
        rw [← h1.1.st]; exact (hcut.qs y hy).1
    · intro x hx
      have hx : x ∈ v.p.tail := hx
      rw [hp1] at hx
      obtain ⟨y, hy, h1⟩ := all2_mem_right hq1 x hx
      rw [← h1.1.st]; exact (hcut.qs y hy).2
    · intro ht
      rw [hst1, ← he1.st]
      exact hcut.cur (by rw [hSs]; exact ht)
    · intro ht
      have := r5.2 (by rw [hSs]; exact ht)
      rcases hcut.mode with h1 | h1 <;> rw [this] at h1 <;> cases h1


/-- **A unit that is processed again gives what the serial automaton finds in its text.**  If the combined state `k` stands for the serial automaton in
`a` at a place where a value or member may begin, then after `K.reprocess` on a text whose tokens may follow there, the tuples are those
of the serial automaton that goes on over the tokens of the text, the syntax stacks agree, and the new state again stands for the serial
automaton, so that several units may be processed again one after the other.  What is missing in C44: the text ends
before the bracket (`c44_unit_text_partial`), so its tokens need not be all tokens of the unit (`c44_false`), and the
run may meet an unwritten `root_range` (`c44_false_ub`; here excluded by `bad = false`). -/
theorem c44_reprocess_partial {d : QDfa} {ct : Option CTable} {u : UState} {text : Str} {k : K} {C : Comb} {a : SA} {m : Mode}
    (hd : Dead d d.statesNum) (ha : After d k C a m) (hcut : CutOK d m a) (hspan : ∀ t ∈ k.q.tl, t.span = none)
    (hfit : fitsAll a.ss m (lexAll text)) (hb : (k.reprocess d ct u text).bad = false) :
    (k.reprocess d ct u text).tuples = (runToks d text { a with tl := k.tuples } (lexAll text)).tl ∧
    (k.reprocess d ct u text).ss = (runToks d text { a with tl := k.tuples } (lexAll text)).ss ∧
    (∀ t ∈ (k.reprocess d ct u text).q.tl, t.span = none) ∧
    ∃ C', After d (k.reprocess d ct u text) C' (runToks d text { a with tl := k.tuples } (lexAll text)) (modeAfter m (lexAll text)) := by
  obtain ⟨hr, hc⟩ := ha.cut hcut
  obtain ⟨C', h1, h2, h3, h4, h7, h5, h6⟩ := reprocess_sim (ct := ct) (u := u) hd ha.kc hspan hr hc ha.wf ha.mode hfit hb
  rw [← ha.kc.tl] at h2 h3 h4 h6 h7
  refine ⟨h1.tl.trans h2, h7, h5, C', ⟨h1, h6, h3, h4, by rw [runToks_ss]; exact ssRun_max _ ha.max⟩⟩

/-- An automaton for `$.a[*].b`. -/
def exAgainDfa : QDfa :=
  { statesNum := 5, inputsNum := 5
    table := fun s c => if s = 1 ∧ c = 3 then 2 else if s = 2 ∧ c = 2 then 3 else if s = 3 ∧ c = 4 then 4 else 0
    stop := fun c => if c = 3 ∨ c = 4 then 1 else 0, accept := fun s => if s = 4 then .output else .none
    lower := fun _ => 0, upper := fun _ => 0
    names := fun c => if c = 3 then ['a'] else if c = 4 then ['b'] else [] }

theorem exAgain_dead : Dead exAgainDfa 5 := by
  refine dead_of rfl ⟨rfl, rfl⟩ (fun c => by simp [exAgainDfa]) fun s c => ?_
  simp only [exAgainDfa]
  split
  · decide
  · split
    · decide
    · split <;> decide

/-- The first chunk. -/
def exAgainLeft : Str := "{\"a\": [{\"b\": 1}, ".toList

/-- What worker 0 leaves after it. -/
def exAgainK : K := K.ofW (runWorker exAgainDfa none .other 0 exAgainLeft)

/-- The text of a unit, without the bracket that ends it. -/
def exAgainText : Str := "{\"c\": 5, \"b\": {\"q\":1}".toList

set_option maxRecDepth 100000 in
/-- The hypotheses of `c44_reprocess_partial` hold: after worker 0 has read `{"a": [{"b": 1}, `, the text `{"c": 5, "b": {"q":1}` is
processed again; there are then two tuples.  -/
example : Dead exAgainDfa exAgainDfa.statesNum ∧
    (∃ C, After exAgainDfa exAgainK C (execAutomaton exAgainDfa exAgainLeft { SA.init with tl := [] }) .com) ∧
    CutOK exAgainDfa .com (execAutomaton exAgainDfa exAgainLeft { SA.init with tl := [] }) ∧ (∀ t ∈ exAgainK.q.tl, t.span = none) ∧
    fitsAll (execAutomaton exAgainDfa exAgainLeft { SA.init with tl := [] }).ss .com (lexAll exAgainText) ∧
    (exAgainK.reprocess exAgainDfa none .other exAgainText).bad = false ∧
    (exAgainK.reprocess exAgainDfa none .other exAgainText).tuples = [⟨4, "1".toList⟩, ⟨4, "{\"q\":1}".toList⟩] := by
  refine ⟨exAgain_dead, ?_, ⟨.inr rfl, ⟨rfl, rfl⟩, fun e he => ⟨⟨rfl, rfl⟩, by revert e; decide⟩, fun _ => by decide⟩, by decide, fitsAll_of _ _ _ (by decide), by decide, by decide⟩
  have hl : lexAll exAgainLeft = [.lcb 1, .ky ['a'], .lb 7, .lcb 8, .ky ['b'], .pri ['1'], .rcb 15, .com] := by decide
  have hn : noClob exAgainDfa exAgainLeft SA.init.ss.length { SA.init with tl := [] } (lexAll exAgainLeft) := by
    rw [hl]
    refine ⟨?_, ?_, ?_, ?_, ?_, ?_, ?_, ?_, trivial⟩ <;> intro x hx hle
    all_goals first | cases hx; done | exact absurd hle (by decide)
  obtain ⟨C, h, _⟩ := first_end (ct := none) (u := .other) (old := none) (c := exAgainLeft) (cs := []) (a := SA.init) (m := .val) exAgain_dead
    (by decide) ⟨rfl, rfl⟩ (.inl ⟨rfl, rfl, rfl⟩)
    ⟨fitsAll_of _ _ _ (by decide), hn, .inr (.inr (by decide)), fun h => absurd rfl h, trivial⟩ (by decide)
  exact ⟨C, h⟩


/-! ### The text of a unit in its chunk -/

theorem okRun_of_fitsAll : ∀ (ts : List Tok) (ss : List Sym) (m : Mode), fitsAll ss m ts → okRun ss ts
  | [], _, _, _ => trivial
  | t :: ts, ss, m, h => by
    refine ⟨?_, okRun_of_fitsAll ts _ _ h.2⟩
    have := h.1
    cases t <;> first | trivial | exact this.1

/-- The common part: processing the text from `b` to `e` again gives what the serial automaton finds in the tokens `ts` of that text. -/
theorem unit_again {d : QDfa} {ct : Option CTable} {u : UState} {S : Str} {k : K} {C : Comb} {a : SA} {m : Mode} {b e : Nat} {ts : List Tok}
    (hd : Dead d d.statesNum) (ha : After d k C a m) (hcut : CutOK d m a) (hspan : ∀ t ∈ k.q.tl, t.span = none)
    (htoks : (lexAll ((S.drop b).take (e - b))).map (Tok.shift b) = ts) (hts : ts ≠ [])
    (hl : lead S = 0) (hb0 : S[b]? ≠ some ' ') (hfit : fitsAll a.ss m ts)
    (hub : (runToks d S { a with tl := k.tuples } ts).ub = false)
    (hb : (k.reprocess d ct u (substring S b e)).bad = false) :
    (k.reprocess d ct u (substring S b e)).tuples = (runToks d S { a with tl := k.tuples } ts).tl ∧
    (k.reprocess d ct u (substring S b e)).ss = (runToks d S { a with tl := k.tuples } ts).ss ∧
    ∃ a' C', After d (k.reprocess d ct u (substring S b e)) C' a' (modeAfter m ts) ∧
      a'.ss = (runToks d S { a with tl := k.tuples } ts).ss ∧
      a'.elt.st = (runToks d S { a with tl := k.tuples } ts).elt.st ∧
      a'.elt.count = (runToks d S { a with tl := k.tuples } ts).elt.count := by
  have htext : substring S b e = (S.drop b).take (e - b) := by
    unfold substring ltrim
    rw [hl, List.drop_zero, List.drop_take]
  rw [htext] at hb ⊢
  generalize hT : (S.drop b).take (e - b) = T at htoks hb ⊢
  rw [← htoks] at hfit hub ⊢
  rw [fitsAll_shift] at hfit
  have hlT : lead T = 0 := by
    cases hx : T with
    | nil => rfl
    | cons c r =>
      have hc : S[b]? = some c := by
        have h1 : T[0]? = some c := by rw [hx]; rfl
        rw [← hT, List.getElem?_take] at h1
        split at h1
        · rw [List.getElem?_drop] at h1; exact h1
        · cases h1
      have hne : c ≠ ' ' := by rintro rfl; exact hb0 hc
      simp [lead, hne]
  have hS : ∃ u w, S = u ++ T ++ w ∧ u.length = b ∨ T = [] := by
    by_cases hlen : b ≤ S.length
    · refine ⟨S.take b, (S.drop b).drop (e - b), .inl ⟨?_, by simp; omega⟩⟩
      rw [← hT, List.append_assoc, List.take_append_drop, List.take_append_drop]
    · refine ⟨[], [], .inr ?_⟩
      rw [← hT, List.drop_eq_nil_of_le (by omega), List.take_nil]
  obtain ⟨pu, w, hS⟩ := hS
  have hS : S = pu ++ T ++ w ∧ pu.length = b := by
    rcases hS with hS | hS
    · exact hS
    · rw [hS] at htoks
      have : lexAll ([] : Str) = [] := rfl
      rw [this] at htoks; exact absurd htoks.symm hts
  obtain ⟨r1, r2, _, C', r3⟩ := c44_reprocess_partial (ct := ct) (u := u) hd ha hcut hspan hfit hb
  have hmt : ∀ x c, NoIdx d x → d.accept x ≠ .output → d.matchedType x c ≠ .output := by
    intro x c h1 h2
    rw [h1.matchedType]; exact fun h => h2 h
  have hsim : Sim d b [] { a with tl := k.tuples } { a with tl := k.tuples } := by
    refine ⟨rfl, rfl, ?_, rfl, rfl, fun ht => ⟨rfl, rfl, fun ho => absurd ho (hmt _ _ hcut.elt (hcut.cur ht))⟩, fun h => h⟩
    have hq := hcut.qs
    show All2 _ a.qs a.qs
    revert hq
    generalize a.qs = q
    intro hq
    induction q with
    | nil => exact .nil
    | cons x q ih =>
      have hx := hq x List.mem_cons_self
      exact .cons ⟨rfl, rfl, fun ho => absurd ho (hmt _ _ hx.1 hx.2)⟩ (ih fun y hy => hq y (List.mem_cons_of_mem _ hy))
  have hrun := Sim.run hS.1 hS.2 hl hlT (lexAll T) _ _ hsim (fun t ht => lexAll_pos T t ht) (okRun_of_fitsAll _ _ _ hfit) hub
  refine ⟨?_, r2.trans hrun.ss.symm, _, C', by rw [modeAfter_shift]; exact r3, hrun.ss.symm, hrun.st.symm, hrun.cnt.symm⟩
  rw [r1, hrun.tl, List.nil_append]

/-- **A unit of a chunk, processed again.**  The unit begins with the token `t0` at `b` and ends before the bracket at `e`; `a` is the serial
automaton when it comes to `t0`, `k` the combined state.  If no scalar without quotes stands directly before the bracket (`hlit`) and neither
the chunk nor the text of the unit begins with a blank (`hl`, `hb0`), then processing the unit again gives the tuples the serial automaton
finds in the unit on its way through the chunk.  Both conditions are needed: `c44_false`, `c44_false_blank`. -/
theorem c44_unit_partial {d : QDfa} {ct : Option CTable} {u : UState} {S : Str} {k : K} {C : Comb} {a : SA} {m : Mode} {b e : Nat}
    {xs mid ys : List (Tok × Nat)} {t0 t1 : Tok}
    (hd : Dead d d.statesNum) (ha : After d k C a m) (hcut : CutOK d m a) (hspan : ∀ t ∈ k.q.tl, t.span = none)
    (h : lexPos S = xs ++ (t0, b + 1) :: (mid ++ (t1, e + 1) :: ys))
    (hs : t0.starts = true) (hprev : (∃ k, t0 = .ky k) → ∀ x, xs.getLast? = some x → x.1 = .com ∨ ∃ p, x.1 = .lcb p)
    (hbs : S[b]? ≠ some '\\') (he : t1 = .rcb (e + 1) ∨ t1 = .rb (e + 1)) (hadj : NoAdj false (lexAll S))
    (hlit : ∀ x, mid.getLast? = some x → x.1.isLit = true → ∃ c, S[e - 1]? = some c ∧ isBlank c = true)
    (hl : lead S = 0) (hb0 : S[b]? ≠ some ' ') (hfit : fitsAll a.ss m (t0 :: mid.map (·.1)))
    (hub : (runToks d S { a with tl := k.tuples } (t0 :: mid.map (·.1))).ub = false)
    (hb : (k.reprocess d ct u (substring S b e)).bad = false) :
    (k.reprocess d ct u (substring S b e)).tuples = (runToks d S { a with tl := k.tuples } (t0 :: mid.map (·.1))).tl ∧
    (k.reprocess d ct u (substring S b e)).ss = (runToks d S { a with tl := k.tuples } (t0 :: mid.map (·.1))).ss ∧
    ∃ a' C', After d (k.reprocess d ct u (substring S b e)) C' a' (modeAfter m (t0 :: mid.map (·.1))) ∧
      a'.ss = (runToks d S { a with tl := k.tuples } (t0 :: mid.map (·.1))).ss ∧
      a'.elt.st = (runToks d S { a with tl := k.tuples } (t0 :: mid.map (·.1))).elt.st ∧
      a'.elt.count = (runToks d S { a with tl := k.tuples } (t0 :: mid.map (·.1))).elt.count := by
  exact unit_again hd ha hcut hspan (unit_tokens h hs hprev hbs he hadj hlit) (by simp) hl hb0 hfit hub hb

/-- **What a unit that loses its last token gives.**  As `c44_unit_partial`, but a scalar `x` without quotes stands directly before the bracket
at `e` (the character before the bracket is a letter or a digit): processing the unit again gives the tuples the serial automaton finds in the unit
without `x`.  So nothing else than this scalar is missing, and `x` is missing from the results whenever the serial automaton finds it.  It
is the general form of the witness in `c44_false`. -/
theorem c44_unit_lost_partial {d : QDfa} {ct : Option CTable} {u : UState} {S : Str} {k : K} {C : Comb} {a : SA} {m : Mode} {b e : Nat}
    {xs mid ys : List (Tok × Nat)} {x : Tok × Nat} {t0 t1 : Tok} {c : Char}
    (hd : Dead d d.statesNum) (ha : After d k C a m) (hcut : CutOK d m a) (hspan : ∀ t ∈ k.q.tl, t.span = none)
    (h : lexPos S = xs ++ (t0, b + 1) :: ((mid ++ [x]) ++ (t1, e + 1) :: ys))
    (hs : t0.starts = true) (hprev : (∃ k, t0 = .ky k) → ∀ x, xs.getLast? = some x → x.1 = .com ∨ ∃ p, x.1 = .lcb p)
    (hbs : S[b]? ≠ some '\\') (he : t1 = .rcb (e + 1) ∨ t1 = .rb (e + 1)) (hadj : NoAdj false (lexAll S))
    (hx : x.1.isLit = true) (hc : S[e - 1]? = some c) (hal : isAlnum c = true)
    (hl : lead S = 0) (hb0 : S[b]? ≠ some ' ') (hfit : fitsAll a.ss m (t0 :: mid.map (·.1)))
    (hub : (runToks d S { a with tl := k.tuples } (t0 :: mid.map (·.1))).ub = false)
    (hb : (k.reprocess d ct u (substring S b e)).bad = false) :
    (k.reprocess d ct u (substring S b e)).tuples = (runToks d S { a with tl := k.tuples } (t0 :: mid.map (·.1))).tl ∧
    (k.reprocess d ct u (substring S b e)).ss = (runToks d S { a with tl := k.tuples } (t0 :: mid.map (·.1))).ss ∧
    ∃ a' C', After d (k.reprocess d ct u (substring S b e)) C' a' (modeAfter m (t0 :: mid.map (·.1))) ∧
      a'.ss = (runToks d S { a with tl := k.tuples } (t0 :: mid.map (·.1))).ss ∧
      a'.elt.st = (runToks d S { a with tl := k.tuples } (t0 :: mid.map (·.1))).elt.st ∧
      a'.elt.count = (runToks d S { a with tl := k.tuples } (t0 :: mid.map (·.1))).elt.count := by
  exact unit_again hd ha hcut hspan (unit_tokens_lost h hs hprev hbs he hadj hx hc hal) (by simp) hl hb0 hfit hub hb

/-- A chunk `7, {"c": 5, "b": {"q": 1}}]}`. -/
def exAgainRight : Str := "7, {\"c\": 5, \"b\": {\"q\": 1}}]}".toList

set_option maxRecDepth 100000 in
theorem exAgainRight_toks : lexPos exAgainRight = [(.pri ['7'], 3), (.com, 2)] ++ (.lcb 4, 3 + 1) :: ([(.ky ['c'], 5), (.pri ['5'], 12), (.com, 11),
    (.ky ['b'], 12), (.lcb 18, 18), (.ky ['q'], 19), (.pri ['1'], 26), (.rcb 25, 25), (.rcb 26, 26)] ++
    (.rb 27, 26 + 1) :: [(.rcb 28, 28)]) := by decide

set_option maxRecDepth 100000 in
/-- The hypotheses of `c44_unit_partial` hold (those about `exAgainK` are shown above) for the unit `{"c": 5, "b": {"q": 1}}` of `exAgainRight`, which begins at
offset 3 and ends before the bracket at 26; the new tuple is the object. -/
example : NoAdj false (lexAll exAgainRight) ∧ lead exAgainRight = 0 ∧ exAgainRight[3]? = some '{' ∧
    fitsAll (execAutomaton exAgainDfa exAgainLeft { SA.init with tl := [] }).ss .com [.lcb 4, .ky ['c'], .pri ['5'], .com, .ky ['b'], .lcb 18,
      .ky ['q'], .pri ['1'], .rcb 25, .rcb 26] ∧
    (runToks exAgainDfa exAgainRight { execAutomaton exAgainDfa exAgainLeft { SA.init with tl := [] } with tl := exAgainK.tuples }
      [.lcb 4, .ky ['c'], .pri ['5'], .com, .ky ['b'], .lcb 18, .ky ['q'], .pri ['1'], .rcb 25, .rcb 26]).ub = false ∧
    (exAgainK.reprocess exAgainDfa none .other (substring exAgainRight 3 26)).bad = false ∧
    (exAgainK.reprocess exAgainDfa none .other (substring exAgainRight 3 26)).tuples = [⟨4, "1".toList⟩, ⟨4, "{\"q\": 1}".toList⟩] := by
  refine ⟨?_, by decide, by decide, fitsAll_of _ _ _ (by decide), by decide, by decide, by decide⟩
  rw [← lexPos_fst, exAgainRight_toks]
  simp [NoAdj, Tok.isPri]

/-- A chunk `7, {"c": 5, "b": 8}]}`. -/
def exAgainLost : Str := "7, {\"c\": 5, \"b\": 8}]}".toList

set_option maxRecDepth 100000 in
theorem exAgainLost_toks : lexPos exAgainLost = [(.pri ['7'], 3), (.com, 2)] ++ (.lcb 4, 3 + 1) :: (([(.ky ['c'], 5), (.pri ['5'], 12), (.com, 11),
    (.ky ['b'], 12)] ++ [(.pri ['8'], 20)]) ++ (.rcb 19, 18 + 1) :: [(.rb 20, 20), (.rcb 21, 21)]) := by decide

set_option maxRecDepth 100000 in
/-- The hypotheses of `c44_unit_lost_partial` hold for the unit `{"c": 5, "b": 8` of `exAgainLost`, which ends before the bracket at 18.  Processing it again
gives no new tuple, while the serial automaton finds `8`. -/
example : NoAdj false (lexAll exAgainLost) ∧ lead exAgainLost = 0 ∧ exAgainLost[3]? = some '{' ∧ exAgainLost[18 - 1]? = some '8' ∧ isAlnum '8' = true ∧
    (Tok.pri ['8']).isLit = true ∧
    fitsAll (execAutomaton exAgainDfa exAgainLeft { SA.init with tl := [] }).ss .com [.lcb 4, .ky ['c'], .pri ['5'], .com, .ky ['b']] ∧
    (runToks exAgainDfa exAgainLost { execAutomaton exAgainDfa exAgainLeft { SA.init with tl := [] } with tl := exAgainK.tuples }
      [.lcb 4, .ky ['c'], .pri ['5'], .com, .ky ['b']]).ub = false ∧
    (exAgainK.reprocess exAgainDfa none .other (substring exAgainLost 3 18)).bad = false ∧
    (exAgainK.reprocess exAgainDfa none .other (substring exAgainLost 3 18)).tuples = [⟨4, "1".toList⟩] ∧
    (runToks exAgainDfa exAgainLost { execAutomaton exAgainDfa exAgainLeft { SA.init with tl := [] } with tl := exAgainK.tuples }
      [.lcb 4, .ky ['c'], .pri ['5'], .com, .ky ['b'], .pri ['8']]).tl = [⟨4, "1".toList⟩, ⟨4, "8".toList⟩] := by
  refine ⟨?_, by decide, by decide, by decide, by decide, by decide, fitsAll_of _ _ _ (by decide), by decide, by decide, by decide, by decide⟩
  rw [← lexPos_fst, exAgainLost_toks]
  simp [NoAdj, Tok.isPri]

/-! ### A blank before the first key of a unit -/

/-- No scalar without quotes stands directly before a closing bracket: there is a blank, a quote or a bracket. -/
def Spaced (file : Str) : Prop := ∀ i : Nat, file[i + 1]? = some '}' ∨ file[i + 1]? = some ']' →
  ∃ c, file[i]? = some c ∧ c ∈ [' ', '"', '{', '}', '[', ']']

/-- The claim of C44 for files in which the end of a unit costs no token. -/
def C44Spaced : Prop := ∀ (O : NumOps) (p : List Step) (train file : Str) (cores : Nat) (u : Nat → Nat → UState)
  (ru : Nat → Nat → Nat → UState) (ct : CTable) (r0 r : ParallelCtx), Spaced file → Optimised O p train file cores u ru ct r0 r →
  r.k.bad = false → results O (astOf p) file = some r.pf.output

/-- `{"a": {"p": {"kkkkkkkkkkk": 1, "l": 2 }, "b": {"z": 9 }, "c": 3 }, "y": {"t": 4 }}`. -/
def exBlank : Str := "{\"a\": {\"p\": {\"kkkkkkkkkkk\": 1, \"l\": 2 }, \"b\": {\"z\": 9 }, \"c\": 3 }, \"y\": {\"t\": 4 }}".toList

set_option maxRecDepth 100000 in
theorem exBlank_spaced : Spaced exBlank := by
  have h : ∀ i < 90, exBlank[i + 1]? = some '}' ∨ exBlank[i + 1]? = some ']' →
      (exBlank[i]?).any (fun c => decide (c ∈ [' ', '"', '{', '}', '[', ']'])) = true := by decide +kernel
  intro i hi
  have hlt : i + 1 < exBlank.length := by
    rcases hi with hi | hi <;> exact (List.getElem?_eq_some_iff.1 hi).1
  have hlen : exBlank.length < 90 := by decide +kernel
  have h1 := h i (by omega) hi
  cases hc : exBlank[i]? with
  | none => rw [hc] at h1; cases h1
  | some c => rw [hc] at h1; exact ⟨c, rfl, of_decide_eq_true h1⟩

set_option maxRecDepth 100000 in
/-- **C44 is also false where the end of a unit costs no token.**  The text of a unit that begins with a key begins directly after the
comma (`addStartPosition` takes `lexer.current_start - 1`, worker_automaton.c:495-499), so with the blank before the key; `substring`
(utility.c) leaves out leading blanks before it counts, so the texts of the objects in the unit are taken one character too late.  `$.a.b` on
`exBlank`, three threads, the table learned from `exTrain`: `"z": 9 },` is printed instead of `{"z": 9 }`. -/
theorem c44_false_blank : ¬ C44Spaced := by
  intro h
  obtain ⟨r0, r, ho, h1, h2, _⟩ := optimised_of (p := [.prop ['a'], .prop ['b']]) (train := exTrain) (file := exBlank)
    (cores := 3) (u := fun _ _ => .other) (ru := fun _ _ _ => .other) (ct := ⟨[⟨['c'], .ky, [1]⟩, ⟨['b'], .ky, [1]⟩, ⟨['a'], .ky, [1]⟩], false⟩)
    (out := ["{\"z\": 9 }".toList]) (out' := ["\"z\": 9 },".toList]) (bad := false) (re := true) (by decide)
    (by with_unfolding_all rfl) (by with_unfolding_all rfl) (by with_unfolding_all rfl) (by with_unfolding_all rfl)
    (by with_unfolding_all rfl)
  have := h _ _ _ _ _ _ _ _ _ _ exBlank_spaced ho h2
  have e : results intOps (astOf [.prop ['a'], .prop ['b']]) exBlank = some ["{\"z\": 9 }".toList] := by with_unfolding_all rfl
  rw [e, h1, Option.some.injEq] at this
  exact absurd this (by decide)

end JPS
