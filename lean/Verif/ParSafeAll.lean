import Verif.ParSafeK
/-!
# A parallel run stays within its buffers
-/

set_option autoImplicit false

namespace JPS
open Spec

/-- Size limits of the chunks: nothing is cut off at the front, the nesting is below `D`, scalars and keys are short, the tuple list
of a worker has room for all its start states. -/
def ChunksSmall (d : QDfa) (D : Nat) : SA → List Str → Prop
  | _, [] => True
  | a, c :: cs => lead c = 0 ∧ shallow D a.ss (lexAll c) ∧ shortToks (lexAll c) ∧
      2 * d.statesNum * (lexAll c).length ≤ MAX_TUPLE_LIST ∧ a.ss.length < MAX_STACK ∧
      ChunksSmall d D (execAutomaton d c { a with tl := [] }) cs

/-- At each cut the entries with a filter are among the entries that worker 0 has put on the stack: those below the lowest height
`lo` of the syntax stack since the end of the first chunk. -/
def ChunksPred (d : QDfa) : Nat → SA → List Str → Prop
  | _, _, [] => True
  | lo, a, c :: cs => lo ≤ a.ss.length ∧ PredLow d (nk (bot lo a.ss) + 1) ((a.elt :: a.qs).map Elt.st) ∧
      ChunksPred d (lowSs lo a.ss (lexAll c)) (execAutomaton d c { a with tl := [] }) cs

theorem lowSs_min : ∀ (ts : List Tok) (a b : Nat) (ss : List Sym), lowSs (min a b) ss ts = min a (lowSs b ss ts)
  | [], _, _, _ => rfl
  | t :: ts, a, b, ss => by
    rw [lowSs, lowSs, Nat.min_assoc, lowSs_min ts]

theorem lowSs_le : ∀ (ts : List Tok) {lo : Nat} {ss : List Sym}, lo ≤ ss.length → lowSs lo ss ts ≤ (ts.foldl ssStep ss).length
  | [], _, _, h => h
  | _ :: ts, _, _, _ => lowSs_le ts (Nat.min_le_right _ _)

theorem lowSs_mono : ∀ (ts : List Tok) (lo : Nat) (ss : List Sym), lowSs lo ss ts ≤ lo
  | [], _, _ => Nat.le_refl _
  | _ :: ts, _, _ => Nat.le_trans (lowSs_mono ts _ _) (Nat.min_le_left _ _)

/-- Without filters there is nothing to ask. -/
theorem chunksPred_of {d : QDfa} (hnp : ∀ s, d.accept s ≠ .predicate) : ∀ (cs : List Str) (lo : Nat) (a : SA), lo ≤ a.ss.length →
    ChunksPred d lo a cs
  | [], _, _, _ => trivial
  | c :: cs, lo, a, h => by
    refine ⟨h, fun _ s _ hp => absurd hp (hnp s), chunksPred_of hnp cs _ _ ?_⟩
    obtain ⟨_, f2, _, _⟩ := execAutomaton_fields d c { a with tl := [] }
    rw [f2, runToks_ss]
    exact lowSs_le _ h

theorem CRel.states {d : QDfa} {pre : List Tuple} {C : Comb} {S : SA} (h : CRel d pre C S) :
    C.p.map Elt.st = (S.elt :: S.qs).map Elt.st := by
  obtain ⟨c, kp, h1, h2, h3⟩ := h.path
  rw [h1, List.map_cons, List.map_cons, h2.st]
  congr 1
  clear h1
  generalize S.qs = qs at h3
  induction h3 with
  | nil => rfl
  | cons h _ ih => rw [List.map_cons, List.map_cons, ih, h.1.st]

/-- All nodes of worker 0 know their root. -/
theorem worker0_rooted {d : QDfa} {ct : Option CTable} {u : UState} {s : Str} (hb : (K.ofW (runWorker d ct u 0 s)).bad = false) (b : Nat) :
    Rooted b (K.ofW (runWorker d ct u 0 s)).q := by
  have hwb : ((runWorker d ct u 0 s).ub || (runWorker d ct u 0 s).q.ub) = false := by
    simp only [K.ofW, K.bad, Bool.or_eq_false_iff] at hb ⊢
    exact hb.1
  have hrun := runWorker_bad hwb
  have hst : startStates d 0 = [1] := rfl
  rw [hst] at hrun
  generalize hE : (⟨d, 0 == 0, s, ct, some [1]⟩ : WEnv) = E at hrun
  have hE3 : E.id0 = true := by rw [← hE]; rfl
  have htr : Tracks [1] 0 1 (W.run E (W.init [1] u) (lexAll s)) (P.run E 1 (P.init 1 u) (lexAll s)) :=
    Tracks.run (.inr hE3) (by rw [← hE]) u rfl _ hrun
  have hq : (K.ofW (runWorker d ct u 0 s)).q = (W.run E (W.init [1] u) (lexAll s)).q := by
    show (runWorker d ct u 0 s).q = _
    simp only [runWorker, hst, hE]; rfl
  have hlv := htr.inv.single
  rw [hq]
  refine ⟨fun j n _ hn => ?_, fun _ => ?_⟩
  · obtain ⟨hj, rfl⟩ := List.getElem?_eq_some_iff.1 hn
    by_cases h0 : j < 1
    · exact .inr ⟨by omega, (htr.inv.root j _ h0 hn).1⟩
    · left
      obtain ⟨r, rs, hr⟩ := htr.inv.deep j _ (by simp only [List.length_cons, List.length_nil]; omega) hn
      have hm : (⟨j, j + 1⟩ : Rng) ∈ (W.run E (W.init [1] u) (lexAll s)).elt :: (W.run E (W.init [1] u) (lexAll s)).q.items := by
        rw [hlv]; exact mem_levels hj
      have hp := htr.inv.perm _ hm
      have ho : orgsOf (W.run E (W.init [1] u) (lexAll s)).q.nodes (Rng.list ⟨j, j + 1⟩) = ((W.run E (W.init [1] u) (lexAll s)).q.nodes[j]).org j := by
        simp [orgsOf, Rng.list, hn]
      rw [ho] at hp
      simp only [Node.org, Node.origins, hr] at hp
      have hp1 : (r :: rs).Perm [0] := by simpa using hp
      rw [hr, List.perm_singleton.1 hp1]
  · obtain ⟨base, log, hl, _⟩ := htr.logd
    rw [hl.heads 0 (by simp)]
    cases idx 0 base.length log <;> (intro h; cases h)

theorem loop_safe {d : QDfa} {ct : Option CTable} (hnd : ct.NodupOK) (hin : ct.StatesIn d.statesNum) {u : Nat → UState} {D : Nat}
    (hd : Dead d d.statesNum) (hlim : Limits d.statesNum D) :
    ∀ (cs : List Str) {k : K} {C0 : Comb} {left : Str} {a : SA}
    {m : Mode} {i lo : Nat}, i ≠ 0 → Rooted (nk (bot lo a.ss) + 1) k.q → ChunksPred d lo a cs → KC k C0 → (cs ≠ [] → CRel d C0.tl C0 { a with tl := [] } ∧ CInv d d.statesNum C0) → wfStack a.ss →
    modeOK a.ss m → ChunksOK d a m cs → ChunksSmall d D a cs → (ct = none ∨ ∀ c ∈ cs, shortKeys (lexAll c)) → k.bad = false →
    shortTl (C0.tl ++ (runPieces d a cs).1.flatten) → (C0.tl ++ (runPieces d a cs).1.flatten).length ≤ MAX_TUPLE_LIST →
    (ctChunks d ct a cs ∨ (combineLoop d k left (workersFrom d ct u i cs)).re = false) →
    (combineLoop d k left (workersFrom d ct u i cs)).bad = false
  | [], k, C0, _, _, _, _, _, _, _, _, hk, _, _, _, _, _, _, hb, _, _, _ => hb
  | c :: cs, k, C0, left, a, m, i, lo, hi, hro, hpr, hk, hrc, hw, hm, hok, hsm, hks, hb, hst, hr0, hre => by
    obtain ⟨hr, hc⟩ := hrc (by simp)
    obtain ⟨o1, o2, o3, o4, o5⟩ := hok
    obtain ⟨s1, s2, s3, s4, s5, s6⟩ := hsm
    have hre1 : ctSound d c ct { a with tl := [] } (lexAll c) ∨ (k.chunk d left c (runWorker d ct (u i) i c)).re = false := by
      rcases hre with hre | hre
      · exact .inl hre.1
      · right
        cases e : (k.chunk d left c (runWorker d ct (u i) i c)).re with
        | false => rfl
        | true =>
          have := combineLoop_re (d := d) (left := c) (workersFrom d ct u (i + 1) cs) e
          have hb' : (combineLoop d (k.chunk d left c (runWorker d ct (u i) i c)) c (workersFrom d ct u (i + 1) cs)).re = false := hre
          rw [this] at hb'; cases hb'
    obtain ⟨f1, f2, f3, f4⟩ := execAutomaton_fields d c { a with tl := [] }
    have hfl : (runPieces d a (c :: cs)).1.flatten = (runToks d c { a with tl := [] } (lexAll c)).tl ++
        (runPieces d (execAutomaton d c { a with tl := [] }) cs).1.flatten := by
      simp only [runPieces, List.flatten_cons, f1]
    rw [hfl, ← List.append_assoc] at hst hr0
    have hwk := worker_safe (u := u i) hnd hin hi hd hlim hr hc hw hm o1 o3 o2 s5 s2 s3 (hks.imp id fun h => h c List.mem_cons_self) s4
    obtain ⟨p1, p2, p3⟩ := hpr
    have hsts : C0.p.map Elt.st = (a.elt :: a.qs).map Elt.st := hr.states
    obtain ⟨hb1, l, l1, l2, l3, hro1⟩ := chunk_safe hnd (left := left) (u := u i) hi hd hro (by rw [hsts]; exact p2) hk hr hc hw hm (Nat.le_of_lt s5) o1 o3 o2 hre1 hwk hb s1 s2 hlim.deep
      (fun t ht => hst t (List.mem_append_left _ ht)) (by rw [List.length_append] at hr0; omega)
    obtain ⟨C', k1, k0, k2, k3, k4, k5⟩ := chunk_sim hnd (left := left) (u := u i) hi hd hk hr hc hw hm (Nat.le_of_lt s5) o1 o3 o2 hb1 hre1
    rw [← k2] at hst hr0
    have hro2 := Rooted.next l2 l3 p1 hro1
    have hlow : lowSs lo a.ss (lexAll c) = min lo l.length := by
      rw [l1, ← lowSs_min, Nat.min_eq_left p1]
    rw [← hlow, ← f2] at hro2
    refine loop_safe hnd hin hd hlim cs (u := u) (i := i + 1) (left := c) (a := execAutomaton d c { a with tl := [] })
      (m := modeAfter m (lexAll c)) (by omega) hro2 p3 k1 ?_ ?_ ?_ o5 s6 (hks.imp id fun h c hc => h c (List.mem_cons_of_mem _ hc)) hb1 hst hr0 (hre.imp (·.2) id)
    · intro hne
      have hcut := o4 hne
      obtain ⟨g1, g2⟩ := k5 ⟨hcut.mode, by rw [← f4]; exact hcut.elt, by rw [← f3]; exact hcut.qs, by rw [← f2, ← f4]; exact hcut.cur⟩
      refine ⟨⟨?_, ?_, by simp⟩, g2⟩
      · rw [← g1.ss]; exact f2
      · have := g1.path
        dsimp only at this ⊢
        rw [f3, f4]; exact this
    · rw [f2]; exact k3
    · rw [f2]; exact k4

/-- **The parallel run on the chunks of a piece does not leave its buffers,** within the size limits. -/
theorem parallel_safe {d : QDfa} {ct : Option CTable} (hnd : ct.NodupOK) (hin : ct.StatesIn d.statesNum) {u : Nat → UState} {D : Nat}
    (hd : Dead d d.statesNum) (h1n : 1 < d.statesNum) (hi1 : NoIdx d 1) (hlim : Limits d.statesNum D)
    {cs : List Str} {k : K} (hk : executeParallel d ct u none cs = some k) (hok : ChunksOK d SA.init .val cs) (hsm : ChunksSmall d D SA.init cs)
    (hks : ct = none ∨ ∀ c ∈ cs, shortKeys (lexAll c))
    (hpr : ∀ c cs', cs = c :: cs' → ChunksPred d (execAutomaton d c { SA.init with tl := [] }).ss.length (execAutomaton d c { SA.init with tl := [] }) cs')
    (hthr : cs.length ≤ MAX_THREAD) (hst : shortTl (runPieces d SA.init cs).1.flatten)
    (hr : (runPieces d SA.init cs).1.flatten.length ≤ MAX_TUPLE_LIST) (hre : ctChunks d ct SA.init cs ∨ k.re = false) :
    k.bad = false := by
  cases cs with
  | nil => cases hk
  | cons c cs =>
    simp only [executeParallel, Option.some.injEq] at hk
    subst hk
    have ht : ¬ cs.length ≥ MAX_THREAD := by simp only [List.length_cons] at hthr; omega
    suffices hg : (combineLoop d (K.ofW (worker0 d ct (u 0) none c)) c (workersFrom d ct u 1 cs)).bad = false by
      obtain ⟨b1, b2⟩ := K.bad_parts hg
      simp [K.bad, K.orUb, b1, b2, ht]
    obtain ⟨o1, o2, o3, o4, o5⟩ := hok
    obtain ⟨s1, s2, s3, s4, s5, s6⟩ := hsm
    obtain ⟨f1, f2, f3, f4⟩ := execAutomaton_fields d c { SA.init with tl := [] }
    have hfl : (runPieces d SA.init (c :: cs)).1.flatten = (runToks d c { SA.init with tl := [] } (lexAll c)).tl ++
        (runPieces d (execAutomaton d c { SA.init with tl := [] }) cs).1.flatten := by
      simp only [runPieces, List.flatten_cons, f1]
    rw [hfl] at hst hr
    have h2 := hlim.states
    have hb := worker0_safe (ct := ct) (u := u 0) hd h1n hi1 o1 o3 o2 (by simp only [MAX_STATE, MAX_NODE] at *; omega) hlim.deep s1 s2 s3
      (fun t ht => hst t (List.mem_append_left _ ht)) (by
        refine Nat.le_trans ?_ s4
        refine Nat.mul_le_mul_right _ ?_
        omega)
    obtain ⟨C', k1, k2, k3, k4, k5⟩ := worker0_sim (ct := ct) (u := u 0) hd h1n hi1 o1 o3 o2 hb
    have k2' : C'.tl = (runToks d c { SA.init with tl := [] } (lexAll c)).tl := k2
    rw [← k2'] at hst hr
    have hwk : worker0 d ct (u 0) none c = runWorker d ct (u 0) 0 c := rfl
    rw [hwk]
    refine loop_safe hnd hin hd hlim cs (u := u) (i := 1) (left := c) (a := execAutomaton d c { SA.init with tl := [] })
      (m := modeAfter .val (lexAll c)) (by omega) (worker0_rooted hb _) (hpr c cs rfl) k1 ?_ ?_ ?_ o5 s6 (hks.imp id fun h c hc => h c (List.mem_cons_of_mem _ hc)) hb hst hr (hre.imp (·.2) id)
    · intro hne
      have hcut := o4 hne
      obtain ⟨g1, g2⟩ := k5 ⟨hcut.mode, by have := hcut.elt; rw [f4] at this; exact this, by have := hcut.qs; rw [f3] at this; exact this,
        by have := hcut.cur; rw [f2, f4] at this; exact this⟩
      refine ⟨⟨?_, ?_, by simp⟩, g2⟩
      · rw [← g1.ss]; exact f2
      · have := g1.path
        dsimp only at this ⊢
        rw [f3, f4]; exact this
    · rw [f2]; exact k3
    · rw [f2]; exact k4

end JPS
