import Verif.UnitSpan
import Verif.StateBound
import Verif.Props.Parallel
import Verif.Props.Worker
import Verif.Props.Constraint
/-!
# C41–C44: pruning by a constraint table, and reprocessing
-/

set_option autoImplicit false

namespace JPS
open Spec

/-! ## C41 -/

theorem parallelPartialRun_noRe {O : NumOps} {d : QDfa} (hd : ∀ s k, d.nextByStr s k < d.statesNum) (h1 : 1 < d.statesNum)
    {ctx : QCtx} {u : Nat → UState} {cores : Nat} {c : Option ParallelCtx}
    (hold : ∀ r, c = some r → r.k.q.Below d.statesNum) {s : Str} {r : ParallelCtx}
    (hr : parallelPartialRun O d ctx none u cores c s = some r) (hb : r.k.bad = false) :
    r.k.re = false ∧ r.k.q.Below d.statesNum := by
  unfold parallelPartialRun at hr
  cases hp : partition cores s with
  | none => rw [hp] at hr; cases hr
  | some chunks =>
    simp only [hp] at hr
    split at hr
    · cases hr
    · cases hx : executeParallel d none u (c.map (·.k)) (chunks.filterMap id) with
      | none => rw [hx] at hr; cases hr
      | some k =>
        simp only [hx, Option.some.injEq] at hr
        subst hr
        refine executeParallel_noRe hd h1 (fun k hk => ?_) hx hb
        obtain ⟨r, hr, rfl⟩ := Option.map_eq_some_iff.1 hk
        exact hold r hr

theorem parallelPieces_noRe {O : NumOps} {d : QDfa} (hd : ∀ s k, d.nextByStr s k < d.statesNum) (h1 : 1 < d.statesNum)
    {ctx : QCtx} {u : Nat → Nat → UState} {ru : Nat → Nat → Nat → UState} {cores : Nat} :
    ∀ (ps : List Str) (n : Nat) (c : Option ParallelCtx), (∀ r, c = some r → r.k.q.Below d.statesNum ∧ r.k.re = false) →
    (∀ qs r, qs <+: ps → parallelPieces O d ctx none u cores n c qs = some (some r) → r.k.bad = false) →
    parallelPiecesOpt O d ctx none u ru cores n c ps = parallelPieces O d ctx none u cores n c ps ∧
    ∀ qs r, qs <+: ps → parallelPieces O d ctx none u cores n c qs = some (some r) → r.k.re = false
  | [], n, c, hold, _ => by
    refine ⟨rfl, fun qs r hq hr => ?_⟩
    rw [List.prefix_nil] at hq
    subst hq
    simp only [parallelPieces, Option.some.injEq] at hr
    exact (hold r hr).2
  | p :: ps, n, c, hold, hbad => by
    cases hx : parallelPartialRun O d ctx none (u n) cores c p with
    | none =>
      refine ⟨?_, fun qs r hq hr => ?_⟩
      · simp only [parallelPieces, parallelPiecesOpt, hx]
        cases hy : parallelPartialRunOpt O d ctx none (u n) (ru n) cores c p with
        | none => rfl
        | some z =>
          exfalso
          unfold parallelPartialRun at hx
          unfold parallelPartialRunOpt at hy
          cases hp : partition cores p with
          | none => rw [hp] at hy; cases hy
          | some chunks =>
            simp only [hp] at hx hy
            split at hy
            · cases hy
            · next hn =>
              rw [if_neg hn] at hx
              cases hcs : chunks.filterMap id with
              | nil => rw [hcs] at hy; cases hy
              | cons a as => rw [hcs] at hx; cases hx
      · cases qs with
        | nil =>
          simp only [parallelPieces, Option.some.injEq] at hr
          exact (hold r hr).2
        | cons q qs =>
          obtain ⟨rfl, -⟩ := List.cons_prefix_cons.1 hq
          simp only [parallelPieces, hx] at hr
          cases hr
    | some z =>
      have hz : z.k.bad = false := hbad [p] z ⟨ps, rfl⟩ (by simp only [parallelPieces, hx])
      obtain ⟨h2, h3⟩ := parallelPartialRun_noRe hd h1 (fun r hr => (hold r hr).1) hx hz
      obtain ⟨i1, i2⟩ := parallelPieces_noRe hd h1 (u := u) (ru := ru) ps (n + 1) (some z)
        (fun r hr => by cases hr; exact ⟨h3, h2⟩)
        (fun qs r hq hr => hbad (p :: qs) r (List.cons_prefix_cons.2 ⟨rfl, hq⟩) (by simp only [parallelPieces, hx]; exact hr))
      refine ⟨?_, fun qs r hq hr => ?_⟩
      · simp only [parallelPieces, parallelPiecesOpt, hx, parallelPartialRunOpt_eq hx h2]
        exact i1
      · cases qs with
        | nil =>
          simp only [parallelPieces, Option.some.injEq] at hr
          exact (hold r hr).2
        | cons q qs =>
          obtain ⟨rfl, hq'⟩ := List.cons_prefix_cons.1 hq
          simp only [parallelPieces, hx] at hr
          exact i2 qs r hq' hr

/-- **C41** Without a constraint table no unit is ever processed a second time: for every query (with at most 253 different names),
every file, every buffer size, every number of threads and whatever the uninitialised memory holds, as long as no piece runs
into undefined behaviour, no run over the first pieces of the file has reprocessed anything, and the optimised entry point does
what the plain one does. -/
theorem c41_no_table (O : NumOps) (t : Ast) (c : SCtx) (hc : buildCtx t = some c) (hn : c.names.length + 3 ≤ 2147483648) (B cores : Nat)
    (u : Nat → Nat → UState) (ru : Nat → Nat → Nat → UState) (file : Str)
    (hbad : ∀ qs r, qs <+: pieces B file (file.length + 1) 0 →
      parallelPieces O (tableOf c) (contextOf c) none u cores 0 none qs = some (some r) → r.k.bad = false) :
    parallelRunOpt O B cores none u ru t file = parallelRun O B cores u t file ∧
    ∀ qs r, qs <+: pieces B file (file.length + 1) 0 →
      parallelPieces O (tableOf c) (contextOf c) none u cores 0 none qs = some (some r) → r.k.re = false := by
  have hd := c.dead_few hn
  obtain ⟨h1, h2⟩ := parallelPieces_noRe hd.bnd c.one_lt (u := u) (ru := ru) (pieces B file (file.length + 1) 0) 0 none
    (fun r hr => by cases hr) hbad
  refine ⟨?_, h2⟩
  unfold parallelRunOpt parallelRun buildQuery
  rw [hc]
  exact h1

/-! ## C42 -/

theorem parallelRunOpt_single (O : NumOps) (B cores : Nat) (ct : Option CTable) (u : Nat → Nat → UState)
    (ru : Nat → Nat → Nat → UState) (t : Ast) (file : Str) (c : SCtx)
    (hc : buildCtx t = some c) (h0 : file ≠ []) (hB : file.length ≤ B) :
    parallelRunOpt O B cores ct u ru t file =
      (parallelPartialRunOpt O (tableOf c) (contextOf c) ct (u 0) (ru 0) cores none file).map some := by
  unfold parallelRunOpt buildQuery
  rw [hc]
  have hl : file.length ≠ 0 := by simpa using h0
  obtain ⟨n, hn⟩ : ∃ n, file.length + 1 = n + 2 := ⟨file.length - 1, by omega⟩
  simp only [Option.map_some, Option.bind_some, hn, pieces_single B file h0 hB, parallelPiecesOpt]
  cases parallelPartialRunOpt O (tableOf c) (contextOf c) ct (u 0) (ru 0) cores none file <;> rfl

/-- **C42 for paths.**  Whatever the constraint table says (as long as it lists no state twice for a key): if the optimised
parallel run meets no undefined behaviour and finds no unit to reprocess, it prints what the serial run prints, under the
conditions of C32.  A table that prunes too much never changes the output unnoticed. -/
theorem c42_pruned_paths_partial (O : NumOps) (p : List Step) (hp : p ≠ []) (hlen : fewNames p) (hs : SlicesOK p)
    (pre trail : Str) (v : J) (h : Readable pre trail v) (hpl : v.plainStrings = true) (h0 : NUL ∉ pre ++ v.render ++ trail)
    (cores : Nat) (hc : 0 < cores) (ct : CTable) (hnd : ∀ k ks, ct.lookup k = some ks → ks.Nodup)
    (u : Nat → Nat → UState) (ru : Nat → Nat → Nat → UState) (r : ParallelCtx)
    (hr : parallelRunOpt O MEMORY_FOOTPRINT cores (some ct) u ru (astOf p) (pre ++ v.render ++ trail) = some (some r))
    (hbad : r.k.bad = false) (hre : r.k.re = false) (hclean : clean O (astOf p) (pre ++ v.render ++ trail))
    (htorn : ∀ xs ys : List Str, partition cores (pre ++ v.render ++ trail) = some ((xs ++ ys).map some) → xs ≠ [] → ys ≠ [] →
      UntornPath p pre v xs.flatten.length) :
    results O (astOf p) (pre ++ v.render ++ trail) = some r.pf.output := by
  obtain ⟨c, hbc, hpc⟩ := pathCtx_of_build p hp hlen
  rw [parallelRunOpt_single O _ cores (some ct) u ru _ _ c hbc h.nonempty h.size] at hr
  obtain ⟨r', hr', e⟩ := Option.map_eq_some_iff.1 hr
  cases e
  exact (paths_ct O p hs hbc hpc pre trail v h hpl h0 cores hc (some ct) (fun c' e => by cases e; exact hnd) (u 0) r
    (parallelPartialRunOpt_inv hr' hre) hbad hclean htorn (.inr hre)).1

/-! ## C43 -/

/-- The entries of a table list no state twice. -/
def NodupInfo (is : List CInfo) : Prop := ∀ i ∈ is, i.states.Nodup

theorem CInfo.addState_nodup {i : CInfo} {s : Nat} (h : i.states.Nodup) : (i.addState s).states.Nodup := by
  unfold CInfo.addState
  split
  · exact h
  · next hs =>
    simp only [List.nodup_append, List.nodup_cons, List.not_mem_nil, not_false_eq_true, List.nodup_nil, and_self,
      List.mem_cons, or_false, true_and]
    exact ⟨h, fun a ha b hb e => hs (by rw [← hb, ← e]; exact ha)⟩

theorem addIn_nodup {k : CKey} {s : Nat} : ∀ (is js : List CInfo), NodupInfo is → addIn k s is = some js → NodupInfo js
  | [], _, _, h => by simp [addIn] at h
  | i :: is, js, hn, h => by
    simp only [addIn] at h
    split at h
    · obtain rfl := Option.some.inj h
      intro j hj
      rcases List.mem_cons.1 hj with rfl | hj
      · exact CInfo.addState_nodup (hn i (by simp))
      · exact hn j (by simp [hj])
    · obtain ⟨ks, hks, rfl⟩ := Option.map_eq_some_iff.1 h
      have := addIn_nodup is ks (fun j hj => hn j (by simp [hj])) hks
      intro j hj
      rcases List.mem_cons.1 hj with rfl | hj
      · exact hn j (by simp)
      · exact this j hj

theorem addAll_nodup (g : Nat → Str) : ∀ (h : List (Nat × CKey)) (ct : CTable), NodupInfo ct.info → NodupInfo (ct.addAll g h).info
  | [], _, hn => hn
  | (s, k) :: h, ct, hn => by
    refine addAll_nodup g h (ct.add g s k) ?_
    unfold CTable.add
    cases ha : addIn k s ct.info with
    | some is => exact addIn_nodup _ _ hn ha
    | none =>
      intro j hj
      rcases List.mem_append.1 hj with hj | hj
      · exact hn j hj
      · rw [List.mem_singleton] at hj
        subst hj
        simp

/-- A learned table lists no state twice. -/
theorem learned_nodup (g : Nat → Str) (d : QDfa) (file : Str) (k : CKey) (ks : List Nat)
    (h : (collectConstraints g d file).lookup k = some ks) : ks.Nodup := by
  unfold collectConstraints at h
  rw [runCollect_eq] at h
  have := addAll_nodup g (recordsOf d file SA.init (lexAll file)) .empty (fun i hi => by cases hi)
  unfold CTable.lookup at h
  obtain ⟨i, hi, rfl⟩ := Option.map_eq_some_iff.1 h
  exact this i (List.mem_of_find?_eq_some hi)

theorem ctSound_of {d : QDfa} {s : Str} {ct : CTable} : ∀ (ts : List Tok) (a : SA),
    (∀ us t vs k ks, ts = us ++ t :: vs → t.ckey = some k → ct.lookup k = some ks → (runToks d s a us).elt.st ∈ ks) →
    ctSound d s (some ct) a ts
  | [], _, _ => trivial
  | t :: ts, a, h => by
    refine ⟨fun c k ks e hk hl => ?_, ctSound_of ts _ fun us t' vs k ks e hk hl => ?_⟩
    · cases e
      exact h [] t ts k ks rfl hk hl
    · exact h (t :: us) t' vs k ks (by rw [e]; rfl) hk hl

/-- The table contains, for each place of the file where a key or an array starts and about which it knows anything, the state in
which the serial run of the file is there. -/
def Covers (ct : CTable) (d : QDfa) (file : Str) : Prop := ∀ us vs k p ks, lexAll file = us ++ startTok k p :: vs →
  ct.lookup k = some ks → (runToks d file SA.init us).elt.st ∈ ks

theorem ckey_shift (t : Tok) (n : Nat) {k : CKey} (h : t.ckey = some k) : ∃ p, t.shift n = startTok k p := by
  cases t with
  | lb p => simp only [Tok.ckey, Option.some.injEq] at h; subst h; exact ⟨p + n, rfl⟩
  | ky s => simp only [Tok.ckey, Option.some.injEq] at h; subst h; exact ⟨0, rfl⟩
  | _ => cases h

theorem ctChunks_covers {d : QDfa} {ct : CTable} {file : Str} (hcov : Covers ct d file) {ps : List Str}
    (hps : pieceToks 0 ps = lexAll file) : ∀ (cs xs : List Str) (a : SA), ps = xs ++ cs →
    a.Is (ctlRun d Ctl.init (pieceToks 0 xs)) → ctChunks d (some ct) a cs
  | [], _, _, _, _ => trivial
  | c :: cs, xs, a, e, ha => by
    have ha' : ({ a with tl := [] } : SA).Is (ctlRun d Ctl.init (pieceToks 0 xs)) := ⟨ha.e, ha.ss, ha.q⟩
    refine ⟨ctSound_of _ _ fun us t vs k ks hts hk hl => ?_, ctChunks_covers hcov hps cs (xs ++ [c]) _ (by simp [e]) ?_⟩
    · obtain ⟨p, hp⟩ := ckey_shift t xs.flatten.length hk
      have hsplit : lexAll file = (pieceToks 0 xs ++ us.map (Tok.shift xs.flatten.length)) ++ startTok k p ::
          (vs.map (Tok.shift xs.flatten.length) ++ pieceToks (xs.flatten.length + c.length) cs) := by
        rw [← hps, e, pieceToks_append, Nat.zero_add, pieceToks, hts, ← hp]
        simp
      have h1 := hcov _ _ k p ks hsplit hl
      have h2 := SA.Is.run (d := d) (s := c) (k := xs.flatten.length) us ha'
      have h3 := SA.Is.run (d := d) (s := file) (k := 0) (pieceToks 0 xs ++ us.map (Tok.shift xs.flatten.length)) (Is.init)
      rw [shift_zero, ctlRun_append] at h3
      have e1 := h2.e.symm.trans h3.e
      have : (runToks d c { a with tl := [] } us).elt.st =
          (runToks d file SA.init (pieceToks 0 xs ++ us.map (Tok.shift xs.flatten.length))).elt.st := congrArg Prod.fst e1
      rw [this]
      exact h1
    · have := SA.Is.exec (d := d) (s := c) ha' xs.flatten.length
      rw [← ctlRun_append] at this
      have hxc : pieceToks 0 (xs ++ [c]) = pieceToks 0 xs ++ (lexAll c).map (Tok.shift xs.flatten.length) := by
        rw [pieceToks_append]; simp [pieceToks]
      rw [hxc]
      exact this

/-- **C43 for paths.**  With a constraint table that covers the file, no unit is reprocessed and the optimised parallel run prints
what the serial run prints, under the conditions of C32; the undefined behaviour to be excluded is that of the run without
reprocessing. -/
theorem c43_covering_paths_partial (O : NumOps) (p : List Step) (hp : p ≠ []) (hlen : fewNames p) (hs : SlicesOK p)
    (pre trail : Str) (v : J) (h : Readable pre trail v) (hpl : v.plainStrings = true) (h0 : NUL ∉ pre ++ v.render ++ trail)
    (cores : Nat) (hc : 0 < cores) (c : SCtx) (hbc : buildCtx (astOf p) = some c)
    (ct : CTable) (hnd : ∀ k ks, ct.lookup k = some ks → ks.Nodup) (hcov : Covers ct (tableOf c) (pre ++ v.render ++ trail))
    (u : Nat → Nat → UState) (ru : Nat → Nat → Nat → UState) (r : ParallelCtx)
    (hr : parallelPartialRun O (tableOf c) (contextOf c) (some ct) (u 0) cores none (pre ++ v.render ++ trail) = some r)
    (hbad : r.k.bad = false) (hclean : clean O (astOf p) (pre ++ v.render ++ trail))
    (htorn : ∀ xs ys : List Str, partition cores (pre ++ v.render ++ trail) = some ((xs ++ ys).map some) → xs ≠ [] → ys ≠ [] →
      UntornPath p pre v xs.flatten.length) :
    r.k.re = false ∧
    parallelRunOpt O MEMORY_FOOTPRINT cores (some ct) u ru (astOf p) (pre ++ v.render ++ trail) = some (some r) ∧
    results O (astOf p) (pre ++ v.render ++ trail) = some r.pf.output := by
  obtain ⟨c', hbc', hpc⟩ := pathCtx_of_build p hp hlen
  rw [hbc] at hbc'; cases hbc'
  obtain ⟨h1, h2⟩ := paths_ct O p hs hbc hpc pre trail v h hpl h0 cores hc (some ct) (fun c' e => by cases e; exact hnd) (u 0) r
    hr hbad hclean htorn (.inl fun ps _ ht => ctChunks_covers hcov ht ps [] SA.init rfl Is.init)
  refine ⟨h2, ?_, h1⟩
  rw [parallelRunOpt_single O _ cores (some ct) u ru _ _ c hbc h.nonempty h.size, parallelPartialRunOpt_eq hr h2]
  rfl

/-- A table learned from the file covers it. -/
theorem covers_learned (g : Nat → Str) (d : QDfa) (file : Str) : Covers (collectConstraints g d file) d file := by
  intro us vs k p ks hf hl
  obtain ⟨l, h1, h2⟩ := c30_file_sound g d file us vs k p hf
  rw [hl] at h1; cases h1
  exact h2

/-- **C43 for paths, same file.**  With the table learned from the file itself, whatever the memory of the table held before, the
optimised parallel run reprocesses nothing and prints what the serial run prints, under the conditions of C32. -/
theorem c43_same_file_partial (O : NumOps) (p : List Step) (hp : p ≠ []) (hlen : fewNames p) (hs : SlicesOK p)
    (pre trail : Str) (v : J) (h : Readable pre trail v) (hpl : v.plainStrings = true) (h0 : NUL ∉ pre ++ v.render ++ trail)
    (cores : Nat) (hc : 0 < cores) (c : SCtx) (hbc : buildCtx (astOf p) = some c) (g : Nat → Str)
    (u : Nat → Nat → UState) (ru : Nat → Nat → Nat → UState) (r : ParallelCtx)
    (hr : parallelPartialRun O (tableOf c) (contextOf c) (some (collectConstraints g (tableOf c) (pre ++ v.render ++ trail))) (u 0)
      cores none (pre ++ v.render ++ trail) = some r)
    (hbad : r.k.bad = false) (hclean : clean O (astOf p) (pre ++ v.render ++ trail))
    (htorn : ∀ xs ys : List Str, partition cores (pre ++ v.render ++ trail) = some ((xs ++ ys).map some) → xs ≠ [] → ys ≠ [] →
      UntornPath p pre v xs.flatten.length) :
    r.k.re = false ∧
    parallelRunOpt O MEMORY_FOOTPRINT cores (some (collectConstraints g (tableOf c) (pre ++ v.render ++ trail))) u ru (astOf p)
      (pre ++ v.render ++ trail) = some (some r) ∧
    results O (astOf p) (pre ++ v.render ++ trail) = some r.pf.output :=
  c43_covering_paths_partial O p hp hlen hs pre trail v h hpl h0 cores hc c hbc _ (learned_nodup g _ _) (covers_learned g _ _) u ru r
    hr hbad hclean htorn

/-! ### Examples -/

/-- The table learned from a text for a path. -/
def learned (p : List Step) (file : Str) : Option CTable :=
  (buildCtx (astOf p)).map fun c => collectConstraints (fun _ => []) (tableOf c) file

set_option maxRecDepth 100000 in
/-- `exPar` with the table learned from it, on three threads: hypotheses and result of `c43_same_file_partial` (the other
hypotheses are those of `c32_paths_partial`, shown there). -/
example : learned exParPath exPar.render = some ⟨[⟨['x'], .ky, [1]⟩, ⟨['a'], .ky, [1]⟩, ⟨[], .lb, [2]⟩, ⟨['b'], .ky, [3]⟩,
      ⟨['c'], .ky, [3]⟩, ⟨['q'], .ky, [4]⟩, ⟨['z'], .ky, [1]⟩], false⟩ ∧
    (parallelRunOpt intOps MEMORY_FOOTPRINT 3 (learned exParPath exPar.render) (fun _ _ => .other) (fun _ _ _ => .other)
      (astOf exParPath) exPar.render).map (·.map fun r => (r.pf.output, r.k.bad, r.k.re)) =
      some (some (["1".toList, "{\"q\":1}".toList, "7".toList], false, false)) :=
  ⟨by with_unfolding_all rfl, by with_unfolding_all rfl⟩

set_option maxRecDepth 100000 in
/-- The same run without a table, with buffer size 32, so that the file comes in three pieces: hypotheses of `c41_no_table`. -/
example : (pieces 32 exPar.render (exPar.render.length + 1) 0).length = 3 ∧
    (buildCtx (astOf exParPath)).map (·.names.length) = some 2 ∧
    [0, 1, 2, 3].map (fun n => (buildQuery (astOf exParPath)).bind fun q =>
      (parallelPieces intOps q.1 q.2 none (fun _ _ => .other) 2 0 none ((pieces 32 exPar.render (exPar.render.length + 1) 0).take n)).map
        (·.map fun r => (r.k.bad, r.k.re))) = [some none, some (some (false, false)), some (some (false, false)), some (some (false, false))] :=
  ⟨by with_unfolding_all rfl, by with_unfolding_all rfl, by with_unfolding_all rfl⟩

/-! ## C44 -/

/-- The situation of C44: a table `ct` learned from any text, and a file on which the plain parallel run `r0` meets no undefined
behaviour and prints what the serial run prints; `r` is the optimised run. -/
structure Optimised (O : NumOps) (p : List Step) (train file : Str) (cores : Nat) (u : Nat → Nat → UState)
    (ru : Nat → Nat → Nat → UState) (ct : CTable) (r0 r : ParallelCtx) : Prop where
  some_core : 0 < cores
  clean : clean O (astOf p) file
  table : learned p train = some ct
  plain : parallelRun O MEMORY_FOOTPRINT cores u (astOf p) file = some (some r0)
  good : r0.k.bad = false
  same : results O (astOf p) file = some r0.pf.output
  opt : parallelRunOpt O MEMORY_FOOTPRINT cores (some ct) u ru (astOf p) file = some (some r)

/-- The claim of C44 for runs without undefined behaviour. -/
def C44Full : Prop := ∀ (O : NumOps) (p : List Step) (train file : Str) (cores : Nat) (u : Nat → Nat → UState)
  (ru : Nat → Nat → Nat → UState) (ct : CTable) (r0 r : ParallelCtx), Optimised O p train file cores u ru ct r0 r →
  r.k.bad = false → results O (astOf p) file = some r.pf.output

/-- The claim of C44 about undefined behaviour. -/
def C44Safe : Prop := ∀ (O : NumOps) (p : List Step) (train file : Str) (cores : Nat) (u : Nat → Nat → UState)
  (ru : Nat → Nat → Nat → UState) (ct : CTable) (r0 r : ParallelCtx), Optimised O p train file cores u ru ct r0 r →
  r.k.bad = false

/-- Results of concrete runs put together. -/
theorem optimised_of {p : List Step} {train file : Str} {cores : Nat} {u : Nat → Nat → UState} {ru : Nat → Nat → Nat → UState}
    {ct : CTable} {out out' : List Str} {bad re : Bool} (hc : 0 < cores)
    (h1 : (serialRun intOps MEMORY_FOOTPRINT (astOf p) file).map (fun r => (r.sa.ub, r.pf.ub)) = some (false, false))
    (h2 : learned p train = some ct)
    (h3 : (parallelRun intOps MEMORY_FOOTPRINT cores u (astOf p) file).map (·.map fun r => (r.pf.output, r.k.bad)) =
      some (some (out, false)))
    (h4 : results intOps (astOf p) file = some out)
    (h5 : (parallelRunOpt intOps MEMORY_FOOTPRINT cores (some ct) u ru (astOf p) file).map
      (·.map fun r => (r.pf.output, r.k.bad, r.k.re)) = some (some (out', bad, re))) :
    ∃ r0 r, Optimised intOps p train file cores u ru ct r0 r ∧ r.pf.output = out' ∧ r.k.bad = bad ∧ r.k.re = re := by
  obtain ⟨z, hz, e⟩ := Option.map_eq_some_iff.1 h3
  obtain ⟨r0, rfl, e⟩ := Option.map_eq_some_iff.1 e
  obtain ⟨y, hy, e'⟩ := Option.map_eq_some_iff.1 h5
  obtain ⟨r, rfl, e'⟩ := Option.map_eq_some_iff.1 e'
  obtain ⟨e1, e2⟩ := Prod.mk.inj (Option.some.inj e)
  obtain ⟨e3, e4⟩ := Prod.mk.inj (Option.some.inj e')
  obtain ⟨e4, e5⟩ := Prod.mk.inj e4
  refine ⟨r0, r, ⟨hc, ?_, h2, hz, e2, by rw [h4, e1], hy⟩, e3, e4, e5⟩
  intro r' hr'
  rw [hr'] at h1
  simpa using h1

/-- `{"c": 1, "b": 2, "a": 3 }`. -/
def exTrain : Str := "{\"c\": 1, \"b\": 2, \"a\": 3 }".toList

set_option maxRecDepth 100000 in
theorem exTrain_table : learned exParPath exTrain = some ⟨[⟨['c'], .ky, [1]⟩, ⟨['b'], .ky, [1]⟩, ⟨['a'], .ky, [1]⟩], false⟩ := by
  with_unfolding_all rfl

set_option maxRecDepth 100000 in
theorem exTrain_run : (parallelRunOpt intOps MEMORY_FOOTPRINT 3 (learned exParPath exTrain) (fun _ _ => .other) (fun _ _ _ => .other)
      (astOf exParPath) exPar.render).map (·.map fun r => (r.pf.output, r.k.bad, r.k.re)) =
    some (some (["1".toList, "{\"q\":1}".toList], false, true)) := by
  with_unfolding_all rfl

set_option maxRecDepth 100000 in
/-- **C44 is false**: the text of a unit that is processed again ends before the bracket that ends the unit
(worker_automaton.c:245, 273), so a number directly before the bracket is not reported by the tokenizer (lexing.c:160-187).  With the table learned
from `{"c": 1, "b": 2, "a": 3 }`, `$.a[*].b` on `exPar` and three threads loses the `7`. -/
theorem c44_false : ¬ C44Full := by
  intro h
  obtain ⟨r0, r, ho, h1, h2, _⟩ := optimised_of (p := exParPath) (train := exTrain) (file := exPar.render) (cores := 3)
    (u := fun _ _ => .other) (ru := fun _ _ _ => .other) (out := ["1".toList, "{\"q\":1}".toList, "7".toList]) (by decide)
    (by with_unfolding_all rfl) exTrain_table (by with_unfolding_all rfl) (by with_unfolding_all rfl)
    (by rw [← exTrain_table]; exact exTrain_run)
  have := h _ _ _ _ _ _ _ _ _ _ ho h2
  rw [ho.same, h1, Option.some.injEq] at this
  have e : results intOps (astOf exParPath) exPar.render = some ["1".toList, "{\"q\":1}".toList, "7".toList] := by with_unfolding_all rfl
  rw [ho.same, Option.some.injEq, this] at e
  exact absurd e (by decide)

/-- `{"x": {"a": {"b": 1, "c": 2}, "d": {"b": 7, "c": 8}}, "z": 2 }`. -/
def exUnwritten : Str := "{\"x\": {\"a\": {\"b\": 1, \"c\": 2}, \"d\": {\"b\": 7, \"c\": 8}}, \"z\": 2 }".toList

set_option maxRecDepth 100000 in
/-- Reprocessing can read uninitialised memory where the plain parallel run does not: a node made by `combineQueryStacks` has no
`root_range` (multi_stack.h), which the reprocessing worker follows.  `$.x.d.b` on `exUnwritten`, three threads, the
table learned from `exTrain`. -/
theorem c44_false_ub : ¬ C44Safe := by
  intro h
  obtain ⟨r0, r, ho, h1, h2, _⟩ := optimised_of (p := [.prop ['x'], .prop ['d'], .prop ['b']]) (train := exTrain) (file := exUnwritten)
    (cores := 3) (u := fun _ _ => .other) (ru := fun _ _ _ => .other) (ct := ⟨[⟨['c'], .ky, [1]⟩, ⟨['b'], .ky, [1]⟩, ⟨['a'], .ky, [1]⟩], false⟩)
    (out := ["7".toList]) (out' := []) (bad := true) (re := true) (by decide)
    (by with_unfolding_all rfl) (by with_unfolding_all rfl) (by with_unfolding_all rfl) (by with_unfolding_all rfl)
    (by with_unfolding_all rfl)
  have := h _ _ _ _ _ _ _ _ _ _ ho
  rw [h2] at this
  cases this

/-- Why C44 fails, for every run: the text `[b, e)` of a unit that may be processed again ends directly before the closing bracket
that ends the unit, never after it (the last unit of a chunk: at the end of the chunk; a unit may also end at a literal that is the
value of a member begun in an earlier chunk).  It begins with an opening bracket or at a key. -/
theorem c44_unit_text_partial (d : QDfa) (ct : Option CTable) (u : UState) (i : Nat) (chunk : Str) :
    ∀ x ∈ unitSpans d ct u i chunk,
      (x.2 = chunk.length ∨ chunk[x.2]? = some '}' ∨ chunk[x.2]? = some ']' ∨ ∃ v, (Tok.pri v, x.2 + 1) ∈ lexPos chunk) ∧
      ∀ p, x.1 = some p → chunk[p]? = some '{' ∨ chunk[p]? = some '[' ∨ ∃ k, (Tok.ky k, p + 1) ∈ lexPos chunk := by
  intro x hx
  obtain ⟨h1, h2⟩ := W.spans_at _ _ (fun t c => (t, c) ∈ lexPos chunk) _ _ _
    (fun y hy => ⟨(lexPos_posAt chunk y hy).pos, hy⟩) (fun p hp => by cases hp) x hx
  constructor
  · rcases h1 with h1 | ⟨t, ht, hm⟩
    · exact .inl h1
    · have hp := lexPos_posAt chunk _ hm
      cases t with
      | rcb q => exact .inr (.inl hp.2)
      | rb q => exact .inr (.inr (.inl hp.2))
      | pri v => exact .inr (.inr (.inr ⟨v, hm⟩))
      | _ => cases ht
  · intro p hp
    obtain ⟨t, ht, hm⟩ := h2 p hp
    have hp := lexPos_posAt chunk _ hm
    cases t with
    | lcb q => exact .inl hp.2
    | lb q => exact .inr (.inl hp.2)
    | ky k => exact .inr (.inr ⟨k, hm⟩)
    | _ => cases ht

/-- A chunk that ends an object and begins another: the text of its first unit, `{"b": 7`, lacks the bracket. -/
example : let s := "{\"b\": 7}}, \"d\": {\"b\": 8".toList
    ((buildQuery (astOf exParPath)).map fun q =>
      (unitSpans q.1 none .other 1 s).map fun x => (x.1, substring s (x.1.getD 0) x.2)) =
      some [(some 0, "{\"b\": 7".toList), (some 10, " \"d\": {\"b\": 8".toList)] := by
  with_unfolding_all rfl

end JPS
