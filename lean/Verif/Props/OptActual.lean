import Verif.Props.ParallelActual
import Verif.Props.PiecesOpt
/-!
# C42, C43, C45, C51: optimised runs and files in pieces with slices below descendant steps
-/

set_option autoImplicit false

namespace JPS
open Spec

theorem size_int {pre trail : Str} {v : J} (h : Readable pre trail v) : (v.render.length : Int) ≤ intMax := by
  have := h.size
  simp only [List.length_append, MEMORY_FOOTPRINT] at this
  simp only [intMax]; omega

/-- A parallel run with any constraint table for a path without filters. -/
theorem chosen_ct (O : NumOps) (p : List Step) (hb : boundsOk p) {c : SCtx} (hbc : buildCtx (astOf p) = some c) (hpc : PathCtx p c)
    (pre trail : Str) (v : J) (h : Readable pre trail v) (hpl : v.plainStrings = true) (h0 : NUL ∉ pre ++ v.render ++ trail)
    (cores : Nat) (hc : 0 < cores) (ct : Option CTable) (hnd : ct.NodupOK) (u : Nat → UState) (r : ParallelCtx)
    (hr : parallelPartialRun O (tableOf c) (contextOf c) ct u cores none (pre ++ v.render ++ trail) = some r)
    (hbad : r.k.bad = false) (hclean : clean O (astOf p) (pre ++ v.render ++ trail))
    (htorn : ∀ xs ys : List Str, partition cores (pre ++ v.render ++ trail) = some ((xs ++ ys).map some) → xs ≠ [] → ys ≠ [] →
      UntornChosen p pre v xs.flatten.length)
    (hre : (∀ ps : List Str, ps.flatten = pre ++ v.render ++ trail → pieceToks 0 ps = lexAll (pre ++ v.render ++ trail) →
      ctChunks (tableOf c) ct SA.init ps) ∨ r.k.re = false) :
    results O (astOf p) (pre ++ v.render ++ trail) = some r.pf.output ∧ r.k.re = false :=
  tree_ct O (astOf p) hbc (c.dead hpc.ok) (hpc.noIdx_counted [] (by simp)) pre trail v h hpl h0 cores hc ct hnd u r hr hbad hclean
    (fun xs ys e hx hy hbf => hpc.cutsOK_chosen hb (size_int h) hbf (htorn xs ys e hx hy)) hre

/-- **C42 for every path without filters**, also with slices below descendant steps: whatever the constraint table says, if the
optimised parallel run meets no undefined behaviour and finds no unit to reprocess, it prints what the serial run prints. -/
theorem c42_chosen_partial (O : NumOps) (p : List Step) (hp : p ≠ []) (hlen : fewNames p) (hb : boundsOk p)
    (pre trail : Str) (v : J) (h : Readable pre trail v) (hpl : v.plainStrings = true) (h0 : NUL ∉ pre ++ v.render ++ trail)
    (cores : Nat) (hc : 0 < cores) (ct : CTable) (hnd : ∀ k ks, ct.lookup k = some ks → ks.Nodup)
    (u : Nat → Nat → UState) (ru : Nat → Nat → Nat → UState) (r : ParallelCtx)
    (hr : parallelRunOpt O MEMORY_FOOTPRINT cores (some ct) u ru (astOf p) (pre ++ v.render ++ trail) = some (some r))
    (hbad : r.k.bad = false) (hre : r.k.re = false) (hclean : clean O (astOf p) (pre ++ v.render ++ trail))
    (htorn : ∀ xs ys : List Str, partition cores (pre ++ v.render ++ trail) = some ((xs ++ ys).map some) → xs ≠ [] → ys ≠ [] →
      UntornChosen p pre v xs.flatten.length) :
    results O (astOf p) (pre ++ v.render ++ trail) = some r.pf.output := by
  obtain ⟨c, hbc, hpc⟩ := pathCtx_of_build p hp hlen
  rw [parallelRunOpt_single O _ cores (some ct) u ru _ _ c hbc h.nonempty h.size] at hr
  obtain ⟨r', hr', e⟩ := Option.map_eq_some_iff.1 hr
  cases e
  exact (chosen_ct O p hb hbc hpc pre trail v h hpl h0 cores hc (some ct) (fun c' e => by cases e; exact hnd) (u 0) r
    (parallelPartialRunOpt_inv hr' hre) hbad hclean htorn (.inr hre)).1

/-- **C43 for every path without filters**, also with slices below descendant steps: with a constraint table that covers the file, no
unit is reprocessed and the optimised parallel run prints what the serial run prints. -/
theorem c43_chosen_partial (O : NumOps) (p : List Step) (hp : p ≠ []) (hlen : fewNames p) (hb : boundsOk p)
    (pre trail : Str) (v : J) (h : Readable pre trail v) (hpl : v.plainStrings = true) (h0 : NUL ∉ pre ++ v.render ++ trail)
    (cores : Nat) (hc : 0 < cores) (c : SCtx) (hbc : buildCtx (astOf p) = some c)
    (ct : CTable) (hnd : ∀ k ks, ct.lookup k = some ks → ks.Nodup) (hcov : Covers ct (tableOf c) (pre ++ v.render ++ trail))
    (u : Nat → Nat → UState) (ru : Nat → Nat → Nat → UState) (r : ParallelCtx)
    (hr : parallelPartialRun O (tableOf c) (contextOf c) (some ct) (u 0) cores none (pre ++ v.render ++ trail) = some r)
    (hbad : r.k.bad = false) (hclean : clean O (astOf p) (pre ++ v.render ++ trail))
    (htorn : ∀ xs ys : List Str, partition cores (pre ++ v.render ++ trail) = some ((xs ++ ys).map some) → xs ≠ [] → ys ≠ [] →
      UntornChosen p pre v xs.flatten.length) :
    r.k.re = false ∧
    parallelRunOpt O MEMORY_FOOTPRINT cores (some ct) u ru (astOf p) (pre ++ v.render ++ trail) = some (some r) ∧
    results O (astOf p) (pre ++ v.render ++ trail) = some r.pf.output := by
  obtain ⟨c', hbc', hpc⟩ := pathCtx_of_build p hp hlen
  rw [hbc] at hbc'; cases hbc'
  obtain ⟨h1, h2⟩ := chosen_ct O p hb hbc hpc pre trail v h hpl h0 cores hc (some ct) (fun c' e => by cases e; exact hnd) (u 0) r
    hr hbad hclean htorn (.inl fun ps _ ht => ctChunks_covers hcov ht ps [] SA.init rfl Is.init)
  refine ⟨h2, ?_, h1⟩
  rw [parallelRunOpt_single O _ cores (some ct) u ru _ _ c hbc h.nonempty h.size, parallelPartialRunOpt_eq hr h2]
  rfl

/-- **C45 for the optimised run and every path without filters**, also with slices below descendant steps: with the table learned from
the file itself nothing is reprocessed, nothing is undefined, and what is printed is what `chosen` describes. -/
theorem c45_chosen_same_file_partial (O : NumOps) (p : List Step) (hp : p ≠ []) (hlen : fewNames p) (hb : boundsOk p)
    (pre trail : Str) (v : J) (h : Readable pre trail v) (ht : v.tidy = true) (hpl : v.plainStrings = true)
    (h0 : NUL ∉ pre ++ v.render ++ trail)
    (cores : Nat) (hc : 0 < cores) (hcm : cores ≤ MAX_THREAD) (g : Nat → Str) (u : Nat → Nat → UState) (ru : Nat → Nat → Nat → UState)
    (hpart : partition cores (pre ++ v.render ++ trail) ≠ none) (q : QDfa × QCtx) (hq : buildQuery (astOf p) = some q) (hsz : Sizes q.1 v)
    (hkeys : v.keysWithin 98 = true)
    (hnum : (chosen p v).length ≤ MAX_OUTPUT) (htext : ∀ x ∈ chosen p v, x.render.length ≤ 998)
    (htorn : ∀ xs ys : List Str, partition cores (pre ++ v.render ++ trail) = some ((xs ++ ys).map some) → xs ≠ [] → ys ≠ [] →
      UntornChosen p pre v xs.flatten.length) :
    ∃ r, parallelRunOpt O MEMORY_FOOTPRINT cores (some (collectConstraints g q.1 (pre ++ v.render ++ trail))) u ru (astOf p)
        (pre ++ v.render ++ trail) = some (some r) ∧
      r.k.re = false ∧ r.k.bad = false ∧ r.pf.ub = false ∧ r.pf.output = (chosen p v).map J.render := by
  obtain ⟨c, hbc, hpc⟩ := pathCtx_of_build p hp hlen
  have hq' : buildQuery (astOf p) = some (tableOf c, contextOf c) := by unfold buildQuery; rw [hbc]; rfl
  rw [hq'] at hq
  cases hq
  obtain ⟨h1, h2⟩ := c02_actual_partial O p hp hb hlen pre trail v h ht
  have hclean := h2 (short_mono (by decide) v hsz.short) hnum htext
  obtain ⟨r, a1, a2⟩ := tree_ct_safe O (astOf p) hbc (c.dead hpc.ok) (hpc.noIdx_counted [] (by simp)) pre trail v h hpl h0 cores hc hcm
    (some (collectConstraints g (tableOf c) (pre ++ v.render ++ trail)))
    (fun c' e => by cases e; exact learned_nodup g _ _) (learned_statesIn g (c.dead hpc.ok) c.one_lt _) (u 0) hpart hsz (.inr hkeys) hclean
    (fun xs ys e hx hy hbf => hpc.cutsOK_chosen hb (size_int h) hbf (htorn xs ys e hx hy))
    (fun _ _ _ _ _ _ => chunksPred_of (hpc.noPredicate hb) _ _ _ (Nat.le_refl _))
  obtain ⟨a3, a4⟩ := a2 (.inl fun ps _ ht => ctChunks_covers (covers_learned g _ _) ht ps [] SA.init rfl Is.init)
  obtain ⟨b1, b2, b3⟩ := c43_chosen_partial O p hp hlen hb pre trail v h hpl h0 cores hc c hbc _ (learned_nodup g _ _)
    (covers_learned g _ _) u ru r a1 a3 hclean htorn
  refine ⟨r, b2, b1, a3, a4, ?_⟩
  rw [h1] at b3
  exact (Option.some.inj b3).symm

/-- **C51 for every path without filters**, also with slices below descendant steps: the file is loaded in pieces, each piece is cut
into chunks. -/
theorem c51_chosen_partial (O : NumOps) (p : List Step) (hp : p ≠ []) (hlen : fewNames p) (hb : boundsOk p)
    (pre trail : Str) (v : J) (h : DocOK pre trail v) (hsp : pre.head? ≠ some ' ') (hint : (v.render.length : Int) ≤ intMax)
    (hpl : v.plainStrings = true) (h0 : NUL ∉ pre ++ v.render ++ trail) (hff : ∀ c ∈ pre ++ v.render ++ trail, c.toNat ≠ 255)
    (B cores : Nat) (hB : 0 < B) (hc : 0 < cores) (u : Nat → Nat → UState) (r : ParallelCtx)
    (hr : parallelRun O B cores u (astOf p) (pre ++ v.render ++ trail) = some (some r))
    (hdef : piecesDefined O B cores u (astOf p) (pre ++ v.render ++ trail))
    (hub : ∀ B' s, (pre ++ v.render ++ trail).length ≤ B' → serialRun O B' (astOf p) (pre ++ v.render ++ trail) = some s → s.sa.ub = false)
    (htorn : ∀ xs ys : List Str, fileChunks B cores (pre ++ v.render ++ trail) = xs ++ ys → xs ≠ [] → ys ≠ [] →
      UntornChosen p pre v xs.flatten.length) :
    (serialRun O B (astOf p) (pre ++ v.render ++ trail)).map (·.pf.output) = some r.pf.output ∧
    ∀ B', (pre ++ v.render ++ trail).length ≤ B' →
      (serialRun O B' (astOf p) (pre ++ v.render ++ trail)).map (·.pf.output) = some r.pf.output := by
  obtain ⟨c, hbc, hpc⟩ := pathCtx_of_build p hp hlen
  exact tree_pieces O (astOf p) hbc (c.dead hpc.ok) (hpc.noIdx_counted [] (by simp)) pre trail v h hsp hpl h0 hff B cores hB hc u r hr
    hdef hub (fun xs ys e hx hy hbf => hpc.cutsOK_chosen hb hint hbf (htorn xs ys e hx hy))

/-- What a serial run over the whole text does, for every path without filters. -/
theorem chosen_clean (O : NumOps) (p : List Step) (hp : p ≠ []) {c : SCtx} (hpc : PathCtx p c) (hb : boundsOk p)
    (pre trail : Str) (v : J) (h : DocOK pre trail v) (hsp : pre.head? ≠ some ' ') (hint : (v.render.length : Int) ≤ intMax)
    (ht : v.tidy = true) (hsh : v.short 3996 = true) (hout : (chosen p v).length ≤ MAX_OUTPUT)
    (hsel : ∀ x ∈ chosen p v, x.render.length ≤ 998) :
    (serialPartialRun O (tableOf c) (contextOf c) none (pre ++ v.render ++ trail)).pf.output = (chosen p v).map J.render ∧
    (serialPartialRun O (tableOf c) (contextOf c) none (pre ++ v.render ++ trail)).sa.ub = false := by
  have hroot : ¬ Chosen p [] := by
    rintro ⟨hm, _⟩
    cases p with
    | nil => exact hp rfl
    | cons s r => cases s <;> cases hm
  obtain ⟨h1, h2⟩ := serial_outputs O (tableOf c) (contextOf c) (hpc.predStates hb) (Chosen p) pre trail v h.preWs h.trailWs hsp h.container
    h.wf h.tight h.depth (fun l hl => hpc.matched_chosen hb l fun i hi => by have := hl i hi; omega) hroot
  have h1' : (serialPartialRun O (tableOf c) (contextOf c) none (pre ++ v.render ++ trail)).pf.output =
      (chosen p v).map J.render := h1.trans (chosen_texts p v ht)
  refine ⟨h1', (h2.2 ⟨toks_short id pre.length v h.container hsh, by rw [h1']; simpa using hout, ?_⟩).1⟩
  rw [h1']; intro t ht
  obtain ⟨x, hx, rfl⟩ := List.mem_map.1 ht
  exact hsel x hx

/-- The printed results are what `chosen` describes, if moreover the sizes are those of C02. -/
theorem c51_chosen_exact_partial (O : NumOps) (p : List Step) (hp : p ≠ []) (hlen : fewNames p) (hb : boundsOk p)
    (pre trail : Str) (v : J) (h : DocOK pre trail v) (hsp : pre.head? ≠ some ' ') (hint : (v.render.length : Int) ≤ intMax)
    (hpl : v.plainStrings = true) (h0 : NUL ∉ pre ++ v.render ++ trail) (hff : ∀ c ∈ pre ++ v.render ++ trail, c.toNat ≠ 255)
    (ht : v.tidy = true) (hsh : v.short 3996 = true) (hout : (chosen p v).length ≤ MAX_OUTPUT)
    (hsel : ∀ x ∈ chosen p v, x.render.length ≤ 998)
    (B cores : Nat) (hB : 0 < B) (hc : 0 < cores) (u : Nat → Nat → UState) (r : ParallelCtx)
    (hr : parallelRun O B cores u (astOf p) (pre ++ v.render ++ trail) = some (some r))
    (hdef : piecesDefined O B cores u (astOf p) (pre ++ v.render ++ trail))
    (htorn : ∀ xs ys : List Str, fileChunks B cores (pre ++ v.render ++ trail) = xs ++ ys → xs ≠ [] → ys ≠ [] →
      UntornChosen p pre v xs.flatten.length) :
    r.pf.output = (chosen p v).map J.render := by
  obtain ⟨c, hbc, hpc⟩ := pathCtx_of_build p hp hlen
  obtain ⟨h1, h2⟩ := chosen_clean O p hp hpc hb pre trail v h hsp hint ht hsh hout hsel
  have := (c51_chosen_partial O p hp hlen hb pre trail v h hsp hint hpl h0 hff B cores hB hc u r hr hdef (by
    intro B' s hB' hs'
    rw [serialRun_single O _ (astOf p) (pre ++ v.render ++ trail) c hbc h.nonempty hB'] at hs'; cases hs'
    exact h2) htorn).2 _ (Nat.le_refl _)
  rw [serialRun_single O _ (astOf p) (pre ++ v.render ++ trail) c hbc h.nonempty (Nat.le_refl _)] at this
  simp only [Option.map_some, Option.some.injEq] at this
  rw [← this, h1]

/-- **C51 for optimised runs and every path without filters**, also with slices below descendant steps. -/
theorem c51_opt_chosen_partial (O : NumOps) (p : List Step) (hp : p ≠ []) (hlen : fewNames p) (hb : boundsOk p)
    (pre trail : Str) (v : J) (h : DocOK pre trail v) (hsp : pre.head? ≠ some ' ') (hint : (v.render.length : Int) ≤ intMax)
    (hpl : v.plainStrings = true) (h0 : NUL ∉ pre ++ v.render ++ trail) (hff : ∀ c ∈ pre ++ v.render ++ trail, c.toNat ≠ 255)
    (B cores : Nat) (hB : 0 < B) (hc : 0 < cores) (q : QDfa × QCtx) (hq : buildQuery (astOf p) = some q)
    (ct : CTable) (hnd : ∀ k ks, ct.lookup k = some ks → ks.Nodup) (hcov : Covers ct q.1 (pre ++ v.render ++ trail))
    (u : Nat → Nat → UState) (ru : Nat → Nat → Nat → UState) (r : ParallelCtx)
    (hr : PrunedRun O q.1 q.2 ct B cores u (pre ++ v.render ++ trail) r)
    (hub : ∀ B' s, (pre ++ v.render ++ trail).length ≤ B' → serialRun O B' (astOf p) (pre ++ v.render ++ trail) = some s → s.sa.ub = false)
    (htorn : ∀ xs ys : List Str, fileChunks B cores (pre ++ v.render ++ trail) = xs ++ ys → xs ≠ [] → ys ≠ [] →
      UntornChosen p pre v xs.flatten.length) :
    parallelRunOpt O B cores (some ct) u ru (astOf p) (pre ++ v.render ++ trail) = some (some r) ∧
    (serialRun O B (astOf p) (pre ++ v.render ++ trail)).map (·.pf.output) = some r.pf.output ∧
    ∀ B', (pre ++ v.render ++ trail).length ≤ B' →
      (serialRun O B' (astOf p) (pre ++ v.render ++ trail)).map (·.pf.output) = some r.pf.output := by
  obtain ⟨c, hbc, hpc⟩ := pathCtx_of_build p hp hlen
  have hbq : buildQuery (astOf p) = some (tableOf c, contextOf c) := by unfold buildQuery; rw [hbc]; rfl
  rw [hbq] at hq
  cases hq
  obtain ⟨h1, h2⟩ := tree_pieces_ct O (astOf p) hbc (c.dead hpc.ok) (hpc.noIdx_counted [] (by simp)) pre trail v h hsp hpl h0 hff B
    cores hB hc (some ct) (fun c' e => by cases e; exact hnd) u r hr.run hr.defined
    (fun ps _ ht => ctChunks_covers hcov ht ps [] SA.init rfl Is.init) hub
    (fun xs ys e hx hy hbf => hpc.cutsOK_chosen hb hint hbf (htorn xs ys e hx hy))
  refine ⟨?_, h1⟩
  unfold parallelRunOpt
  rw [hbq]
  exact parallelPiecesOpt_eq _ _ _ _ hr.run h2

/-! ### Examples -/

theorem exParDesc_chosen_out : (chosen exParDescPath exParSlice).map J.render = ["2".toList, "3".toList, "5".toList] := by
  rw [chosen_selected exParDesc_flat]; exact exParDesc_selected

theorem exParDesc_few : (chosen exParDescPath exParSlice).length ≤ MAX_OUTPUT := by
  have := congrArg List.length exParDesc_chosen_out
  rw [List.length_map] at this
  rw [this]; decide

theorem exParDesc_short : ∀ x ∈ chosen exParDescPath exParSlice, x.render.length ≤ 998 := by
  intro x hx
  have := List.mem_map_of_mem (f := J.render) hx
  rw [exParDesc_chosen_out] at this
  revert this
  generalize x.render = y
  intro h
  simp only [List.mem_cons, List.not_mem_nil, or_false] at h
  rcases h with rfl | rfl | rfl <;> decide

/-- `c45_chosen_same_file_partial`, with it `c43_chosen_partial`, applied: `$..b[1:]` on three threads with the table learned from the
document. -/
example (O : NumOps) (g : Nat → Str) (u : Nat → Nat → UState) (ru : Nat → Nat → Nat → UState) (q : QDfa × QCtx)
    (hq : buildQuery (astOf exParDescPath) = some q) :
    ∃ r, parallelRunOpt O MEMORY_FOOTPRINT 3 (some (collectConstraints g q.1 ([] ++ exParSlice.render ++ []))) u ru (astOf exParDescPath)
        ([] ++ exParSlice.render ++ []) = some (some r) ∧
      r.k.re = false ∧ r.k.bad = false ∧ r.pf.ub = false ∧ r.pf.output = ["2".toList, "3".toList, "5".toList] := by
  rw [← exParDesc_chosen_out]
  have hR : Readable [] [] exParSlice := ⟨by decide, by decide, by decide, by decide, by decide, by decide, by decide, by decide⟩
  have e : (buildQuery (astOf exParDescPath)).map (·.1.statesNum) = some 5 := by decide
  rw [hq] at e
  have e : q.1.statesNum = 5 := Option.some.inj e
  refine c45_chosen_same_file_partial O exParDescPath (by decide) (by decide) exParDesc_bounds [] [] exParSlice hR (by decide) (by decide)
    (by decide) 3 (by decide) (by decide) g u ru ?_ q hq ⟨by decide, by decide, by rw [e]; decide, by rw [e]; decide, by rw [e]; decide⟩
    (by decide) exParDesc_few exParDesc_short exParDesc_untorn
  rw [List.nil_append, List.append_nil, exParSlice_partition]; nofun

/-- With footprint 48 the document is loaded in two pieces, each in two chunks; an object of the array `a` lies across the end of the first
piece. -/
theorem exParDesc_chunks : fileChunks 48 2 ([] ++ exParSlice.render ++ []) = ["{\"x\": 1, \"a\": [{\"b\": [1, 2, 3], ".toList,
    "\"c\": 2}, {\"c\": 5, ".toList, "\"b\": [4, 5]}, {\"c\": 5, ".toList, "\"b\": [7]}], \"z\": 2}".toList] := by
  decide +kernel

theorem exParDesc_torn : ∀ xs ys : List Str, fileChunks 48 2 ([] ++ exParSlice.render ++ []) = xs ++ ys → xs ≠ [] → ys ≠ [] →
    UntornChosen exParDescPath [] exParSlice xs.flatten.length := by
  rw [exParDesc_chunks]
  exact cuts_four (P := fun xs => UntornChosen exParDescPath [] exParSlice xs.flatten.length)
    ⟨untorn_of (fun _ => exParDesc_chosen) (by decide), exParDesc_slices (by decide)⟩ ⟨untorn_of (fun _ => exParDesc_chosen) (by decide), exParDesc_slices (by decide)⟩
    ⟨untorn_of (fun _ => exParDesc_chosen) (by decide), exParDesc_slices (by decide)⟩

theorem exParDesc_doc : DocOK [] [] exParSlice := ⟨by decide, by decide, by decide, by decide, by decide, by decide⟩

theorem exParDesc_pieces : piecesDefined intOps 48 2 (fun _ _ => .other) (astOf exParDescPath) ([] ++ exParSlice.render ++ []) ∧
    (parallelRun intOps 48 2 (fun _ _ => .other) (astOf exParDescPath) ([] ++ exParSlice.render ++ [])).map (·.map fun r => r.pf.output) =
      some (some ["2".toList, "3".toList, "5".toList]) :=
  ⟨piecesDefined_of (by decide +kernel), by decide +kernel⟩

/-- `c51_chosen_exact_partial`, with it `c51_chosen_partial`, applied: `$..b[1:]`, the document loaded in two pieces for two threads.  Such a
run exists by `exParDesc_pieces`. -/
example (r : ParallelCtx)
    (hr : parallelRun intOps 48 2 (fun _ _ => .other) (astOf exParDescPath) ([] ++ exParSlice.render ++ []) = some (some r)) :
    r.pf.output = ["2".toList, "3".toList, "5".toList] := by
  rw [← exParDesc_chosen_out]
  exact c51_chosen_exact_partial intOps exParDescPath (by decide) (by decide) exParDesc_bounds [] [] exParSlice exParDesc_doc (by decide)
    (by decide) (by decide) (by decide) (by decide) (by decide) (by decide) exParDesc_few exParDesc_short 48 2 (by decide) (by decide) _ r hr
    exParDesc_pieces.1 exParDesc_torn

set_option maxRecDepth 100000 in
/-- `c51_opt_chosen_partial` applied: the same with the table learned from the document. -/
example : ∃ q r, buildQuery (astOf exParDescPath) = some q ∧
    PrunedRun intOps q.1 q.2 (collectConstraints (fun _ => []) q.1 ([] ++ exParSlice.render ++ [])) 48 2 (fun _ _ => .other)
      ([] ++ exParSlice.render ++ []) r ∧
    parallelRunOpt intOps 48 2 (some (collectConstraints (fun _ => []) q.1 ([] ++ exParSlice.render ++ []))) (fun _ _ => .other)
      (fun _ _ _ => .other) (astOf exParDescPath) ([] ++ exParSlice.render ++ []) = some (some r) ∧
    r.pf.output = ["2".toList, "3".toList, "5".toList] := by
  have h1 : (buildQuery (astOf exParDescPath)).map (fun q => (parallelPieces intOps q.1 q.2
      (some (collectConstraints (fun _ => []) q.1 ([] ++ exParSlice.render ++ []))) (fun _ _ => .other) 2 0 none
      (pieces 48 ([] ++ exParSlice.render ++ []) (([] ++ exParSlice.render ++ []).length + 1) 0)).map (·.map (·.pf.output))) =
      some (some (some ["2".toList, "3".toList, "5".toList])) := by decide +kernel
  have h2 : (buildQuery (astOf exParDescPath)).map (fun q => prunedDefinedB intOps q.1 q.2
      (collectConstraints (fun _ => []) q.1 ([] ++ exParSlice.render ++ [])) 48 2 (fun _ _ => .other) ([] ++ exParSlice.render ++ [])) =
      some true := by decide +kernel
  cases hq : buildQuery (astOf exParDescPath) with
  | none => rw [hq] at h2; cases h2
  | some q =>
    rw [hq] at h1 h2
    simp only [Option.map_some, Option.some.injEq] at h1 h2
    obtain ⟨z, hz, e⟩ := Option.map_eq_some_iff.1 h1
    obtain ⟨r, rfl, e⟩ := Option.map_eq_some_iff.1 e
    have hP := prunedRun_of hz h2
    obtain ⟨c, hbc, hpc⟩ := pathCtx_of_build exParDescPath (by decide) (by decide)
    refine ⟨q, r, rfl, hP, ?_, Option.some.inj e⟩
    refine (c51_opt_chosen_partial intOps exParDescPath (by decide) (by decide) exParDesc_bounds [] [] exParSlice exParDesc_doc (by decide)
      (by decide) (by decide) (by decide) (by decide) 48 2 (by decide) (by decide) q hq _ (learned_nodup _ _ _) (covers_learned _ _ _) _ _ r
      hP ?_ exParDesc_torn).1
    intro B' s hB' hs'
    rw [serialRun_single intOps _ _ _ c hbc exParDesc_doc.nonempty hB'] at hs'
    rw [← Option.some.inj hs']
    exact (chosen_clean intOps exParDescPath (by decide) hpc exParDesc_bounds [] [] exParSlice exParDesc_doc (by decide) (by decide) (by decide)
      (by decide) exParDesc_few exParDesc_short).2

end JPS
