import Verif.Combine
import Verif.ParChunk
/-!
# Reprocessing of units and `parallelRunOpt`

`Verif/Combine.lean` follows `combine` up to the point where a unit has to be reprocessed.  Here is the whole function.  The
positions `unit.start` and `unit.end`, which only reprocessing uses, are computed beside the run of the worker.
-/

set_option autoImplicit false

namespace JPS

/-- The tokens of a stream with `lexer.current_start - lexer.begin_stream` after each, lexing.c:33, 42, 51, 60, 69, 135, 150
and 186. -/
def lexPosFrom (s : Str) : Nat → Lexer → List (Tok × Nat)
  | 0, _ => []
  | fuel + 1, lx =>
    let (t, lx') := nextToken s lx
    match t.toTok lx' with
    | none => []
    | some t => (t, lx'.cstart) :: lexPosFrom s fuel lx'

/-- The same from the start of the stream. -/
def lexPos (s : Str) : List (Tok × Nat) := lexPosFrom s (s.length + 1) Lexer.init

/-- The token types at which `addStartPosition` is called: `{`, `[` and keys (worker_automaton.c:185-189, 340-344, 495-499),
but not a primitive (563-564). -/
def Tok.starts : Tok → Bool
  | .lcb _ => true
  | .lb _ => true
  | .ky _ => true
  | _ => false

/-- `unit.start` (`none`: NULL) and `unit.end` of the units of a worker, as offsets in its chunk of length `n`; `b` is
`unit.start` of the current unit.  worker_automaton.c:185-189, 340-344, 495-499 (start), 245, 273, 422, 479, 549 (end), 599 (end
of the last unit); unit.h:56-57. -/
def W.spans (E : WEnv) (n : Nat) : W → Option Nat → List (Tok × Nat) → List (Option Nat × Nat)
  | _, b, [] => [(b, n)]
  | w, b, (t, c) :: ts =>
    let w' := w.step E t (ts.map (·.1))
    if w.units.length < w'.units.length then (b, c - 1) :: W.spans E n w' none ts
    else if w.unit.state ≠ .matched ∧ t.starts then W.spans E n w' (some (c - 1)) ts
    else W.spans E n w' b ts

/-- The positions of the units of worker `i` on its chunk. -/
def unitSpans (d : QDfa) (ct : Option CTable) (u : UState) (i : Nat) (chunk : Str) : List (Option Nat × Nat) :=
  W.spans ⟨d, i == 0, chunk, ct, some (startStates d i)⟩ chunk.length (W.init (startStates d i) u) none (lexPos chunk)

/-- A unit processed again by worker 0 from the combined stacks, parallel_automata_execution.h:288-299 and
worker_automaton.c:130-135.  `query_state` is not written in such a run; `u` is the indeterminate `unit_state`. -/
def K.reprocess (d : QDfa) (ct : Option CTable) (u : UState) (text : Str) (k : K) : K :=
  let w := (W.run ⟨d, true, text, ct, none⟩ (W.resume k.q k.elt k.ss u) (lexAll text)).finish.orUb (contentUb text)
  ⟨w.ss, w.q, w.elt, k.ub || w.ub, true⟩

/-- The condition of parallel_automata_execution.h:282 for the current state `s`. -/
def PUnit.wrong (un : PUnit) (s : Nat) : Bool :=
  (un.roots.find? fun r => r.1 == s).isNone && decide (un.roots ≠ []) && decide (un.state ≠ .unmatched)

/-- A unit whose start states do not contain the current one, parallel_automata_execution.h:282-305.  If `start` is NULL, an
offset from NULL is taken: undefined.  If the unit has no text, nothing happens.  The flag tells whether the unit was
processed again. -/
def K.again (d : QDfa) (ct : Option CTable) (right : Str) (u : UState) (sp : Option Nat × Nat) (k : K) : K × Bool :=
  match sp.1 with
  | none => ({ k.orUb true with re := true }, false)
  | some b =>
    if sp.2 > b then (K.reprocess d ct u (substring right b sp.2) (k.orUb (substringOOB right sp.2)), true)
    else ({ k with re := true }, false)

/-- One unit, parallel_automata_execution.h:154-346, with reprocessing. -/
def K.unitR (d : QDfa) (ct : Option CTable) (left right : Str) (tl : List MTuple) (u : UState) (k : K) (un : PUnit)
    (sp : Option Nat × Nat) : K × Bool :=
  let k' := un.syms.foldl (K.sym d left right) k
  match k'.cur with
  | none => (k.unit d left right tl un, false)
  | some c => if un.wrong c.st then k'.again d ct right u sp else (k.unit d left right tl un, false)

/-- The loop over the units of a chunk, parallel_automata_execution.h:154-346; the flag is `merge_needed == 0`.  `u` by number of
the unit. -/
def K.unitsR (d : QDfa) (ct : Option CTable) (left right : Str) (tl : List MTuple) (u : Nat → UState) :
    Nat → K × Bool → List (PUnit × (Option Nat × Nat)) → K × Bool
  | _, p, [] => p
  | j, p, x :: xs => K.unitsR d ct left right tl u (j + 1) (p.1.unitR d ct left right tl (u j) x.1 x.2) xs

/-- One iteration of the outer loop of `combine`, parallel_automata_execution.h:147-353. -/
def K.chunkR (d : QDfa) (ct : Option CTable) (u : Nat → UState) (left right : Str) (k : K) (w : W)
    (sps : List (Option Nat × Nat)) : K :=
  let p := K.unitsR d ct left right w.q.tl u 0 (k, false) (w.units.zip sps)
  (if p.2 then p.1 else p.1.merge w).orUb (w.ub || w.q.ub)

/-- `combine`, parallel_automata_execution.h:147-353, for the chunks from number `i` on; `u` are the unit states of the threads,
`ru` those of the reprocessing runs by chunk and unit. -/
def combineR (d : QDfa) (ct : Option CTable) (u : Nat → UState) (ru : Nat → Nat → UState) : Nat → K → Str → List Str → K
  | _, k, _, [] => k
  | i, k, left, c :: cs =>
    combineR d ct u ru (i + 1) (k.chunkR d ct (ru i) left c (runWorker d ct (u i) i c) (unitSpans d ct (u i) i c)) c cs

/-- `executeParallelAutomata`, parallel_automata_execution.h:363-397, with reprocessing. -/
def executeParallelR (d : QDfa) (ct : Option CTable) (u : Nat → UState) (ru : Nat → Nat → UState) (old : Option K) :
    List Str → Option K
  | [] => none
  | c :: cs => some ((combineR d ct u ru 1 (K.ofW (worker0 d ct (u 0) old c)) c cs).orUb (decide (cs.length ≥ MAX_THREAD)))

/-- `parallelPartialRunOpt`, path_processor.h:318-349.  `none`: undefined behaviour. -/
def parallelPartialRunOpt (O : NumOps) (d : QDfa) (ctx : QCtx) (ct : Option CTable) (u : Nat → UState) (ru : Nat → Nat → UState)
    (cores : Nat) (c : Option ParallelCtx) (s : Str) : Option ParallelCtx :=
  match partition cores s with
  | none => none
  | some chunks =>
    if chunks.any Option.isNone then none
    else
      match executeParallelR d ct u ru (c.map (·.k)) (chunks.filterMap id) with
      | none => none
      | some k =>
        let pf := match c with
          | some c => c.pf
          | none => PF.init ctx
        some ⟨k, generate O ctx pf k.tuples⟩

/-- `parallelRunOpt`, path_processor.h:351-367, on the pieces of a file. -/
def parallelPiecesOpt (O : NumOps) (d : QDfa) (ctx : QCtx) (ct : Option CTable) (u : Nat → Nat → UState)
    (ru : Nat → Nat → Nat → UState) (cores : Nat) : Nat → Option ParallelCtx → List Str → Option (Option ParallelCtx)
  | _, c, [] => some c
  | n, c, p :: ps =>
    match parallelPartialRunOpt O d ctx ct (u n) (ru n) cores c p with
    | none => none
    | some c => parallelPiecesOpt O d ctx ct u ru cores (n + 1) (some c) ps

/-- `createPathProcessor` on a parsed path and `parallelRunOpt`, path_processor.h:156-165, 351-367. -/
def parallelRunOpt (O : NumOps) (B : Nat) (cores : Nat) (ct : Option CTable) (u : Nat → Nat → UState)
    (ru : Nat → Nat → Nat → UState) (t : Ast) (file : Str) : Option (Option ParallelCtx) :=
  (buildQuery t).bind fun q => parallelPiecesOpt O q.1 q.2 ct u ru cores 0 none (pieces B file (file.length + 1) 0)

/-! ### Without reprocessing it is `executeParallel` -/

theorem lexPosFrom_fst (s : Str) : ∀ (n : Nat) (lx : Lexer), (lexPosFrom s n lx).map (·.1) = lexFrom s n lx
  | 0, _ => rfl
  | n + 1, lx => by
    simp only [lexPosFrom, lexFrom]
    cases (nextToken s lx).1.toTok (nextToken s lx).2 with
    | none => rfl
    | some t => simp [lexPosFrom_fst s n]

theorem lexPos_fst (s : Str) : (lexPos s).map (·.1) = lexAll s := lexPosFrom_fst s _ _

theorem K.unit_wrong {d : QDfa} {left right : Str} {tl : List MTuple} {k : K} {un : PUnit} {c : Node}
    (hc : (un.syms.foldl (K.sym d left right) k).cur = some c) (h : un.wrong c.st = true) :
    (k.unit d left right tl un).re = true := by
  simp only [PUnit.wrong, Bool.and_eq_true, Option.isNone_iff_eq_none] at h
  obtain ⟨⟨h1, h2⟩, h3⟩ := h
  unfold K.unit
  simp only [hc]
  rw [h1]
  simp only [h2, h3, Bool.and_self, Bool.or_true]

theorem K.unitR_eq {d : QDfa} {ct : Option CTable} {left right : Str} {tl : List MTuple} {u : UState} {k : K} {un : PUnit}
    {sp : Option Nat × Nat} (h : (k.unit d left right tl un).re = false) :
    k.unitR d ct left right tl u un sp = (k.unit d left right tl un, false) := by
  unfold K.unitR
  dsimp only
  cases hc : (un.syms.foldl (K.sym d left right) k).cur with
  | none => rfl
  | some c =>
    cases hw : un.wrong c.st with
    | false => simp only [hw]; rfl
    | true => rw [K.unit_wrong hc hw] at h; cases h

theorem K.again_re {d : QDfa} {ct : Option CTable} {right : Str} {u : UState} {sp : Option Nat × Nat} {k : K} :
    (k.again d ct right u sp).1.re = true := by
  unfold K.again
  split
  · rfl
  · split <;> rfl

theorem W.closeUnit_units (E : WEnv) (w : W) : (w.closeUnit E).units = w.units ∨ ∃ u, (w.closeUnit E).units = w.units ++ [u] := by
  unfold W.closeUnit
  split
  · cases E.starts with
    | none => exact .inr ⟨_, rfl⟩
    | some st => exact .inr ⟨_, rfl⟩
  · exact .inl rfl

theorem W.inferred_units (w : W) (x : TT) (rest : List Tok) : (w.inferred x rest).units = w.units := by
  unfold W.inferred; split <;> rfl

theorem W.mark_units (w : W) : w.mark.units = w.units := by
  unfold W.mark; rfl

theorem W.pruned_units (E : WEnv) (w : W) (k : CKey) : (w.pruned E k).units = w.units := by
  unfold W.pruned
  split
  · rfl
  · split
    · split <;> rfl
    · rfl

/-- A step closes at most one unit. -/
theorem W.step_units (E : WEnv) (w : W) (t : Tok) (rest : List Tok) :
    (w.step E t rest).units = w.units ∨ ∃ u, (w.step E t rest).units = w.units ++ [u] := by
  cases t with
  | lcb p => exact .inl (W.mark_units w)
  | rcb p =>
    show (w.rcb E p rest).units = _ ∨ ∃ u, (w.rcb E p rest).units = _
    unfold W.rcb
    split
    · exact W.closeUnit_units E w
    · dsimp only
      split
      · have e : ((w.closeOut E false p w.elt).inferred .rcb rest).units = w.units := W.inferred_units _ _ _
        split
        · exact .inl e
        · split
          · have := W.closeUnit_units E ((w.closeOut E false p w.elt).inferred .rcb rest)
            rw [e] at this; exact this
          · split <;> exact .inl e
      · split
        · exact .inl rfl
        · split <;> exact .inl rfl
  | lb p => exact .inl ((W.pruned_units E w.mark none).trans (W.mark_units w))
  | rb p =>
    show (w.rb E p rest).units = _ ∨ ∃ u, (w.rb E p rest).units = _
    unfold W.rb
    split
    · exact W.closeUnit_units E w
    · have h1 : (w.rbOut E p).units = w.units := by unfold W.rbOut; split <;> rfl
      rw [← h1]
      generalize w.rbOut E p = w
      unfold W.rbEnd
      dsimp only
      split
      · have e : (w.inferred .rb rest).units = w.units := W.inferred_units _ _ _
        split
        · exact .inl e
        · split
          · have := W.closeUnit_units E (w.inferred .rb rest)
            rw [e] at this; exact this
          · split <;> exact .inl e
      · split
        · exact .inl rfl
        · split <;> exact .inl rfl
  | com => exact .inl rfl
  | ky k => exact .inl ((W.pruned_units E w.mark (some k)).trans (W.mark_units w))
  | pri x =>
    show (w.pri E x rest).units = _ ∨ ∃ u, (w.pri E x rest).units = _
    unfold W.pri
    split
    · dsimp only
      split <;> exact .inl rfl
    · dsimp only
      have e : (w.inferred .pri rest).units = w.units := W.inferred_units _ _ _
      split
      · have := W.closeUnit_units E (w.inferred .pri rest)
        rw [e] at this; exact this
      · split
        · exact .inl ((W.mark_units _).trans e)
        · exact .inl e

theorem W.spans_length (E : WEnv) (n : Nat) : ∀ (ts : List (Tok × Nat)) (w : W) (b : Option Nat),
    (w.run E (ts.map (·.1))).units.length + 1 = w.units.length + (W.spans E n w b ts).length
  | [], _, _ => rfl
  | (t, c) :: ts, w, b => by
    have ih := W.spans_length E n ts (w.step E t (ts.map (·.1)))
    show ((w.step E t (ts.map (·.1))).run E (ts.map (·.1))).units.length + 1 = _
    unfold W.spans
    dsimp only
    rcases W.step_units E w t (ts.map (·.1)) with h | ⟨u, h⟩
    · rw [if_neg (by rw [h]; omega)]
      rw [h] at ih
      split <;> exact ih _
    · rw [if_pos (by rw [h, List.length_append]; simp)]
      rw [ih none, h]
      simp only [List.length_append, List.length_cons, List.length_nil]
      omega

/-- There is one pair of positions for each unit. -/
theorem unitSpans_length (d : QDfa) (ct : Option CTable) (u : UState) (i : Nat) (c : Str) :
    (unitSpans d ct u i c).length = (runWorker d ct u i c).units.length := by
  have := W.spans_length ⟨d, i == 0, c, ct, some (startStates d i)⟩ c.length (lexPos c) (W.init (startStates d i) u) none
  rw [lexPos_fst] at this
  have h0 : (W.init (startStates d i) u).units.length = 0 := rfl
  rw [h0, Nat.zero_add] at this
  rw [unitSpans, ← this]
  show _ = (List.length (W.run ⟨d, i == 0, c, ct, some (startStates d i)⟩ (W.init (startStates d i) u) (lexAll c)).finish.units)
  simp [W.finish]

theorem K.unitsR_eq {d : QDfa} {ct : Option CTable} {left right : Str} {tl : List MTuple} {u : Nat → UState} :
    ∀ (us : List PUnit) (sps : List (Option Nat × Nat)) (j : Nat) (k : K), us.length ≤ sps.length →
    (us.foldl (K.unit d left right tl) k).re = false →
    K.unitsR d ct left right tl u j (k, false) (us.zip sps) = (us.foldl (K.unit d left right tl) k, false)
  | [], _, _, _, _, _ => rfl
  | un :: us, [], _, _, h, _ => absurd h (by simp)
  | un :: us, sp :: sps, j, k, h, hre => by
    have h1 : (k.unit d left right tl un).re = false := by
      cases e : (k.unit d left right tl un).re with
      | false => rfl
      | true => rw [List.foldl_cons, K.units_re us e] at hre; cases hre
    rw [List.zip_cons_cons, K.unitsR, K.unitR_eq h1]
    exact K.unitsR_eq us sps (j + 1) _ (by simpa using h) hre

theorem K.chunkR_eq {d : QDfa} {ct : Option CTable} {u : Nat → UState} {left right : Str} {k : K} {w : W}
    {sps : List (Option Nat × Nat)} (h : w.units.length ≤ sps.length) (hre : (k.chunk d left right w).re = false) :
    k.chunkR d ct u left right w sps = k.chunk d left right w := by
  unfold K.chunkR
  rw [K.unitsR_eq w.units sps 0 k h hre]
  rfl

theorem combineR_eq {d : QDfa} {ct : Option CTable} {u : Nat → UState} {ru : Nat → Nat → UState} : ∀ (cs : List Str) (i : Nat) (k : K)
    (left : Str), (combineLoop d k left (workersFrom d ct u i cs)).re = false →
    combineR d ct u ru i k left cs = combineLoop d k left (workersFrom d ct u i cs)
  | [], _, _, _, _ => rfl
  | c :: cs, i, k, left, h => by
    have h1 : (k.chunk d left c (runWorker d ct (u i) i c)).re = false := by
      cases e : (k.chunk d left c (runWorker d ct (u i) i c)).re with
      | false => rfl
      | true => rw [workersFrom, combineLoop, combineLoop_re _ e] at h; cases h
    rw [combineR, K.chunkR_eq (by rw [unitSpans_length]; exact Nat.le_refl _) h1]
    exact combineR_eq cs (i + 1) _ c h

/-- Where no unit is reprocessed, the whole function does what `executeParallel` does. -/
theorem executeParallelR_eq {d : QDfa} {ct : Option CTable} {u : Nat → UState} {ru : Nat → Nat → UState} {old : Option K}
    {cs : List Str} {k : K} (h : executeParallel d ct u old cs = some k) (hre : k.re = false) :
    executeParallelR d ct u ru old cs = some k := by
  cases cs with
  | nil => cases h
  | cons c cs =>
    cases h
    unfold executeParallelR
    dsimp only
    rw [combineR_eq cs 1 _ c hre]

theorem parallelPartialRunOpt_eq {O : NumOps} {d : QDfa} {ctx : QCtx} {ct : Option CTable} {u : Nat → UState}
    {ru : Nat → Nat → UState} {cores : Nat} {c : Option ParallelCtx} {s : Str} {r : ParallelCtx}
    (h : parallelPartialRun O d ctx ct u cores c s = some r) (hre : r.k.re = false) :
    parallelPartialRunOpt O d ctx ct u ru cores c s = some r := by
  unfold parallelPartialRun at h
  unfold parallelPartialRunOpt
  cases hp : partition cores s with
  | none => rw [hp] at h; cases h
  | some chunks =>
    simp only [hp] at h ⊢
    split at h
    · cases h
    · rename_i hn
      rw [if_neg hn]
      cases hx : executeParallel d ct u (c.map (·.k)) (chunks.filterMap id) with
      | none => rw [hx] at h; cases h
      | some k =>
        simp only [hx, Option.some.injEq] at h
        subst h
        simp only [executeParallelR_eq (ru := ru) hx hre]
        rfl

/-! ### and the other way round -/

theorem K.unitR_re {d : QDfa} {ct : Option CTable} {left right : Str} {tl : List MTuple} {u : UState} {k : K} {un : PUnit}
    {sp : Option Nat × Nat} (h : k.re = true) : (k.unitR d ct left right tl u un sp).1.re = true := by
  unfold K.unitR
  dsimp only
  cases hc : (un.syms.foldl (K.sym d left right) k).cur with
  | none => exact K.unit_re h
  | some c =>
    cases hw : un.wrong c.st with
    | false => simp only [hw]; exact K.unit_re h
    | true => simp only [hw]; exact K.again_re

theorem K.unitR_inv {d : QDfa} {ct : Option CTable} {left right : Str} {tl : List MTuple} {u : UState} {k : K} {un : PUnit}
    {sp : Option Nat × Nat} (h : (k.unitR d ct left right tl u un sp).1.re = false) :
    k.unitR d ct left right tl u un sp = (k.unit d left right tl un, false) := by
  revert h
  unfold K.unitR
  dsimp only
  cases hc : (un.syms.foldl (K.sym d left right) k).cur with
  | none => intro _; rfl
  | some c =>
    cases hw : un.wrong c.st with
    | false => intro _; simp only [hw]; rfl
    | true =>
      simp only [hw]
      intro h
      have := K.again_re (d := d) (ct := ct) (right := right) (u := u) (sp := sp) (k := un.syms.foldl (K.sym d left right) k)
      rw [if_pos trivial] at h
      rw [this] at h; cases h

theorem K.unitsR_re {d : QDfa} {ct : Option CTable} {left right : Str} {tl : List MTuple} {u : Nat → UState} :
    ∀ (xs : List (PUnit × (Option Nat × Nat))) (j : Nat) (p : K × Bool), p.1.re = true →
    (K.unitsR d ct left right tl u j p xs).1.re = true
  | [], _, _, h => h
  | _ :: xs, j, _, h => K.unitsR_re xs (j + 1) _ (K.unitR_re h)

theorem K.unitsR_inv {d : QDfa} {ct : Option CTable} {left right : Str} {tl : List MTuple} {u : Nat → UState} :
    ∀ (us : List PUnit) (sps : List (Option Nat × Nat)) (j : Nat) (k : K), us.length ≤ sps.length →
    (K.unitsR d ct left right tl u j (k, false) (us.zip sps)).1.re = false →
    K.unitsR d ct left right tl u j (k, false) (us.zip sps) = (us.foldl (K.unit d left right tl) k, false)
  | [], _, _, _, _, _ => rfl
  | un :: us, [], _, _, h, _ => absurd h (by simp)
  | un :: us, sp :: sps, j, k, h, hre => by
    rw [List.zip_cons_cons, K.unitsR] at hre ⊢
    have h1 : (k.unitR d ct left right tl (u j) un sp).1.re = false := by
      cases e : (k.unitR d ct left right tl (u j) un sp).1.re with
      | false => rfl
      | true => rw [K.unitsR_re (us.zip sps) (j + 1) _ e] at hre; cases hre
    have h2 := K.unitR_inv h1
    dsimp only at hre ⊢
    rw [h2] at hre ⊢
    exact K.unitsR_inv us sps (j + 1) _ (by simpa using h) hre

theorem K.chunkR_re {d : QDfa} {ct : Option CTable} {u : Nat → UState} {left right : Str} {k : K} {w : W}
    {sps : List (Option Nat × Nat)} :
    (k.chunkR d ct u left right w sps).re = (K.unitsR d ct left right w.q.tl u 0 (k, false) (w.units.zip sps)).1.re := by
  unfold K.chunkR
  dsimp only
  split <;> rfl

theorem K.chunkR_inv {d : QDfa} {ct : Option CTable} {u : Nat → UState} {left right : Str} {k : K} {w : W}
    {sps : List (Option Nat × Nat)} (h : w.units.length ≤ sps.length) (hre : (k.chunkR d ct u left right w sps).re = false) :
    k.chunkR d ct u left right w sps = k.chunk d left right w := by
  rw [K.chunkR_re] at hre
  unfold K.chunkR
  rw [K.unitsR_inv w.units sps 0 k h hre]
  rfl

theorem combineR_re {d : QDfa} {ct : Option CTable} {u : Nat → UState} {ru : Nat → Nat → UState} : ∀ (cs : List Str) (i : Nat) (k : K)
    (left : Str), k.re = true → (combineR d ct u ru i k left cs).re = true
  | [], _, _, _, h => h
  | c :: cs, i, k, left, h => combineR_re cs (i + 1) _ c (by rw [K.chunkR_re]; exact K.unitsR_re _ _ _ h)

theorem combineR_inv {d : QDfa} {ct : Option CTable} {u : Nat → UState} {ru : Nat → Nat → UState} : ∀ (cs : List Str) (i : Nat) (k : K)
    (left : Str), (combineR d ct u ru i k left cs).re = false →
    combineR d ct u ru i k left cs = combineLoop d k left (workersFrom d ct u i cs)
  | [], _, _, _, _ => rfl
  | c :: cs, i, k, left, h => by
    rw [combineR] at h ⊢
    have h1 : (k.chunkR d ct (ru i) left c (runWorker d ct (u i) i c) (unitSpans d ct (u i) i c)).re = false := by
      cases e : (k.chunkR d ct (ru i) left c (runWorker d ct (u i) i c) (unitSpans d ct (u i) i c)).re with
      | false => rfl
      | true => rw [combineR_re cs (i + 1) _ c e] at h; cases h
    rw [K.chunkR_inv (by rw [unitSpans_length]; exact Nat.le_refl _) h1] at h ⊢
    exact combineR_inv cs (i + 1) _ c h

/-- If the whole function reprocesses no unit, it does what `executeParallel` does. -/
theorem executeParallelR_inv {d : QDfa} {ct : Option CTable} {u : Nat → UState} {ru : Nat → Nat → UState} {old : Option K}
    {cs : List Str} {k : K} (h : executeParallelR d ct u ru old cs = some k) (hre : k.re = false) :
    executeParallel d ct u old cs = some k := by
  cases cs with
  | nil => cases h
  | cons c cs =>
    cases h
    unfold executeParallel
    dsimp only
    rw [combineR_inv cs 1 _ c hre]

theorem parallelPartialRunOpt_inv {O : NumOps} {d : QDfa} {ctx : QCtx} {ct : Option CTable} {u : Nat → UState}
    {ru : Nat → Nat → UState} {cores : Nat} {c : Option ParallelCtx} {s : Str} {r : ParallelCtx}
    (h : parallelPartialRunOpt O d ctx ct u ru cores c s = some r) (hre : r.k.re = false) :
    parallelPartialRun O d ctx ct u cores c s = some r := by
  unfold parallelPartialRunOpt at h
  unfold parallelPartialRun
  cases hp : partition cores s with
  | none => rw [hp] at h; cases h
  | some chunks =>
    simp only [hp] at h ⊢
    split at h
    · cases h
    · rename_i hn
      rw [if_neg hn]
      cases hx : executeParallelR d ct u ru (c.map (·.k)) (chunks.filterMap id) with
      | none => rw [hx] at h; cases h
      | some k =>
        simp only [hx, Option.some.injEq] at h
        subst h
        simp only [executeParallelR_inv hx hre]
        rfl

end JPS
