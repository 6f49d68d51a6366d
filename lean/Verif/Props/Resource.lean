import Verif.Resource
import Verif.PieceSim
import Verif.Props.Query
import Verif.Props.PiecesDoc
/-!
# C36: the storage of serial runs
-/

set_option autoImplicit false

namespace JPS
open Spec

/-! ### The tuples found before do not matter -/

/-- The same configuration, with more tuples in front. -/
structure TlSim (pre : List Tuple) (a b : SA) : Prop where
  elt : a.elt = b.elt
  ss : a.ss = b.ss
  qs : a.qs = b.qs
  tl : a.tl = pre ++ b.tl

theorem TlSim.add {pre : List Tuple} {a b : SA} (h : TlSim pre a b) (s : Nat) (t : Str) : TlSim pre (a.addTuple s t) (b.addTuple s t) :=
  ⟨h.elt, h.ss, h.qs, by simp [SA.addTuple, h.tl]⟩

theorem TlSim.pop {pre : List Tuple} {a b : SA} (h : TlSim pre a b) : TlSim pre a.popQ b.popQ := by
  obtain ⟨e, s, q, t, u⟩ := a
  obtain ⟨e', s', q', t', u'⟩ := b
  obtain ⟨h1, h2, h3, h4⟩ := h
  simp only at h1 h2 h3 h4
  subst h1 h2 h3
  unfold SA.popQ
  cases q with
  | nil => exact ⟨rfl, rfl, rfl, h4⟩
  | cons x q => exact ⟨rfl, rfl, rfl, h4⟩

theorem TlSim.setSs {pre : List Tuple} {a b : SA} (h : TlSim pre a b) (ss : List Sym) : TlSim pre { a with ss := ss } { b with ss := ss } :=
  ⟨h.elt, rfl, h.qs, h.tl⟩

theorem TlSim.setElt {pre : List Tuple} {a b : SA} (h : TlSim pre a b) (e : Elt) : TlSim pre { a with elt := e } { b with elt := e } :=
  ⟨rfl, h.ss, h.qs, h.tl⟩

theorem TlSim.setQs {pre : List Tuple} {a b : SA} (h : TlSim pre a b) (q : List Elt) : TlSim pre { a with qs := q } { b with qs := q } :=
  ⟨h.elt, h.ss, rfl, h.tl⟩

theorem TlSim.close {pre : List Tuple} {a b : SA} (h : TlSim pre a b) (d : QDfa) (s : Str) (pos : Nat) (e : Elt) :
    TlSim pre (a.closeOutput d s pos e) (b.closeOutput d s pos e) := by
  unfold SA.closeOutput
  cases e.ms with
  | some b =>
    dsimp only
    split
    · have := h.add e.st (substring s b pos); exact ⟨this.elt, this.ss, this.qs, this.tl⟩
    · exact h
  | none => exact h

theorem TlSim.rcbOutput {pre : List Tuple} {a b : SA} (h : TlSim pre a b) (d : QDfa) (s : Str) (pos : Nat) :
    TlSim pre (JPS.rcbOutput d s pos a) (JPS.rcbOutput d s pos b) := by
  unfold JPS.rcbOutput
  simp only [h.elt]
  have h1 := h.close d s pos b.elt
  split
  · exact ⟨by simp [h1.elt], h1.ss, h1.qs, h1.tl⟩
  · exact h1

theorem TlSim.step {pre : List Tuple} {a b : SA} (h : TlSim pre a b) (d : QDfa) (s : Str) (t : Tok) :
    TlSim pre (JPS.step d s a t) (JPS.step d s b t) := by
  cases t with
  | com => exact h
  | lcb p =>
    have h1 := h.setSs (push b.ss .lcb)
    simp only [JPS.step, stepLcb, h.ss]
    rw [h.elt] at h1 ⊢
    split
    · exact ⟨rfl, rfl, h.qs, h.tl⟩
    · exact h1.add b.elt.st ['{']
    · exact h1.add b.elt.st []
    · exact h1
  | rcb p =>
    have h0 := h.rcbOutput d s p
    show TlSim pre (stepRcb d s p a) (stepRcb d s p b)
    unfold stepRcb
    revert h0
    generalize JPS.rcbOutput d s p a = a'
    generalize JPS.rcbOutput d s p b = b'
    intro h0
    dsimp only
    rw [h0.ss]
    split
    · exact h0.setSs _
    · split
      · split
        · have h1 := h0.pop
          exact ⟨h1.elt, by rw [h1.ss], h1.qs, h1.tl⟩
        · split
          · rw [h0.elt]
            have h1 : TlSim pre { a' with ss := JPS.pop b'.ss, elt := { b'.elt with count := b'.elt.count + 1 } }
              { b' with ss := JPS.pop b'.ss, elt := { b'.elt with count := b'.elt.count + 1 } } := ⟨rfl, rfl, h0.qs, h0.tl⟩
            split
            · exact h1.add _ _
            · exact h1
          · exact h0
      · exact h0
  | lb p =>
    simp only [JPS.step, stepLb]
    rw [h.elt]
    split
    · exact ⟨rfl, by rw [h.ss], by rw [h.qs], h.tl⟩
    · have h1 := h.add b.elt.st []
      exact ⟨by rw [h1.elt], by rw [h1.ss], by rw [h1.qs, h1.elt], h1.tl⟩
    · exact ⟨by rw [h.elt], by rw [h.ss], by rw [h.qs, h.elt], h.tl⟩
  | rb p =>
    show TlSim pre (stepRb d s p a) (stepRb d s p b)
    rw [stepRb_tail, stepRb_tail, h.ss]
    split
    · have h0 : TlSim pre (rbOut d s p a) (rbOut d s p b) := by
        unfold rbOut
        rw [h.qs]
        split
        · exact h.close d s p _
        · exact h
      revert h0
      generalize rbOut d s p a = a'
      generalize rbOut d s p b = b'
      intro h0
      unfold rbTail
      rw [h0.ss]
      split
      · have h1 := h0.pop
        exact ⟨h1.elt, congrArg JPS.pop h1.ss, h1.qs, h1.tl⟩
      · split
        · rw [h0.qs]
          have h1 := (h0.setQs (JPS.pop b'.qs)).pop
          rw [h0.ss] at h1
          exact ⟨h1.elt, congrArg (fun l => JPS.pop (JPS.pop l)) h1.ss, h1.qs, h1.tl⟩
        · split
          · have h1 := h0.pop
            exact ⟨congrArg (fun e : Elt => { e with count := e.count + 1 }) h1.elt, congrArg JPS.pop h1.ss, h1.qs, h1.tl⟩
          · exact h0
    · exact h
  | ky k => exact ⟨by simp [JPS.step, stepKy, h.elt], by simp [JPS.step, stepKy, h.ss], by simp [JPS.step, stepKy, h.qs, h.elt], h.tl⟩
  | pri x =>
    show TlSim pre (stepPri d x a) (stepPri d x b)
    rw [stepPri_tail, stepPri_tail, h.ss]
    split
    · have h0 : TlSim pre (priOut d x a) (priOut d x b) := by
        unfold priOut
        rw [h.elt]
        split
        · exact h.add _ _
        · exact h.add _ _
        · exact h
      revert h0
      generalize priOut d x a = a'
      generalize priOut d x b = b'
      intro h0
      unfold priTail
      rw [h0.ss, h0.elt]
      split
      · have h1 := h0.pop
        exact ⟨h1.elt, congrArg JPS.pop h1.ss, h1.qs, h1.tl⟩
      · split
        · exact ⟨rfl, rfl, h0.qs, h0.tl⟩
        · exact h0
    · exact h

theorem TlSim.exec {pre : List Tuple} {a b : SA} (h : TlSim pre a b) (d : QDfa) (s : Str) :
    TlSim pre (execAutomaton d s a) (execAutomaton d s b) := by
  have key : ∀ (ts : List Tok) (a b : SA), TlSim pre a b → TlSim pre (runToks d s a ts) (runToks d s b ts) := by
    intro ts
    induction ts with
    | nil => intro a b h; exact h
    | cons t ts ih => intro a b h; exact ih _ _ (h.step d s t)
  have h1 := key (lexAll s) a b h
  obtain ⟨a1, a2, a3, a4⟩ := execAutomaton_fields d s a
  obtain ⟨b1, b2, b3, b4⟩ := execAutomaton_fields d s b
  exact ⟨by rw [a4, b4, h1.elt], by rw [a2, b2, h1.ss], by rw [a3, b3, h1.qs], by rw [a1, b1, h1.tl]⟩

/-! ### One piece -/

/-- **C36 (one piece)** A serial run on a file that fits into one piece touches only live storage and gives the same result
whatever is in `finish_flag`; but it needs `ci.pa.major_automaton`, which is never written, to be NULL. -/
theorem c36_single_partial (O : NumOps) (d : QDfa) (ctx : QCtx) (g : Garbage) (p : Str) :
    serialRunR O d ctx g [p] =
      if g.majorNull then some (some (serialPartialRun O d ctx none p).pf) else none := by
  have h1 : serialPartialRunR O d ctx g.finish ⟨[]⟩ none p = if g.finish = 0
      then some (⟨[none, some []]⟩, ⟨⟨{ execAutomaton d p SA.init with tl := [] }, some 0, g.finish⟩, (serialPartialRun O d ctx none p).pf⟩)
      else some (⟨[some (execAutomaton d p SA.init).tl]⟩,
        ⟨⟨{ execAutomaton d p SA.init with tl := [] }, some 0, g.finish⟩, (serialPartialRun O d ctx none p).pf⟩) := by
    by_cases h : g.finish = 0
    · rw [if_pos h]
      simp [serialPartialRunR, SAR.init, Mem.alloc, SAR.exec, Mem.read, Mem.write, SAR.destroy, Mem.free, h, serialPartialRun]
      exact ⟨⟨rfl, rfl, rfl, rfl⟩, rfl⟩
    · rw [if_neg h]
      simp [serialPartialRunR, SAR.init, Mem.alloc, SAR.exec, Mem.read, Mem.write, SAR.destroy, Mem.free, h, serialPartialRun]
      exact ⟨rfl, ⟨rfl, rfl, rfl, rfl⟩, rfl⟩
  simp only [serialRunR, serialLoopR, h1]
  by_cases h : g.finish = 0 <;> simp [h, contextDestroyed] <;> rfl

/-! ### Several pieces, `finish_flag` happens to be `INPROGRESS` -/

/-- **C36 is false (released storage)** For every query and every file of at least two pieces, if `finish_flag` contains
`INPROGRESS`, the serial run uses the tuple list it has released after the first piece. -/
theorem c36_released (O : NumOps) (d : QDfa) (ctx : QCtx) (g : Garbage) (p q : Str) (ps : List Str) (h : g.finish = 0) :
    serialRunR O d ctx g (p :: q :: ps) = none := by
  have h1 : ∃ a pf, serialPartialRunR O d ctx g.finish ⟨[]⟩ none p = some (⟨[none, some []]⟩, ⟨⟨a, some 0, g.finish⟩, pf⟩) := by
    refine ⟨{ execAutomaton d p SA.init with tl := [] }, (serialPartialRun O d ctx none p).pf, ?_⟩
    simp [serialPartialRunR, SAR.init, Mem.alloc, SAR.exec, Mem.read, Mem.write, SAR.destroy, Mem.free, h, serialPartialRun]
    exact ⟨⟨rfl, rfl, rfl, rfl⟩, rfl⟩
  obtain ⟨a, pf, h1⟩ := h1
  have h2 : serialPartialRunR O d ctx g.finish ⟨[none, some []]⟩ (some ⟨⟨a, some 0, g.finish⟩, pf⟩) q = none := by
    simp only [serialPartialRunR, SAR.exec, Mem.read]
    by_cases hb : (execAutomaton d q { a with tl := [] }).tl = []
    · simp [hb, Mem.read]
    · simp [hb, Mem.read]
  simp only [serialRunR, serialLoopR, h1, h2]

/-! ### Several pieces, `finish_flag` happens to be something else -/

/-- The lists made of the first, the first two, ... lists. -/
def prefixes {α : Type} (pre : List α) : List (List α) → List (List α)
  | [] => []
  | l :: ls => (pre ++ l) :: prefixes (pre ++ l) ls

theorem serialLoopR_stale (O : NumOps) (d : QDfa) (ctx : QCtx) (g : Int) (hg : g ≠ 0) : ∀ (ps : List Str) (pre : List Tuple) (a b : SA) (pf : PF),
    TlSim [] { a with tl := [] } { b with tl := [] } →
    ∃ m r, serialLoopR O d ctx g ⟨[some pre]⟩ (some ⟨⟨a, some 0, g⟩, pf⟩) ps = some (m, some r) ∧
      r.pf = (prefixes pre (runPieces d b ps).1).foldl (generate O ctx) pf
  | [], pre, a, b, pf, _ => ⟨_, _, rfl, rfl⟩
  | p :: ps, pre, a, b, pf, h => by
    have h1 : TlSim pre (execAutomaton d p { a with tl := pre }) (execAutomaton d p { b with tl := [] }) :=
      TlSim.exec (a := { a with tl := pre }) (b := { b with tl := [] }) ⟨h.elt, h.ss, h.qs, (List.append_nil pre).symm⟩ d p
    have hp : serialPartialRunR O d ctx g ⟨[some pre]⟩ (some ⟨⟨a, some 0, g⟩, pf⟩) p =
        some (⟨[some (execAutomaton d p { a with tl := pre }).tl]⟩, ⟨⟨{ execAutomaton d p { a with tl := pre } with tl := [] }, some 0, g⟩,
          generate O ctx pf (execAutomaton d p { a with tl := pre }).tl⟩) := by
      simp [serialPartialRunR, SAR.exec, Mem.read, Mem.write, SAR.destroy, hg]
    obtain ⟨m, r, h2, h3⟩ := serialLoopR_stale O d ctx g hg ps (execAutomaton d p { a with tl := pre }).tl
      { execAutomaton d p { a with tl := pre } with tl := [] } (execAutomaton d p { b with tl := [] })
      (generate O ctx pf (execAutomaton d p { a with tl := pre }).tl) ⟨h1.elt, h1.ss, h1.qs, rfl⟩
    refine ⟨m, r, ?_, ?_⟩
    · simp only [serialLoopR, hp]; exact h2
    · rw [h3, h1.tl]; rfl

/-- **C36 (stale tuples)** If `finish_flag` contains something else, no released storage is touched; but then the list is never
emptied either, and after each piece the filter goes again through the tuples of all pieces so far. -/
theorem c36_stale (O : NumOps) (d : QDfa) (ctx : QCtx) (g : Garbage) (hg : g.finish ≠ 0) (hm : g.majorNull = true) (p : Str) (ps : List Str) :
    serialRunR O d ctx g (p :: ps) =
      some (some ((prefixes [] (runPieces d SA.init (p :: ps)).1).foldl (generate O ctx) (PF.init ctx))) := by
  have h1 : serialPartialRunR O d ctx g.finish ⟨[]⟩ none p = some (⟨[some (execAutomaton d p SA.init).tl]⟩,
        ⟨⟨{ execAutomaton d p SA.init with tl := [] }, some 0, g.finish⟩, generate O ctx (PF.init ctx) (execAutomaton d p SA.init).tl⟩) := by
    simp [serialPartialRunR, SAR.init, Mem.alloc, SAR.exec, Mem.read, Mem.write, SAR.destroy, hg]
    exact ⟨rfl, ⟨rfl, rfl, rfl, rfl⟩, rfl⟩
  obtain ⟨m, r, h2, h3⟩ := serialLoopR_stale O d ctx g.finish hg ps (execAutomaton d p SA.init).tl
      { execAutomaton d p SA.init with tl := [] } (execAutomaton d p SA.init)
      (generate O ctx (PF.init ctx) (execAutomaton d p SA.init).tl) ⟨rfl, rfl, rfl, rfl⟩
  simp only [serialRunR, serialLoopR, h1, h2, contextDestroyed, hm]
  simp only [Option.isSome_some, Bool.true_or, Bool.and_self, if_true, Option.map_some, h3]
  rfl

theorem generate_plain {O : NumOps} {ctx : QCtx} : ∀ (ts : List Tuple) (p : PF), p.conds = (fun _ => none) →
    (generate O ctx p ts).output = p.output ++ ts.map Tuple.text ∧ (generate O ctx p ts).conds = fun _ => none := by
  intro ts p hp
  have h0 : ((List.range MAX_PREDICATE_STATE).all fun s => (p.conds s).isNone) = true := by simp [hp]
  unfold generate
  rw [if_pos h0]
  clear h0
  induction ts generalizing p with
  | nil => exact ⟨by simp, hp⟩
  | cons t ts ih =>
    have := ih (p.addOutput t.text) hp
    refine ⟨?_, this.2⟩
    rw [List.foldl_cons, this.1]
    simp [PF.addOutput]

/-- For a query without filters the output is then: the results of the first piece, those of the first and the second again, and
so on. -/
theorem c36_stale_output (O : NumOps) (d : QDfa) (ctx : QCtx) (hctx : ctx.predStates = []) (g : Garbage) (hg : g.finish ≠ 0)
    (hm : g.majorNull = true) (p : Str) (ps : List Str) :
    (serialRunR O d ctx g (p :: ps)).map (·.map PF.output) =
      some (some (((prefixes [] (runPieces d SA.init (p :: ps)).1).flatten).map Tuple.text)) := by
  rw [c36_stale O d ctx g hg hm]
  have key : ∀ (ls : List (List Tuple)) (pf : PF), pf.conds = (fun _ => none) →
      (ls.foldl (generate O ctx) pf).output = pf.output ++ (ls.flatten).map Tuple.text := by
    intro ls
    induction ls with
    | nil => intro pf _; simp
    | cons l ls ih =>
      intro pf hpf
      obtain ⟨h1, h2⟩ := generate_plain (O := O) (ctx := ctx) l pf hpf
      rw [List.foldl_cons, ih _ h2, h1]
      simp
  simp only [Option.map_some]
  rw [key _ (PF.init ctx) (by simp [PF.init, hctx])]
  simp [PF.init]

/-! ### Files -/

/-- A file longer than the footprint and the longest extension is loaded in at least two pieces. -/
theorem two_pieces {B : Nat} {file : Str} (hB : 0 < B) (hl : B + MAX_EXTENSION ≤ file.length) (hu : loadUb B file 0 = false) :
    ∃ p q ps, pieces B file (file.length + 1) 0 = p :: q :: ps := by
  have hext : (0 : Nat) < MAX_EXTENSION := by decide
  have hsz : min (file.length - 0) B = B := by omega
  have hne : B ≠ 0 := by omega
  have hlen : (extend ((file.drop 0).take B).reverse (file.drop (0 + B))).length < MAX_EXTENSION := by
    simp only [loadUb, hsz] at hu
    simp only [ne_eq, hne, not_false_eq_true, decide_true, Bool.true_and, Bool.or_eq_false_iff, decide_eq_false_iff_not] at hu
    omega
  obtain ⟨n, hn⟩ : ∃ n, file.length + 1 = n + 2 := ⟨file.length - 1, by omega⟩
  have h1 : loadBounded B file 0 = some ((file.drop 0).take B ++ extend ((file.drop 0).take B).reverse (file.drop (0 + B))) := by
    simp only [loadBounded, hsz, if_neg hne]
  rw [hn, pieces, h1]
  dsimp only
  generalize hp : (file.drop 0).take B ++ extend ((file.drop 0).take B).reverse (file.drop (0 + B)) = p at *
  have hpl : p.length < file.length := by
    rw [← hp, List.length_append, List.length_take, List.length_drop]
    omega
  have h2 : ∃ q, loadBounded B file (0 + p.length) = some q := by
    have : min (file.length - (0 + p.length)) B ≠ 0 := by omega
    exact ⟨_, by simp only [loadBounded, if_neg this]; rfl⟩
  obtain ⟨q, h2⟩ := h2
  exact ⟨p, q, pieces B file n (0 + p.length + q.length), by rw [pieces, h2]⟩

/-- **Every large file** A serial run on a file of more than 250,002,000 bytes, whatever the query, touches released storage if
`finish_flag` happens to contain `INPROGRESS`. -/
theorem c36_large (O : NumOps) (d : QDfa) (ctx : QCtx) (g : Garbage) (file : Str) (hl : 250002000 ≤ file.length)
    (hu : loadUb MEMORY_FOOTPRINT file 0 = false) (hg : g.finish = 0) :
    serialRunR O d ctx g (pieces MEMORY_FOOTPRINT file (file.length + 1) 0) = none := by
  obtain ⟨p, q, ps, h⟩ := two_pieces (B := MEMORY_FOOTPRINT) (by decide) (by simpa [MEMORY_FOOTPRINT, MAX_EXTENSION] using hl) hu
  rw [h]
  exact c36_released O d ctx g p q ps hg

/-- The context of a query without filters. -/
def exPlainCtx : QCtx := ⟨3, fun _ => none, fun _ => [], []⟩

/-- One piece: the hypotheses are met and there is a result. -/
example : (serialRunR intOps exQuery exPlainCtx ⟨7, true, false⟩ [exPieces.flatten]).map (·.map PF.output) =
    some (some ["[1, 2]".toList]) := by
  rw [c36_single_partial]
  decide

/-- Two pieces: with `INPROGRESS` the run is undefined, with another value the result found in the first piece is printed twice. -/
example : serialRunR intOps exQuery exPlainCtx ⟨0, true, true⟩ exPieces = none ∧
    (serialRunR intOps exQuery exPlainCtx ⟨1, true, true⟩ exPieces).map (·.map PF.output) =
      some (some ["[1, 2]".toList, "[1, 2]".toList, "[1, 2]".toList]) := by
  refine ⟨by rfl, ?_⟩
  decide

/-- Files that meet the hypotheses of `two_pieces` with footprint 6: `[111, "` and 2000 more bytes. -/
example (xs : Str) (h : xs.length = 2000) : 6 + MAX_EXTENSION ≤ ('[' :: '1' :: '1' :: '1' :: ',' :: ' ' :: '"' :: xs).length ∧
    loadUb 6 ('[' :: '1' :: '1' :: '1' :: ',' :: ' ' :: '"' :: xs) 0 = false := by
  refine ⟨by simp [MAX_EXTENSION, h], ?_⟩
  simp [loadUb, h]
  exact ⟨(by decide : (0 : Nat) < MAX_EXTENSION), by rfl⟩

/-- The claim of C36: for every file of several pieces the run is defined, and its result does not depend on what is in the fields
that are not written. -/
def C36Full : Prop := ∀ (O : NumOps) (d : QDfa) (ctx : QCtx) (ps : List Str), 2 ≤ ps.length → ∀ g g' : Garbage,
  serialRunR O d ctx g ps ≠ none ∧ serialRunR O d ctx g ps = serialRunR O d ctx g' ps

/-- **C36 is false.** -/
theorem c36_false : ¬ C36Full := by
  intro h
  exact (h intOps exQuery exPlainCtx [['['], [']']] (by decide) ⟨0, true, true⟩ ⟨1, true, true⟩).1
    (c36_released _ _ _ _ _ _ _ rfl)

/-- `collectDataConstraints` releases its list, if at all, as its last action: it never touches released storage. -/
theorem c36_collect (d : QDfa) (g : Int) (s : Str) : collectR d g s = true := by
  by_cases h : g = 0
  · simp [collectR, SAR.init, Mem.alloc, SAR.exec, Mem.read, Mem.write, SAR.destroy, Mem.free, h]
  · simp [collectR, SAR.init, Mem.alloc, SAR.exec, Mem.read, Mem.write, SAR.destroy, h]

/-- **When a serial run is defined** Exactly if the never-written `major_automaton` is NULL and: there is one piece; or there are
several and the never-written `finish_flag` is not `INPROGRESS`; or there is none (an empty file) and the never-written filter is
NULL. -/
theorem c36_defined (O : NumOps) (d : QDfa) (ctx : QCtx) (g : Garbage) (ps : List Str) :
    serialRunR O d ctx g ps ≠ none ↔
      g.majorNull = true ∧ (ps.length = 1 ∨ 2 ≤ ps.length ∧ g.finish ≠ 0 ∨ ps = [] ∧ g.filterNull = true) := by
  match ps with
  | [] => cases h1 : g.majorNull <;> cases h2 : g.filterNull <;> simp [serialRunR, serialLoopR, contextDestroyed, h1, h2]
  | [p] =>
    rw [c36_single_partial]
    cases g.majorNull <;> simp
  | p :: q :: ps =>
    by_cases hg : g.finish = 0
    · rw [c36_released O d ctx g p q ps hg]; simp [hg]
    · cases hm : g.majorNull with
      | true => rw [c36_stale O d ctx g hg hm]; simp [hg]
      | false =>
        simp only [serialRunR, contextDestroyed, hm]
        cases serialLoopR O d ctx g.finish ⟨[]⟩ none (p :: q :: ps) <;> simp

end JPS
