import Verif.Indet
import Verif.Props.Prune
/-!
# C50: an uninitialised field decides nothing

`initUnit` (unit.h:50-58) leaves `unit_state` unwritten, and the workers read it (worker_automaton.c:185, 241, 269, 340, 418, 475,
495, 545; parallel_automata_execution.h:282).  `u` and `ru` are what the field happens to hold in the units of the workers and of
the runs that process a unit again.
-/

set_option autoImplicit false

namespace JPS
open Spec

/-- The claim of C50 for plain parallel runs: two runs without undefined behaviour print the same, whatever the field held. -/
def C50Plain : Prop := ∀ (O : NumOps) (p : List Step) (file : Str) (cores : Nat) (u u' : Nat → Nat → UState) (r r' : ParallelCtx),
  parallelRun O MEMORY_FOOTPRINT cores u (astOf p) file = some (some r) →
  parallelRun O MEMORY_FOOTPRINT cores u' (astOf p) file = some (some r') → r.k.bad = false → r'.k.bad = false →
  r.pf.output = r'.pf.output

/-- The claim of C50 for optimised runs on documents: whether the run meets undefined behaviour does not depend on the field. -/
def C50Opt : Prop := ∀ (O : NumOps) (p : List Step) (train pre trail : Str) (v : J) (cores : Nat) (u u' : Nat → Nat → UState)
  (ru : Nat → Nat → Nat → UState) (ct : CTable) (r r' : ParallelCtx), Readable pre trail v → learned p train = some ct →
  parallelRunOpt O MEMORY_FOOTPRINT cores (some ct) u ru (astOf p) (pre ++ v.render ++ trail) = some (some r) →
  parallelRunOpt O MEMORY_FOOTPRINT cores (some ct) u' ru (astOf p) (pre ++ v.render ++ trail) = some (some r') →
  r.k.bad = r'.k.bad

/-- Every chunk of a document begins with content. -/
theorem partition_begins {pre trail : Str} {v : J} (h : Readable pre trail v) (hpl : v.plainStrings = true)
    (h0 : NUL ∉ pre ++ v.render ++ trail) {cores : Nat} (hc : 0 < cores) {chunks : List (Option Str)}
    (hp : partition cores (pre ++ v.render ++ trail) = some chunks) : ∀ c ∈ chunks.filterMap id, Begins (lexAll c) := by
  have hhead : (pre ++ v.render ++ trail).head? ≠ some ' ' := by
    have hn := h.noBlank
    have hcn := h.container
    cases pre with
    | nil => cases v <;> simp [J.isContainer, J.render] at hcn ⊢
    | cons z pre => simpa using hn
  obtain ⟨ps, q1, q2, q3, q4, q5⟩ := partition_spec hc h.nonempty h0 hhead hp
  have hfm : chunks.filterMap id = ps := by rw [q1]; simp [List.filterMap_map]
  have hne : [] ∉ ps := fun hm => q4 _ hm rfl
  rw [hfm]
  refine doc_begins h.doc q2 hne ?_ ?_
  · intro xs ys e hx hy
    obtain ⟨r', u', w', c', a1, a2, a3, a4⟩ := q5 xs ys e hx hy
    exact opens_string h.preWs h.trailWs h.wf hpl a1 a2 a3 a4
  · intro xs ys e hx hy
    obtain ⟨r', u', w', c', a1, a2, a3, a4⟩ := q5 xs ys e hx hy
    exact ⟨u', w', c', a2, a3, a4⟩

/-- **C50 for documents.**  For every query (with filters and slices, whatever is torn), every document, every number of threads:
the parallel run is the same whatever the uninitialised field held, also where the run meets undefined behaviour. -/
theorem c50_documents_partial (O : NumOps) (t : Ast) (pre trail : Str) (v : J) (h : Readable pre trail v)
    (hpl : v.plainStrings = true) (h0 : NUL ∉ pre ++ v.render ++ trail) (cores : Nat) (hc : 0 < cores) (u u' : Nat → Nat → UState) :
    parallelRun O MEMORY_FOOTPRINT cores u t (pre ++ v.render ++ trail) =
      parallelRun O MEMORY_FOOTPRINT cores u' t (pre ++ v.render ++ trail) := by
  unfold parallelRun
  congr 1
  funext q
  have hl : (pre ++ v.render ++ trail).length ≠ 0 := by simpa using h.nonempty
  obtain ⟨n, hn⟩ : ∃ n, (pre ++ v.render ++ trail).length + 1 = n + 2 := ⟨(pre ++ v.render ++ trail).length - 1, by omega⟩
  rw [hn, pieces_single MEMORY_FOOTPRINT _ h.nonempty h.size]
  simp only [parallelPieces]
  have e : parallelPartialRun O q.1 q.2 none (u 0) cores none (pre ++ v.render ++ trail) =
      parallelPartialRun O q.1 q.2 none (u' 0) cores none (pre ++ v.render ++ trail) := by
    unfold parallelPartialRun
    cases hp : partition cores (pre ++ v.render ++ trail) with
    | none => rfl
    | some chunks =>
      simp only
      rw [show Option.map (fun x : ParallelCtx => x.k) none = none from rfl,
        executeParallel_indet q.1 none (u 0) (u' 0) _ (partition_begins h hpl h0 hc hp)]
  rw [e]

/-- The same for optimised runs with any constraint table, as long as the field of no worker happens to hold `MATCHED`. -/
theorem c50_optimised_partial (O : NumOps) (t : Ast) (ct : Option CTable) (pre trail : Str) (v : J) (h : Readable pre trail v)
    (hpl : v.plainStrings = true) (h0 : NUL ∉ pre ++ v.render ++ trail) (cores : Nat) (hc : 0 < cores) (u u' : Nat → Nat → UState)
    (hu : ∀ n i, u n i ≠ .matched) (hu' : ∀ n i, u' n i ≠ .matched) (ru : Nat → Nat → Nat → UState) :
    parallelRunOpt O MEMORY_FOOTPRINT cores ct u ru t (pre ++ v.render ++ trail) =
      parallelRunOpt O MEMORY_FOOTPRINT cores ct u' ru t (pre ++ v.render ++ trail) := by
  unfold parallelRunOpt
  congr 1
  funext q
  have hl : (pre ++ v.render ++ trail).length ≠ 0 := by simpa using h.nonempty
  obtain ⟨n, hn⟩ : ∃ n, (pre ++ v.render ++ trail).length + 1 = n + 2 := ⟨(pre ++ v.render ++ trail).length - 1, by omega⟩
  rw [hn, pieces_single MEMORY_FOOTPRINT _ h.nonempty h.size]
  simp only [parallelPiecesOpt]
  have e : parallelPartialRunOpt O q.1 q.2 ct (u 0) (ru 0) cores none (pre ++ v.render ++ trail) =
      parallelPartialRunOpt O q.1 q.2 ct (u' 0) (ru 0) cores none (pre ++ v.render ++ trail) := by
    unfold parallelPartialRunOpt
    cases hp : partition cores (pre ++ v.render ++ trail) with
    | none => rfl
    | some chunks =>
      simp only
      rw [show Option.map (fun x : ParallelCtx => x.k) none = none from rfl,
        executeParallelR_indet q.1 ct (ru 0) (hu 0) (hu' 0) _ (partition_begins h hpl h0 hc hp)]
  rw [e]

/-- What is compared. -/
def sight (r : Option (Option ParallelCtx)) : Option (Option (List Str × Bool)) := r.map (·.map fun r => (r.pf.output, r.k.bad))

theorem sight_some {r : Option (Option ParallelCtx)} {o : List Str} {b : Bool} (h : sight r = some (some (o, b))) :
    ∃ x, r = some (some x) ∧ x.pf.output = o ∧ x.k.bad = b := by
  obtain ⟨z, hz, e⟩ := Option.map_eq_some_iff.1 h
  obtain ⟨x, rfl, e⟩ := Option.map_eq_some_iff.1 e
  have e := Prod.mk.inj (Option.some.inj e)
  exact ⟨x, hz, e.1, e.2⟩

theorem exPar_readable' : Readable [] [] exPar := ⟨by decide, by decide, by decide, by decide, by decide, by decide, by decide, by decide⟩

set_option maxRecDepth 100000 in
/-- A document that meets the conditions, in three chunks, whose workers start with different values in the field. -/
example : Readable [] [] exPar ∧ exPar.plainStrings = true ∧ NUL ∉ [] ++ exPar.render ++ [] ∧
    (partition 3 ([] ++ exPar.render ++ [])).map (·.length) = some 3 ∧
    sight (parallelRun intOps MEMORY_FOOTPRINT 3 (fun _ _ => .matched) (astOf exParPath) ([] ++ exPar.render ++ [])) =
      some (some (["1".toList, "{\"q\":1}".toList, "7".toList], false)) ∧
    sight (parallelRun intOps MEMORY_FOOTPRINT 3 (fun _ i => if i = 1 then .unmatched else .other) (astOf exParPath)
      ([] ++ exPar.render ++ [])) = some (some (["1".toList, "{\"q\":1}".toList, "7".toList], false)) := by
  refine ⟨exPar_readable', by decide, by decide, by with_unfolding_all rfl, by with_unfolding_all rfl, by with_unfolding_all rfl⟩

/-! ### Refutations -/

/-- `{"a": [{"c": 11111111111111111111111111, "b" }, {"b": 7 }, {"b": 8 } ] }`: a member without value. -/
def exNoValue : Str := "{\"a\": [{\"c\": 11111111111111111111111111, \"b\" }, {\"b\": 7 }, {\"b\": 8 } ] }".toList

set_option maxRecDepth 100000 in
/-- **C50 is false of plain runs** on files that are not JSON documents: `$.a[*].b` on `exNoValue` with two threads prints `7` and
`8` if the field of the second worker held `MATCHED`, and only `7` otherwise.  The second chunk begins with a string followed by
`}`; the symbol inferred for it stays on the shadow stack unless the unit is closed (worker_automaton.c:545-556). -/
theorem c50_false_plain : ¬ C50Plain := by
  intro h
  obtain ⟨r, h1, h2, h3⟩ := sight_some (r := parallelRun intOps MEMORY_FOOTPRINT 2 (fun _ _ => .other) (astOf exParPath) exNoValue)
    (o := ["7".toList]) (b := false) (by with_unfolding_all rfl)
  obtain ⟨r', h1', h2', h3'⟩ := sight_some (r := parallelRun intOps MEMORY_FOOTPRINT 2 (fun _ _ => .matched) (astOf exParPath) exNoValue)
    (o := ["7".toList, "8".toList]) (b := false) (by with_unfolding_all rfl)
  have := h _ _ _ _ _ _ _ _ h1 h1' h3 h3'
  rw [h2, h2'] at this
  exact absurd this (by decide)

set_option maxRecDepth 100000 in
/-- **C50 is false of optimised runs**, also on documents: if the field held `MATCHED`, the first content of a chunk does not set
`unit.start` (worker_automaton.c:185-189), and processing the unit again begins at an offset from NULL
(parallel_automata_execution.h:285-288).  `$.a[*].b` on `exPar` with three threads and the table learned from `exTrain`. -/
theorem c50_false_optimised : ¬ C50Opt := by
  intro h
  obtain ⟨r, h1, h2, h3⟩ := sight_some (r := parallelRunOpt intOps MEMORY_FOOTPRINT 3
      (some ⟨[⟨['c'], .ky, [1]⟩, ⟨['b'], .ky, [1]⟩, ⟨['a'], .ky, [1]⟩], false⟩) (fun _ _ => .other) (fun _ _ _ => .other)
      (astOf exParPath) ([] ++ exPar.render ++ []))
    (o := ["1".toList, "{\"q\":1}".toList]) (b := false) (by with_unfolding_all rfl)
  obtain ⟨r', h1', h2', h3'⟩ := sight_some (r := parallelRunOpt intOps MEMORY_FOOTPRINT 3
      (some ⟨[⟨['c'], .ky, [1]⟩, ⟨['b'], .ky, [1]⟩, ⟨['a'], .ky, [1]⟩], false⟩) (fun _ _ => .matched) (fun _ _ _ => .other)
      (astOf exParPath) ([] ++ exPar.render ++ []))
    (o := ["1".toList]) (b := true) (by with_unfolding_all rfl)
  have := h _ _ exTrain _ _ _ _ _ _ _ _ _ _ exPar_readable' exTrain_table h1 h1'
  rw [h3, h3'] at this
  cases this

end JPS
