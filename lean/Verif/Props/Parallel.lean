import Verif.PathTable
import Verif.SpanProofs
import Verif.DocCuts
import Verif.Props.PiecesDoc
import Verif.Props.Partition
/-!
# C32: parallel and serial runs return the same results
-/

set_option autoImplicit false

namespace JPS
open Spec

/-- Nothing that is selected is torn apart by a cut at offset `k`: no selected container lies on both sides of the cut, and no
selected scalar is an element of an array that does. -/
structure Untorn (sel : Loc → Prop) (pre : Str) (v : J) (k : Nat) : Prop where
  containers : ∀ y ∈ allSpans pre v, y.2.1.isContainer = true → across y k → ¬ sel y.1
  scalars : ∀ y ∈ allSpans pre v, ∀ w es, y.2.1 = .arr w es → across y k →
    ∀ j x, es.values[j]? = some x → x.isContainer = false → ¬ sel (y.1 ++ [.elem j])

/-- Nothing that the path selects is torn apart by a cut, and no array to which the path applies a slice or an index lies on both
sides of it. -/
structure UntornPath (p : List Step) (pre : Str) (v : J) (k : Nat) : Prop extends Untorn (Matches p) pre v k where
  sliced : ∀ y ∈ allSpans pre v, ∀ w es, y.2.1 = .arr w es → across y k → ¬ SlicedAt p y.1

theorem Untorn.path {p : List Step} {pre : Str} {v : J} {k : Nat} (h : Untorn (Matches p) pre v k) (hs : noSlices p) :
    UntornPath p pre v k := ⟨h, fun _ _ _ _ _ _ => noSlices_at hs _⟩

/-- A run of the parallel automaton over chunks of a document. -/
theorem parallel_doc_ct {d : QDfa} {ct : Option CTable} (hnd : ct.NodupOK) (hd : Dead d d.statesNum) (h1n : 1 < d.statesNum) (hidx : NoIdx d 1)
    {pre trail : Str} {v : J} (h : DocOK pre trail v) (hsp : pre.head? ≠ some ' ') {ps : List Str}
    (hps : ps.flatten = pre ++ v.render ++ trail) (hne : [] ∉ ps) (hcut : CutsAtStrings pre v ps)
    (hok : ∀ xs ys, ps = xs ++ ys → xs ≠ [] → ys ≠ [] → CutsOK d pre trail v xs.flatten.length)
    (hub : (execAutomaton d (pre ++ v.render ++ trail) SA.init).ub = false)
    {u : Nat → UState} {k : K} (hk : executeParallel d ct u none ps = some k) (hb : k.bad = false)
    (hre : ctChunks d ct SA.init ps ∨ k.re = false) :
    k.tuples = (execAutomaton d (pre ++ v.render ++ trail) SA.init).tl ∧ k.re = false := by
  have hc := doc_chunksOK d h hps hne hcut hok ps [] SA.init rfl Is.init
  have hcl := doc_cleanCuts d h hsp hps hne hcut (fun xs ys e hx hy => (hok xs ys e hx hy).opn) ps [] SA.init rfl Is.init
  obtain ⟨h1, h2⟩ := parallel_sim_ct hnd hd h1n hidx ps hk hc hb hre
  refine ⟨?_, h2⟩
  rw [h1]
  exact pieces_tuples d pre trail v h hsp ps hps hne hcut hcl hub

/-- The same without a constraint table. -/
theorem parallel_doc {d : QDfa} (hd : Dead d d.statesNum) (h1n : 1 < d.statesNum) (hidx : NoIdx d 1)
    {pre trail : Str} {v : J} (h : DocOK pre trail v) (hsp : pre.head? ≠ some ' ') {ps : List Str}
    (hps : ps.flatten = pre ++ v.render ++ trail) (hne : [] ∉ ps) (hcut : CutsAtStrings pre v ps)
    (hok : ∀ xs ys, ps = xs ++ ys → xs ≠ [] → ys ≠ [] → CutsOK d pre trail v xs.flatten.length)
    (hub : (execAutomaton d (pre ++ v.render ++ trail) SA.init).ub = false)
    {u : Nat → UState} {k : K} (hk : executeParallel d none u none ps = some k) (hb : k.bad = false) :
    k.tuples = (execAutomaton d (pre ++ v.render ++ trail) SA.init).tl :=
  (parallel_doc_ct nodup_none hd h1n hidx h hsp hps hne hcut hok hub hk hb (.inl (ctChunks_none _ _))).1

/-- For a path, spans that are not selected are not reported, and only elements of sliced arrays are counted. -/
theorem PathCtx.cutsOK {p : List Step} {c : SCtx} (hpc : PathCtx p c) (hs : SlicesOK p) {pre trail : Str} {v : J} {k : Nat}
    (hlen : (v.render.length : Int) ≤ intMax)
    (hbef : ∃ u w c, ((pre ++ v.render ++ trail).take k).reverse = w ++ c :: u ∧ w.all isSkip = true ∧
      (c = ',' ∨ c = '{' ∨ c = '['))
    (h : UntornPath p pre v k) : CutsOK (tableOf c) pre trail v k := by
  have hm : ∀ l : Loc, idxLt v.render.length l → ¬ Matches p l →
      (tableOf c).matchedType (locState (tableOf c) 1 0 l).1 (locState (tableOf c) 1 0 l).2 = .none := by
    intro l hl hn
    rw [hpc.matched hs.desc hs.bounds l (fun i hi => by have := hl i hi; omega), if_neg hn]
  have hi : ∀ l : Loc, idxLt v.render.length l → (∀ l' i, l = l' ++ [.elem i] → ¬ SlicedAt p l') →
      NoIdx (tableOf c) (locState (tableOf c) 1 0 l).1 :=
    fun l hl hz => hpc.noIdx_loc hs.desc hs.bounds l (fun i hi => by have := hl i hi; omega) hz
  refine ⟨hbef, fun y hy hc ha => ?_, fun y hy w es he ha j x hj hx => ?_, fun y hy hc ha => ?_, fun y hy w es he ha j x hj hx => ?_⟩
  · rw [hm _ (spans_idx hy).1 (h.containers y hy hc ha)]
    exact fun hz => by cases hz
  · rw [hm _ (spans_elem_idx hy he hj) (h.scalars y hy w es he ha j x hj hx)]
    exact ⟨nofun, nofun⟩
  · refine hi _ (spans_idx hy).1 fun l' i e => ?_
    obtain ⟨z, hz, w, es, e1, e2, e3⟩ := across_parent hy ha e
    rw [← e2]
    exact h.sliced z hz w es e1 e3
  · refine hi _ (spans_elem_idx hy he hj) fun l' i e => ?_
    rw [← (List.append_inj' e rfl).1]
    exact h.sliced y hy w es he ha

theorem parallelRun_single (O : NumOps) (B cores : Nat) (u : Nat → Nat → UState) (t : Ast) (file : Str) (c : SCtx)
    (hc : buildCtx t = some c) (h0 : file ≠ []) (hB : file.length ≤ B) {r : ParallelCtx}
    (hr : parallelRun O B cores u t file = some (some r)) :
    parallelPartialRun O (tableOf c) (contextOf c) none (u 0) cores none file = some r := by
  unfold parallelRun buildQuery at hr
  rw [hc] at hr
  have hl : file.length ≠ 0 := by simpa using h0
  obtain ⟨n, hn⟩ : ∃ n, file.length + 1 = n + 2 := ⟨file.length - 1, by omega⟩
  simp only [Option.map_some, Option.bind_some, hn, pieces_single B file h0 hB, parallelPieces] at hr
  revert hr
  generalize parallelPartialRun O (tableOf c) (contextOf c) none (u 0) cores none file = z
  cases z with
  | none => intro hr; cases hr
  | some z => intro hr; simpa [parallelPieces] using hr

/-- The parts of a parallel run on a single piece. -/
theorem parallelPartialRun_parts {O : NumOps} {d : QDfa} {ctx : QCtx} {ct : Option CTable} {u : Nat → UState} {cores : Nat}
    {S : Str} {r : ParallelCtx} (hr : parallelPartialRun O d ctx ct u cores none S = some r) :
    ∃ chunks, partition cores S = some chunks ∧ executeParallel d ct u none (chunks.filterMap id) = some r.k ∧
      r.pf = generate O ctx (PF.init ctx) r.k.tuples := by
  unfold parallelPartialRun at hr
  cases hp : partition cores S with
  | none => rw [hp] at hr; cases hr
  | some chunks =>
    rw [hp] at hr
    simp only at hr
    split at hr
    · cases hr
    · cases he : executeParallel d ct u (Option.map (fun x : ParallelCtx => x.k) none) (chunks.filterMap id) with
      | none => rw [he] at hr; cases hr
      | some k =>
        rw [he] at hr
        simp only [Option.some.injEq] at hr
        subst hr
        exact ⟨chunks, rfl, he, rfl⟩

/-- Every chunk of a partition but the first begins at a string of the document. -/
def CutsBegin (cores : Nat) (pre trail : Str) (v : J) : Prop := ∀ xs ys : List Str,
  partition cores (pre ++ v.render ++ trail) = some ((xs ++ ys).map some) → xs ≠ [] → ys ≠ [] →
  ∃ r, (xs.flatten.length, r) ∈ v.strings pre.length

/-- So it is if no string ends in `,`, `{` or `[`. -/
theorem plain_cuts {pre trail : Str} {v : J} (h : Readable pre trail v) (hpl : v.plainStrings = true) (h0 : NUL ∉ pre ++ v.render ++ trail)
    {cores : Nat} (hc : 0 < cores) : CutsBegin cores pre trail v := by
  intro xs ys e hx hy
  have hhead : (pre ++ v.render ++ trail).head? ≠ some ' ' := by
    have hn := h.noBlank
    have hcn := h.container
    cases pre with
    | nil => cases v <;> simp [J.isContainer, J.render] at hcn ⊢
    | cons z pre => simpa using hn
  obtain ⟨ps, q1, q2, q3, q4, q5⟩ := partition_spec hc h.nonempty h0 hhead e
  obtain ⟨r', u', w', c', a1, a2, a3, a4⟩ := q5 xs ys (map_some_inj q1.symm) hx hy
  exact opens_string h.preWs h.trailWs h.wf hpl a1 a2 a3 a4

/-- A parallel run with any constraint table for a query whose automaton has a dead state and no index range at the start state. -/
theorem tree_ct_at (O : NumOps) (t : Ast) {c : SCtx} (hbc : buildCtx t = some c) (hdead : Dead (tableOf c) (tableOf c).statesNum)
    (hidx : NoIdx (tableOf c) 1)
    (pre trail : Str) (v : J) (cores : Nat) (h : Readable pre trail v) (hcb : CutsBegin cores pre trail v) (h0 : NUL ∉ pre ++ v.render ++ trail)
    (hc : 0 < cores) (ct : Option CTable) (hnd : ct.NodupOK) (u : Nat → UState) (r : ParallelCtx)
    (hr : parallelPartialRun O (tableOf c) (contextOf c) ct u cores none (pre ++ v.render ++ trail) = some r)
    (hbad : r.k.bad = false) (hclean : clean O t (pre ++ v.render ++ trail))
    (hok : ∀ xs ys : List Str, partition cores (pre ++ v.render ++ trail) = some ((xs ++ ys).map some) → xs ≠ [] → ys ≠ [] →
      (∃ u w c, ((pre ++ v.render ++ trail).take xs.flatten.length).reverse = w ++ c :: u ∧ w.all isSkip = true ∧
        (c = ',' ∨ c = '{' ∨ c = '[')) → CutsOK (tableOf c) pre trail v xs.flatten.length)
    (hre : (∀ ps : List Str, ps.flatten = pre ++ v.render ++ trail → pieceToks 0 ps = lexAll (pre ++ v.render ++ trail) →
      ctChunks (tableOf c) ct SA.init ps) ∨ r.k.re = false) :
    results O t (pre ++ v.render ++ trail) = some r.pf.output ∧ r.k.re = false := by
  obtain ⟨chunks, h1, h2, h3⟩ := parallelPartialRun_parts hr
  have hhead : (pre ++ v.render ++ trail).head? ≠ some ' ' := by
    have hn := h.noBlank
    have hcn := h.container
    cases pre with
    | nil => cases v <;> simp [J.isContainer, J.render] at hcn ⊢
    | cons z pre => simpa using hn
  obtain ⟨ps, q1, q2, q3, q4, q5⟩ := partition_spec hc h.nonempty h0 hhead h1
  have hfm : chunks.filterMap id = ps := by rw [q1]; simp [List.filterMap_map]
  rw [hfm] at h2
  have hser := serialRun_single O MEMORY_FOOTPRINT t _ c hbc h.nonempty h.size
  have hub := (hclean _ hser).1
  have hne : [] ∉ ps := fun hm => q4 _ hm rfl
  have hcut : CutsAtStrings pre v ps := by
    intro xs ys e hx hy
    exact hcb xs ys (by rw [h1, q1, e]) hx hy
  obtain ⟨key, k2⟩ := parallel_doc_ct hnd hdead c.one_lt hidx h.doc h.noBlank q2 hne hcut
    (by
      intro xs ys e hx hy
      obtain ⟨r', u', w', c', a1, a2, a3, a4⟩ := q5 xs ys e hx hy
      exact hok xs ys (by rw [h1, q1, e]) hx hy ⟨u', w', c', a2, a3, a4⟩)
    hub h2 hbad (hre.imp (fun hx => hx ps q2 (by
      obtain ⟨t1, t2, _⟩ := doc_pieceToks h.doc q2 hne hcut
      rw [t1, t2])) id)
  refine ⟨?_, k2⟩
  unfold results
  rw [hser, h3, key]
  rfl

/-- The same for documents in which no string ends in `,`, `{` or `[`. -/
theorem tree_ct (O : NumOps) (t : Ast) {c : SCtx} (hbc : buildCtx t = some c) (hdead : Dead (tableOf c) (tableOf c).statesNum)
    (hidx : NoIdx (tableOf c) 1)
    (pre trail : Str) (v : J) (h : Readable pre trail v) (hpl : v.plainStrings = true) (h0 : NUL ∉ pre ++ v.render ++ trail)
    (cores : Nat) (hc : 0 < cores) (ct : Option CTable) (hnd : ct.NodupOK) (u : Nat → UState) (r : ParallelCtx)
    (hr : parallelPartialRun O (tableOf c) (contextOf c) ct u cores none (pre ++ v.render ++ trail) = some r)
    (hbad : r.k.bad = false) (hclean : clean O t (pre ++ v.render ++ trail))
    (hok : ∀ xs ys : List Str, partition cores (pre ++ v.render ++ trail) = some ((xs ++ ys).map some) → xs ≠ [] → ys ≠ [] →
      (∃ u w c, ((pre ++ v.render ++ trail).take xs.flatten.length).reverse = w ++ c :: u ∧ w.all isSkip = true ∧
        (c = ',' ∨ c = '{' ∨ c = '[')) → CutsOK (tableOf c) pre trail v xs.flatten.length)
    (hre : (∀ ps : List Str, ps.flatten = pre ++ v.render ++ trail → pieceToks 0 ps = lexAll (pre ++ v.render ++ trail) →
      ctChunks (tableOf c) ct SA.init ps) ∨ r.k.re = false) :
    results O t (pre ++ v.render ++ trail) = some r.pf.output ∧ r.k.re = false :=
  tree_ct_at O t hbc hdead hidx pre trail v cores h (plain_cuts h hpl h0 hc) h0 hc ct hnd u r hr hbad hclean hok hre

/-- A parallel run with any constraint table for a path and a document as in C32. -/
theorem paths_ct (O : NumOps) (p : List Step) (hs : SlicesOK p) {c : SCtx} (hbc : buildCtx (astOf p) = some c) (hpc : PathCtx p c)
    (pre trail : Str) (v : J) (h : Readable pre trail v) (hpl : v.plainStrings = true) (h0 : NUL ∉ pre ++ v.render ++ trail)
    (cores : Nat) (hc : 0 < cores) (ct : Option CTable) (hnd : ct.NodupOK) (u : Nat → UState) (r : ParallelCtx)
    (hr : parallelPartialRun O (tableOf c) (contextOf c) ct u cores none (pre ++ v.render ++ trail) = some r)
    (hbad : r.k.bad = false) (hclean : clean O (astOf p) (pre ++ v.render ++ trail))
    (htorn : ∀ xs ys : List Str, partition cores (pre ++ v.render ++ trail) = some ((xs ++ ys).map some) → xs ≠ [] → ys ≠ [] →
      UntornPath p pre v xs.flatten.length)
    (hre : (∀ ps : List Str, ps.flatten = pre ++ v.render ++ trail → pieceToks 0 ps = lexAll (pre ++ v.render ++ trail) →
      ctChunks (tableOf c) ct SA.init ps) ∨ r.k.re = false) :
    results O (astOf p) (pre ++ v.render ++ trail) = some r.pf.output ∧ r.k.re = false := by
  have hsize : (v.render.length : Int) ≤ intMax := by
    have := h.size
    simp only [List.length_append, MEMORY_FOOTPRINT] at this
    simp only [intMax]; omega
  exact tree_ct O (astOf p) hbc (c.dead hpc.ok) (hpc.noIdx_start hs.desc hs.bounds) pre trail v h hpl h0 cores hc ct hnd u r hr hbad hclean
    (fun xs ys e hx hy hbf => hpc.cutsOK hs hsize hbf (htorn xs ys e hx hy)) hre

/-- **C32 for paths.**  The query is a path without filters, its slices are those of C02; the document is one the tokenizer reads, its strings do
not end in `,`, `{` or `[`; it is cut into the chunks of `partition` for any number of threads.  If nothing that is selected is
torn apart by a cut, no array to which a slice is applied lies across a cut, and neither run meets undefined behaviour, the parallel
run prints what the serial run prints. -/
theorem c32_paths_partial (O : NumOps) (p : List Step) (hp : p ≠ []) (hlen : fewNames p) (hs : SlicesOK p)
    (pre trail : Str) (v : J) (h : Readable pre trail v) (hpl : v.plainStrings = true) (h0 : NUL ∉ pre ++ v.render ++ trail)
    (cores : Nat) (hc : 0 < cores) (u : Nat → Nat → UState) (r : ParallelCtx)
    (hr : parallelRun O MEMORY_FOOTPRINT cores u (astOf p) (pre ++ v.render ++ trail) = some (some r))
    (hbad : r.k.bad = false) (hclean : clean O (astOf p) (pre ++ v.render ++ trail))
    (htorn : ∀ xs ys : List Str, partition cores (pre ++ v.render ++ trail) = some ((xs ++ ys).map some) → xs ≠ [] → ys ≠ [] →
      UntornPath p pre v xs.flatten.length) :
    results O (astOf p) (pre ++ v.render ++ trail) = some r.pf.output := by
  obtain ⟨c, hbc, hpc⟩ := pathCtx_of_build p hp hlen
  exact (paths_ct O p hs hbc hpc pre trail v h hpl h0 cores hc none nodup_none (u 0) r
    (parallelRun_single O _ cores u _ _ c hbc h.nonempty h.size hr) hbad hclean htorn (.inl fun ps _ _ => ctChunks_none ps _)).1

/-- `{"x": 1, "a": [{"b": 1, "c": 2}, {"c": 5, "b": {"q":1}}, {"c": 5, "b": 7}], "z": 2}`. -/
def exPar : J := .obj [] (.cons [] ['x'] [] [' '] (.lit ['1']) [] (.cons [' '] ['a'] [] [' '] (.arr []
  (.cons [] (.obj [] (.cons [] ['b'] [] [' '] (.lit ['1']) [] (.cons [' '] ['c'] [] [' '] (.lit ['2']) [] .nil))) []
  (.cons [' '] (.obj [] (.cons [] ['c'] [] [' '] (.lit ['5']) [] (.cons [' '] ['b'] [] [' ']
    (.obj [] (.cons [] ['q'] [] [] (.lit ['1']) [] .nil)) [] .nil))) []
  (.cons [' '] (.obj [] (.cons [] ['c'] [] [' '] (.lit ['5']) [] (.cons [' '] ['b'] [] [' '] (.lit ['7']) [] .nil))) [] .nil)))) []
  (.cons [' '] ['z'] [] [' '] (.lit ['2']) [] .nil)))

/-- `$.a[*].b`. -/
def exParPath : List Step := [.prop ['a'], .all, .prop ['b']]

/-- The chunks of `exPar` for three threads. -/
def exParChunks : List Str := ["{\"x\": 1, \"a\": [{\"b\": 1, \"c\": 2}, {".toList,
  "\"c\": 5, \"b\": {\"q\":1}}, {\"c\": 5, ".toList, "\"b\": 7}], \"z\": 2}".toList]

theorem exPar_partition : partition 3 exPar.render = some (exParChunks.map some) := by decide

set_option maxRecDepth 100000 in
/-- The parallel run of the example. -/
theorem exPar_run : (parallelRun intOps MEMORY_FOOTPRINT 3 (fun _ _ => .other) (astOf exParPath) exPar.render).map
      (·.map fun r => (r.pf.output, r.k.bad)) =
    some (some (["1".toList, "{\"q\":1}".toList, "7".toList], false)) := by
  with_unfolding_all rfl

/-- A test for `Untorn`, for examples. -/
def untornB (sel : Loc → Bool) (pre : Str) (v : J) (k : Nat) : Bool :=
  (allSpans pre v).all fun y => !(decide (y.2.2 < k) && decide (k < y.2.2 + y.2.1.render.length)) ||
    ((!y.2.1.isContainer || !sel y.1) &&
      match y.2.1 with
      | .arr _ es => (List.range es.values.length).all fun j =>
        (match es.values[j]? with
          | some x => x.isContainer
          | none => true) || !sel (y.1 ++ [.elem j])
      | _ => true)

theorem untorn_of {sel : Loc → Prop} {selB : Loc → Bool} (hsel : ∀ l, sel l → selB l = true) {pre : Str} {v : J} {k : Nat}
    (h : untornB selB pre v k = true) : Untorn sel pre v k := by
  unfold untornB at h
  rw [List.all_eq_true] at h
  have h' : ∀ y ∈ allSpans pre v, across y k → (y.2.1.isContainer = true → ¬ sel y.1) ∧
      ∀ w es, y.2.1 = .arr w es → ∀ j x, es.values[j]? = some x → x.isContainer = false → ¬ sel (y.1 ++ [.elem j]) := by
    intro y hy ha
    have := h y hy
    simp only [across] at ha
    simp only [decide_eq_true ha.1, decide_eq_true ha.2, Bool.and_self, Bool.not_true, Bool.false_or, Bool.and_eq_true] at this
    refine ⟨fun hc hn => ?_, fun w es he j x hj hx hn => ?_⟩
    · have := this.1
      rw [hc, hsel _ hn] at this; cases this
    · have := this.2
      rw [he] at this
      simp only [List.all_eq_true] at this
      have := this j (List.mem_range.2 (List.getElem?_eq_some_iff.1 hj).1)
      rw [hj, hsel _ hn] at this
      simp [hx] at this
  exact ⟨fun y hy hc ha => (h' y hy ha).1 hc, fun y hy w es he ha => (h' y hy ha).2 w es he⟩

/-- The cuts of a list of chunks. -/
theorem cuts_three {a b c : Str} {P : List Str → Prop} (h1 : P [a]) (h2 : P [a, b]) :
    ∀ xs ys, [a, b, c] = xs ++ ys → xs ≠ [] → ys ≠ [] → P xs := by
  intro xs ys h hx hy
  match xs, hx, h with
  | [x], _, h => injection h with h _; subst h; exact h1
  | [x, y], _, h => injection h with h h'; injection h' with h' _; subst h h'; exact h2
  | x :: y :: z :: xs, _, h =>
    injection h with _ h; injection h with _ h; injection h with _ h
    exact absurd (List.append_eq_nil_iff.1 h.symm).2 hy

theorem exParPath_slices : noSlices exParPath := by simp [noSlices, exParPath, isSlice]

/-- The hypotheses of `c32_paths_partial` hold for the example, whose array and one of whose objects lie across the cuts. -/
example : Readable [] [] exPar ∧ exPar.plainStrings = true ∧ NUL ∉ [] ++ exPar.render ++ [] ∧ SlicesOK exParPath ∧
    clean intOps (astOf exParPath) ([] ++ exPar.render ++ []) ∧
    (∃ r, parallelRun intOps MEMORY_FOOTPRINT 3 (fun _ _ => .other) (astOf exParPath) ([] ++ exPar.render ++ []) =
      some (some r) ∧ r.k.bad = false) ∧
    (∀ xs ys : List Str, partition 3 ([] ++ exPar.render ++ []) = some ((xs ++ ys).map some) → xs ≠ [] → ys ≠ [] →
      UntornPath exParPath [] exPar xs.flatten.length) ∧
    ((allSpans [] exPar).filter fun y => decide (y.2.2 < exParChunks[0].length) &&
      decide (exParChunks[0].length < y.2.2 + y.2.1.render.length)).map (·.1) = [[], [.key ['a'], .elem 1], [.key ['a']]] := by
  have hR : Readable [] [] exPar := ⟨by decide, by decide, by decide, by decide, by decide, by decide, by decide, by decide⟩
  refine ⟨hR, by decide, by decide, ?_, ?_, ?_, ?_, ?_⟩
  · exact exParPath_slices.ok
  · intro r hr
    obtain ⟨r', h1, h2, h3⟩ := run_path intOps exParPath (by decide) (by decide) (by decide)
      (by simp [boundsOk, exParPath]) hR
    rw [hr] at h1; cases h1
    have e : results intOps (astOf exParPath) ([] ++ exPar.render ++ []) =
        some ["1".toList, "{\"q\":1}".toList, "7".toList] := by
      set_option maxRecDepth 100000 in with_unfolding_all rfl
    unfold results at e
    rw [hr] at e
    simp only [Option.map_some, Option.some.injEq] at e
    exact h3 (by decide) (by rw [e]; decide) (by rw [e]; decide)
  · have := exPar_run
    rw [List.nil_append, List.append_nil]
    revert this
    generalize parallelRun intOps MEMORY_FOOTPRINT 3 (fun _ _ => .other) (astOf exParPath) exPar.render = z
    rcases z with _ | _ | r
    · intro h; cases h
    · intro h; cases h
    · intro h
      simp only [Option.map_some, Option.some.injEq, Prod.mk.injEq] at h
      exact ⟨r, rfl, h.2⟩
  · intro xs ys h hx hy
    refine Untorn.path ?_ exParPath_slices
    have hsel : ∀ l, Matches exParPath l → (match l with
        | [.key a, .elem _, .key b] => a = ['a'] ∧ b = ['b']
        | _ => False : Prop) := by
      intro l hl
      cases hl with
      | prop k hl => cases hl with
        | all i hl => cases hl with
          | prop k hl => cases hl; exact ⟨rfl, rfl⟩
    have hxy : exParChunks = xs ++ ys := by
      have e := exPar_partition
      rw [List.nil_append, List.append_nil] at h
      rw [h] at e
      exact (map_some_inj (by simpa using e)).symm
    refine cuts_three (P := fun xs => Untorn (Matches exParPath) [] exPar xs.flatten.length)
      (untorn_of (selB := fun l => match l with
        | [.key a, .elem _, .key b] => a = ['a'] ∧ b = ['b']
        | _ => false) (fun l hl => by
          have := hsel l hl
          revert this
          split <;> simp) (by decide))
      (untorn_of (selB := fun l => match l with
        | [.key a, .elem _, .key b] => a = ['a'] ∧ b = ['b']
        | _ => false) (fun l hl => by
          have := hsel l hl
          revert this
          split <;> simp) (by decide)) xs ys hxy hx hy
  · decide

/-- The claim of C32 without conditions on the cuts, for runs without undefined behaviour. -/
def C32Full : Prop := ∀ (O : NumOps) (t : Ast) (file : Str) (cores : Nat) (u : Nat → Nat → UState) (r : ParallelCtx), 0 < cores →
  clean O t file → parallelRun O MEMORY_FOOTPRINT cores u t file = some (some r) → r.k.bad = false →
  results O t file = some r.pf.output

theorem not_C32Full {t : Ast} {file : Str} {cores : Nat} {u : Nat → Nat → UState} {out : List Str} (hc : 0 < cores)
    (h1 : (serialRun intOps MEMORY_FOOTPRINT t file).map (fun r => (r.sa.ub, r.pf.ub)) = some (false, false))
    (h2 : (parallelRun intOps MEMORY_FOOTPRINT cores u t file).map (·.map fun r => (r.pf.output, r.k.bad)) =
      some (some (out, false)))
    (h3 : results intOps t file ≠ some out) : ¬ C32Full := by
  intro h
  cases hz : parallelRun intOps MEMORY_FOOTPRINT cores u t file with
  | none => rw [hz] at h2; cases h2
  | some z =>
    cases z with
    | none => rw [hz] at h2; cases h2
    | some r =>
      rw [hz] at h2
      simp only [Option.map_some, Option.some.injEq, Prod.mk.injEq] at h2
      refine h3 ?_
      rw [h intOps t file cores u r hc ?_ hz h2.2, h2.1]
      intro r' hr'
      rw [hr'] at h1
      simpa using h1

set_option maxRecDepth 100000 in
/-- **C32 is false**: `$[*]` on `["aa", "bb", "cc", "dd"]` with two threads prints `"aa"`, `"bb"`, `"dd"`, `"dd"`.  The second
thread does not know that it is inside an array; when it finds out, at the first comma, the text of the string it has read
is no longer in the lexer's buffer (worker_automaton.c, inference at PRI). -/
theorem c32_false : ¬ C32Full :=
  not_C32Full (t := astOf [.all]) (file := "[\"aa\", \"bb\", \"cc\", \"dd\"]".toList) (cores := 2) (u := fun _ _ => .other)
    (out := ["\"aa\"".toList, "\"bb\"".toList, "\"dd\"".toList, "\"dd\"".toList]) (by decide)
    (by with_unfolding_all rfl) (by with_unfolding_all rfl) (by
      have : results intOps (astOf [.all]) "[\"aa\", \"bb\", \"cc\", \"dd\"]".toList =
        some ["\"aa\"".toList, "\"bb\"".toList, "\"cc\"".toList, "\"dd\"".toList] := by with_unfolding_all rfl
      rw [this]; decide)

set_option maxRecDepth 100000 in
/-- C32 also fails for a selected object that lies across two cuts: `$.a` on
`{"a": {"b": 1, "c": 2, "d": 3, "e": 4}}` with three threads prints `, "d": 3, "e": 4}`; the text is put together from the last
two chunks, with the offset of the first. -/
theorem c32_false_object : ¬ C32Full :=
  not_C32Full (t := astOf [.prop ['a']]) (file := "{\"a\": {\"b\": 1, \"c\": 2, \"d\": 3, \"e\": 4}}".toList) (cores := 3)
    (u := fun _ _ => .other) (out := [", \"d\": 3, \"e\": 4}".toList]) (by decide)
    (by with_unfolding_all rfl) (by with_unfolding_all rfl) (by
      have : results intOps (astOf [.prop ['a']]) "{\"a\": {\"b\": 1, \"c\": 2, \"d\": 3, \"e\": 4}}".toList =
        some ["{\"b\": 1, \"c\": 2, \"d\": 3, \"e\": 4}".toList] := by with_unfolding_all rfl
      rw [this]; decide)

set_option maxRecDepth 100000 in
/-- C32 also fails for a selected object that is an element of an array and lies across one cut only, if the array began before the
chunk: `$[*]` on `[{"aa":"1","bb":"2"},{"cc":"3","dd":"4"},{"ee":"5","ff":"6"}]` with three threads prints the first two
objects.  The third begins in the second chunk, at the level of that worker's root, and `combineQueryStacks` (multi_stack.h:426)
copies the levels above the root only: the place where the object began is lost, and nothing is reported. -/
theorem c32_false_element : ¬ C32Full :=
  not_C32Full (t := astOf [.all])
    (file := "[{\"aa\":\"1\",\"bb\":\"2\"},{\"cc\":\"3\",\"dd\":\"4\"},{\"ee\":\"5\",\"ff\":\"6\"}]".toList) (cores := 3)
    (u := fun _ _ => .other) (out := ["{\"aa\":\"1\",\"bb\":\"2\"}".toList, "{\"cc\":\"3\",\"dd\":\"4\"}".toList]) (by decide)
    (by with_unfolding_all rfl) (by with_unfolding_all rfl) (by
      have : results intOps (astOf [.all])
          "[{\"aa\":\"1\",\"bb\":\"2\"},{\"cc\":\"3\",\"dd\":\"4\"},{\"ee\":\"5\",\"ff\":\"6\"}]".toList =
        some ["{\"aa\":\"1\",\"bb\":\"2\"}".toList, "{\"cc\":\"3\",\"dd\":\"4\"}".toList, "{\"ee\":\"5\",\"ff\":\"6\"}".toList] := by
        with_unfolding_all rfl
      rw [this]; decide)

set_option maxRecDepth 100000 in
/-- C32 also fails for a sliced array that lies across a cut: `$[3:4].b` on
`[{"a": 1, "b": 2},"x",{"a": 3, "b": 4},"y",{"a": 5, "b": 6}]` selects nothing, but with two threads `6` is printed.  The elements
after the cut are counted by the marks that the worker leaves at the end of objects and arrays (parallel_automata_execution.h:319-324);
it leaves none for the string `"y"`. -/
theorem c32_false_slice : ¬ C32Full :=
  not_C32Full (t := astOf [.slice (some 3) (some 4), .prop ['b']])
    (file := "[{\"a\": 1, \"b\": 2},\"x\",{\"a\": 3, \"b\": 4},\"y\",{\"a\": 5, \"b\": 6}]".toList) (cores := 2)
    (u := fun _ _ => .other) (out := ["6".toList]) (by decide)
    (by with_unfolding_all rfl) (by with_unfolding_all rfl) (by
      have : results intOps (astOf [.slice (some 3) (some 4), .prop ['b']])
          "[{\"a\": 1, \"b\": 2},\"x\",{\"a\": 3, \"b\": 4},\"y\",{\"a\": 5, \"b\": 6}]".toList = some [] := by
        with_unfolding_all rfl
      rw [this]; decide)

set_option maxRecDepth 100000 in
/-- C32 also fails for a sliced array of objects that lies across two cuts: `$[1:2].c.b` on
`[{"c": {"d": 1, "b": "0"}}, {"c": {"d": 1, "b": "1"}}, {"c": {"d": 1, "b": "2"}}]` selects `"1"`, but with three threads `"2"` is printed
as well.  The second worker does not know the index of the elements it meets and enters all of them; the levels of the one that is
open at the end of its chunk are copied into the stack of the merge (`combineQueryStacks`, multi_stack.h:401) without a look at the index. -/
theorem c32_false_records : ¬ C32Full :=
  not_C32Full (t := astOf [.slice (some 1) (some 2), .prop ['c'], .prop ['b']])
    (file := "[{\"c\": {\"d\": 1, \"b\": \"0\"}}, {\"c\": {\"d\": 1, \"b\": \"1\"}}, {\"c\": {\"d\": 1, \"b\": \"2\"}}]".toList) (cores := 3)
    (u := fun _ _ => .other) (out := ["\"1\"".toList, "\"2\"".toList]) (by decide)
    (by with_unfolding_all rfl) (by with_unfolding_all rfl) (by
      have : results intOps (astOf [.slice (some 1) (some 2), .prop ['c'], .prop ['b']])
          "[{\"c\": {\"d\": 1, \"b\": \"0\"}}, {\"c\": {\"d\": 1, \"b\": \"1\"}}, {\"c\": {\"d\": 1, \"b\": \"2\"}}]".toList =
          some ["\"1\"".toList] := by
        with_unfolding_all rfl
      rw [this]; decide)

set_option maxRecDepth 100000 in
/-- One cut is enough for an array of arrays: `$[5:6][*].b` on `[[{"b": 0}], [{"b": 1}], [{"b": 2}], [{"b": 3}], [{"b": 4}], [{"b": 5}]]`
selects `5`, but with two threads nothing is printed: the worker leaves the mark at the end of an array only for an entry with a start
(worker_automaton.c:384, 396-399), which an entry that is not selected itself does not have, so that the elements that are arrays are not counted. -/
theorem c32_false_rows : ¬ C32Full :=
  not_C32Full (t := astOf [.slice (some 5) (some 6), .all, .prop ['b']])
    (file := "[[{\"b\": 0}], [{\"b\": 1}], [{\"b\": 2}], [{\"b\": 3}], [{\"b\": 4}], [{\"b\": 5}]]".toList) (cores := 2)
    (u := fun _ _ => .other) (out := []) (by decide)
    (by with_unfolding_all rfl) (by with_unfolding_all rfl) (by
      have : results intOps (astOf [.slice (some 5) (some 6), .all, .prop ['b']])
          "[[{\"b\": 0}], [{\"b\": 1}], [{\"b\": 2}], [{\"b\": 3}], [{\"b\": 4}], [{\"b\": 5}]]".toList = some ["5".toList] := by
        with_unfolding_all rfl
      rw [this]; decide)

end JPS
