import Verif.PathSerial
/-!
# C01, C02: the serial run returns exactly the matching values

The specification is `Spec/Json.lean` (documents, locations, parts), `Spec/Path.lean` (`Matches`)
and `Spec/Text.lean` (layouts).  `astOf p` is the syntax tree the parser produces for the path `p`
(see `Verif/Props/Parser.lean`).
-/

set_option autoImplicit false

namespace JPS
open Spec

open Classical in
/-- The values of `v` selected by `p`, in the order in which they end. -/
noncomputable def selected (p : List Step) (v : J) : List J :=
  ((v.parts []).filter fun x => decide (Matches p x.1)).map Prod.snd

/-- A path of the class of C01. -/
def noSlices (p : List Step) : Prop := ∀ s ∈ p, isSlice s = false

theorem noSlices_desc {p : List Step} (h : noSlices p) : noDescBeforeSlice p = true := by
  induction p with
  | nil => rfl
  | cons s p ih =>
    have hp : ∀ t ∈ p, isSlice t = false := fun t ht => h t (by simp [ht])
    unfold noDescBeforeSlice
    simp only [Bool.and_eq_true, Bool.or_eq_true, Bool.not_eq_true']
    refine ⟨.inr ?_, ih hp⟩
    rw [List.all_eq_true]
    intro t ht; simp [hp t ht]

theorem noSlices_bounds {p : List Step} (h : noSlices p) : boundsOk p := by
  intro a b hm
  have := h _ hm
  simp [isSlice] at this

/-- Slice bounds are representable as C `int`s, so that dfa_builder.cpp:240-243 is defined. -/
def boundsInt (p : List Step) : Prop :=
  ∀ a b, Step.slice a b ∈ p → (∀ x, a = some x → intMin ≤ x ∧ x ≤ intMax) ∧
    (∀ x, b = some x → intMin ≤ x ∧ x ≤ intMax)

/-- Results of the serial run of a path on a file. -/
def results (O : NumOps) (t : Ast) (file : Str) : Option (List Str) :=
  (serialRun O MEMORY_FOOTPRINT t file).map (·.pf.output)

/-- No undefined behaviour was met in the serial run. -/
def clean (O : NumOps) (t : Ast) (file : Str) : Prop :=
  ∀ r, serialRun O MEMORY_FOOTPRINT t file = some r → r.sa.ub = false ∧ r.pf.ub = false

/-- A document the tokenizer reads correctly: layout, nesting and size limits of the program. -/
structure Readable (pre trail : Str) (v : J) : Prop where
  preWs : pre.all isWs = true
  trailWs : trail.all isWs = true
  noBlank : pre.head? ≠ some ' '
  container : v.isContainer = true
  wf : v.wf = true
  tight : v.keysTight = true
  depth : v.depth ≤ MAX_STACK
  size : (pre ++ v.render ++ trail).length ≤ MEMORY_FOOTPRINT

/-- A document read as a whole: white space around, a container, keys directly followed by their colon, not too deep. -/
structure DocOK (pre trail : Str) (v : J) : Prop where
  preWs : pre.all isWs = true
  trailWs : trail.all isWs = true
  container : v.isContainer = true
  wf : v.wf = true
  tight : v.keysTight = true
  depth : v.depth ≤ MAX_STACK

theorem Readable.doc {pre trail : Str} {v : J} (h : Readable pre trail v) : DocOK pre trail v :=
  ⟨h.preWs, h.trailWs, h.container, h.wf, h.tight, h.depth⟩

theorem DocOK.nonempty {pre trail : Str} {v : J} (h : DocOK pre trail v) : pre ++ v.render ++ trail ≠ [] := by
  have := h.container
  cases v <;> simp [J.isContainer, J.render] at this ⊢

theorem Readable.nonempty {pre trail : Str} {v : J} (h : Readable pre trail v) :
    pre ++ v.render ++ trail ≠ [] := by
  have := h.container
  cases v <;> simp [J.isContainer, J.render] at this ⊢

theorem run_path (O : NumOps) (p : List Step) (hp : p ≠ []) (hs : fewNames p)
    (hd : noDescBeforeSlice p = true) (hb : boundsOk p) {pre trail : Str} {v : J}
    (h : Readable pre trail v) :
    ∃ r, serialRun O MEMORY_FOOTPRINT (astOf p) (pre ++ v.render ++ trail) = some r ∧
      (open Classical in
      r.pf.output = ((seen [] v).filter (fun x => decide (Matches p x.1))).map (fun x => x.2.2)) ∧
      (v.short 3996 = true → r.pf.output.length ≤ MAX_OUTPUT →
        (∀ t ∈ r.pf.output, t.length ≤ 998) → r.sa.ub = false ∧ r.pf.ub = false) := by
  obtain ⟨c, hc, hpc⟩ := pathCtx_of_build p hp hs
  have hlen : (v.render.length : Int) ≤ intMax := by
    have := h.size
    simp only [List.length_append, MEMORY_FOOTPRINT] at this
    simp only [intMax]; omega
  have := hpc.serial O hd hb pre trail v h.preWs h.trailWs h.noBlank h.container h.wf h.tight h.depth hlen
  exact ⟨_, serialRun_single O MEMORY_FOOTPRINT (astOf p) _ c hc h.nonempty h.size, this.1, this.2⟩

/-- The selected values and the reported texts. -/
theorem selected_eq (p : List Step) (v : J) :
    (open Classical in
    selected p v = ((seen [] v).filter (fun x => decide (Matches p x.1))).map (fun x => x.2.1)) := by
  unfold selected
  rw [← seen_parts, List.filter_map, List.map_map]
  rfl

theorem tidy_texts (p : List Step) (v : J) (ht : v.tidy = true) :
    (open Classical in
    ((seen [] v).filter (fun x => decide (Matches p x.1))).map (fun x => x.2.2) =
      (selected p v).map J.render) := by
  rw [selected_eq, List.map_map]
  apply List.map_congr_left
  intro x hx
  exact seen_tidy [] v ht x (List.mem_filter.1 hx).1

theorem forall2_map {α β γ : Type} (R : β → γ → Prop) (f : α → β) (g : α → γ) (l : List α)
    (h : ∀ x ∈ l, R (f x) (g x)) : All2 R (l.map f) (l.map g) := by
  induction l with
  | nil => exact .nil
  | cons x l ih => exact .cons (h x (by simp)) (ih fun y hy => h y (by simp [hy]))

theorem shows_texts (p : List Step) (v : J) (hw : v.wf = true) :
    (open Classical in
    All2 Shows (selected p v)
      (((seen [] v).filter (fun x => decide (Matches p x.1))).map (fun x => x.2.2))) := by
  rw [selected_eq]
  apply forall2_map
  intro x hx
  exact seen_shows [] v hw x (List.mem_filter.1 hx).1

/-! ### C01 -/

/-- C01 as stated: every path of the class, every well-formed document within the nesting limit,
every layout. -/
def C01Full : Prop := ∀ (O : NumOps) (p : List Step) (pre trail : Str) (v : J), p ≠ [] → noSlices p →
  fewNames p → pre.all isWs = true → trail.all isWs = true → v.isContainer = true → v.wf = true →
  v.depth ≤ MAX_STACK → (pre ++ v.render ++ trail).length ≤ MEMORY_FOOTPRINT →
  results O (astOf p) (pre ++ v.render ++ trail) = some ((selected p v).map J.render)

/-- C01 for tidy layouts: exactly the matching values, verbatim, once each, in order of their end;
and no undefined behaviour if keys, scalars and results fit the buffers.  Missing from C01: layouts
on which the tokenizer alters a literal (`Spec.J.tidy`), line breaks between a key and its colon
(`keysTight`), a blank before the document (`noBlank`). -/
theorem c01_serial_exact_partial (O : NumOps) (p : List Step) (hp : p ≠ []) (hc : noSlices p)
    (hs : fewNames p) (pre trail : Str) (v : J) (h : Readable pre trail v) (ht : v.tidy = true) :
    results O (astOf p) (pre ++ v.render ++ trail) = some ((selected p v).map J.render) ∧
    (v.short 3996 = true → (selected p v).length ≤ MAX_OUTPUT →
      (∀ x ∈ selected p v, x.render.length ≤ 998) → clean O (astOf p) (pre ++ v.render ++ trail)) := by
  obtain ⟨r, h1, h2, h3⟩ := run_path O p hp hs (noSlices_desc hc) (noSlices_bounds hc) h
  rw [tidy_texts p v ht] at h2
  refine ⟨by unfold results; rw [h1]; simp [h2], ?_⟩
  intro a1 a2 a3 r' hr'
  rw [h1] at hr'; cases hr'
  refine h3 a1 (by rw [h2]; simpa using a2) ?_
  rw [h2]; intro t ht
  obtain ⟨x, hx, rfl⟩ := List.mem_map.1 ht
  exact a3 x hx

/-- C01 without assumption on the layout of literals: the results are reports of exactly the
matching values, one each and in order; strings, arrays and objects are verbatim, a literal may
lack its sign and carry white space and one character more. -/
theorem c01_serial_shows_partial (O : NumOps) (p : List Step) (hp : p ≠ []) (hc : noSlices p)
    (hs : fewNames p) (pre trail : Str) (v : J) (h : Readable pre trail v) :
    ∃ texts, results O (astOf p) (pre ++ v.render ++ trail) = some texts ∧
      All2 Shows (selected p v) texts := by
  obtain ⟨r, h1, h2, h3⟩ := run_path O p hp hs (noSlices_desc hc) (noSlices_bounds hc) h
  refine ⟨r.pf.output, by unfold results; rw [h1]; rfl, ?_⟩
  rw [h2]; exact shows_texts p v h.wf

/-- `{"a":1}`. -/
def exDirect : J := .obj [] (.cons [] ['a'] [] [] (.lit ['1']) [] .nil)

/-- `{"b": [10, {"a": "x"}, -1 ], "a": {"a": [ ]}}`, used in the examples. -/
def exDoc : J :=
  .obj [] (.cons [] ['b'] [] [' ']
    (.arr [] (.cons [] (.lit ['1', '0']) [] (.cons [' ']
      (.obj [] (.cons [] ['a'] [] [' '] (.str ['x']) [] .nil)) [] (.cons [' '] (.lit ['2']) [' '] .nil)))) []
    (.cons [' '] ['a'] [] [' '] (.obj [] (.cons [] ['a'] [] [' '] (.arr [' '] .nil) [] .nil)) [] .nil))

example : Readable ['\n'] [] exDoc := ⟨by decide, by decide, by decide, by decide, by decide, by decide, by decide, by decide⟩
example : exDoc.tidy = true ∧ exDoc.short 3996 = true := by decide
/-- The hypotheses of `c01_serial_exact_partial` are met and its conclusion is not trivial: `$..a`
selects three values of `exDoc`. -/
example : (selected [.descProp ['a']] exDoc).map J.render =
    ["\"x\"".toList, "[ ]".toList, "{\"a\": [ ]}".toList] := by
  simp [selected, exDoc, J.parts, Members.parts, Elems.parts, matches_descProp, matches_nil,
    matches_nil_left, J.render, Members.render, Elems.render, Members.sep]

/-- C01 fails in general: a literal directly after its colon is reported with the bracket that
follows it (lexing.c:139-142). -/
theorem c01_false : ¬ C01Full := by
  intro h
  have h1 := h intOps [.prop ['a']] [] [] exDirect
    (by simp) (by intro s hs; simp at hs; subst hs; rfl) (by decide) rfl rfl rfl (by decide) (by decide)
    (by decide)
  have h2 : ∀ O, results O (astOf [.prop ['a']]) ([] ++ exDirect.render ++ []) = some ["1}".toList] := by
    intro O; with_unfolding_all rfl
  rw [h2] at h1
  simp [selected, exDirect, J.parts, Members.parts, matches_prop, matches_nil, J.render] at h1

/-- A line break between a key and its colon makes the key a value: `$.a` finds nothing in
`{"a"\n: 1 }` (lexing.c:123). -/
theorem c01_false_key (O : NumOps) :
    results O (astOf [.prop ['a']]) "{\"a\"\n: 1 }".toList = some [] := by
  with_unfolding_all rfl

/-! ### C02 -/

/-- C02 as stated, for documents that are read correctly. -/
def C02Full : Prop := ∀ (O : NumOps) (p : List Step) (pre trail : Str) (v : J), p ≠ [] → boundsInt p →
  fewNames p → Readable pre trail v → v.tidy = true →
  results O (astOf p) (pre ++ v.render ++ trail) = some ((selected p v).map J.render)

/-- C02 when no descendant step precedes a slice and no slice is `[0:0]`. -/
theorem c02_slices_exact_partial (O : NumOps) (p : List Step) (hp : p ≠ [])
    (hd : noDescBeforeSlice p = true) (hb : boundsOk p) (_hi : boundsInt p)
    (hs : fewNames p) (pre trail : Str) (v : J) (h : Readable pre trail v) (ht : v.tidy = true) :
    results O (astOf p) (pre ++ v.render ++ trail) = some ((selected p v).map J.render) ∧
    (v.short 3996 = true → (selected p v).length ≤ MAX_OUTPUT →
      (∀ x ∈ selected p v, x.render.length ≤ 998) → clean O (astOf p) (pre ++ v.render ++ trail)) := by
  obtain ⟨r, h1, h2, h3⟩ := run_path O p hp hs hd hb h
  rw [tidy_texts p v ht] at h2
  refine ⟨by unfold results; rw [h1]; simp [h2], ?_⟩
  intro a1 a2 a3 r' hr'
  rw [h1] at hr'; cases hr'
  refine h3 a1 (by rw [h2]; simpa using a2) ?_
  rw [h2]; intro t ht
  obtain ⟨x, hx, rfl⟩ := List.mem_map.1 ht
  exact a3 x hx

/-- The general form, as for C01. -/
theorem c02_slices_shows_partial (O : NumOps) (p : List Step) (hp : p ≠ [])
    (hd : noDescBeforeSlice p = true) (hb : boundsOk p) (_hi : boundsInt p)
    (hs : fewNames p) (pre trail : Str) (v : J) (h : Readable pre trail v) :
    ∃ texts, results O (astOf p) (pre ++ v.render ++ trail) = some texts ∧
      All2 Shows (selected p v) texts := by
  obtain ⟨r, h1, h2, h3⟩ := run_path O p hp hs hd hb h
  refine ⟨r.pf.output, by unfold results; rw [h1]; rfl, ?_⟩
  rw [h2]; exact shows_texts p v h.wf

/-- `$.b[1:].a` meets the hypotheses and selects something. -/
example : noDescBeforeSlice [.prop ['b'], .slice (some 1) none, .prop ['a']] = true ∧
    boundsOk [.prop ['b'], .slice (some 1) none, .prop ['a']] ∧
    boundsInt [.prop ['b'], .slice (some 1) none, .prop ['a']] ∧
    (selected [.prop ['b'], .slice (some 1) none, .prop ['a']] exDoc).map J.render =
      ["\"x\"".toList] := by
  refine ⟨by decide, ?_, ?_, ?_⟩
  · intro a b h; simp at h; obtain ⟨rfl, rfl⟩ := h; decide
  · intro a b h; simp at h; obtain ⟨rfl, rfl⟩ := h; simp [intMin, intMax]
  · simp [selected, exDoc, J.parts, Members.parts, Elems.parts, matches_prop, matches_slice, matches_nil,
      matches_nil_left, J.render, inSlice]

/-- `[7]`. -/
def exOne : J := .arr [] (.cons [] (.lit ['7']) [] .nil)
/-- `{"a":[5,{"a":[6]}]}`. -/
def exNest : J := .obj [] (.cons [] ['a'] [] [] (.arr [] (.cons [] (.lit ['5']) []
  (.cons [] (.obj [] (.cons [] ['a'] [] [] (.arr [] (.cons [] (.lit ['6']) [] .nil)) [] .nil)) [] .nil))) [] .nil)

/-- The empty slice `[0:0]` selects everything: the bounds (0,0) mean "no constraint"
(streaming_automaton.c:25). -/
theorem c02_false_empty (O : NumOps) :
    results O (astOf [.slice (some 0) (some 0)]) exOne.render = some ["7".toList] ∧
    selected [.slice (some 0) (some 0)] exOne = [] := by
  constructor
  · with_unfolding_all rfl
  · simp [selected, exOne, J.parts, Elems.parts, matches_slice, matches_nil, inSlice]

/-- After a descendant step a slice hides results inside elements it does not select: `$..a[0:1]` on
`{"a":[5,{"a":[6]}]}` misses the 6 (streaming_automaton.c:74, 115). -/
theorem c02_false_desc (O : NumOps) :
    results O (astOf [.descProp ['a'], .slice (some 0) (some 1)]) exNest.render = some ["5".toList] ∧
    (selected [.descProp ['a'], .slice (some 0) (some 1)] exNest).map J.render =
      ["5".toList, "6".toList] := by
  constructor
  · with_unfolding_all rfl
  · simp [selected, exNest, J.parts, Elems.parts, Members.parts, matches_descProp, matches_slice,
      matches_nil, matches_nil_left, inSlice, J.render]

theorem c02_false : ¬ C02Full := by
  intro h
  have h1 := h intOps
    [.slice (some 0) (some 0)] [] [] exOne (by simp)
    (by intro a b h; simp at h; obtain ⟨rfl, rfl⟩ := h; simp [intMin, intMax]) (by decide)
    ⟨rfl, rfl, by decide, rfl, by decide, by decide, by decide, by decide⟩ (by decide)
  rw [List.nil_append, List.append_nil, (c02_false_empty _).1, (c02_false_empty intOps).2] at h1
  simp at h1

end JPS
