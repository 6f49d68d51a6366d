import Verif.StreamInv
import Verif.Props.Query
/-!
# Properties of the streaming automaton: C15, C16, C17, C18, C22
-/
set_option autoImplicit false

namespace JPS
open Spec

theorem shows_container (v : J) (h : v.isContainer = true) : Shows v v.render := by
  cases v with
  | lit => cases h
  | str => cases h
  | arr => rfl
  | obj => rfl

theorem otext_container (obs : Str → Str) (v : J) (h : v.isContainer = true) :
    otext obs v = v.render := by
  cases v with
  | lit => cases h
  | str => cases h
  | arr => rfl
  | obj => rfl

theorem lead_zero {s : Str} (h : s.head? ≠ some ' ') : lead s = 0 := by
  cases s with
  | nil => rfl
  | cons c s => simp at h; simp [lead, h]

theorem DocOK.lead {pre trail : Str} {v : J} (h : DocOK pre trail v) (hn : pre.head? ≠ some ' ') :
    lead (pre ++ v.render ++ trail) = 0 := by
  have hc := h.container
  apply lead_zero
  cases pre with
  | nil => cases v with
    | lit => cases hc
    | str => cases hc
    | arr => simp [J.render]
    | obj => simp [J.render]
  | cons c p => simpa using hn

theorem Readable.lead {pre trail : Str} {v : J} (h : Readable pre trail v) :
    lead (pre ++ v.render ++ trail) = 0 := h.doc.lead h.noBlank

/-! ## C15: container results are verbatim source slices -/

/-- The part of the input from offset `b` up to offset `e`. -/
def slice (s : Str) (b e : Nat) : Str := (s.take e).drop b

/-- C15 in full, for documents: every tuple that reports a container carries its source text. -/
def C15Full : Prop :=
  ∀ (d : QDfa) (pre trail : Str) (v : J), pre.all isWs = true → trail.all isWs = true →
    v.isContainer = true → v.wf = true → v.keysTight = true → v.depth ≤ MAX_STACK →
    ∃ evs : List (Nat × Ev),
      (execAutomaton d (pre ++ v.render ++ trail) SA.init).tl = evs.map evTuple ∧
      ∀ e ∈ evs, EvOk (fun x t => (x = v ∨ ∃ l, (l, x) ∈ v.parts []) ∧
        (x.isContainer = true → t = x.render)) e

/-- C15 for documents that do not start with a blank: every tuple is a marker or reports the root
or one of the parts of the document; a container is reported by its source text, a scalar as
`Shows` says.  Missing: inputs that start with a blank, see `c15_false`. -/
theorem c15_verbatim_partial (d : QDfa) (pre trail : Str) (v : J) (hp : pre.all isWs = true)
    (hsp : pre.head? ≠ some ' ') (ht : trail.all isWs = true) (hc : v.isContainer = true)
    (hw : v.wf = true) (hk : v.keysTight = true) (hd : v.depth ≤ MAX_STACK) :
    ∃ evs : List (Nat × Ev),
      (execAutomaton d (pre ++ v.render ++ trail) SA.init).tl = evs.map evTuple ∧
      ∀ e ∈ evs, EvOk (fun x t => (x = v ∨ ∃ l, (l, x) ∈ v.parts []) ∧ Shows x t ∧
        (x.isContainer = true → t = x.render)) e := by
  refine ⟨emitV d id false 1 0 v, ?_, ?_⟩
  · have := exec_events d pre trail v SA.init hp ht hsp hc hw hk rfl hd (by simpa [SA.init] using hd)
    simpa [SA.init] using this
  · intro e he
    have := emitV_ok Shows shows_container d id false 1 0 [] v
      (by rw [otext_container _ _ hc]; exact shows_container v hc) (seen_shows [] v hw) e he
    revert this
    unfold EvOk
    cases e.2 with
    | mark t => exact id
    | val x t =>
      rintro ⟨h1, h2⟩
      refine ⟨h2, h1, ?_⟩
      intro hx
      cases x with
      | lit => cases hx
      | str => cases hx
      | arr => exact h1
      | obj => exact h1

/-- On every input whatever, well-formed or not, that does not start with a blank: a reported
text is a marker, the text of a scalar token, or the exact part of the input from an opening
bracket to a closing bracket after it. -/
theorem c15_slices_any_input_partial (d : QDfa) (s : Str) (hs : s.head? ≠ some ' ') :
    ∀ t ∈ (execAutomaton d s SA.init).tl,
      t.text = [] ∨ t.text = ['{'] ∨ t.text = ['}'] ∨ Tok.pri t.text ∈ lexAll s ∨
      ∃ b e, b < e ∧ OpenAt s b ∧ CloseAt s e ∧ t.text = slice s b e := by
  intro t ht
  have hl := lead_zero hs
  have hin : Inv s ((lexAll s).filterMap (fun | .pri x => some x | _ => none)) 0 SA.init :=
    ⟨fun b hb => by simp [SA.init] at hb, by simp [SA.init], by simp [SA.init]⟩
  have := inv_run d s ((lexAll s).filterMap (fun | .pri x => some x | _ => none)) (s.length + 1)
    Lexer.init 0 SA.init (Nat.le_refl _) hin
    (fun x hx => List.mem_filterMap.2 ⟨_, hx, rfl⟩) t (by
      rw [execAutomaton, execLoop_eq] at ht; exact ht)
  rcases this with h | h | h | h | ⟨b, e, h1, h2, h3, h4⟩
  · exact Or.inl h
  · exact Or.inr (Or.inl h)
  · exact Or.inr (Or.inr (Or.inl h))
  · obtain ⟨u, hu, hx⟩ := List.mem_filterMap.1 h
    refine Or.inr (Or.inr (Or.inr (Or.inl ?_)))
    cases u <;> simp at hx
    subst hx; exact hu
  · refine Or.inr (Or.inr (Or.inr (Or.inr ⟨b, e, h1, h2, h3, ?_⟩)))
    rw [h4]; unfold substring ltrim slice; rw [hl, List.drop_zero]

/-- On any input the text is the slice at the right offsets of the input without its leading
blanks, that is, shifted by their number. -/
theorem c15_shifted (d : QDfa) (s : Str) :
    ∀ t ∈ (execAutomaton d s SA.init).tl,
      t.text = [] ∨ t.text = ['{'] ∨ t.text = ['}'] ∨ Tok.pri t.text ∈ lexAll s ∨
      ∃ b e, b < e ∧ OpenAt s b ∧ CloseAt s e ∧
        t.text = slice (s.dropWhile (· == ' ')) b e := by
  intro t ht
  have hl : ∀ s : Str, ltrim s = s.dropWhile (· == ' ') := by
    intro s
    induction s with
    | nil => rfl
    | cons c s ih =>
      by_cases hc : c = ' '
      · have : ltrim (c :: s) = ltrim s := by simp [ltrim, lead, hc]
        rw [this, ih]; simp [hc]
      · simp [ltrim, lead, hc]
  have hin : Inv s ((lexAll s).filterMap (fun | .pri x => some x | _ => none)) 0 SA.init :=
    ⟨fun b hb => by simp [SA.init] at hb, by simp [SA.init], by simp [SA.init]⟩
  have := inv_run d s ((lexAll s).filterMap (fun | .pri x => some x | _ => none)) (s.length + 1)
    Lexer.init 0 SA.init (Nat.le_refl _) hin
    (fun x hx => List.mem_filterMap.2 ⟨_, hx, rfl⟩) t (by
      rw [execAutomaton, execLoop_eq] at ht; exact ht)
  rcases this with h | h | h | h | ⟨b, e, h1, h2, h3, h4⟩
  · exact Or.inl h
  · exact Or.inr (Or.inl h)
  · exact Or.inr (Or.inr (Or.inl h))
  · obtain ⟨u, hu, hx⟩ := List.mem_filterMap.1 h
    refine Or.inr (Or.inr (Or.inr (Or.inl ?_)))
    cases u <;> simp at hx
    subst hx; exact hu
  · refine Or.inr (Or.inr (Or.inr (Or.inr ⟨b, e, h1, h2, h3, ?_⟩)))
    rw [h4]; unfold substring slice; rw [hl]

/-- The automaton of `$.a`, as compiled. -/
def exQuery : QDfa :=
  { statesNum := 3, inputsNum := 4
    table := fun s c => if s = 1 ∧ c = 3 then 2 else 0
    stop := fun _ => 0
    accept := fun s => if s = 2 then .output else .none
    lower := fun _ => 0, upper := fun _ => 0
    names := fun c => if c = 3 then ['a'] else [] }

/-- Non-trivial instance: an array is reported verbatim. -/
example : (execAutomaton exQuery "\n{\"a\": [1, {}]}".toList SA.init).tl = [⟨2, "[1, {}]".toList⟩] := by
  decide

/-- One blank before the document shifts the reported text by one. -/
theorem c15_false_blank (O : NumOps) :
    results O (astOf [.prop ['a']]) " {\"a\": [1]} ".toList = some ["1]}".toList] := by
  with_unfolding_all rfl

theorem c15_false : ¬ C15Full := by
  intro h
  obtain ⟨evs, h1, h2⟩ := h exQuery [' '] [] (.obj [] (.cons [] ['a'] [] [] (.arr [] .nil) [] .nil))
    rfl rfl rfl (by decide) (by decide) (by decide)
  have e : (execAutomaton exQuery ([' '] ++ (J.obj [] (.cons [] ['a'] [] [] (.arr [] .nil) [] .nil)).render
      ++ []) SA.init).tl = [⟨2, "]}".toList⟩] := by decide
  rw [e] at h1
  match evs, h1 with
  | (n, ev) :: (_, _) :: _, h1 => simp at h1
  | [(n, ev)], h1 =>
    have := h2 (n, ev) (by simp)
    simp only [List.map_cons, List.map_nil, evTuple, List.cons.injEq, Tuple.mk.injEq, and_true] at h1
    obtain ⟨_, h1⟩ := h1
    cases ev with
    | mark t =>
      simp only [Ev.text] at h1; subst h1
      simp [EvOk] at this
    | val x t =>
      simp only [Ev.text] at h1; subst h1
      simp only [EvOk] at this
      obtain ⟨h3, h4⟩ := this
      simp [J.parts, Members.parts, Elems.parts] at h3
      rcases h3 with rfl | rfl
      · have := h4 rfl; simp [J.render, Members.render, Members.sep] at this
      · have := h4 rfl; simp [J.render, Elems.render] at this

/-! ## C16: white space between tokens does not change which values are selected -/

/-- Two tuples report the same value of two layouts of a document. -/
def SameReport (R : J → Str → Prop) (t u : Tuple) : Prop :=
  t.st = u.st ∧ ((t.text = u.text ∧ (t.text = [] ∨ t.text = ['{'] ∨ t.text = ['}'])) ∨
    ∃ x y : J, x.strip = y.strip ∧ R x t.text ∧ R y u.text)

theorem sameReport_of (R : J → Str → Prop) : ∀ (xs ys : List (Nat × Ev)),
    xs.map eraseEv = ys.map eraseEv → (∀ e ∈ xs, EvOk R e) → (∀ e ∈ ys, EvOk R e) →
    All2 (SameReport R) (xs.map evTuple) (ys.map evTuple)
  | [], [], _, _, _ => .nil
  | [], _ :: _, h, _, _ => by simp at h
  | _ :: _, [], h, _, _ => by simp at h
  | (n, e) :: xs, (m, f) :: ys, h, h1, h2 => by
    simp only [List.map_cons, List.cons.injEq, eraseEv, Prod.mk.injEq] at h
    obtain ⟨⟨rfl, he⟩, ht⟩ := h
    refine .cons ⟨rfl, ?_⟩ (sameReport_of R xs ys ht (fun e he => h1 e (by simp [he]))
      (fun e he => h2 e (by simp [he])))
    have h1 := h1 (n, e) (by simp)
    have h2 := h2 (n, f) (by simp)
    cases e with
    | mark t => cases f with
      | mark u =>
        simp only [Ev.erase, Sum.inl.injEq] at he
        exact Or.inl ⟨he, h1⟩
      | val y u => simp [Ev.erase] at he
    | val x t => cases f with
      | mark u => simp [Ev.erase] at he
      | val y u =>
        simp only [Ev.erase, Sum.inr.injEq] at he
        exact Or.inr ⟨x, y, he, h1, h2⟩

/-- C16 in full: for every query automaton and every two layouts of a document the tuples
correspond one to one, in order, with the same scalar texts. -/
def C16Full : Prop :=
  ∀ (d : QDfa) (v v' : J), v.strip = v'.strip → v.isContainer = true → v'.isContainer = true →
    v.wf = true → v'.wf = true → v.depth ≤ MAX_STACK → v'.depth ≤ MAX_STACK →
    All2 (SameReport Exact) (execAutomaton d v.render SA.init).tl (execAutomaton d v'.render SA.init).tl

/-- C16 for every query automaton and any two layouts without a line break between a key and
its colon: the tuples correspond one to one, in order, and report the same values (a literal up
to the deviations of `Shows`).  Missing: exact literals in untidy layouts (`c16_false`). -/
theorem c16_layout_partial (d : QDfa) (pre trail pre' trail' : Str) (v v' : J)
    (hv : v.strip = v'.strip) (h : Readable pre trail v) (h' : Readable pre' trail' v') :
    All2 (SameReport Shows) (execAutomaton d (pre ++ v.render ++ trail) SA.init).tl
      (execAutomaton d (pre' ++ v'.render ++ trail') SA.init).tl := by
  rw [exec_events d pre trail v SA.init h.preWs h.trailWs h.noBlank h.container h.wf h.tight rfl
      h.depth (by simpa [SA.init] using h.depth),
    exec_events d pre' trail' v' SA.init h'.preWs h'.trailWs h'.noBlank h'.container h'.wf h'.tight rfl
      h'.depth (by simpa [SA.init] using h'.depth)]
  have hR : ∀ v : J, v.isContainer = true → Shows v v.render := shows_container
  refine sameReport_of Shows _ _ ?_ ?_ ?_
  · rw [emitV_strip d id id false _ _ v, emitV_strip d id id false _ _ v', hv]
  · intro e he
    have := emitV_ok Shows hR d id false 1 0 [] v
      (by rw [otext_container _ _ h.container]; exact hR _ h.container)
      (seen_shows [] v h.wf) e he
    revert this; unfold EvOk; cases e.2
    · exact id
    · exact fun h => h.1
  · intro e he
    have := emitV_ok Shows hR d id false 1 0 [] v'
      (by rw [otext_container _ _ h'.container]; exact hR _ h'.container)
      (seen_shows [] v' h'.wf) e he
    revert this; unfold EvOk; cases e.2
    · exact id
    · exact fun h => h.1

/-- C16 for tidy layouts: scalar texts are the same in both. -/
theorem c16_layout_exact_partial (d : QDfa) (pre trail pre' trail' : Str) (v v' : J)
    (hv : v.strip = v'.strip) (h : Readable pre trail v) (h' : Readable pre' trail' v')
    (ht : v.tidy = true) (ht' : v'.tidy = true) :
    All2 (SameReport Exact) (execAutomaton d (pre ++ v.render ++ trail) SA.init).tl
      (execAutomaton d (pre' ++ v'.render ++ trail') SA.init).tl := by
  rw [exec_events d pre trail v SA.init h.preWs h.trailWs h.noBlank h.container h.wf h.tight rfl
      h.depth (by simpa [SA.init] using h.depth),
    exec_events d pre' trail' v' SA.init h'.preWs h'.trailWs h'.noBlank h'.container h'.wf h'.tight rfl
      h'.depth (by simpa [SA.init] using h'.depth)]
  have hR : ∀ v : J, v.isContainer = true → Exact v v.render := fun _ _ => rfl
  refine sameReport_of Exact _ _ ?_ ?_ ?_
  · rw [emitV_strip d id id false _ _ v, emitV_strip d id id false _ _ v', hv]
  · intro e he
    have := emitV_ok Exact hR d id false 1 0 [] v (otext_container _ _ h.container)
      (seen_tidy [] v ht) e he
    revert this; unfold EvOk; cases e.2
    · exact id
    · exact fun h => h.1
  · intro e he
    have := emitV_ok Exact hR d id false 1 0 [] v' (otext_container _ _ h'.container)
      (seen_tidy [] v' ht') e he
    revert this; unfold EvOk; cases e.2
    · exact id
    · exact fun h => h.1

theorem selected_strip (p : List Step) (v : J) :
    (selected p v).map J.strip = selected p v.strip := by
  unfold selected
  rw [J.parts_strip, List.filter_map, List.map_map, List.map_map]
  rfl

/-- C16 for the results of the serial run of a filter-free query: two tidy layouts give the
same number of results, in the same order, each the source text of the same value. -/
theorem c16_results_partial (O : NumOps) (p : List Step) (hp : p ≠ []) (hs : fewNames p)
    (hd : noDescBeforeSlice p = true) (hb : boundsOk p)
    (pre trail pre' trail' : Str) (v v' : J) (hv : v.strip = v'.strip)
    (h : Readable pre trail v) (h' : Readable pre' trail' v')
    (ht : v.tidy = true) (ht' : v'.tidy = true) :
    ∃ xs ys : List J, xs.map J.strip = ys.map J.strip ∧
      results O (astOf p) (pre ++ v.render ++ trail) = some (xs.map J.render) ∧
      results O (astOf p) (pre' ++ v'.render ++ trail') = some (ys.map J.render) := by
  refine ⟨selected p v, selected p v', ?_, ?_, ?_⟩
  · rw [selected_strip, selected_strip, hv]
  · obtain ⟨r, h1, h2, _⟩ := run_path O p hp hs hd hb h
    rw [tidy_texts p v ht] at h2
    unfold results; rw [h1]; simp [h2]
  · obtain ⟨r, h1, h2, _⟩ := run_path O p hp hs hd hb h'
    rw [tidy_texts p v' ht'] at h2
    unfold results; rw [h1]; simp [h2]

/-- Two layouts of `[1,{"a":2,"b":[]}]`, both tidy. -/
def exLay1 : J := .arr [] (.cons [] (.lit ['1']) [] (.cons []
  (.obj [] (.cons [] ['a'] [] [' '] (.lit ['2']) [] (.cons [] ['b'] [] [] (.arr [] .nil) [] .nil))) [] .nil))
def exLay2 : J := .arr ['\n'] (.cons [] (.lit ['1']) ['\t'] (.cons ['\n', ' ']
  (.obj [' '] (.cons [] ['a'] [' '] ['\n'] (.lit ['2']) [' ', '\n']
    (.cons ['\n'] ['b'] ['\t'] [' '] (.arr [' '] .nil) [] .nil))) [] .nil))

example : exLay1.strip = exLay2.strip ∧ exLay1.tidy = true ∧ exLay2.tidy = true ∧
    exLay1.render ≠ exLay2.render :=
  ⟨by simp [exLay1, exLay2, J.strip, Elems.strip, Members.strip], by decide, by decide, by decide⟩
example : Readable [] [] exLay1 ∧ Readable ['\n'] [' '] exLay2 :=
  ⟨⟨by decide, by decide, by decide, by decide, by decide, by decide, by decide, by decide⟩,
   ⟨by decide, by decide, by decide, by decide, by decide, by decide, by decide, by decide⟩⟩

/-- A blank after the colon changes the scalar text: `{"a":1}` and `{"a": 1}`. -/
theorem c16_false : ¬ C16Full := by
  intro h
  have := h exQuery (.obj [] (.cons [] ['a'] [] [] (.lit ['1']) [] .nil))
    (.obj [] (.cons [] ['a'] [] [' '] (.lit ['1']) [] .nil)) (by simp [J.strip, Members.strip])
    rfl rfl (by decide) (by decide) (by decide) (by decide)
  have e1 : (execAutomaton exQuery (J.obj [] (.cons [] ['a'] [] [] (.lit ['1']) [] .nil)).render
      SA.init).tl = [⟨2, "1}".toList⟩] := by decide
  have e2 : (execAutomaton exQuery (J.obj [] (.cons [] ['a'] [] [' '] (.lit ['1']) [] .nil)).render
      SA.init).tl = [⟨2, "1".toList⟩] := by decide
  rw [e1, e2] at this
  cases this with
  | cons h _ =>
    obtain ⟨_, ⟨h, _⟩ | ⟨x, y, h1, h2, h3⟩⟩ := h
    · simp at h
    · unfold Exact at h2 h3
      cases x <;> cases y <;> simp [J.strip, J.render] at h1 h2 h3
      · rw [← h1, ← h2] at h3; simp at h3
      all_goals simp_all

/-- A line break before the colon changes the number of results. -/
theorem c16_false_key (O : NumOps) :
    results O (astOf [.prop ['a']]) "{\"a\"\n: \"b\"}".toList = some [] ∧
    results O (astOf [.prop ['a']]) "{\"a\": \"b\"}".toList = some ["\"b\"".toList] := by
  constructor <;> with_unfolding_all rfl

/-! ## C17: the streaming state is balanced and proportional to depth -/

/-- After a complete value as member of an object, state, element index and both stacks are
those before its key was read, from every starting configuration and for every query automaton. -/
theorem c17_member_balanced (d : QDfa) (s : Str) (hl : s.head? ≠ some ' ') (v : J) (k : Str)
    (obs : Str → Str) (off : Nat) (tail : Str) (hs : s.drop off = v.render ++ tail) (a : SA)
    (hd : a.ss.length + 1 + v.depth ≤ MAX_STACK) (hq : a.qs.length + 1 + v.depth ≤ MAX_STACK) :
    let a' := runToks d s a (.ky k :: toks obs off v)
    a'.elt = a.elt ∧ a'.ss = a.ss ∧ a'.qs = a.qs := by
  have hl := lead_zero hl
  simp only [runToks_cons, step]
  rw [stepKy_eq d k a (by omega) (by omega),
    (run_value d s hl v obs off tail hs).1 _ a.ss a.elt a.qs rfl rfl (by simp; omega)
      (by simp; omega)]
  simp

/-- After a complete array element only the element index has moved, by one. -/
theorem c17_element_balanced (d : QDfa) (s : Str) (hl : s.head? ≠ some ' ') (v : J)
    (obs : Str → Str) (off : Nat) (tail : Str) (hs : s.drop off = v.render ++ tail) (a : SA)
    (ss : List Sym) (ha : a.ss = .lb :: ss)
    (hd : a.ss.length + v.depth ≤ MAX_STACK) (hq : a.qs.length + v.depth ≤ MAX_STACK) :
    let a' := runToks d s a (toks obs off v)
    a'.elt.st = a.elt.st ∧ a'.elt.count = a.elt.count + 1 ∧ a'.ss = a.ss ∧ a'.qs = a.qs := by
  have hl := lead_zero hl
  intro a'
  obtain ⟨ms', hr⟩ := (run_value d s hl v obs off tail hs).2 a ss ha hd hq
  have : a' = _ := hr
  rw [this]; simp

/-- After a whole document the automaton is where it started, with empty stacks. -/
theorem c17_document_balanced (d : QDfa) (pre trail : Str) (v : J) (h : Readable pre trail v) :
    let a' := execAutomaton d (pre ++ v.render ++ trail) SA.init
    a'.elt.st = 1 ∧ a'.elt.count = 0 ∧ a'.ss = [] ∧ a'.qs = [] := by
  intro a'
  obtain ⟨ms', hr⟩ := execAutomaton_doc d pre trail v id SA.init h.preWs h.trailWs h.noBlank h.container
    h.wf h.tight rfl h.depth (by simpa [SA.init] using h.depth)
  have : a' = _ := hr
  rw [this]; simp [SA.orUb, SA.init, SA.ctl]

/-- While inside a document, after any prefix of its tokens, the syntax stack has at most two
entries and the query stack at most one entry per open bracket. -/
theorem c17_heights (d : QDfa) (pre trail : Str) (v : J) (h : Readable pre trail v) (p : List Tok)
    (hp : p <+: lexAll (pre ++ v.render ++ trail)) :
    ((runToks d (pre ++ v.render ++ trail) SA.init p).ss.length : Int) ≤ 2 * net p ∧
    ((runToks d (pre ++ v.render ++ trail) SA.init p).qs.length : Int) ≤ net p := by
  rw [lexAll_doc pre trail v id h.preWs h.trailWs h.container h.wf h.tight] at hp
  have hl := h.lead
  have := low_value d (pre ++ v.render ++ trail) hl v id pre.length trail (by simp) SA.init
    (Or.inr ⟨rfl, h.container⟩) (by simpa [SA.init] using h.depth) (by simpa [SA.init] using h.depth) p hp
  simpa [SA.init] using this

/-- On any input and in any state the stacks never hold more than `MAX_STACK` entries. -/
theorem push_le {α : Type} (l : List α) (x : α) (h : l.length ≤ MAX_STACK) :
    (push l x).length ≤ MAX_STACK := by
  unfold push
  split
  · simp; omega
  · exact h

example : net [.lcb 1, .ky ['a'], .lb 6] = 2 ∧
    (runToks exQuery "{\"a\":[1]}".toList SA.init [.lcb 1, .ky ['a'], .lb 6]).ss = [.lb, .ky, .lcb] ∧
    (runToks exQuery "{\"a\":[1]}".toList SA.init [.lcb 1, .ky ['a'], .lb 6]).qs.length = 2 := by
  decide

/-! ## C18: deeply nested documents -/

/-- C18 in full: no limit on the nesting. -/
def C18Full : Prop := ∀ (O : NumOps) (p : List Step) (v : J), p ≠ [] → noSlices p → fewNames p →
  v.isContainer = true → v.wf = true → v.keysTight = true → v.tidy = true →
  v.render.length ≤ MEMORY_FOOTPRINT →
  results O (astOf p) v.render = some ((selected p v).map J.render)

/-- `n + 1` nested arrays. -/
def deepArr : Nat → J
  | 0 => .arr [] .nil
  | n + 1 => .arr [] (.cons [] (deepArr n) [] .nil)
/-- `{"b":{"x":[[...]],"a":"y"}}`. -/
def exDeep (n : Nat) : J :=
  .obj [] (.cons [] ['b'] [] []
    (.obj [] (.cons [] ['x'] [] [] (deepArr n) [] (.cons [] ['a'] [] [] (.str ['y']) [] .nil))) [] .nil)

theorem deepArr_tidy (n : Nat) : (deepArr n).wf = true ∧ (deepArr n).keysTight = true ∧
    (deepArr n).tidy = true ∧ (deepArr n).isContainer = true ∧ (deepArr n).depth = n + 1 := by
  induction n with
  | zero => decide
  | succ n ih =>
    obtain ⟨h1, h2, h3, h4, h5⟩ := ih
    refine ⟨by simp [deepArr, J.wf, Elems.wf, h1], by simp [deepArr, J.keysTight, Elems.keysTight, h2],
      ?_, rfl, by simp [deepArr, J.depth, Elems.depth, h5]⟩
    have : tidyPost (deepArr n) [] = true := by cases n <;> rfl
    simp [deepArr, J.tidy, Elems.tidy, this, h3]

set_option maxRecDepth 100000 in
/-- With nesting beyond the stack size `$.a` returns a value it should not select, silently. -/
theorem c18_false_extra (O : NumOps) :
    results O (astOf [.prop ['a']]) (exDeep 97).render = some ["\"y\"".toList] := by
  with_unfolding_all rfl

set_option maxRecDepth 100000 in
/-- And `$.b.a` misses the value it should return, silently. -/
theorem c18_false_missing (O : NumOps) :
    results O (astOf [.prop ['b'], .prop ['a']]) (exDeep 97).render = some [] := by
  with_unfolding_all rfl

theorem deep_parts (loc : Loc) : ∀ n, ∀ x ∈ (deepArr n).parts loc, ∃ l, x.1 = loc ++ l ∧
    ∀ lab ∈ l, ∃ i, lab = Label.elem i
  | 0 => by simp [deepArr, J.parts, Elems.parts]
  | n + 1 => by
    intro x hx
    simp only [deepArr, J.parts, Elems.parts, List.append_nil, List.mem_append, List.mem_singleton] at hx
    rcases hx with hx | rfl
    · obtain ⟨l, h1, h2⟩ := deep_parts (loc ++ [.elem 0]) n x hx
      exact ⟨.elem 0 :: l, by simp [h1], by
        intro lab hl
        simp only [List.mem_cons] at hl
        rcases hl with rfl | hl
        · exact ⟨0, rfl⟩
        · exact h2 lab hl⟩
    · exact ⟨[.elem 0], rfl, by simp⟩

theorem c18_false : ¬ C18Full := by
  intro h
  obtain ⟨h1, h2, h3, h4, h5⟩ := deepArr_tidy 97
  have hp : tidyPost (deepArr 97) [] = true := rfl
  have hpre : ∀ r, tidyPre [] (deepArr 97) [] r = true := fun _ => rfl
  have := h intOps [.prop ['a']] (exDeep 97) (by simp) (by intro s hs; simp at hs; subst hs; rfl)
    (by decide) rfl
    (by simp [exDeep, J.wf, Members.wf, h1]; decide)
    (by simp [exDeep, J.keysTight, Members.keysTight, h2])
    (by simp [exDeep, J.tidy, Members.tidy, h3, hp, hpre]; decide)
    (by
      have hlen : ∀ n, (deepArr n).render.length = 2 * n + 2 := by
        intro n
        induction n with
        | zero => rfl
        | succ n ih => simp [deepArr, J.render, Elems.render, Elems.sep, ih]; omega
      simp [exDeep, J.render, Members.render, Members.sep, hlen, MEMORY_FOOTPRINT])
  rw [c18_false_extra] at this
  simp only [Option.some.injEq] at this
  have hsel : selected [.prop ['a']] (exDeep 97) = [] := by
    unfold selected
    rw [List.map_eq_nil_iff, List.filter_eq_nil_iff]
    intro x hx hm
    have hm : Matches [.prop ['a']] x.1 := by simpa using hm
    simp only [exDeep, J.parts, Members.parts, List.nil_append, List.append_nil, List.mem_append,
      List.mem_singleton] at hx
    rcases hx with ((hx | hx) | hx) | hx
    · obtain ⟨l, e, _⟩ := deep_parts _ 97 x hx
      rw [e] at hm; simp [matches_prop] at hm
    all_goals (rw [hx] at hm; simp [matches_prop, matches_nil] at hm)
  rw [hsel] at this
  simp at this

/-- C18 up to a nesting that needs at most `MAX_STACK` stack entries (the nesting that remains:
`c18_false`). -/
theorem c18_within_limit_partial (O : NumOps) (p : List Step) (hp : p ≠ []) (hc : noSlices p)
    (hs : fewNames p) (v : J) (hcont : v.isContainer = true) (hw : v.wf = true)
    (hk : v.keysTight = true) (ht : v.tidy = true) (hl : v.render.length ≤ MEMORY_FOOTPRINT)
    (hd : v.depth ≤ MAX_STACK) :
    results O (astOf p) v.render = some ((selected p v).map J.render) := by
  have := (c01_serial_exact_partial O p hp hc hs [] [] v
    ⟨rfl, rfl, by simp, hcont, hw, hk, hd, by simpa using hl⟩ ht).1
  simpa using this

/-- The limit is attained: 96 nested arrays two objects deep. -/
example : (exDeep 95).depth = MAX_STACK := by
  simp [exDeep, J.depth, Members.depth, (deepArr_tidy 95).2.2.2.2, MAX_STACK]

end JPS
