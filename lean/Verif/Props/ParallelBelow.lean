import Verif.Props.FilterFootprint
import Verif.Props.ParallelPieces
import Verif.Props.PruneFilter
import Verif.StateBlowup
/-!
# C32, C45 and C51 for filter queries below wildcard and descendant steps
-/

set_option autoImplicit false

namespace JPS
open Spec

theorem FPre.noIdx {B : List Step} {Q : List Reg} {c : SCtx} (h : FPre B Q c) {x : List Nat} (hx : c.letters x) :
    NoIdx (tableOf c) (c.run x) := by
  have e1 := c.lower_run _ hx
  have e2 := c.upper_run _ hx
  rw [h.ranges_zero] at e1 e2
  exact ⟨by rw [e1]; simp, by rw [e2]; simp⟩

theorem FPre.rootLoc {B : List Step} {Q : List Reg} {c : SCtx} (h : FPre B Q c) (l : Loc) :
    (JPS.locState (tableOf c) 1 0 l).1 = c.run (l.map c.col) := by
  have e : (1 : Nat) = c.run (([] : Loc).map c.col) := rfl
  have := h.locState l [] 0
  rwa [← e, List.nil_append] at this

/-- What the steps without their tests do not lead to is not reported. -/
theorem FPre.cutsOK {B : List Step} {p : List (QStep Num)} {c : SCtx} (h : FPre B (pathRegs p) c)
    (hB : ∀ s ∈ B, isSlice s = false) {pre trail : Str} {v : J} {k : Nat}
    (hbef : ∃ u w c, ((pre ++ v.render ++ trail).take k).reverse = w ++ c :: u ∧ w.all isSkip = true ∧
      (c = ',' ∨ c = '{' ∨ c = '['))
    (hu : Untorn (Matches (B ++ p.map sk)) pre v k) : CutsOK (tableOf c) pre trail v k := by
  have hno : ∀ l : Loc, NoIdx (tableOf c) (JPS.locState (tableOf c) 1 0 l).1 := by
    intro l; rw [h.rootLoc]; exact h.noIdx (c.letters_map l)
  refine ⟨hbef, fun y hy hc ha hz => hu.containers y hy hc ha (h.reported hB _ _ hz), fun y hy w es he ha j x hj hx =>
    ⟨fun hz => hu.scalars y hy w es he ha j x hj hx (h.reported hB _ _ hz), ?_⟩, fun _ _ _ _ => hno _,
    fun _ _ _ _ _ _ _ _ _ _ => hno _⟩
  intro hz
  rw [h.rootLoc] at hz
  unfold QDfa.matchedType at hz
  rcases h.accept_loc hB (y.1 ++ [.elem j]) with ⟨h1, _⟩ | ⟨r, h1, h2, h3⟩
  · rw [h1] at hz; cases hz
  · rw [h3] at hz
    obtain ⟨w, ro⟩ := r
    cases ro with
    | pred e ds => cases hz
    | out => simp only [FWords.accOf] at hz; split at hz <;> cases hz
    | cond q =>
      obtain ⟨w', k', hk⟩ := h.condEnd _ _ h1
      simp only [hk] at h2
      exact not_matches_end h2

/-- A filter of `p` below `B` tests the elements of the array at `l`. -/
def FilteredBelow (B : List Step) (p : List (QStep Num)) (l : Loc) : Prop :=
  ∃ q e r, p = q ++ .filter e :: r ∧ Matches (B ++ q.map sk) l

/-- The filtered arrays of the document that lie across the cut at `k` begin before `b`. -/
def FilteredBelowEarly (B : List Step) (p : List (QStep Num)) (pre : Str) (v : J) (b k : Nat) : Prop :=
  ∀ y ∈ allSpans pre v, ∀ w es, y.2.1 = .arr w es → FilteredBelow B p y.1 → across y k → y.2.2 < b

theorem FPre.accept_pred {B : List Step} {p : List (QStep Num)} {c : SCtx} (h : FPre B (pathRegs p) c)
    (hB : ∀ s ∈ B, isSlice s = false) {l : Loc} (ha : (tableOf c).accept (JPS.locState (tableOf c) 1 0 l).1 = .predicate) :
    ∃ q e r, p = q ++ .filter e :: r ∧ Matches (B ++ (q.map sk ++ [.all])) l := by
  rw [h.rootLoc] at ha
  rcases h.accept_loc hB l with ⟨h1, _⟩ | ⟨r, h1, h2, h3⟩
  · rw [h1] at ha; cases ha
  · rw [h3] at ha
    obtain ⟨w, ro⟩ := r
    cases ro with
    | out => cases ha
    | cond q => cases ha
    | pred e' ds =>
      rw [pathRegs, List.mem_append] at h1
      rcases h1 with h1 | h1
      · obtain ⟨q, e', r, h4, h5⟩ := regs_filter p [] _ _ _ h1
        rw [List.nil_append] at h5
        exact ⟨q, e', r, h4, by rw [← h5]; exact h2⟩
      · simp at h1

theorem matches_end_key {B : List Step} {l : Loc} {k : Str} : ¬ Matches (B ++ [.all]) (l ++ [.key k]) := by
  intro h
  obtain ⟨l1, l2, e, _, h2⟩ := matches_split h
  have h3 := matches_length h2 (by simp [isDesc])
  match l2, h3 with
  | [x], _ =>
    have e2 := (List.append_inj' e rfl).2
    simp only [List.cons.injEq, and_true] at e2
    subst e2
    cases h2

/-- `tree_ct_safe` for a filter query below other steps, with a constraint table. -/
theorem below_ct_safe (O : NumOps) (B : List Step) (hB : ∀ s ∈ B, isSlice s = false) (p : List (QStep Num)) {c : SCtx}
    (hbc : buildCtx (belowAst B p) = some c) (hf : FPre B (pathRegs p) c)
    (pre trail : Str) (v : J) (h : Readable pre trail v) (hpl : v.plainStrings = true) (h0 : NUL ∉ pre ++ v.render ++ trail)
    (cores : Nat) (hc : 0 < cores) (hcm : cores ≤ MAX_THREAD) (ct : Option CTable) (hnd : ct.NodupOK)
    (hin : ct.StatesIn (tableOf c).statesNum) (u : Nat → UState)
    (hpart : partition cores (pre ++ v.render ++ trail) ≠ none) (hsz : Sizes (tableOf c) v) (hkeys : ct = none ∨ v.keysWithin 98 = true)
    (hclean : clean O (belowAst B p) (pre ++ v.render ++ trail))
    (htorn : ∀ xs ys : List Str, partition cores (pre ++ v.render ++ trail) = some ((xs ++ ys).map some) → xs ≠ [] → ys ≠ [] →
      Untorn (Matches (B ++ p.map sk)) pre v xs.flatten.length)
    (hearly : ∀ (x : Str) (xs ys : List Str), partition cores (pre ++ v.render ++ trail) = some ((x :: xs ++ ys).map some) → ys ≠ [] →
      FilteredBelowEarly B p pre v x.length (x :: xs).flatten.length) :
    ∃ r, parallelPartialRun O (tableOf c) (contextOf c) ct u cores none (pre ++ v.render ++ trail) = some r ∧
      ((∀ ps : List Str, ps.flatten = pre ++ v.render ++ trail → pieceToks 0 ps = lexAll (pre ++ v.render ++ trail) →
        ctChunks (tableOf c) ct SA.init ps) ∨ r.k.re = false → r.k.bad = false ∧ r.pf.ub = false) := by
  have hd := c.dead hf.ok
  exact tree_ct_safe O (belowAst B p) hbc hd (hf.noIdx (c.letters_map [])) pre trail v h hpl h0 cores hc hcm ct hnd
    hin u hpart hsz hkeys hclean (fun xs ys e hx hy hb => hf.cutsOK hB hb (htorn xs ys e hx hy)) (by
      intro x cs hps hfl hne hcut
      refine doc_chunksPred (b0 := x.length) (ps := x :: cs) hd c.one_lt h.doc hfl hne hcut ?_ ?_ cs [x] _ _ rfl (by simp) (by simp)
        ?_ (Nat.le_refl _) ?_
      · intro l k ha
        obtain ⟨q, e, r, _, h3⟩ := hf.accept_pred hB ha
        rw [← List.append_assoc] at h3
        exact matches_end_key h3
      · intro xs ys e hx hy y hy' w es hw hac ha
        obtain ⟨x', xs, rfl⟩ := List.exists_cons_of_ne_nil hx
        rw [List.cons_append] at e
        injection e with e1 e2
        subst e1
        obtain ⟨q, e', r, h3, h4⟩ := hf.accept_pred hB ha
        rw [← List.append_assoc, matches_end_all] at h4
        exact hearly x xs ys (by rw [hps, e2, List.cons_append]) hy y hy' w es hw ⟨q, e', r, h3, h4⟩ hac
      · have := (show ({ SA.init with tl := [] } : SA).Is Ctl.init from Is.init).exec (d := tableOf c) (s := x) 0
        rw [pieceToks, pieceToks, List.append_nil]
        exact this
      · have := (show ({ SA.init with tl := [] } : SA).Is Ctl.init from Is.init).exec (d := tableOf c) (s := x) 0
        intro i b hi
        rw [← this.ss, pieceToks, pieceToks, List.append_nil] at hi
        omega)

/-- **C32 for filter queries below other steps.**  The query is one of C57 (names, wildcards and descendant steps, then a path with
filters); the document is one the tokenizer reads, its strings do not end in `,`, `{` or `[`; it is cut into the chunks of `partition`
for any number of threads.  If no candidate for a result is torn apart by a cut and neither run meets undefined behaviour, the parallel
run prints what the serial run prints.  Filtered elements may lie across cuts. -/
theorem c32_below_partial (O : NumOps) (B : List Step) (p : List (QStep Num)) (hq : BelowQuery B p)
    (pre trail : Str) (v : J) (h : Readable pre trail v) (hpl : v.plainStrings = true) (h0 : NUL ∉ pre ++ v.render ++ trail)
    (cores : Nat) (hc : 0 < cores) (u : Nat → Nat → UState) (r : ParallelCtx)
    (hr : parallelRun O MEMORY_FOOTPRINT cores u (belowAst B p) (pre ++ v.render ++ trail) = some (some r))
    (hbad : r.k.bad = false) (hclean : clean O (belowAst B p) (pre ++ v.render ++ trail))
    (htorn : ∀ xs ys : List Str, partition cores (pre ++ v.render ++ trail) = some ((xs ++ ys).map some) → xs ≠ [] → ys ≠ [] →
      Untorn (Matches (B ++ p.map sk)) pre v xs.flatten.length) :
    results O (belowAst B p) (pre ++ v.render ++ trail) = some r.pf.output := by
  obtain ⟨c, hbc, hf, _⟩ := hq.table
  exact (tree_ct O (belowAst B p) hbc (c.dead hf.ok) (hf.noIdx (c.letters_map [])) pre trail v h hpl h0 cores hc none nodup_none (u 0) r
    (parallelRun_single O _ cores u _ _ c hbc h.nonempty h.size hr) hbad hclean
    (fun xs ys e hx hy hb => hf.cutsOK hq.noSlices hb (htorn xs ys e hx hy)) (.inl fun ps _ _ => ctChunks_none ps _)).1

/-- **C45 for filter queries below other steps.**  With the sizes of `Sizes` and `c57_clean_partial`, no candidate for a result torn by a
cut, and each filtered array that lies across a cut begun in the first chunk, the parallel run meets no undefined behaviour and prints
exactly the selected values.

Missing for the full statement: as for `c45_filters_partial` and `c57_prefix_partial`. -/
theorem c45_below_partial (O : NumOps) (B : List Step) (p : List (QStep Num)) (hq : BelowQuery B p)
    (pre trail : Str) (v : J) (h : Readable pre trail v) (ht : v.tidy = true) (ha : Apart B v)
    (hd : ∀ x ∈ selected B v, x.decided (arith O) O.atof p = true)
    (hw : v.within 998 = true) (hl : v.tokenCount ≤ MAX_TUPLE_LIST)
    (hn : ((selected B v).flatMap fun x => x.select (arith O) O.atof (unfiltered p)).length ≤ MAX_OUTPUT)
    (hx : ∀ x ∈ selected B v, ∀ y ∈ x.select (arith O) O.atof (unfiltered p), y.render.length ≤ 998)
    (hpl : v.plainStrings = true) (h0 : NUL ∉ pre ++ v.render ++ trail)
    (cores : Nat) (hc : 0 < cores) (hcm : cores ≤ MAX_THREAD) (u : Nat → Nat → UState)
    (hpart : partition cores (pre ++ v.render ++ trail) ≠ none) (hsz : ∀ q, buildQuery (belowAst B p) = some q → Sizes q.1 v)
    (htorn : ∀ xs ys : List Str, partition cores (pre ++ v.render ++ trail) = some ((xs ++ ys).map some) → xs ≠ [] → ys ≠ [] →
      Untorn (Matches (B ++ p.map sk)) pre v xs.flatten.length)
    (hearly : ∀ (x : Str) (xs ys : List Str), partition cores (pre ++ v.render ++ trail) = some ((x :: xs ++ ys).map some) → ys ≠ [] →
      FilteredBelowEarly B p pre v x.length (x :: xs).flatten.length) :
    ∃ r, parallelRun O MEMORY_FOOTPRINT cores u (belowAst B p) (pre ++ v.render ++ trail) = some (some r) ∧
      r.k.bad = false ∧ r.pf.ub = false ∧
      r.pf.output = ((selected B v).flatMap fun x => x.select (arith O) O.atof p).map J.render := by
  have hclean := c57_clean_partial O B p hq pre trail v h ht ha hd hw hl hn hx
  obtain ⟨c, hbc, hf, _⟩ := hq.table
  have hbq : buildQuery (belowAst B p) = some (tableOf c, contextOf c) := by unfold buildQuery; rw [hbc]; rfl
  obtain ⟨r, h1, h2⟩ := below_ct_safe O B hq.noSlices p hbc hf pre trail v h hpl h0 cores hc hcm none nodup_none (statesIn_none _) (u 0)
    hpart (hsz _ hbq) (.inl rfl) hclean htorn hearly
  obtain ⟨h3, h4⟩ := h2 (.inl fun ps _ _ => ctChunks_none ps _)
  have hr : parallelRun O MEMORY_FOOTPRINT cores u (belowAst B p) (pre ++ v.render ++ trail) = some (some r) := by
    rw [parallelRun_single_eq O _ cores u _ _ c hbc h.nonempty h.size, h1]; rfl
  have h5 := c32_below_partial O B p hq pre trail v h hpl h0 cores hc u r hr h3 hclean htorn
  rw [c57_prefix_partial O B p hq pre trail v h ht ha hd] at h5
  exact ⟨r, hr, h3, h4, (Option.some.inj h5).symm⟩

/-- **C51 for filter queries below other steps.** -/
theorem c51_below_partial (O : NumOps) (B : List Step) (p : List (QStep Num)) (hq : BelowQuery B p)
    (pre trail : Str) (v : J) (h : DocOK pre trail v) (hsp : pre.head? ≠ some ' ')
    (hpl : v.plainStrings = true) (h0 : NUL ∉ pre ++ v.render ++ trail) (hff : ∀ c ∈ pre ++ v.render ++ trail, c.toNat ≠ 255)
    (N cores : Nat) (hN : 0 < N) (hc : 0 < cores) (u : Nat → Nat → UState) (r : ParallelCtx)
    (hr : parallelRun O N cores u (belowAst B p) (pre ++ v.render ++ trail) = some (some r))
    (hdef : piecesDefined O N cores u (belowAst B p) (pre ++ v.render ++ trail))
    (hub : ∀ N' s, (pre ++ v.render ++ trail).length ≤ N' →
      serialRun O N' (belowAst B p) (pre ++ v.render ++ trail) = some s → s.sa.ub = false)
    (htorn : ∀ xs ys : List Str, fileChunks N cores (pre ++ v.render ++ trail) = xs ++ ys → xs ≠ [] → ys ≠ [] →
      Untorn (Matches (B ++ p.map sk)) pre v xs.flatten.length) :
    (serialRun O N (belowAst B p) (pre ++ v.render ++ trail)).map (·.pf.output) = some r.pf.output ∧
    ∀ N', (pre ++ v.render ++ trail).length ≤ N' →
      (serialRun O N' (belowAst B p) (pre ++ v.render ++ trail)).map (·.pf.output) = some r.pf.output := by
  obtain ⟨c, hbc, hf, _⟩ := hq.table
  exact tree_pieces O (belowAst B p) hbc (c.dead hf.ok) (hf.noIdx (c.letters_map [])) pre trail v h hsp hpl h0 hff N cores hN hc u r hr
    hdef hub (fun xs ys e hx hy hb => hf.cutsOK hq.noSlices hb (htorn xs ys e hx hy))

/-- **C45 for filter queries below other steps, optimised runs on the file learned from.**  With the table learned from the file
itself, whatever the memory of the table held before, the optimised parallel run ends without undefined behaviour, reprocesses
nothing and prints exactly the selected values. -/
theorem c45_same_file_below_partial (O : NumOps) (B : List Step) (p : List (QStep Num)) (hq : BelowQuery B p)
    (pre trail : Str) (v : J) (h : Readable pre trail v) (ht : v.tidy = true) (ha : Apart B v)
    (hd : ∀ x ∈ selected B v, x.decided (arith O) O.atof p = true)
    (hw : v.within 998 = true) (hl : v.tokenCount ≤ MAX_TUPLE_LIST)
    (hn : ((selected B v).flatMap fun x => x.select (arith O) O.atof (unfiltered p)).length ≤ MAX_OUTPUT)
    (hx : ∀ x ∈ selected B v, ∀ y ∈ x.select (arith O) O.atof (unfiltered p), y.render.length ≤ 998)
    (hpl : v.plainStrings = true) (h0 : NUL ∉ pre ++ v.render ++ trail)
    (cores : Nat) (hc : 0 < cores) (hcm : cores ≤ MAX_THREAD) (g : Nat → Str)
    (u : Nat → Nat → UState) (ru : Nat → Nat → Nat → UState)
    (hpart : partition cores (pre ++ v.render ++ trail) ≠ none)
    (q : QDfa × QCtx) (hbq : buildQuery (belowAst B p) = some q) (hsz : Sizes q.1 v) (hkeys : v.keysWithin 98 = true)
    (htorn : ∀ xs ys : List Str, partition cores (pre ++ v.render ++ trail) = some ((xs ++ ys).map some) → xs ≠ [] → ys ≠ [] →
      Untorn (Matches (B ++ p.map sk)) pre v xs.flatten.length)
    (hearly : ∀ (x : Str) (xs ys : List Str), partition cores (pre ++ v.render ++ trail) = some ((x :: xs ++ ys).map some) → ys ≠ [] →
      FilteredBelowEarly B p pre v x.length (x :: xs).flatten.length) :
    ∃ r, parallelRunOpt O MEMORY_FOOTPRINT cores (some (collectConstraints g q.1 (pre ++ v.render ++ trail))) u ru (belowAst B p)
        (pre ++ v.render ++ trail) = some (some r) ∧
      r.k.re = false ∧ r.k.bad = false ∧ r.pf.ub = false ∧
      r.pf.output = ((selected B v).flatMap fun x => x.select (arith O) O.atof p).map J.render := by
  obtain ⟨c, hbc, hf, _⟩ := hq.table
  have hq' : buildQuery (belowAst B p) = some (tableOf c, contextOf c) := by unfold buildQuery; rw [hbc]; rfl
  rw [hq'] at hbq
  cases hbq
  have hclean := c57_clean_partial O B p hq pre trail v h ht ha hd hw hl hn hx
  obtain ⟨r, a1, a2⟩ := below_ct_safe O B hq.noSlices p hbc hf pre trail v h hpl h0 cores hc hcm
    (some (collectConstraints g (tableOf c) (pre ++ v.render ++ trail)))
    (fun c' e => by cases e; exact learned_nodup g _ _) (learned_statesIn g (c.dead hf.ok) c.one_lt _) (u 0) hpart hsz (.inr hkeys) hclean
    htorn hearly
  obtain ⟨a3, a4⟩ := a2 (.inl fun ps _ ht => ctChunks_covers (covers_learned g _ _) ht ps [] SA.init rfl Is.init)
  obtain ⟨b1, b2⟩ := tree_ct O (belowAst B p) hbc (c.dead hf.ok) (hf.noIdx (c.letters_map [])) pre trail v h hpl h0 cores hc
    (some (collectConstraints g (tableOf c) (pre ++ v.render ++ trail))) (fun c' e => by cases e; exact learned_nodup g _ _) (u 0) r a1 a3
    hclean (fun xs ys e hx hy hb => hf.cutsOK hq.noSlices hb (htorn xs ys e hx hy))
    (.inl fun ps _ ht => ctChunks_covers (covers_learned g _ _) ht ps [] SA.init rfl Is.init)
  refine ⟨r, ?_, b2, a3, a4, ?_⟩
  · rw [parallelRunOpt_single O _ cores _ u ru _ _ c hbc h.nonempty h.size, parallelPartialRunOpt_eq a1 b2]
    rfl
  · rw [c57_prefix_partial O B p hq pre trail v h ht ha hd] at b1
    exact (Option.some.inj b1).symm

/-! ### Cases -/

/-- `[?(@.c > 3)].b` -/
def exBelowTail : List (QStep Num) := [.filter (.bin .gt (.prop [['c']]) (.num ⟨false, 3, []⟩)), .prop ['b']]

theorem exBelow_query : BelowQuery [.descProp ['a']] exBelowTail := by
  refine ⟨by simp, by simp [JPS.noSlices, isSlice], rfl, rfl, rfl, ⟨rfl, by unfold cleanName; decide⟩, by decide, ?_⟩
  have : (buildQuery (belowAst [.descProp ['a']] exBelowTail)).map (·.1.statesNum) = some 7 := by decide +kernel
  intro q hq
  rw [hq] at this
  have e : q.1.statesNum = 7 := Option.some.inj this
  omega

theorem exBelow_selected : selected [.descProp ['a']] exParTidy = [match exParTidy with
    | .obj _ (.cons _ _ _ _ _ _ (.cons _ _ _ _ a _ _)) => a
    | _ => .lit []] := by
  simp [selected, exParTidy, J.parts, Members.parts, Elems.parts, matches_descProp, matches_nil, matches_nil_left]

/-- Locations that end in a key `a`, an element and a key `b`. -/
def endsAB (l : Loc) : Bool := match l.reverse with
  | .key b :: .elem _ :: .key a :: _ => a = ['a'] ∧ b = ['b']
  | _ => false

theorem endsAB_of {l : Loc} (h : Matches ([.descProp ['a']] ++ exBelowTail.map sk) l) : endsAB l = true := by
  obtain ⟨l1, l2, rfl, h1, h2⟩ := matches_split h
  have h3 : ∃ i, l2 = [.elem i, .key ['b']] := by
    cases h2 with
    | all i h2 => cases h2 with
      | prop k h2 => cases h2; exact ⟨i, rfl⟩
  obtain ⟨i, rfl⟩ := h3
  have h4 : ∃ m, l1 = m ++ [.key ['a']] := by
    generalize hp : ([Step.descProp ['a']] : List Step) = p at h1
    clear h
    induction h1 with
    | nil => cases hp
    | descProp k hm _ => cases hp; cases hm; exact ⟨[], rfl⟩
    | descPropMore x hm ih =>
      obtain ⟨m, rfl⟩ := ih hp
      exact ⟨x :: m, rfl⟩
    | _ => cases hp
  obtain ⟨m, rfl⟩ := h4
  simp [endsAB]

theorem exBelow_untorn : ∀ xs ys : List Str, partition 3 ([] ++ exParTidy.render ++ []) = some ((xs ++ ys).map some) → xs ≠ [] → ys ≠ [] →
    Untorn (Matches ([.descProp ['a']] ++ exBelowTail.map sk)) [] exParTidy xs.flatten.length := by
  intro xs ys h
  have hxy : exParTidyChunks = xs ++ ys := by
    have e := exParTidy_partition
    rw [List.nil_append, List.append_nil] at h
    rw [h] at e
    exact (map_some_inj (by simpa using e)).symm
  exact cuts_three (P := fun xs => Untorn (Matches ([.descProp ['a']] ++ exBelowTail.map sk)) [] exParTidy xs.flatten.length)
    (untorn_of (selB := endsAB) (fun _ hl => endsAB_of hl) (by decide)) (untorn_of (selB := endsAB) (fun _ hl => endsAB_of hl) (by decide))
    xs ys hxy

set_option maxRecDepth 100000 in
/-- The hypotheses of `c45_below_partial` and `c45_same_file_below_partial`, and so those of `c32_below_partial`, hold for
`$..a[?(@.c > 3)].b` and a document cut into three chunks whose filtered array lies across both cuts. -/
example : BelowQuery [.descProp ['a']] exBelowTail ∧ Readable [] [] exParTidy ∧ exParTidy.tidy = true ∧ Apart [.descProp ['a']] exParTidy ∧
    (∀ x ∈ selected [.descProp ['a']] exParTidy, x.decided (arith intOps) intOps.atof exBelowTail = true) ∧
    exParTidy.within 998 = true ∧ exParTidy.tokenCount ≤ MAX_TUPLE_LIST ∧
    (∀ x ∈ selected [.descProp ['a']] exParTidy, ∀ y ∈ x.select (arith intOps) intOps.atof (unfiltered exBelowTail), y.render.length ≤ 998) ∧
    exParTidy.plainStrings = true ∧ NUL ∉ [] ++ exParTidy.render ++ [] ∧ partition 3 ([] ++ exParTidy.render ++ []) ≠ none ∧
    (∀ q, buildQuery (belowAst [.descProp ['a']] exBelowTail) = some q → Sizes q.1 exParTidy) ∧
    (∀ (x : Str) (xs ys : List Str), partition 3 ([] ++ exParTidy.render ++ []) = some ((x :: xs ++ ys).map some) → ys ≠ [] →
      FilteredBelowEarly [.descProp ['a']] exBelowTail [] exParTidy x.length (x :: xs).flatten.length) ∧
    FilteredBelow [.descProp ['a']] exBelowTail [.key ['a']] ∧
    ((selected [.descProp ['a']] exParTidy).flatMap fun x => x.select (arith intOps) intOps.atof exBelowTail).map J.render =
      ["{\"q\": 1}".toList, "7".toList] := by
  refine ⟨exBelow_query, ⟨by decide, by decide, by decide, by decide, by decide, by decide, by decide, by decide⟩, by decide, ?_, ?_,
    by decide, by decide, ?_, by decide, by decide, ?_, ?_, ?_, ⟨[], _, _, rfl, .descProp _ .nil⟩, ?_⟩
  · simp [Apart, exParTidy, J.parts, Elems.parts, Members.parts, matches_descProp, matches_nil, matches_nil_left]
    intro a b h
    rcases h with ⟨rfl, _⟩ | ⟨rfl, _⟩ | ⟨rfl, _⟩ | ⟨rfl, _⟩ | ⟨rfl, _⟩ | ⟨rfl, _⟩ | ⟨rfl, _⟩ | ⟨rfl, _⟩ | ⟨rfl, _⟩ | ⟨rfl, _⟩ <;>
      simp [matches_descProp, matches_nil, matches_nil_left]
  · rw [exBelow_selected]; simp only [List.mem_singleton, forall_eq]; with_unfolding_all rfl
  · rw [exBelow_selected]; simp only [List.mem_singleton, forall_eq]; decide
  · rw [List.nil_append, List.append_nil, exParTidy_partition]; nofun
  · intro q hq
    have e : (buildQuery (belowAst [.descProp ['a']] exBelowTail)).map (·.1.statesNum) = some 7 := by decide +kernel
    rw [hq] at e
    have e : q.1.statesNum = 7 := Option.some.inj e
    exact ⟨by decide, by decide, by rw [e]; decide, by rw [e]; decide, by rw [e]; decide⟩
  · intro x xs ys e _ y hy w es hw _ _
    have e' := exParTidy_partition
    rw [List.nil_append, List.append_nil] at e
    rw [e] at e'
    have e'' : x :: xs ++ ys = exParTidyChunks := map_some_inj (by simpa using e')
    have hx : x.length = 34 := by
      rw [List.cons_append] at e''
      injection e'' with h1 _
      rw [h1]; decide
    have hall : (allSpans [] exParTidy).all (fun y => match y.2.1 with
        | .arr _ _ => decide (y.2.2 < 34)
        | _ => true) = true := by decide
    have := List.all_eq_true.1 hall y hy
    rw [hw] at this
    rw [hx]
    simpa using this
  · rw [exBelow_selected]; with_unfolding_all rfl

theorem exLongF_untorn (k : Nat) : Untorn (Matches ([.descProp ['a']] ++ exAboveTail.map sk)) [] exLongF k := by
  refine ⟨untornC_scalars (by simp) ?_ _ _, fun y hy w es _ _ j x _ _ hm => ?_⟩
  · have : selected ([.descProp ['a']] ++ exAboveTail.map sk) exLongF = [.lit ['1'], .lit ['2'], .lit ['3'], .lit ['4']] := by
      simp [selected, exAboveTail, sk, exLongF, J.parts, Members.parts, Elems.parts, matches_prop, matches_descProp, matches_all, matches_nil,
        matches_nil_left]
    rw [this]; decide
  · obtain ⟨k, hk⟩ := ends_key hm ⟨['b'], .inl rfl⟩
    simp at hk

/-- The run and the pieces assumed by `c51_below_partial`, for `$..a[?(@.c > 1)].b` on a document loaded in two pieces for two
threads.  Its other hypotheses are shown in Props/FilterFootprint.lean; that the serial run is clean follows from them. -/
example : (∀ k, Untorn (Matches ([.descProp ['a']] ++ exAboveTail.map sk)) [] exLongF k) ∧
    piecesDefined intOps 40 2 (fun _ _ => .other) (belowAst [.descProp ['a']] exAboveTail) ([] ++ exLongF.render ++ []) ∧
    (parallelRun intOps 40 2 (fun _ _ => .other) (belowAst [.descProp ['a']] exAboveTail) ([] ++ exLongF.render ++ [])).map
      (·.map fun r => (r.pf.output, r.k.bad)) = some (some (["2".toList, "3".toList, "4".toList], false)) ∧
    fileChunks 40 2 ([] ++ exLongF.render ++ []) = ["{\"x\": 1, \"a\": [ {\"c\": 1, ".toList, "\"b\": 1}, {\"c\": 2, ".toList,
      "\"b\": 2}, {\"c\": 3, \"b\": 3}, {".toList, "\"c\": 4, \"b\": 4}]}".toList] :=
  ⟨fun k => exLongF_untorn k, piecesDefined_of (by with_unfolding_all rfl), by with_unfolding_all rfl, by decide +kernel⟩

end JPS
