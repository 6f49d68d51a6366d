import Verif.DocSafe
import Verif.Props.Parallel
import Verif.Props.Prune
/-!
# C45: within stated size limits a parallel run is safe and exact
-/

set_option autoImplicit false

namespace JPS
open Spec

/-! ### The table of a path has no filter state -/

theorem PathCtx.noPredicate {p : List Step} {c : SCtx} (h : PathCtx p c) (hb : boundsOk p) (s : Nat) :
    (tableOf c).accept s ≠ .predicate := by
  have hle := buildDfa_stop_le c.rules (c.names.length + 3) s
  have hr : c.rules.length = (prefsOf p).length := by rw [h.inv.rules]; simp
  have hl := h.lastId
  obtain ⟨Q, hQ, hQs⟩ := prefsOf_last h.ne
  simp only [tableOf]
  split
  · unfold acceptOf
    split
    · nofun
    · next h0 =>
      obtain ⟨k, hk⟩ : ∃ k, (buildDfa c.rules (c.names.length + 3)).stop s = k + 1 := ⟨_, (Nat.succ_pred_eq_of_ne_zero h0).symm⟩
      rw [hk] at hle ⊢
      rw [hl]
      by_cases hz : (prefsOf p).length = k + 1
      · simp [hz]
      · have hlt : k < Q.length := by
          rw [hQ] at hz hr
          simp only [List.length_append, List.length_singleton] at hz hr
          omega
        have hq : (prefsOf p)[k]? = some Q[k] := by rw [hQ, List.getElem?_append_left hlt, List.getElem?_eq_getElem hlt]
        have hm := mem_prefsOf (List.mem_of_getElem? hq)
        have he : endsSlice Q[k] = true := by
          rcases hm.1 with he | he
          · exact he
          · have := hQs _ (List.getElem_mem hlt)
            rw [he] at this; omega
        have hne := rangeOf_ne hb hm.2.choose_spec he
        have hz' : ¬ (some (prefsOf p).length = some (k + 1)) := by simpa using hz
        simp only [if_neg hz', Nat.add_sub_cancel, h.range_get hq]
        rw [if_pos ⟨hne, by split <;> nofun⟩]
        nofun
  · nofun

mutual
theorem short_mono {m n : Nat} (hmn : m ≤ n) : ∀ v : J, v.short m = true → v.short n = true
  | .lit _, _ => rfl
  | .str _, _ => rfl
  | .arr _ es, h => shortE_mono hmn es h
  | .obj _ ms, h => shortM_mono hmn ms h
theorem shortE_mono {m n : Nat} (hmn : m ≤ n) : ∀ es : Elems, es.short m = true → es.short n = true
  | .nil, _ => rfl
  | .cons _ v _ rest, h => by
    simp only [Elems.short, Bool.and_eq_true, decide_eq_true_eq] at h ⊢
    exact ⟨⟨Nat.le_trans h.1.1 hmn, short_mono hmn v h.1.2⟩, shortE_mono hmn rest h.2⟩
theorem shortM_mono {m n : Nat} (hmn : m ≤ n) : ∀ ms : Members, ms.short m = true → ms.short n = true
  | .nil, _ => rfl
  | .cons _ _ _ _ v _ rest, h => by
    simp only [Members.short, Bool.and_eq_true, decide_eq_true_eq] at h ⊢
    exact ⟨⟨⟨Nat.le_trans h.1.1.1 hmn, Nat.le_trans h.1.1.2 hmn⟩, short_mono hmn v h.1.2⟩, shortM_mono hmn rest h.2⟩
end

/-! ### Safety for any constraint table -/

/-- The size limits of a parallel run of a query with table `d` on a value. -/
structure Sizes (d : QDfa) (v : J) : Prop where
  /-- Keys and scalars. -/
  short : v.short 996 = true
  /-- Entries of the syntax stack. -/
  depth : v.depth < MAX_STACK
  /-- Start states of a worker. -/
  states : d.statesNum ≤ MAX_STATE
  /-- Nodes of a worker. -/
  nodes : d.statesNum * (v.nest + 2) ≤ MAX_NODE
  /-- Tuples of a worker. -/
  tuples : 2 * d.statesNum * v.tokenCount ≤ MAX_TUPLE_LIST

theorem tree_ct_safe_at (O : NumOps) (t : Ast) {c : SCtx} (hbc : buildCtx t = some c)
    (hdead : Dead (tableOf c) (tableOf c).statesNum) (hidx : NoIdx (tableOf c) 1)
    (pre trail : Str) (v : J) (cores : Nat) (h : Readable pre trail v) (hcb : CutsBegin cores pre trail v) (h0 : NUL ∉ pre ++ v.render ++ trail)
    (hc : 0 < cores) (hcm : cores ≤ MAX_THREAD) (ct : Option CTable) (hnd : ct.NodupOK)
    (hin : ct.StatesIn (tableOf c).statesNum) (u : Nat → UState)
    (hpart : partition cores (pre ++ v.render ++ trail) ≠ none) (hsz : Sizes (tableOf c) v) (hkeys : ct = none ∨ v.keysWithin 98 = true)
    (hclean : clean O t (pre ++ v.render ++ trail))
    (hcuts : ∀ xs ys : List Str, partition cores (pre ++ v.render ++ trail) = some ((xs ++ ys).map some) → xs ≠ [] → ys ≠ [] →
      (∃ u w c, ((pre ++ v.render ++ trail).take xs.flatten.length).reverse = w ++ c :: u ∧ w.all isSkip = true ∧
        (c = ',' ∨ c = '{' ∨ c = '[')) → CutsOK (tableOf c) pre trail v xs.flatten.length)
    (hpred : ∀ (x : Str) (cs : List Str), partition cores (pre ++ v.render ++ trail) = some ((x :: cs).map some) →
      (x :: cs).flatten = pre ++ v.render ++ trail → [] ∉ x :: cs → CutsAtStrings pre v (x :: cs) →
      ChunksPred (tableOf c) (execAutomaton (tableOf c) x { SA.init with tl := [] }).ss.length
        (execAutomaton (tableOf c) x { SA.init with tl := [] }) cs) :
    ∃ r, parallelPartialRun O (tableOf c) (contextOf c) ct u cores none (pre ++ v.render ++ trail) = some r ∧
      ((∀ ps : List Str, ps.flatten = pre ++ v.render ++ trail → pieceToks 0 ps = lexAll (pre ++ v.render ++ trail) →
        ctChunks (tableOf c) ct SA.init ps) ∨ r.k.re = false → r.k.bad = false ∧ r.pf.ub = false) := by
  obtain ⟨chunks, h1⟩ := Option.ne_none_iff_exists'.1 hpart
  have hhead : (pre ++ v.render ++ trail).head? ≠ some ' ' := by
    have hn := h.noBlank
    have hcn := h.container
    cases pre with
    | nil => cases v <;> simp [J.isContainer, J.render] at hcn ⊢
    | cons z pre => simpa using hn
  obtain ⟨ps, q1, q2, q3, q4, q5⟩ := partition_spec hc h.nonempty h0 hhead h1
  have hfm : chunks.filterMap id = ps := by rw [q1]; simp [List.filterMap_map]
  have hpn : ps ≠ [] := by
    intro hp; rw [hp] at q2; exact h.nonempty q2.symm
  obtain ⟨k, hk⟩ : ∃ k, executeParallel (tableOf c) ct u none ps = some k := by
    cases ps with
    | nil => exact absurd rfl hpn
    | cons x xs => exact ⟨_, rfl⟩
  have hrun : parallelPartialRun O (tableOf c) (contextOf c) ct u cores none (pre ++ v.render ++ trail) =
      some ⟨k, generate O (contextOf c) (PF.init (contextOf c)) k.tuples⟩ := by
    unfold parallelPartialRun
    rw [h1]
    simp only
    rw [if_neg (by rw [q1]; simp), hfm]
    simp only [Option.map_none, hk]
  have hser := serialRun_single O MEMORY_FOOTPRINT t _ c hbc h.nonempty h.size
  have hub := (hclean _ hser).1
  have hne : [] ∉ ps := fun hm => q4 _ hm rfl
  have hcut : CutsAtStrings pre v ps := by
    intro xs ys e hx hy
    exact hcb xs ys (by rw [h1, q1, e]) hx hy
  have hok : ∀ xs ys, ps = xs ++ ys → xs ≠ [] → ys ≠ [] → CutsOK (tableOf c) pre trail v xs.flatten.length := by
    intro xs ys e hx hy
    obtain ⟨r', u', w', c', a1, a2, a3, a4⟩ := q5 xs ys e hx hy
    exact hcuts xs ys (by rw [h1, q1, e]) hx hy ⟨u', w', c', a2, a3, a4⟩
  refine ⟨_, hrun, fun hre => ?_⟩
  have hre' : ctChunks (tableOf c) ct SA.init ps ∨ k.re = false := hre.imp (fun hx => hx ps q2 (by
      obtain ⟨t1, t2, _⟩ := doc_pieceToks h.doc q2 hne hcut
      rw [t1, t2])) id
  have hcl := doc_cleanCuts (tableOf c) h.doc h.noBlank q2 hne hcut (fun xs ys e hx hy => (hok xs ys e hx hy).opn) ps [] SA.init rfl Is.init
  have hpt := pieces_tuples (tableOf c) pre trail v h.doc h.noBlank ps q2 hne hcut hcl hub
  have hft := exec_fits (tableOf c) (pre ++ v.render ++ trail) hub
  have hnest := nest_le_depth v
  have hbad : k.bad = false := by
    refine parallel_safe (D := v.nest + 1) hnd hin hdead c.one_lt hidx
      ⟨hsz.states, by have := hsz.depth; omega, hsz.nodes⟩ hk
      (doc_chunksOK _ h.doc q2 hne hcut hok ps [] SA.init rfl Is.init)
      (doc_chunksSmall _ h.doc h.noBlank q2 hne hcut ?_ (Nat.lt_succ_self _) hsz.depth hsz.short ?_ ps [] SA.init rfl Is.init)
      (hkeys.imp id fun hk => doc_chunksKeys h.doc q2 hne hcut hk)
      (fun x cs' e => hpred x cs' (by rw [h1, q1, e]) (by rw [← e]; exact q2) (by rw [← e]; exact hne) (by rw [← e]; exact hcut))
      (Nat.le_trans q3 hcm) (by rw [hpt]; exact hft.1) (by rw [hpt]; exact hft.2) hre'
    · intro xs ys e hx hy
      obtain ⟨r', _, _, _, a1, _⟩ := q5 xs ys e hx hy
      exact ⟨r', a1⟩
    · rw [(doc_pieceToks h.doc q2 hne hcut).1, toks_length]; exact hsz.tuples
  refine ⟨hbad, ?_⟩
  obtain ⟨key, _⟩ := parallel_doc_ct hnd hdead c.one_lt hidx h.doc h.noBlank q2 hne hcut hok hub hk hbad hre'
  have := (hclean _ hser).2
  show (generate O (contextOf c) (PF.init (contextOf c)) k.tuples).ub = false
  rw [key]
  exact this

/-- The same for documents in which no string ends in `,`, `{` or `[`. -/
theorem tree_ct_safe (O : NumOps) (t : Ast) {c : SCtx} (hbc : buildCtx t = some c)
    (hdead : Dead (tableOf c) (tableOf c).statesNum) (hidx : NoIdx (tableOf c) 1)
    (pre trail : Str) (v : J) (h : Readable pre trail v) (hpl : v.plainStrings = true) (h0 : NUL ∉ pre ++ v.render ++ trail)
    (cores : Nat) (hc : 0 < cores) (hcm : cores ≤ MAX_THREAD) (ct : Option CTable) (hnd : ct.NodupOK)
    (hin : ct.StatesIn (tableOf c).statesNum) (u : Nat → UState)
    (hpart : partition cores (pre ++ v.render ++ trail) ≠ none) (hsz : Sizes (tableOf c) v) (hkeys : ct = none ∨ v.keysWithin 98 = true)
    (hclean : clean O t (pre ++ v.render ++ trail))
    (hcuts : ∀ xs ys : List Str, partition cores (pre ++ v.render ++ trail) = some ((xs ++ ys).map some) → xs ≠ [] → ys ≠ [] →
      (∃ u w c, ((pre ++ v.render ++ trail).take xs.flatten.length).reverse = w ++ c :: u ∧ w.all isSkip = true ∧
        (c = ',' ∨ c = '{' ∨ c = '[')) → CutsOK (tableOf c) pre trail v xs.flatten.length)
    (hpred : ∀ (x : Str) (cs : List Str), partition cores (pre ++ v.render ++ trail) = some ((x :: cs).map some) →
      (x :: cs).flatten = pre ++ v.render ++ trail → [] ∉ x :: cs → CutsAtStrings pre v (x :: cs) →
      ChunksPred (tableOf c) (execAutomaton (tableOf c) x { SA.init with tl := [] }).ss.length
        (execAutomaton (tableOf c) x { SA.init with tl := [] }) cs) :
    ∃ r, parallelPartialRun O (tableOf c) (contextOf c) ct u cores none (pre ++ v.render ++ trail) = some r ∧
      ((∀ ps : List Str, ps.flatten = pre ++ v.render ++ trail → pieceToks 0 ps = lexAll (pre ++ v.render ++ trail) →
        ctChunks (tableOf c) ct SA.init ps) ∨ r.k.re = false → r.k.bad = false ∧ r.pf.ub = false) :=
  tree_ct_safe_at O t hbc hdead hidx pre trail v cores h (plain_cuts h hpl h0 hc) h0 hc hcm ct hnd hin u hpart hsz hkeys hclean hcuts hpred

theorem paths_ct_safe (O : NumOps) (p : List Step) (hs : SlicesOK p) {c : SCtx} (hbc : buildCtx (astOf p) = some c) (hpc : PathCtx p c)
    (pre trail : Str) (v : J) (h : Readable pre trail v) (hpl : v.plainStrings = true) (h0 : NUL ∉ pre ++ v.render ++ trail)
    (cores : Nat) (hc : 0 < cores) (hcm : cores ≤ MAX_THREAD) (ct : Option CTable) (hnd : ct.NodupOK)
    (hin : ct.StatesIn (tableOf c).statesNum) (u : Nat → UState)
    (hpart : partition cores (pre ++ v.render ++ trail) ≠ none) (hsz : Sizes (tableOf c) v) (hkeys : ct = none ∨ v.keysWithin 98 = true)
    (hclean : clean O (astOf p) (pre ++ v.render ++ trail))
    (htorn : ∀ xs ys : List Str, partition cores (pre ++ v.render ++ trail) = some ((xs ++ ys).map some) → xs ≠ [] → ys ≠ [] →
      UntornPath p pre v xs.flatten.length) :
    ∃ r, parallelPartialRun O (tableOf c) (contextOf c) ct u cores none (pre ++ v.render ++ trail) = some r ∧
      ((∀ ps : List Str, ps.flatten = pre ++ v.render ++ trail → pieceToks 0 ps = lexAll (pre ++ v.render ++ trail) →
        ctChunks (tableOf c) ct SA.init ps) ∨ r.k.re = false → r.k.bad = false ∧ r.pf.ub = false) := by
  have hsize : (v.render.length : Int) ≤ intMax := by
    have := h.size
    simp only [List.length_append, MEMORY_FOOTPRINT] at this
    simp only [intMax]; omega
  exact tree_ct_safe O (astOf p) hbc (c.dead hpc.ok) (hpc.noIdx_start hs.desc hs.bounds) pre trail v h hpl h0 cores hc hcm ct hnd hin u
    hpart hsz hkeys hclean (fun xs ys e hx hy hb => hpc.cutsOK hs hsize hb (htorn xs ys e hx hy))
    (fun _ _ _ _ _ _ => chunksPred_of (hpc.noPredicate hs.bounds) _ _ _ (Nat.le_refl _))

theorem statesIn_none (n : Nat) : (none : Option CTable).StatesIn n := fun c e => by cases e

theorem parallelRun_single_eq (O : NumOps) (B cores : Nat) (u : Nat → Nat → UState) (t : Ast) (file : Str) (c : SCtx)
    (hc : buildCtx t = some c) (h0 : file ≠ []) (hB : file.length ≤ B) :
    parallelRun O B cores u t file =
      (parallelPartialRun O (tableOf c) (contextOf c) none (u 0) cores none file).map some := by
  unfold parallelRun buildQuery
  rw [hc]
  have hl : file.length ≠ 0 := by simpa using h0
  obtain ⟨n, hn⟩ : ∃ n, file.length + 1 = n + 2 := ⟨file.length - 1, by omega⟩
  simp only [Option.map_some, Option.bind_some, hn, pieces_single B file h0 hB, parallelPieces]
  cases parallelPartialRun O (tableOf c) (contextOf c) none (u 0) cores none file <;> rfl

/-! ## C45 -/

/-- The claim of C45 without limits on states and nesting: whenever the chunks can be made and the serial run meets no undefined
behaviour, the parallel run meets none. -/
def C45Full : Prop := ∀ (O : NumOps) (t : Ast) (file : Str) (cores : Nat) (u : Nat → Nat → UState), 0 < cores → cores ≤ MAX_THREAD →
  clean O t file → partition cores file ≠ none →
  ∃ r, parallelRun O MEMORY_FOOTPRINT cores u t file = some (some r) ∧ r.k.bad = false ∧ r.pf.ub = false

/-- **C45 for paths.**  A path without filters, its slices those of C02; a document the tokenizer reads whose strings do not end in `,`, `{` or `[`;
the chunks of `partition` for at most 100 threads; the sizes within `Sizes`; nothing selected torn apart by a cut and no sliced array across
one; a serial run without undefined behaviour.  Then the parallel run meets no undefined behaviour, in no worker, no combination step and not in the
filter, and prints what the serial run prints. -/
theorem c45_paths_partial (O : NumOps) (p : List Step) (hp : p ≠ []) (hlen : fewNames p) (hs : SlicesOK p)
    (pre trail : Str) (v : J) (h : Readable pre trail v) (hpl : v.plainStrings = true) (h0 : NUL ∉ pre ++ v.render ++ trail)
    (cores : Nat) (hc : 0 < cores) (hcm : cores ≤ MAX_THREAD) (u : Nat → Nat → UState)
    (hpart : partition cores (pre ++ v.render ++ trail) ≠ none) (hsz : ∀ q, buildQuery (astOf p) = some q → Sizes q.1 v)
    (hclean : clean O (astOf p) (pre ++ v.render ++ trail))
    (htorn : ∀ xs ys : List Str, partition cores (pre ++ v.render ++ trail) = some ((xs ++ ys).map some) → xs ≠ [] → ys ≠ [] →
      UntornPath p pre v xs.flatten.length) :
    ∃ r, parallelRun O MEMORY_FOOTPRINT cores u (astOf p) (pre ++ v.render ++ trail) = some (some r) ∧
      r.k.bad = false ∧ r.pf.ub = false ∧ results O (astOf p) (pre ++ v.render ++ trail) = some r.pf.output := by
  obtain ⟨c, hbc, hpc⟩ := pathCtx_of_build p hp hlen
  have hq : buildQuery (astOf p) = some (tableOf c, contextOf c) := by unfold buildQuery; rw [hbc]; rfl
  obtain ⟨r, h1, h2⟩ := paths_ct_safe O p hs hbc hpc pre trail v h hpl h0 cores hc hcm none nodup_none (statesIn_none _) (u 0) hpart
    (hsz _ hq) (.inl rfl) hclean htorn
  obtain ⟨h3, h4⟩ := h2 (.inl fun ps _ _ => ctChunks_none ps _)
  exact ⟨r, by rw [parallelRun_single_eq O _ cores u _ _ c hbc h.nonempty h.size, h1]; rfl, h3, h4,
    (paths_ct O p hs hbc hpc pre trail v h hpl h0 cores hc none nodup_none (u 0) r h1 h3 hclean htorn
      (.inl fun ps _ _ => ctChunks_none ps _)).1⟩

/-- **C45, exact results.**  If moreover the literals are laid out so that the tokenizer reports them unchanged, and the selected
values fit the output buffers, the parallel run prints exactly the selected values, verbatim, once each, in order of their end. -/
theorem c45_exact_partial (O : NumOps) (p : List Step) (hp : p ≠ []) (hlen : fewNames p) (hs : SlicesOK p)
    (pre trail : Str) (v : J) (h : Readable pre trail v) (ht : v.tidy = true) (hpl : v.plainStrings = true)
    (h0 : NUL ∉ pre ++ v.render ++ trail)
    (cores : Nat) (hc : 0 < cores) (hcm : cores ≤ MAX_THREAD) (u : Nat → Nat → UState)
    (hpart : partition cores (pre ++ v.render ++ trail) ≠ none) (hsz : ∀ q, buildQuery (astOf p) = some q → Sizes q.1 v)
    (hnum : (selected p v).length ≤ MAX_OUTPUT) (htext : ∀ x ∈ selected p v, x.render.length ≤ 998)
    (htorn : ∀ xs ys : List Str, partition cores (pre ++ v.render ++ trail) = some ((xs ++ ys).map some) → xs ≠ [] → ys ≠ [] →
      UntornPath p pre v xs.flatten.length) :
    ∃ r, parallelRun O MEMORY_FOOTPRINT cores u (astOf p) (pre ++ v.render ++ trail) = some (some r) ∧
      r.k.bad = false ∧ r.pf.ub = false ∧ r.pf.output = (selected p v).map J.render := by
  obtain ⟨c, hbc, _⟩ := pathCtx_of_build p hp hlen
  have hq : buildQuery (astOf p) = some (tableOf c, contextOf c) := by unfold buildQuery; rw [hbc]; rfl
  obtain ⟨h1, h2⟩ := c02_slices_exact_partial O p hp hs.desc hs.bounds hs.ints hlen pre trail v h ht
  have hclean := h2 (short_mono (by decide) v (hsz _ hq).short) hnum htext
  obtain ⟨r, a1, a2, a3, a4⟩ := c45_paths_partial O p hp hlen hs pre trail v h hpl h0 cores hc hcm u hpart hsz hclean htorn
  refine ⟨r, a1, a2, a3, ?_⟩
  rw [h1] at a4
  exact (Option.some.inj a4).symm

/-- `{"x": 1, "a": [{"b": 1, "c": 2}, {"c": 5, "b": {"q": 1}}, {"c": 5, "b": 7}], "z": 2}`. -/
def exParTidy : J := .obj [] (.cons [] ['x'] [] [' '] (.lit ['1']) [] (.cons [' '] ['a'] [] [' '] (.arr []
  (.cons [] (.obj [] (.cons [] ['b'] [] [' '] (.lit ['1']) [] (.cons [' '] ['c'] [] [' '] (.lit ['2']) [] .nil))) []
  (.cons [' '] (.obj [] (.cons [] ['c'] [] [' '] (.lit ['5']) [] (.cons [' '] ['b'] [] [' ']
    (.obj [] (.cons [] ['q'] [] [' '] (.lit ['1']) [] .nil)) [] .nil))) []
  (.cons [' '] (.obj [] (.cons [] ['c'] [] [' '] (.lit ['5']) [] (.cons [' '] ['b'] [] [' '] (.lit ['7']) [] .nil))) [] .nil)))) []
  (.cons [' '] ['z'] [] [' '] (.lit ['2']) [] .nil)))

/-- The chunks of `exParTidy` for three threads. -/
def exParTidyChunks : List Str := ["{\"x\": 1, \"a\": [{\"b\": 1, \"c\": 2}, {".toList,
  "\"c\": 5, \"b\": {\"q\": 1}}, {\"c\": 5, ".toList, "\"b\": 7}], \"z\": 2}".toList]

theorem exParTidy_partition : partition 3 exParTidy.render = some (exParTidyChunks.map some) := by decide

set_option maxRecDepth 100000 in
theorem exParTidy_selected : (selected exParPath exParTidy).map J.render = ["1".toList, "{\"q\": 1}".toList, "7".toList] := by
  have hR : Readable [] [] exParTidy := ⟨by decide, by decide, by decide, by decide, by decide, by decide, by decide, by decide⟩
  have h := (c01_serial_exact_partial intOps exParPath (by decide) (by simp [noSlices, exParPath, isSlice]) (by decide) [] [] exParTidy hR
    (by decide)).1
  have e : results intOps (astOf exParPath) ([] ++ exParTidy.render ++ []) = some ["1".toList, "{\"q\": 1}".toList, "7".toList] := by
    with_unfolding_all rfl
  rw [e] at h
  exact (Option.some.inj h).symm

/-- No cut tears a selected value of the example. -/
theorem exParTidy_untorn : ∀ xs ys : List Str, partition 3 ([] ++ exParTidy.render ++ []) = some ((xs ++ ys).map some) → xs ≠ [] → ys ≠ [] →
    Untorn (Matches exParPath) [] exParTidy xs.flatten.length := by
  intro xs ys h
  have hsel : ∀ l, Matches exParPath l → (match l with
      | [.key a, .elem _, .key b] => a = ['a'] ∧ b = ['b']
      | _ => False : Prop) := by
    intro l hl
    cases hl with
    | prop k hl => cases hl with
      | all i hl => cases hl with
        | prop k hl => cases hl; exact ⟨rfl, rfl⟩
  have hxy : exParTidyChunks = xs ++ ys := by
    have e := exParTidy_partition
    rw [List.nil_append, List.append_nil] at h
    rw [h] at e
    exact (map_some_inj (by simpa using e)).symm
  exact cuts_three (P := fun xs => Untorn (Matches exParPath) [] exParTidy xs.flatten.length)
    (untorn_of (selB := fun l => match l with
      | [.key a, .elem _, .key b] => a = ['a'] ∧ b = ['b']
      | _ => false) (fun l hl => by
        have := hsel l hl
        revert this
        split <;> simp) (by decide))
    (untorn_of (selB := fun l => match l with
      | [.key a, .elem _, .key b] => a = ['a'] ∧ b = ['b']
      | _ => false) (fun l hl => by
        have := hsel l hl
        revert this
        split <;> simp) (by decide)) xs ys hxy

/-- The hypotheses of `c45_exact_partial`, and so those of `c45_paths_partial`, hold for this document, whose array and one of whose
objects lie across the cuts. -/
example : Readable [] [] exParTidy ∧ exParTidy.tidy = true ∧ exParTidy.plainStrings = true ∧ NUL ∉ [] ++ exParTidy.render ++ [] ∧
    SlicesOK exParPath ∧ partition 3 ([] ++ exParTidy.render ++ []) ≠ none ∧
    (∀ q, buildQuery (astOf exParPath) = some q → Sizes q.1 exParTidy) ∧ exParTidy.nest = 4 ∧ exParTidy.tokenCount = 37 ∧
    (selected exParPath exParTidy).length ≤ MAX_OUTPUT ∧ (∀ x ∈ selected exParPath exParTidy, x.render.length ≤ 998) ∧
    (∀ xs ys : List Str, partition 3 ([] ++ exParTidy.render ++ []) = some ((xs ++ ys).map some) → xs ≠ [] → ys ≠ [] →
      UntornPath exParPath [] exParTidy xs.flatten.length) ∧
    ((allSpans [] exParTidy).filter fun y => decide (y.2.2 < exParTidyChunks[0].length) &&
      decide (exParTidyChunks[0].length < y.2.2 + y.2.1.render.length)).map (·.1) = [[], [.key ['a'], .elem 1], [.key ['a']]] := by
  have hR : Readable [] [] exParTidy := ⟨by decide, by decide, by decide, by decide, by decide, by decide, by decide, by decide⟩
  refine ⟨hR, by decide, by decide, by decide, ?_, ?_, ?_, by decide, by decide, ?_, ?_, ?_, by decide⟩
  · exact exParPath_slices.ok
  · rw [List.nil_append, List.append_nil, exParTidy_partition]; nofun
  · intro q hq
    have e : (buildQuery (astOf exParPath)).map (·.1.statesNum) = some 5 := by decide
    rw [hq] at e
    have e : q.1.statesNum = 5 := Option.some.inj e
    exact ⟨by decide, by decide, by rw [e]; decide, by rw [e]; decide, by rw [e]; decide⟩
  · have := congrArg List.length exParTidy_selected
    rw [List.length_map] at this
    rw [this]; decide
  · intro x hx
    have := List.mem_map_of_mem (f := J.render) hx
    rw [exParTidy_selected] at this
    revert this
    generalize x.render = y
    intro h
    simp only [List.mem_cons, List.not_mem_nil, or_false] at h
    rcases h with rfl | rfl | rfl <;> decide
  · exact fun xs ys e hx hy => (exParTidy_untorn xs ys e hx hy).path exParPath_slices

/-- `{"x": 1, "a": [{"b": [1, 2, 3], "c": 2}, {"c": 5, "b": [4, 5]}, {"c": 5, "b": [7]}], "z": 2}`. -/
def exParSlice : J := .obj [] (.cons [] ['x'] [] [' '] (.lit ['1']) [] (.cons [' '] ['a'] [] [' '] (.arr []
  (.cons [] (.obj [] (.cons [] ['b'] [] [' '] (.arr [] (.cons [] (.lit ['1']) [] (.cons [' '] (.lit ['2']) []
    (.cons [' '] (.lit ['3']) [] .nil)))) [] (.cons [' '] ['c'] [] [' '] (.lit ['2']) [] .nil))) []
  (.cons [' '] (.obj [] (.cons [] ['c'] [] [' '] (.lit ['5']) [] (.cons [' '] ['b'] [] [' ']
    (.arr [] (.cons [] (.lit ['4']) [] (.cons [' '] (.lit ['5']) [] .nil))) [] .nil))) []
  (.cons [' '] (.obj [] (.cons [] ['c'] [] [' '] (.lit ['5']) [] (.cons [' '] ['b'] [] [' ']
    (.arr [] (.cons [] (.lit ['7']) [] .nil)) [] .nil))) [] .nil)))) []
  (.cons [' '] ['z'] [] [' '] (.lit ['2']) [] .nil)))

/-- `$.a[*].b[1:]`. -/
def exParSlicePath : List Step := [.prop ['a'], .all, .prop ['b'], .slice (some 1) none]

/-- The chunks of `exParSlice` for three threads. -/
def exParSliceChunks : List Str := ["{\"x\": 1, \"a\": [{\"b\": [1, 2, 3], ".toList,
  "\"c\": 2}, {\"c\": 5, \"b\": [4, 5]}, {".toList, "\"c\": 5, \"b\": [7]}], \"z\": 2}".toList]

theorem exParSlice_partition : partition 3 exParSlice.render = some (exParSliceChunks.map some) := by decide

theorem exParSlice_ok : SlicesOK exParSlicePath := by
  refine ⟨by decide, ?_, ?_⟩
  · intro a b h
    simp [exParSlicePath] at h
    obtain ⟨rfl, rfl⟩ := h
    simp [sliceLo]
  · intro a b h
    simp [exParSlicePath] at h
    obtain ⟨rfl, rfl⟩ := h
    simp [intMin, intMax]

set_option maxRecDepth 100000 in
theorem exParSlice_selected : (selected exParSlicePath exParSlice).map J.render = ["2".toList, "3".toList, "5".toList] := by
  have hR : Readable [] [] exParSlice := ⟨by decide, by decide, by decide, by decide, by decide, by decide, by decide, by decide⟩
  have h := (c02_slices_exact_partial intOps exParSlicePath (by decide) exParSlice_ok.desc exParSlice_ok.bounds exParSlice_ok.ints
    (by decide) [] [] exParSlice hR (by decide)).1
  have e : results intOps (astOf exParSlicePath) ([] ++ exParSlice.render ++ []) = some ["2".toList, "3".toList, "5".toList] := by
    with_unfolding_all rfl
  rw [e] at h
  exact (Option.some.inj h).symm

/-- No cut tears a selected value or a sliced array of the example. -/
theorem exParSlice_untorn : ∀ xs ys : List Str, partition 3 ([] ++ exParSlice.render ++ []) = some ((xs ++ ys).map some) → xs ≠ [] → ys ≠ [] →
    UntornPath exParSlicePath [] exParSlice xs.flatten.length := by
  intro xs ys h
  have hsel : ∀ l, Matches exParSlicePath l → (match l with
      | [.key a, .elem _, .key b, .elem _] => a = ['a'] ∧ b = ['b']
      | _ => false) = true := by
    intro l hl
    cases hl with
    | prop k hl => cases hl with
      | all i hl => cases hl with
        | prop k hl => cases hl with
          | slice a b i hi hl => cases hl; rfl
  have hsl : ∀ l, SlicedAt exParSlicePath l → (match l with
      | [.key a, .elem _, .key b] => a = ['a'] ∧ b = ['b']
      | _ => false) = true := by
    rintro l ⟨q, a, b, r, he, hm⟩
    have hq : q = [.prop ['a'], .all, .prop ['b']] := by
      match q, he with
      | [], he => simp [exParSlicePath] at he
      | [_], he => simp [exParSlicePath] at he
      | [_, _], he => simp [exParSlicePath] at he
      | [x, y, z], he => simp [exParSlicePath] at he; simp [he.1, he.2.1, he.2.2.1]
      | _ :: _ :: _ :: _ :: q, he => simp [exParSlicePath] at he
    subst hq
    cases hm with
    | prop k hl => cases hl with
      | all i hl => cases hl with
        | prop k hl => cases hl; rfl
  have hsl' : ∀ {k : Nat}, (allSpans [] exParSlice).all (fun y => !(match y.1 with
      | [.key a, .elem _, .key b] => a = ['a'] ∧ b = ['b']
      | _ => false) || !(decide (y.2.2 < k) && decide (k < y.2.2 + y.2.1.render.length))) = true →
      ∀ y ∈ allSpans [] exParSlice, ∀ w es, y.2.1 = .arr w es → across y k → ¬ SlicedAt exParSlicePath y.1 := by
    intro k hk y hy w es _ ha hz
    have := List.all_eq_true.1 hk y hy
    rw [hsl _ hz, decide_eq_true ha.1, decide_eq_true ha.2] at this
    cases this
  have hxy : exParSliceChunks = xs ++ ys := by
    have e := exParSlice_partition
    rw [List.nil_append, List.append_nil] at h
    rw [h] at e
    exact (map_some_inj (by simpa using e)).symm
  exact cuts_three (P := fun xs => UntornPath exParSlicePath [] exParSlice xs.flatten.length)
    ⟨untorn_of hsel (by decide), hsl' (by decide)⟩ ⟨untorn_of hsel (by decide), hsl' (by decide)⟩ xs ys hxy

/-- The hypotheses of `c45_exact_partial`, and so those of `c45_paths_partial` and `c32_paths_partial`, hold for a path with a slice.
The arrays to which it is applied lie between the cuts; the array around them lies across both. -/
example : Readable [] [] exParSlice ∧ exParSlice.tidy = true ∧ exParSlice.plainStrings = true ∧ NUL ∉ [] ++ exParSlice.render ++ [] ∧
    SlicesOK exParSlicePath ∧ partition 3 ([] ++ exParSlice.render ++ []) ≠ none ∧
    (∀ q, buildQuery (astOf exParSlicePath) = some q → Sizes q.1 exParSlice) ∧
    (selected exParSlicePath exParSlice).length ≤ MAX_OUTPUT ∧ (∀ x ∈ selected exParSlicePath exParSlice, x.render.length ≤ 998) ∧
    (∀ xs ys : List Str, partition 3 ([] ++ exParSlice.render ++ []) = some ((xs ++ ys).map some) → xs ≠ [] → ys ≠ [] →
      UntornPath exParSlicePath [] exParSlice xs.flatten.length) ∧
    ((allSpans [] exParSlice).filter fun y => decide (y.2.2 < exParSliceChunks[0].length) &&
      decide (exParSliceChunks[0].length < y.2.2 + y.2.1.render.length)).map (·.1) = [[], [.key ['a'], .elem 0], [.key ['a']]] := by
  have hR : Readable [] [] exParSlice := ⟨by decide, by decide, by decide, by decide, by decide, by decide, by decide, by decide⟩
  refine ⟨hR, by decide, by decide, by decide, exParSlice_ok, ?_, ?_, ?_, ?_, exParSlice_untorn, by decide⟩
  · rw [List.nil_append, List.append_nil, exParSlice_partition]; nofun
  · intro q hq
    have e : (buildQuery (astOf exParSlicePath)).map (·.1.statesNum) = some 6 := by decide
    rw [hq] at e
    have e : q.1.statesNum = 6 := Option.some.inj e
    exact ⟨by decide, by decide, by rw [e]; decide, by rw [e]; decide, by rw [e]; decide⟩
  · have := congrArg List.length exParSlice_selected
    rw [List.length_map] at this
    rw [this]; decide
  · intro x hx
    have := List.mem_map_of_mem (f := J.render) hx
    rw [exParSlice_selected] at this
    revert this
    generalize x.render = y
    intro h
    simp only [List.mem_cons, List.not_mem_nil, or_false] at h
    rcases h with rfl | rfl | rfl <;> decide

/-! ### The optimised run -/

/-- All states of the control are below `n`. -/
def Ctl.Below (n : Nat) (C : Ctl) : Prop := C.e.1 < n ∧ ∀ x ∈ C.q, x.1 < n

theorem Ctl.Below.popQ {n : Nat} {C : Ctl} (h : C.Below n) : C.popQ.Below n := by
  unfold Ctl.popQ
  split
  · next e q hq => exact ⟨h.2 e (by rw [hq]; simp), fun x hx => h.2 x (by rw [hq]; simp [hx])⟩
  · exact h

theorem Ctl.Below.step {d : QDfa} {n : Nat} (hd : Dead d n) {C : Ctl} (h : C.Below n) (t : Tok) : (ctlStep d C t).Below n := by
  have hgo : ∀ s i k, d.go s i k < n := by
    intro s i k
    unfold QDfa.go
    split
    · exact hd.bnd _ _
    · exact hd.pos
  cases t with
  | lcb p => exact h
  | lb p =>
    refine ⟨hgo _ _ _, fun x hx => ?_⟩
    rcases mem_push hx with rfl | hx
    · exact h.1
    · exact h.2 x hx
  | ky k =>
    refine ⟨hgo _ _ _, fun x hx => ?_⟩
    rcases mem_push hx with rfl | hx
    · exact h.1
    · exact h.2 x hx
  | com => exact h
  | pri x =>
    simp only [ctlStep]
    split
    · exact ⟨h.popQ.1, h.popQ.2⟩
    · split
      · exact ⟨h.1, h.2⟩
      · exact h
  | rcb p =>
    simp only [ctlStep]
    split
    · exact ⟨h.1, h.2⟩
    · split
      · exact ⟨h.popQ.1, h.popQ.2⟩
      · split
        · exact ⟨h.1, h.2⟩
        · exact h
  | rb p =>
    simp only [ctlStep]
    split
    · exact ⟨h.popQ.1, h.popQ.2⟩
    · split
      · have h' : Ctl.Below n { C with q := pop C.q } := ⟨h.1, fun x hx => h.2 x (List.mem_of_mem_tail hx)⟩
        exact ⟨h'.popQ.1, h'.popQ.2⟩
      · split
        · exact ⟨h.popQ.1, h.popQ.2⟩
        · exact h

theorem recordsOf_below {d : QDfa} {n : Nat} (hd : Dead d n) (s : Str) : ∀ (ts : List Tok) {a : SA} {C : Ctl}, a.Is C → C.Below n →
    ∀ r ∈ recordsOf d s a ts, r.1 < n
  | [], _, _, _, _, r, hr => by simp [recordsOf] at hr
  | t :: ts, a, C, hi, hb, r, hr => by
    have he : a.elt.st < n := by
      have := hb.1
      rw [hi.e] at this; exact this
    rcases List.mem_append.1 hr with hr | hr
    · have h2 : ∀ k : CKey, r ∈ (a.elt.st, k) :: (if d.inRange a.elt.st a.elt.count then [] else [(0, k)]) → r.1 < n := by
        intro k hr
        rcases List.mem_cons.1 hr with rfl | hr
        · exact he
        · split at hr
          · cases hr
          · rw [List.mem_singleton] at hr; subst hr; exact hd.pos
      cases t with
      | lb p => exact h2 _ hr
      | ky k => exact h2 _ hr
      | lcb p => cases hr
      | rcb p => cases hr
      | rb p => cases hr
      | com => cases hr
      | pri x => cases hr
    · have h1 := SA.Is.run (d := d) (s := s) (k := 0) [t] hi
      rw [shift_zero] at h1
      exact recordsOf_below hd s ts (a := step d s a t) h1 (hb.step hd t) r hr

theorem addIn_below {n : Nat} {k : CKey} {s : Nat} (hs : s < n) : ∀ (is js : List CInfo), (∀ i ∈ is, ∀ x ∈ i.states, x < n) →
    addIn k s is = some js → ∀ j ∈ js, ∀ x ∈ j.states, x < n
  | [], _, _, h => by simp [addIn] at h
  | i :: is, js, hn, h => by
    simp only [addIn] at h
    split at h
    · obtain rfl := Option.some.inj h
      intro j hj x hx
      rcases List.mem_cons.1 hj with rfl | hj
      · unfold CInfo.addState at hx
        split at hx
        · exact hn i (by simp) x hx
        · rcases List.mem_append.1 hx with hx | hx
          · exact hn i (by simp) x hx
          · rw [List.mem_singleton] at hx; rw [hx]; exact hs
      · exact hn j (by simp [hj]) x hx
    · obtain ⟨ks, hks, rfl⟩ := Option.map_eq_some_iff.1 h
      have := addIn_below hs is ks (fun j hj => hn j (by simp [hj])) hks
      intro j hj
      rcases List.mem_cons.1 hj with rfl | hj
      · exact hn j (by simp)
      · exact this j hj

theorem addAll_below (g : Nat → Str) {n : Nat} : ∀ (h : List (Nat × CKey)) (ct : CTable), (∀ r ∈ h, r.1 < n) →
    (∀ i ∈ ct.info, ∀ x ∈ i.states, x < n) → ∀ i ∈ (ct.addAll g h).info, ∀ x ∈ i.states, x < n
  | [], _, _, hn => hn
  | (s, k) :: h, ct, hr, hn => by
    have hs : s < n := hr (s, k) (by simp)
    refine addAll_below g h (ct.add g s k) (fun r hr' => hr r (by simp [hr'])) ?_
    unfold CTable.add
    cases ha : addIn k s ct.info with
    | some is => exact addIn_below hs _ _ hn ha
    | none =>
      intro j hj
      rcases List.mem_append.1 hj with hj | hj
      · exact hn j hj
      · rw [List.mem_singleton] at hj
        subst hj
        intro x hx
        simp only [List.mem_singleton] at hx
        rw [hx]; exact hs

/-- A learned table, from whatever text, lists states of the automaton only. -/
theorem learned_statesIn (g : Nat → Str) {d : QDfa} {n : Nat} (hd : Dead d n) (h1 : 1 < n) (file : Str) :
    (some (collectConstraints g d file)).StatesIn n := by
  intro c e k ks hl s hs
  cases e
  unfold collectConstraints at hl
  rw [runCollect_eq] at hl
  have := addAll_below g (recordsOf d file SA.init (lexAll file)) .empty
    (recordsOf_below hd file (lexAll file) Is.init ⟨h1, fun x hx => by cases hx⟩) (fun i hi => by cases hi)
  unfold CTable.lookup at hl
  obtain ⟨i, hi, rfl⟩ := Option.map_eq_some_iff.1 hl
  exact this i (List.mem_of_find?_eq_some hi) s hs

/-- **C45 for the optimised run.**  With the table learned from the file itself, under the conditions of `c45_exact_partial`, and keys of
at most 98 characters (`c45_false_key`): the optimised parallel run reprocesses nothing, meets no undefined behaviour and prints exactly the selected values. -/
theorem c45_same_file_partial (O : NumOps) (p : List Step) (hp : p ≠ []) (hlen : fewNames p) (hs : SlicesOK p)
    (pre trail : Str) (v : J) (h : Readable pre trail v) (ht : v.tidy = true) (hpl : v.plainStrings = true)
    (h0 : NUL ∉ pre ++ v.render ++ trail)
    (cores : Nat) (hc : 0 < cores) (hcm : cores ≤ MAX_THREAD) (g : Nat → Str) (u : Nat → Nat → UState) (ru : Nat → Nat → Nat → UState)
    (hpart : partition cores (pre ++ v.render ++ trail) ≠ none) (q : QDfa × QCtx) (hq : buildQuery (astOf p) = some q) (hsz : Sizes q.1 v)
    (hkeys : v.keysWithin 98 = true)
    (hnum : (selected p v).length ≤ MAX_OUTPUT) (htext : ∀ x ∈ selected p v, x.render.length ≤ 998)
    (htorn : ∀ xs ys : List Str, partition cores (pre ++ v.render ++ trail) = some ((xs ++ ys).map some) → xs ≠ [] → ys ≠ [] →
      UntornPath p pre v xs.flatten.length) :
    ∃ r, parallelRunOpt O MEMORY_FOOTPRINT cores (some (collectConstraints g q.1 (pre ++ v.render ++ trail))) u ru (astOf p)
        (pre ++ v.render ++ trail) = some (some r) ∧
      r.k.re = false ∧ r.k.bad = false ∧ r.pf.ub = false ∧ r.pf.output = (selected p v).map J.render := by
  obtain ⟨c, hbc, hpc⟩ := pathCtx_of_build p hp hlen
  have hq' : buildQuery (astOf p) = some (tableOf c, contextOf c) := by unfold buildQuery; rw [hbc]; rfl
  rw [hq'] at hq
  cases hq
  obtain ⟨h1, h2⟩ := c02_slices_exact_partial O p hp hs.desc hs.bounds hs.ints hlen pre trail v h ht
  have hclean := h2 (short_mono (by decide) v hsz.short) hnum htext
  obtain ⟨r, a1, a2⟩ := paths_ct_safe O p hs hbc hpc pre trail v h hpl h0 cores hc hcm
    (some (collectConstraints g (tableOf c) (pre ++ v.render ++ trail)))
    (fun c' e => by cases e; exact learned_nodup g _ _) (learned_statesIn g (c.dead hpc.ok) c.one_lt _) (u 0) hpart hsz (.inr hkeys) hclean htorn
  obtain ⟨a3, a4⟩ := a2 (.inl fun ps _ ht => ctChunks_covers (covers_learned g _ _) ht ps [] SA.init rfl Is.init)
  obtain ⟨b1, b2, b3⟩ := c43_same_file_partial O p hp hlen hs pre trail v h hpl h0 cores hc c hbc g u ru r a1 a3 hclean htorn
  refine ⟨r, b2, b1, a3, a4, ?_⟩
  rw [h1] at b3
  exact (Option.some.inj b3).symm

/-- The condition on keys holds for the documents of the examples above. -/
example : exParTidy.keysWithin 98 = true ∧ exParSlice.keysWithin 98 = true := by decide

/-- The claim of C45 for the optimised run without a limit on keys: whenever the chunks can be made, the serial run meets no undefined
behaviour, and neither does the parallel run without a table, the run with the table learned from the same file meets none. -/
def C45OptFull : Prop := ∀ (O : NumOps) (t : Ast) (file : Str) (cores : Nat) (g : Nat → Str) (u : Nat → Nat → UState)
  (ru : Nat → Nat → Nat → UState) (q : QDfa × QCtx), 0 < cores → cores ≤ MAX_THREAD → clean O t file → partition cores file ≠ none →
  buildQuery t = some q →
  (∃ r, parallelRun O MEMORY_FOOTPRINT cores u t file = some (some r) ∧ r.k.bad = false ∧ r.pf.ub = false) →
  ∃ r, parallelRunOpt O MEMORY_FOOTPRINT cores (some (collectConstraints g q.1 file)) u ru t file = some (some r) ∧
    r.k.bad = false ∧ r.pf.ub = false

/-- `{"a": "xx…x", "bb…b": 2}` with `k` letters each. -/
def exLongKey (k : Nat) : Str :=
  "{\"a\": \"".toList ++ List.replicate k 'x' ++ "\", \"".toList ++ List.replicate k 'b' ++ "\": 2}".toList

set_option maxRecDepth 100000 in
/-- **C45 for the optimised run is false for long keys**: `$.a` on `{"a": "xx…x", "bb…b": 2}` with 99 letters and two threads.  The second
worker copies the key to `token_name`, which has 100 bytes (worker_automaton.c:505, constraint.h:12); `strcopy` writes 101.  The serial
run and the parallel run without a table are fine. -/
theorem c45_false_key : ¬ C45OptFull := by
  intro h
  have hs : (serialRun intOps MEMORY_FOOTPRINT (astOf [.prop ['a']]) (exLongKey 99)).map (fun r => (r.sa.ub, r.pf.ub)) =
      some (false, false) := by decide +kernel
  have hp : (parallelRun intOps MEMORY_FOOTPRINT 2 (fun _ _ => .other) (astOf [.prop ['a']]) (exLongKey 99)).map
      (·.map fun r => (r.k.bad, r.pf.ub)) = some (some (false, false)) := by decide +kernel
  have hb : ((buildQuery (astOf [.prop ['a']])).bind fun q => parallelRunOpt intOps MEMORY_FOOTPRINT 2
      (some (collectConstraints (fun _ => []) q.1 (exLongKey 99))) (fun _ _ => .other) (fun _ _ _ => .other) (astOf [.prop ['a']])
      (exLongKey 99)).map (·.map fun r => r.k.bad) = some (some true) := by decide +kernel
  cases hq : buildQuery (astOf [.prop ['a']]) with
  | none => rw [hq] at hb; cases hb
  | some q =>
    rw [hq] at hb
    obtain ⟨r, a1, a2, _⟩ := h intOps _ (exLongKey 99) 2 (fun _ => []) (fun _ _ => .other) (fun _ _ _ => .other) q (by decide) (by decide)
      (fun r hr => by rw [hr] at hs; simpa using hs) (by decide +kernel) hq (by
        match hr : parallelRun intOps MEMORY_FOOTPRINT 2 (fun _ _ => .other) (astOf [.prop ['a']]) (exLongKey 99), hp with
        | some (some r), hp =>
          refine ⟨r, rfl, ?_⟩
          simpa using hp)
    rw [Option.bind_some, a1] at hb
    simp [a2] at hb

/-! ### C45 without the limits is false -/

theorem not_C45Full {t : Ast} {file : Str} {cores : Nat} {u : Nat → Nat → UState} (hc : 0 < cores) (hm : cores ≤ MAX_THREAD)
    (h1 : (serialRun intOps MEMORY_FOOTPRINT t file).map (fun r => (r.sa.ub, r.pf.ub)) = some (false, false))
    (hp : partition cores file ≠ none)
    (h2 : (parallelRun intOps MEMORY_FOOTPRINT cores u t file).map (·.map (·.k.bad)) = some (some true)) : ¬ C45Full := by
  intro h
  obtain ⟨r, a1, a2, _⟩ := h intOps t file cores u hc hm (by
    intro r hr
    rw [hr] at h1
    simpa using h1) hp
  rw [a1] at h2
  simp [a2] at h2

/-- `{"a": "xx…x", "b": [[…[1]…]]}` with `k` arrays and `2k` letters. -/
def exDeepText (k : Nat) : Str :=
  "{\"a\": \"".toList ++ List.replicate (2 * k) 'x' ++ "\", \"b\": ".toList ++ List.replicate k '[' ++ ['1'] ++ List.replicate k ']' ++ ['}']

/-- **C45 is false without the limit on nodes**: `$.a.b.c.d` has a table of six states; a second worker starts in all of them and
keeps six origins per level, so 84 nested arrays in its chunk overrun the array of origins.  The serial run is fine. -/
theorem c45_false_nesting : ¬ C45Full :=
  not_C45Full (t := astOf [.prop ['a'], .prop ['b'], .prop ['c'], .prop ['d']]) (file := exDeepText 84) (cores := 2) (u := fun _ _ => .other)
    (by decide) (by decide) (by decide +kernel) (by decide +kernel) (by decide +kernel)

/-- **C45 is false without the limit on states**: a path of 99 names has a table of 101 states, one more than the array of start
states of a unit has room for.  The serial run is fine. -/
theorem c45_false_states : ¬ C45Full :=
  not_C45Full (t := astOf (List.replicate 99 (.prop ['a']))) (file := "{\"x\": 1, \"y\": 2, \"z\": 3}".toList) (cores := 2)
    (u := fun _ _ => .other) (by decide) (by decide) (by decide +kernel) (by decide +kernel) (by decide +kernel)

set_option maxRecDepth 100000 in
/-- **C45 is false for torn arrays**: `$.a` on `{"a": ["1", "2", "3", "4"]}` with two threads.  The buffer for the text of the array is
allocated without the `]` (parallel_automata_execution.h:231-235), so its NUL is written behind the buffer. -/
theorem c45_false_array : ¬ C45Full :=
  not_C45Full (t := astOf [.prop ['a']]) (file := "{\"a\": [\"1\", \"2\", \"3\", \"4\"]}".toList) (cores := 2)
    (u := fun _ _ => .other) (by decide) (by decide) (by decide +kernel) (by decide +kernel) (by decide +kernel)

/-- **C45 is false for sliced arrays across a cut**: `$[1:2]` on `[{"b": 0}, {"b": 1}, {"b": 2}, {"b": 3}]` with two threads.  The worker
notes a selected object by its two positions; the merge compares the text of the tuple, which nothing has been written to, with `}`
(parallel_automata_execution.h:321) before it fills it in (341). -/
theorem c45_false_slice : ¬ C45Full :=
  not_C45Full (t := astOf [.slice (some 1) (some 2)]) (file := "[{\"b\": 0}, {\"b\": 1}, {\"b\": 2}, {\"b\": 3}]".toList) (cores := 2)
    (u := fun _ _ => .other) (by decide) (by decide) (by decide +kernel) (by decide +kernel) (by decide +kernel)

end JPS
