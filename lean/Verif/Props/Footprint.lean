import Verif.Props.Parallel
/-!
# C22 for files: the footprint does not matter; C32 without conditions on the cuts
-/

set_option autoImplicit false

namespace JPS
open Spec

/-- No selected container lies across offset `k`. -/
def UntornC (sel : Loc → Prop) (pre : Str) (v : J) (k : Nat) : Prop :=
  ∀ y ∈ allSpans pre v, y.2.1.isContainer = true → across y k → ¬ sel y.1

theorem serialRun_pf (O : NumOps) (B : Nat) (hB : 0 < B) (t : Ast) (file : Str) (c : SCtx) (hc : buildCtx t = some c)
    (h0 : file ≠ []) : (serialRun O B t file).map (·.pf) =
      (serialPieces O (tableOf c) (contextOf c) (pieces B file (file.length + 1) 0)).map (·.pf) := by
  unfold serialRun buildQuery
  rw [hc]
  rfl

/-- The pieces begin at strings, if no string ends in `,`, `{` or `[`. -/
theorem plain_pieces {pre trail : Str} {v : J} (h : DocOK pre trail v) (hpl : v.plainStrings = true)
    (hff : ∀ c ∈ pre ++ v.render ++ trail, c.toNat ≠ 255) {B : Nat} (hB : 0 < B) :
    CutsAtStrings pre v (pieces B (pre ++ v.render ++ trail) ((pre ++ v.render ++ trail).length + 1) 0) := by
  have hflat := c19_lossless B hB (pre ++ v.render ++ trail)
  have hne := (c19_terminates B hB (pre ++ v.render ++ trail)).2.2
  intro xs ys e hx hy
  refine c21_load_partial B pre trail v h.preWs h.trailWs h.wf hpl hff _ xs ys e hx ?_
  intro hz
  rw [e] at hflat hne
  rw [List.flatten_append, hz] at hflat
  have hy0 : ys.flatten = [] := by
    have := congrArg List.length hflat
    rw [List.length_append] at this
    exact List.length_eq_zero_iff.1 (by omega)
  obtain ⟨z, ys, rfl⟩ := List.exists_cons_of_ne_nil hy
  have : z = [] := by
    rw [List.flatten_cons] at hy0
    exact (List.append_eq_nil_iff.1 hy0).1
  exact hne (by simp [this])

/-- The footprint does not matter for a query that reports values at the locations `sel` only, if the pieces begin at strings. -/
theorem footprint_any_at (O : NumOps) (t : Ast) {c : SCtx} (hbc : buildCtx t = some c) (sel : Loc → Prop) (pre trail : Str) (v : J)
    (hm : ∀ l, idxLt v.render.length l → ¬ sel l →
      (tableOf c).matchedType (locState (tableOf c) 1 0 l).1 (locState (tableOf c) 1 0 l).2 ≠ .output)
    (h : DocOK pre trail v)
    (hsp : pre.head? ≠ some ' ') (B : Nat) (hB : 0 < B)
    (hcut : CutsAtStrings pre v (pieces B (pre ++ v.render ++ trail) ((pre ++ v.render ++ trail).length + 1) 0))
    (hub : ∀ r, serialRun O (pre ++ v.render ++ trail).length t (pre ++ v.render ++ trail) = some r → r.sa.ub = false)
    (htorn : ∀ xs ys, pieces B (pre ++ v.render ++ trail) ((pre ++ v.render ++ trail).length + 1) 0 = xs ++ ys →
      xs ≠ [] → ys ≠ [] → UntornC sel pre v xs.flatten.length) :
    (serialRun O B t (pre ++ v.render ++ trail)).map (·.pf.output) =
      (serialRun O (pre ++ v.render ++ trail).length t (pre ++ v.render ++ trail)).map (·.pf.output) := by
  have hwhole := serialRun_single O _ (t) (pre ++ v.render ++ trail) c hbc h.nonempty (Nat.le_refl _)
  have hub' : (execAutomaton (tableOf c) (pre ++ v.render ++ trail) SA.init).ub = false := hub _ hwhole
  have hflat := c19_lossless B hB (pre ++ v.render ++ trail)
  have hne := (c19_terminates B hB (pre ++ v.render ++ trail)).2.2
  have hcl := doc_cleanCuts (tableOf c) h hsp hflat hne hcut (by
    intro xs ys e hx hy y hy' hyc ha
    have := htorn xs ys e hx hy y hy' hyc ha
    exact hm y.1 (spans_idx hy').1 this) _ [] SA.init rfl Is.init
  have key := (c22_text_partial O (tableOf c) (contextOf c) pre trail v h hsp _ hflat hne hcut hcl hub').2
  have e : ∀ z : Option SerialCtx, z.map (·.pf.output) = (z.map (·.pf)).map (·.output) := by intro z; cases z <;> rfl
  rw [e, e, serialRun_pf O B hB _ _ c hbc h.nonempty, key, hwhole]
  rfl

theorem footprint_any (O : NumOps) (t : Ast) {c : SCtx} (hbc : buildCtx t = some c) (sel : Loc → Prop) (pre trail : Str) (v : J)
    (hm : ∀ l, idxLt v.render.length l → ¬ sel l →
      (tableOf c).matchedType (locState (tableOf c) 1 0 l).1 (locState (tableOf c) 1 0 l).2 ≠ .output)
    (h : DocOK pre trail v)
    (hsp : pre.head? ≠ some ' ') (hpl : v.plainStrings = true) (hff : ∀ c ∈ pre ++ v.render ++ trail, c.toNat ≠ 255)
    (B : Nat) (hB : 0 < B)
    (hub : ∀ r, serialRun O (pre ++ v.render ++ trail).length t (pre ++ v.render ++ trail) = some r → r.sa.ub = false)
    (htorn : ∀ xs ys, pieces B (pre ++ v.render ++ trail) ((pre ++ v.render ++ trail).length + 1) 0 = xs ++ ys →
      xs ≠ [] → ys ≠ [] → UntornC sel pre v xs.flatten.length) :
    (serialRun O B t (pre ++ v.render ++ trail)).map (·.pf.output) =
      (serialRun O (pre ++ v.render ++ trail).length t (pre ++ v.render ++ trail)).map (·.pf.output) :=
  footprint_any_at O t hbc sel pre trail v hm h hsp B hB (plain_pieces h hpl hff hB) hub htorn

/-- **C22 (files)**  A path (slices included) run over a document that is loaded in pieces of any size prints what it prints
when the document is loaded as a whole, if no selected container lies across the end of a piece, no string ends in
`,`, `{` or `[`, there is no byte 0xFF, and the run over the whole document meets no undefined behaviour. -/
theorem c22_footprint_partial (O : NumOps) (p : List Step) (hp : p ≠ []) (hs : fewNames p)
    (hd : noDescBeforeSlice p = true) (hb : boundsOk p) (pre trail : Str) (v : J) (h : DocOK pre trail v)
    (hsp : pre.head? ≠ some ' ') (hpl : v.plainStrings = true) (hff : ∀ c ∈ pre ++ v.render ++ trail, c.toNat ≠ 255)
    (hint : (v.render.length : Int) ≤ intMax) (B : Nat) (hB : 0 < B)
    (hub : ∀ r, serialRun O (pre ++ v.render ++ trail).length (astOf p) (pre ++ v.render ++ trail) = some r → r.sa.ub = false)
    (htorn : ∀ xs ys, pieces B (pre ++ v.render ++ trail) ((pre ++ v.render ++ trail).length + 1) 0 = xs ++ ys →
      xs ≠ [] → ys ≠ [] → UntornC (Matches p) pre v xs.flatten.length) :
    (serialRun O B (astOf p) (pre ++ v.render ++ trail)).map (·.pf.output) =
      (serialRun O (pre ++ v.render ++ trail).length (astOf p) (pre ++ v.render ++ trail)).map (·.pf.output) := by
  obtain ⟨c, hbc, hpc⟩ := pathCtx_of_build p hp hs
  refine footprint_any O (astOf p) hbc (Matches p) pre trail v (fun l hl hn => ?_) h hsp hpl hff B hB hub htorn
  rw [hpc.matched hd hb l (fun i hi => by have := hl i hi; omega), if_neg hn]
  exact fun hz => by cases hz

/-- **C01 and C02 for files of any size.**  Loaded in pieces of any size, a tidy document gives exactly the selected values,
verbatim and in order, if keys, scalars and results fit the buffers and no selected container lies across the end of a piece. -/
theorem c02_footprint_partial (O : NumOps) (p : List Step) (hp : p ≠ []) (hs : fewNames p)
    (hd : noDescBeforeSlice p = true) (hb : boundsOk p) (pre trail : Str) (v : J) (h : DocOK pre trail v)
    (hsp : pre.head? ≠ some ' ') (hpl : v.plainStrings = true) (hff : ∀ c ∈ pre ++ v.render ++ trail, c.toNat ≠ 255)
    (hint : (v.render.length : Int) ≤ intMax) (ht : v.tidy = true) (hsh : v.short 3996 = true)
    (hout : (selected p v).length ≤ MAX_OUTPUT) (hsel : ∀ x ∈ selected p v, x.render.length ≤ 998) (B : Nat) (hB : 0 < B)
    (htorn : ∀ xs ys, pieces B (pre ++ v.render ++ trail) ((pre ++ v.render ++ trail).length + 1) 0 = xs ++ ys →
      xs ≠ [] → ys ≠ [] → UntornC (Matches p) pre v xs.flatten.length) :
    (serialRun O B (astOf p) (pre ++ v.render ++ trail)).map (·.pf.output) = some ((selected p v).map J.render) := by
  obtain ⟨c, hbc, hpc⟩ := pathCtx_of_build p hp hs
  have hwhole := serialRun_single O _ (astOf p) (pre ++ v.render ++ trail) c hbc h.nonempty (Nat.le_refl _)
  obtain ⟨h1, h2⟩ := hpc.serial O hd hb pre trail v h.preWs h.trailWs hsp h.container h.wf h.tight h.depth hint
  have h1' : (serialPartialRun O (tableOf c) (contextOf c) none (pre ++ v.render ++ trail)).pf.output =
      (selected p v).map J.render := h1.trans (tidy_texts p v ht)
  have hcl := h2 hsh (by rw [h1']; simpa using hout) (by
    rw [h1']; intro t ht
    obtain ⟨x, hx, rfl⟩ := List.mem_map.1 ht
    exact hsel x hx)
  rw [c22_footprint_partial O p hp hs hd hb pre trail v h hsp hpl hff hint B hB (by
    intro r hr
    rw [hwhole] at hr; cases hr
    exact hcl.1) htorn, hwhole, Option.map_some, h1']

/-- The example of C22: `$.a` on `exPiecesDoc` loaded with footprint 10, in three pieces. -/
example : DocOK [] [] exPiecesDoc ∧ exPiecesDoc.plainStrings = true ∧ exPiecesDoc.tidy = true ∧ exPiecesDoc.short 3996 = true ∧
    (∀ c ∈ [] ++ exPiecesDoc.render ++ [], c.toNat ≠ 255) ∧
    pieces 10 ([] ++ exPiecesDoc.render ++ []) (([] ++ exPiecesDoc.render ++ []).length + 1) 0 = exPieces ∧
    (selected [.prop ['a']] exPiecesDoc).map J.render = ["[1, 2]".toList] ∧
    (∀ xs ys, exPieces = xs ++ ys → xs ≠ [] → ys ≠ [] → UntornC (Matches [.prop ['a']]) [] exPiecesDoc xs.flatten.length) := by
  refine ⟨⟨by decide, by decide, by decide, by decide, by decide, by decide⟩, by decide, by decide, by decide, by decide,
    by decide, ?_, ?_⟩
  · simp [selected, exPiecesDoc, J.parts, Members.parts, Elems.parts, matches_prop, matches_nil, matches_nil_left, J.render,
      Elems.render, Elems.sep]
  · have hsel : ∀ l, Matches [.prop ['a']] l → decide (l = [.key ['a']]) = true := by
      intro l hl
      cases hl with
      | prop k hl => cases hl; rfl
    exact cuts_three (P := fun xs => UntornC (Matches [.prop ['a']]) [] exPiecesDoc xs.flatten.length)
      (untorn_of hsel (by decide)).containers (untorn_of hsel (by decide)).containers

/-- A path whose last step names a key selects only values of keys. -/
theorem ends_key {p : List Step} {l : Loc} (h : Matches p l) :
    (∃ k, p.getLast? = some (.prop k) ∨ p.getLast? = some (.descProp k)) → ∃ k, l.getLast? = some (.key k) := by
  have cons : ∀ {s : Step} {p : List Step} {x : Label} {l : Loc}, Matches p l →
      ((∃ k, p.getLast? = some (.prop k) ∨ p.getLast? = some (.descProp k)) → ∃ k, l.getLast? = some (.key k)) →
      ((∃ k, s = .prop k ∨ s = .descProp k) → ∃ k, x = .key k) →
      (∃ k, (s :: p).getLast? = some (.prop k) ∨ (s :: p).getLast? = some (.descProp k)) →
      ∃ k, (x :: l).getLast? = some (.key k) := by
    intro s p x l hm ih hx hk
    cases p with
    | nil =>
      cases hm
      obtain ⟨k, hk⟩ := hx (by simpa using hk)
      exact ⟨k, by simp [hk]⟩
    | cons t p =>
      rw [List.getLast?_cons_cons] at hk
      obtain ⟨k, hk⟩ := ih hk
      refine ⟨k, ?_⟩
      cases l with
      | nil => cases hk
      | cons y l => rw [List.getLast?_cons_cons]; exact hk
  have more : ∀ {x : Label} {l : Loc}, (∃ k, l.getLast? = some (.key k)) → ∃ k, (x :: l).getLast? = some (.key k) := by
    rintro x l ⟨k, hk⟩
    refine ⟨k, ?_⟩
    cases l with
    | nil => cases hk
    | cons y l => rw [List.getLast?_cons_cons]; exact hk
  induction h with
  | nil => rintro ⟨k, h⟩; simp at h
  | dotAll x hm ih => exact cons hm ih (by simp)
  | descAll x hm ih => exact cons hm ih (by simp)
  | descAllMore x hm ih => exact fun hk => more (ih hk)
  | prop k hm ih => exact cons hm ih (fun _ => ⟨k, rfl⟩)
  | descProp k hm ih => exact cons hm ih (fun _ => ⟨k, rfl⟩)
  | descPropMore x hm ih => exact fun hk => more (ih hk)
  | all i hm ih => exact cons hm ih (by simp)
  | slice a b i hi hm ih => exact cons hm ih (by simp)

/-- **C32 without conditions on the cuts**: if the path ends in the name of a key and everything it selects is a scalar, the
parallel run prints what the serial run prints, for every number of threads, unless one of them meets undefined behaviour. -/
theorem c32_scalars_partial (O : NumOps) (p : List Step) (hlen : fewNames p) (hs : noSlices p)
    (hlast : ∃ k, p.getLast? = some (.prop k) ∨ p.getLast? = some (.descProp k))
    (pre trail : Str) (v : J) (h : Readable pre trail v) (hpl : v.plainStrings = true) (h0 : NUL ∉ pre ++ v.render ++ trail)
    (hscl : ∀ x ∈ selected p v, x.isContainer = false)
    (cores : Nat) (hc : 0 < cores) (u : Nat → Nat → UState) (r : ParallelCtx)
    (hr : parallelRun O MEMORY_FOOTPRINT cores u (astOf p) (pre ++ v.render ++ trail) = some (some r))
    (hbad : r.k.bad = false) (hclean : clean O (astOf p) (pre ++ v.render ++ trail)) :
    results O (astOf p) (pre ++ v.render ++ trail) = some r.pf.output := by
  have hp : p ≠ [] := by rintro rfl; simp at hlast
  refine c32_paths_partial O p hp hlen hs.ok pre trail v h hpl h0 cores hc u r hr hbad hclean ?_
  intro xs ys _ _ _
  refine Untorn.path ⟨fun y hy hcn _ hm => ?_, fun y hy w es _ _ j x _ _ hm => ?_⟩ hs
  · rcases List.mem_cons.1 hy with rfl | hy
    · obtain ⟨k, hk⟩ := ends_key hm hlast
      simp at hk
    · have hx : y.2.1 ∈ selected p v := by
        unfold selected
        exact List.mem_map.2 ⟨(y.1, y.2.1), List.mem_filter.2 ⟨spans_part hy, by simpa using hm⟩, rfl⟩
      rw [hscl _ hx] at hcn; cases hcn
  · obtain ⟨k, hk⟩ := ends_key hm hlast
    simp at hk

/-- `$..c` on `exPar`: hypotheses of `c32_scalars_partial`, with a run on three threads. -/
example : (selected [.descProp ['c']] exPar).map J.render = ["2".toList, "5".toList, "5".toList] ∧
    (∀ x ∈ selected [.descProp ['c']] exPar, x.isContainer = false) := by
  simp [selected, exPar, J.parts, Members.parts, Elems.parts, matches_descProp, matches_nil, matches_nil_left, J.render,
    J.isContainer]

set_option maxRecDepth 100000 in
example : (parallelRun intOps MEMORY_FOOTPRINT 3 (fun _ _ => .other) (astOf [.descProp ['c']]) exPar.render).map
      (·.map fun r => (r.pf.output, r.k.bad)) = some (some (["2".toList, "5".toList, "5".toList], false)) := by
  with_unfolding_all rfl

end JPS
