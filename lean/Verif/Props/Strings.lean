import Verif.Props.OptActual
/-!
# C22, C32: strings that end in a comma

The theorems about files in pieces and about parallel runs assume that no string ends in `,`, `{` or `[`.  Without it they are false.
It is enough that no cut falls into a string.
-/

set_option autoImplicit false

namespace JPS
open Spec

/-- `c32_paths_partial` for all strings. -/
def C32Strings : Prop := ∀ (O : NumOps) (p : List Step), p ≠ [] → fewNames p → SlicesOK p →
  ∀ (pre trail : Str) (v : J), Readable pre trail v → NUL ∉ pre ++ v.render ++ trail →
  ∀ cores : Nat, 0 < cores → ∀ (u : Nat → Nat → UState) (r : ParallelCtx),
  parallelRun O MEMORY_FOOTPRINT cores u (astOf p) (pre ++ v.render ++ trail) = some (some r) →
  r.k.bad = false → clean O (astOf p) (pre ++ v.render ++ trail) →
  (∀ xs ys : List Str, partition cores (pre ++ v.render ++ trail) = some ((xs ++ ys).map some) → xs ≠ [] → ys ≠ [] →
    UntornPath p pre v xs.flatten.length) →
  results O (astOf p) (pre ++ v.render ++ trail) = some r.pf.output

/-- `c22_chosen_partial` for all strings. -/
def C22Strings : Prop := ∀ (O : NumOps) (p : List Step), p ≠ [] → fewNames p → boundsOk p →
  ∀ (pre trail : Str) (v : J), DocOK pre trail v → pre.head? ≠ some ' ' → (∀ c ∈ pre ++ v.render ++ trail, c.toNat ≠ 255) →
  (v.render.length : Int) ≤ intMax → ∀ B : Nat, 0 < B →
  (∀ r, serialRun O (pre ++ v.render ++ trail).length (astOf p) (pre ++ v.render ++ trail) = some r → r.sa.ub = false) →
  (∀ xs ys, pieces B (pre ++ v.render ++ trail) ((pre ++ v.render ++ trail).length + 1) 0 = xs ++ ys →
    xs ≠ [] → ys ≠ [] → UntornC (Chosen p) pre v xs.flatten.length) →
  (serialRun O B (astOf p) (pre ++ v.render ++ trail)).map (·.pf.output) =
    (serialRun O (pre ++ v.render ++ trail).length (astOf p) (pre ++ v.render ++ trail)).map (·.pf.output)

/-- `{"a": "xxxxxxxxxxxx,", "b": 1, "c": 2}`. -/
def exCommaDoc : J := .obj [] (.cons [] ['a'] [] [' '] (.str "xxxxxxxxxxxx,".toList) [] (.cons [' '] ['b'] [] [' '] (.lit ['1']) []
  (.cons [' '] ['c'] [] [' '] (.lit ['2']) [] .nil)))

/-- The chunks for two threads, and the pieces for footprint 16: the string is cut before its closing quote, which follows a comma. -/
def exCommaChunks : List Str := ["{\"a\": \"xxxxxxxxxxxx,".toList, "\", \"b\": 1, \"c\": 2}".toList]

theorem exComma_partition : partition 2 ([] ++ exCommaDoc.render ++ []) = some (exCommaChunks.map some) := by decide

theorem exComma_pieces : pieces 16 ([] ++ exCommaDoc.render ++ []) (([] ++ exCommaDoc.render ++ []).length + 1) 0 = exCommaChunks := by decide

theorem cuts_two {a b : Str} {P : List Str → Prop} (h1 : P [a]) : ∀ xs ys, [a, b] = xs ++ ys → xs ≠ [] → ys ≠ [] → P xs := by
  intro xs ys h hx hy
  match xs, hx, h with
  | [x], _, h => injection h with h _; subst h; exact h1
  | x :: y :: xs, _, h =>
    injection h with _ h; injection h with _ h
    exact absurd (List.append_eq_nil_iff.1 h.symm).2 hy

theorem exComma_sel : ∀ l, Matches [.prop ['b']] l → decide (l = [.key ['b']]) = true := by
  intro l hl
  cases hl with
  | prop k hl => cases hl; rfl

theorem exComma_serial : (serialRun intOps MEMORY_FOOTPRINT (astOf [.prop ['b']]) ([] ++ exCommaDoc.render ++ [])).map
    (fun r => (r.pf.output, r.sa.ub, r.pf.ub)) = some (["1".toList], false, false) := by decide +kernel

/-- **C32 is false for strings that end in a comma**: `$.b` on `exCommaDoc` with two threads prints nothing; the run is defined, and the
cut tears nothing that is selected. -/
theorem c32_false_strings : ¬ C32Strings := by
  intro h
  have hp : (parallelRun intOps MEMORY_FOOTPRINT 2 (fun _ _ => .other) (astOf [.prop ['b']]) ([] ++ exCommaDoc.render ++ [])).map
      (·.map fun r => (r.pf.output, r.k.bad)) = some (some ([], false)) := by decide +kernel
  have hs := exComma_serial
  revert hp
  cases hz : parallelRun intOps MEMORY_FOOTPRINT 2 (fun _ _ => .other) (astOf [.prop ['b']]) ([] ++ exCommaDoc.render ++ []) with
  | none => intro hp; cases hp
  | some z =>
    cases z with
    | none => intro hp; cases hp
    | some r =>
      intro hp
      simp only [Option.map_some, Option.some.injEq, Prod.mk.injEq] at hp
      have hn : noSlices [.prop ['b']] := by simp [noSlices, isSlice]
      have := h intOps [.prop ['b']] (by simp) (by decide) hn.ok [] [] exCommaDoc
        ⟨by decide, by decide, by decide, by decide, by decide, by decide, by decide, by decide⟩ (by decide) 2 (by decide) _ r hz hp.2
        (fun r hr => by rw [hr] at hs; simp at hs; exact hs.2) (by
          intro xs ys e
          rw [exComma_partition] at e
          exact cuts_two (P := fun xs => UntornPath [.prop ['b']] [] exCommaDoc xs.flatten.length)
            ((untorn_of exComma_sel (by decide)).path hn) xs ys (map_some_inj (Option.some.inj e)))
      unfold results at this
      rw [hp.1] at this
      have e := congrArg (Option.map Prod.fst) hs
      rw [Option.map_map] at e
      have e2 := this.symm.trans e
      revert e2; decide

/-- **C22 is false for strings that end in a comma**: with footprint 16 `$.b` selects nothing in `exCommaDoc`. -/
theorem c22_false_strings : ¬ C22Strings := by
  intro h
  have hlen : ([] ++ exCommaDoc.render ++ []).length = 38 := by decide
  have hs : (serialRun intOps 38 (astOf [.prop ['b']]) ([] ++ exCommaDoc.render ++ [])).map (fun r => (r.pf.output, r.sa.ub)) =
      some (["1".toList], false) := by decide +kernel
  have hb : (serialRun intOps 16 (astOf [.prop ['b']]) ([] ++ exCommaDoc.render ++ [])).map (·.pf.output) = some [] := by decide +kernel
  have := h intOps [.prop ['b']] (by simp) (by decide) (by intro a b hm; simp at hm) [] [] exCommaDoc
    ⟨by decide, by decide, by decide, by decide, by decide, by decide⟩ (by decide) (by decide) (by decide) 16 (by decide)
    (by
      rw [hlen]; intro r hr
      rw [hr] at hs; simp at hs; exact hs.2) (by
      rw [exComma_pieces]
      have hsel : ∀ l, Chosen [.prop ['b']] l → decide (l = [.key ['b']]) = true := fun l hl => exComma_sel l hl.1
      exact cuts_two (P := fun xs => UntornC (Chosen [.prop ['b']]) [] exCommaDoc xs.flatten.length) (untorn_of hsel (by decide)).containers)
  rw [hb, hlen] at this
  have e := congrArg (Option.map Prod.fst) hs
  rw [Option.map_map] at e
  have e2 := this.trans e
  revert e2; decide

/-! ## Documents with any strings -/

/-- **C32 for documents with any strings**: it is enough that each chunk begins at a string. -/
theorem c32_strings_partial (O : NumOps) (p : List Step) (hp : p ≠ []) (hlen : fewNames p) (hb : boundsOk p)
    (pre trail : Str) (v : J) (h : Readable pre trail v) (h0 : NUL ∉ pre ++ v.render ++ trail)
    (cores : Nat) (hc : 0 < cores) (hcb : CutsBegin cores pre trail v) (u : Nat → Nat → UState) (r : ParallelCtx)
    (hr : parallelRun O MEMORY_FOOTPRINT cores u (astOf p) (pre ++ v.render ++ trail) = some (some r))
    (hbad : r.k.bad = false) (hclean : clean O (astOf p) (pre ++ v.render ++ trail))
    (htorn : ∀ xs ys : List Str, partition cores (pre ++ v.render ++ trail) = some ((xs ++ ys).map some) → xs ≠ [] → ys ≠ [] →
      UntornChosen p pre v xs.flatten.length) :
    results O (astOf p) (pre ++ v.render ++ trail) = some r.pf.output := by
  obtain ⟨c, hbc, hpc⟩ := pathCtx_of_build p hp hlen
  exact (tree_ct_at O (astOf p) hbc (c.dead hpc.ok) (hpc.noIdx_counted [] (by simp)) pre trail v cores h hcb h0 hc none nodup_none (u 0) r
    (parallelRun_single O _ cores u _ _ c hbc h.nonempty h.size hr) hbad hclean
    (fun xs ys e hx hy hbf => hpc.cutsOK_chosen hb (size_int h) hbf (htorn xs ys e hx hy)) (.inl fun ps _ _ => ctChunks_none ps _)).1

/-- The same for filter queries. -/
theorem c32_strings_filters_partial (O : NumOps) (p : List (QStep Num)) (hq : FilterQuery p)
    (pre trail : Str) (v : J) (h : Readable pre trail v) (h0 : NUL ∉ pre ++ v.render ++ trail)
    (cores : Nat) (hc : 0 < cores) (hcb : CutsBegin cores pre trail v) (u : Nat → Nat → UState) (r : ParallelCtx)
    (hr : parallelRun O MEMORY_FOOTPRINT cores u (fAst p) (pre ++ v.render ++ trail) = some (some r))
    (hbad : r.k.bad = false) (hclean : clean O (fAst p) (pre ++ v.render ++ trail))
    (htorn : ∀ xs ys : List Str, partition cores (pre ++ v.render ++ trail) = some ((xs ++ ys).map some) → xs ≠ [] → ys ≠ [] →
      Untorn (Matches (p.map sk)) pre v xs.flatten.length) :
    results O (fAst p) (pre ++ v.render ++ trail) = some r.pf.output := by
  obtain ⟨c, hbc, hf⟩ := ftab_of_build p hq.ne hq.clean hq.named hq.fresh hq.names
  exact (tree_ct_at O (fAst p) hbc (c.dead hf.ok) (hf.toFWords.noIdx 1) pre trail v cores h hcb h0 hc none nodup_none (u 0) r
    (parallelRun_single O _ cores u _ _ c hbc h.nonempty h.size hr) hbad hclean
    (fun xs ys e hx hy hb => hf.cutsOK hb (htorn xs ys e hx hy)) (.inl fun ps _ _ => ctChunks_none ps _)).1

/-- **C45 for documents with any strings.** -/
theorem c45_strings_partial (O : NumOps) (p : List Step) (hp : p ≠ []) (hlen : fewNames p) (hb : boundsOk p)
    (pre trail : Str) (v : J) (h : Readable pre trail v) (ht : v.tidy = true) (h0 : NUL ∉ pre ++ v.render ++ trail)
    (cores : Nat) (hc : 0 < cores) (hcm : cores ≤ MAX_THREAD) (hcb : CutsBegin cores pre trail v) (u : Nat → Nat → UState)
    (hpart : partition cores (pre ++ v.render ++ trail) ≠ none) (hsz : ∀ q, buildQuery (astOf p) = some q → Sizes q.1 v)
    (hnum : (chosen p v).length ≤ MAX_OUTPUT) (htext : ∀ x ∈ chosen p v, x.render.length ≤ 998)
    (htorn : ∀ xs ys : List Str, partition cores (pre ++ v.render ++ trail) = some ((xs ++ ys).map some) → xs ≠ [] → ys ≠ [] →
      UntornChosen p pre v xs.flatten.length) :
    ∃ r, parallelRun O MEMORY_FOOTPRINT cores u (astOf p) (pre ++ v.render ++ trail) = some (some r) ∧
      r.k.bad = false ∧ r.pf.ub = false ∧ r.pf.output = (chosen p v).map J.render := by
  obtain ⟨c, hbc, hpc⟩ := pathCtx_of_build p hp hlen
  have hq : buildQuery (astOf p) = some (tableOf c, contextOf c) := by unfold buildQuery; rw [hbc]; rfl
  obtain ⟨h1, h2⟩ := c02_actual_partial O p hp hb hlen pre trail v h ht
  have hclean := h2 (short_mono (by decide) v (hsz _ hq).short) hnum htext
  obtain ⟨r, a1, a2⟩ := tree_ct_safe_at O (astOf p) hbc (c.dead hpc.ok) (hpc.noIdx_counted [] (by simp)) pre trail v cores h hcb h0 hc hcm none
    nodup_none (statesIn_none _) (u 0) hpart (hsz _ hq) (.inl rfl) hclean
    (fun xs ys e hx hy hbf => hpc.cutsOK_chosen hb (size_int h) hbf (htorn xs ys e hx hy))
    (fun _ _ _ _ _ _ => chunksPred_of (hpc.noPredicate hb) _ _ _ (Nat.le_refl _))
  obtain ⟨h3, h4⟩ := a2 (.inl fun ps _ _ => ctChunks_none ps _)
  have hr : parallelRun O MEMORY_FOOTPRINT cores u (astOf p) (pre ++ v.render ++ trail) = some (some r) := by
    rw [parallelRun_single_eq O _ cores u _ _ c hbc h.nonempty h.size, a1]; rfl
  refine ⟨r, hr, h3, h4, ?_⟩
  have := c32_strings_partial O p hp hlen hb pre trail v h h0 cores hc hcb u r hr h3 hclean htorn
  rw [h1] at this
  exact (Option.some.inj this).symm

/-- **C22 for documents with any strings**: it is enough that each piece begins at a string. -/
theorem c22_strings_partial (O : NumOps) (p : List Step) (hp : p ≠ []) (hs : fewNames p) (hb : boundsOk p) (pre trail : Str) (v : J)
    (h : DocOK pre trail v) (hsp : pre.head? ≠ some ' ') (hint : (v.render.length : Int) ≤ intMax) (B : Nat) (hB : 0 < B)
    (hcut : CutsAtStrings pre v (pieces B (pre ++ v.render ++ trail) ((pre ++ v.render ++ trail).length + 1) 0))
    (hub : ∀ r, serialRun O (pre ++ v.render ++ trail).length (astOf p) (pre ++ v.render ++ trail) = some r → r.sa.ub = false)
    (htorn : ∀ xs ys, pieces B (pre ++ v.render ++ trail) ((pre ++ v.render ++ trail).length + 1) 0 = xs ++ ys →
      xs ≠ [] → ys ≠ [] → UntornC (Chosen p) pre v xs.flatten.length) :
    (serialRun O B (astOf p) (pre ++ v.render ++ trail)).map (·.pf.output) =
      (serialRun O (pre ++ v.render ++ trail).length (astOf p) (pre ++ v.render ++ trail)).map (·.pf.output) := by
  obtain ⟨c, hbc, hpc⟩ := pathCtx_of_build p hp hs
  refine footprint_any_at O (astOf p) hbc (Chosen p) pre trail v (fun l hl hn => ?_) h hsp B hB hcut hub htorn
  rw [hpc.matched_chosen hb l (fun i hi => by have := hl i hi; omega), if_neg hn]
  exact fun hz => by cases hz

/-! ### Examples -/

/-- `{"a": "xxxxxxxxxxxx,", "b": "1", "c": "2"}`. -/
def exCommaWhole : J := .obj [] (.cons [] ['a'] [] [' '] (.str "xxxxxxxxxxxx,".toList) [] (.cons [' '] ['b'] [] [' '] (.str ['1']) []
  (.cons [' '] ['c'] [] [' '] (.str ['2']) [] .nil)))

/-- Here the cut for two threads, and that for footprint 21, is behind the string. -/
def exCommaWholeChunks : List Str := ["{\"a\": \"xxxxxxxxxxxx,\", ".toList, "\"b\": \"1\", \"c\": \"2\"}".toList]

theorem exCommaWhole_cuts : exCommaWhole.plainStrings = false ∧
    partition 2 ([] ++ exCommaWhole.render ++ []) = some (exCommaWholeChunks.map some) ∧
    pieces 21 ([] ++ exCommaWhole.render ++ []) (([] ++ exCommaWhole.render ++ []).length + 1) 0 = exCommaWholeChunks := by decide

theorem exCommaWhole_begin : ∃ r, ([exCommaWholeChunks[0]].flatten.length, r) ∈ exCommaWhole.strings 0 := ⟨['b'], by decide⟩

theorem exCommaWhole_chosen : chosen [.prop ['b']] exCommaWhole = [.str ['1']] := by
  rw [chosen_selected (flat_noDesc (by decide) _)]
  simp [selected, exCommaWhole, J.parts, Members.parts, matches_prop, matches_nil, matches_nil_left]

theorem exCommaWhole_sel : ∀ l, Chosen [.prop ['b']] l → decide (l = [.key ['b']]) = true := fun l hl => exComma_sel l hl.1

/-- `c45_strings_partial`, with it `c32_strings_partial`, applied: `$.b` on `exCommaWhole` with two threads. -/
example (O : NumOps) (u : Nat → Nat → UState) :
    ∃ r, parallelRun O MEMORY_FOOTPRINT 2 u (astOf [.prop ['b']]) ([] ++ exCommaWhole.render ++ []) = some (some r) ∧
      r.k.bad = false ∧ r.pf.ub = false ∧ r.pf.output = ["\"1\"".toList] := by
  have hR : Readable [] [] exCommaWhole := ⟨by decide, by decide, by decide, by decide, by decide, by decide, by decide, by decide⟩
  have key := c45_strings_partial O [.prop ['b']] (by simp) (by decide) (by intro a b hm; simp at hm) [] [] exCommaWhole hR (by decide)
    (by decide) 2 (by decide) (by decide) (by
      intro xs ys e
      rw [exCommaWhole_cuts.2.1] at e
      exact cuts_two (P := fun xs => ∃ r, (xs.flatten.length, r) ∈ exCommaWhole.strings 0) exCommaWhole_begin xs ys
        (map_some_inj (Option.some.inj e))) u (by rw [exCommaWhole_cuts.2.1]; nofun)
    (by
      intro q hq
      have e : (buildQuery (astOf [.prop ['b']])).map (·.1.statesNum) = some 3 := by decide
      rw [hq] at e
      have e : q.1.statesNum = 3 := Option.some.inj e
      exact ⟨by decide, by decide, by rw [e]; decide, by rw [e]; decide, by rw [e]; decide⟩)
    (by rw [exCommaWhole_chosen]; decide) (by rw [exCommaWhole_chosen]; decide) (by
      intro xs ys e
      rw [exCommaWhole_cuts.2.1] at e
      refine cuts_two (P := fun xs => UntornChosen [.prop ['b']] [] exCommaWhole xs.flatten.length) ?_ xs ys (map_some_inj (Option.some.inj e))
      refine ⟨untorn_of exCommaWhole_sel (by decide), ?_⟩
      rintro y _ w es _ _ ⟨q, a, b, r, hp, _⟩
      have : Step.slice a b ∈ [Step.prop ['b']] := by rw [hp]; simp
      simp at this)
  rw [exCommaWhole_chosen] at key
  exact key

/-- `c22_strings_partial` applied: with footprint 21 the document is loaded in two pieces. -/
example : (serialRun intOps 21 (astOf [.prop ['b']]) ([] ++ exCommaWhole.render ++ [])).map (·.pf.output) = some ["\"1\"".toList] := by
  have hlen : ([] ++ exCommaWhole.render ++ []).length = 42 := by decide
  have hs : (serialRun intOps 42 (astOf [.prop ['b']]) ([] ++ exCommaWhole.render ++ [])).map (fun r => (r.pf.output, r.sa.ub)) =
      some (["\"1\"".toList], false) := by decide +kernel
  have := c22_strings_partial intOps [.prop ['b']] (by simp) (by decide) (by intro a b hm; simp at hm) [] [] exCommaWhole
    ⟨by decide, by decide, by decide, by decide, by decide, by decide⟩ (by decide) (by decide) 21 (by decide) (by
      rw [exCommaWhole_cuts.2.2]
      exact cuts_two (P := fun xs => ∃ r, (xs.flatten.length, r) ∈ exCommaWhole.strings 0) exCommaWhole_begin)
    (by
      rw [hlen]; intro r hr
      rw [hr] at hs; simp at hs; exact hs.2) (by
      rw [exCommaWhole_cuts.2.2]
      exact cuts_two (P := fun xs => UntornC (Chosen [.prop ['b']]) [] exCommaWhole xs.flatten.length)
        (untorn_of exCommaWhole_sel (by decide)).containers)
  rw [this, hlen]
  have e := congrArg (Option.map Prod.fst) hs
  rw [Option.map_map] at e
  exact e

/-- `CutsBegin` does not exclude such strings.  By `plain_cuts` the example of `c32_filters_partial` meets the hypotheses of
`c32_strings_filters_partial`. -/
example : CutsBegin 2 [] [] exCommaWhole ∧ exCommaWhole.plainStrings = false := by
  refine ⟨?_, exCommaWhole_cuts.1⟩
  intro xs ys e
  rw [exCommaWhole_cuts.2.1] at e
  exact cuts_two (P := fun xs => ∃ r, (xs.flatten.length, r) ∈ exCommaWhole.strings 0) exCommaWhole_begin xs ys
    (map_some_inj (Option.some.inj e))

end JPS
