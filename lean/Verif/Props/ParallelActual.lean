import Verif.Props.SliceActual
import Verif.Props.ParallelSafe
import Verif.Props.Footprint
/-!
# C32, C45: parallel runs with slices below descendant steps
-/

set_option autoImplicit false

namespace JPS
open Spec

/-- A location is reached by the steps before some slice, if bounds are ignored. -/
def CountedAt (p : List Step) (l : Loc) : Prop := ∃ q a b r, p = q ++ .slice a b :: r ∧ Matches (q.map Step.anyElem) l

/-- Nothing that the program selects is torn apart by a cut, and no array whose elements a slice counts lies on both sides of it. -/
structure UntornChosen (p : List Step) (pre : Str) (v : J) (k : Nat) : Prop extends Untorn (Chosen p) pre v k where
  counted : ∀ y ∈ allSpans pre v, ∀ w es, y.2.1 = .arr w es → across y k → ¬ CountedAt p y.1

/-- Only the elements of an array that a slice counts have a state with an index range. -/
theorem PathCtx.noIdx_counted {p : List Step} {c : SCtx} (h : PathCtx p c) (l : Loc)
    (hs : ∀ l' i, l = l' ++ [.elem i] → ¬ CountedAt p l') : NoIdx (tableOf c) (locState (tableOf c) 1 0 l).1 := by
  obtain ⟨_, e2, e3⟩ := c.locState_eq h.ok l
  by_cases hr : inRanges (tableOf c) (fun l => c.run (l.map c.col)) l
  · rw [e2 hr]
    unfold NoIdx
    rw [c.lower_run _ (c.letters_map l), c.upper_run _ (c.letters_map l)]
    rcases h.stop_cases l with ⟨h1, _⟩ | ⟨k, q, h1, h2, h3, _⟩
    · rw [h1]; simp
    · rw [h2]
      simp only [Nat.add_sub_cancel, h.range_get h1]
      by_cases he : endsSlice q = true
      · exfalso
        obtain ⟨_, r, hpr⟩ := mem_prefsOf (List.mem_of_getElem? h1)
        obtain ⟨q', a, b, rfl⟩ := endsSlice_iff.1 he
        rw [List.map_append] at h3
        obtain ⟨l1, l2, e, m1, m2⟩ := matches_split h3
        obtain ⟨i, rfl⟩ : ∃ i, l2 = [.elem i] := by
          cases m2 with
          | all i hm => cases hm; exact ⟨i, rfl⟩
        exact hs l1 i e ⟨q', a, b, r, by rw [hpr]; simp, by rw [anyElem_eq]; exact m1⟩
      · rw [rangeOf_not he]; simp
  · rw [e3 hr]; exact c.range_zero

theorem PathCtx.cutsOK_chosen {p : List Step} {c : SCtx} (hpc : PathCtx p c) (hb : boundsOk p) {pre trail : Str} {v : J} {k : Nat}
    (hlen : (v.render.length : Int) ≤ intMax)
    (hbef : ∃ u w c, ((pre ++ v.render ++ trail).take k).reverse = w ++ c :: u ∧ w.all isSkip = true ∧
      (c = ',' ∨ c = '{' ∨ c = '['))
    (h : UntornChosen p pre v k) : CutsOK (tableOf c) pre trail v k := by
  have hm : ∀ l : Loc, idxLt v.render.length l → ¬ Chosen p l →
      (tableOf c).matchedType (locState (tableOf c) 1 0 l).1 (locState (tableOf c) 1 0 l).2 = .none := by
    intro l hl hn
    rw [hpc.matched_chosen hb l (fun i hi => by have := hl i hi; omega), if_neg hn]
  refine ⟨hbef, fun y hy hc ha => ?_, fun y hy w es he ha j x hj hx => ?_, fun y hy hc ha => ?_, fun y hy w es he ha j x hj hx => ?_⟩
  · rw [hm _ (spans_idx hy).1 (h.containers y hy hc ha)]
    exact fun hz => by cases hz
  · rw [hm _ (spans_elem_idx hy he hj) (h.scalars y hy w es he ha j x hj hx)]
    exact ⟨nofun, nofun⟩
  · refine hpc.noIdx_counted _ fun l' i e => ?_
    obtain ⟨z, hz, w, es, e1, e2, e3⟩ := across_parent hy ha e
    rw [← e2]
    exact h.counted z hz w es e1 e3
  · refine hpc.noIdx_counted _ fun l' i e => ?_
    rw [← (List.append_inj' e rfl).1]
    exact h.counted y hy w es he ha

/-- **C32 for every path without filters.**  Slices may follow descendant steps; the conditions on the cuts are about the values that the
program selects and the arrays whose elements it counts. -/
theorem c32_chosen_partial (O : NumOps) (p : List Step) (hp : p ≠ []) (hlen : fewNames p) (hb : boundsOk p)
    (pre trail : Str) (v : J) (h : Readable pre trail v) (hpl : v.plainStrings = true) (h0 : NUL ∉ pre ++ v.render ++ trail)
    (cores : Nat) (hc : 0 < cores) (u : Nat → Nat → UState) (r : ParallelCtx)
    (hr : parallelRun O MEMORY_FOOTPRINT cores u (astOf p) (pre ++ v.render ++ trail) = some (some r))
    (hbad : r.k.bad = false) (hclean : clean O (astOf p) (pre ++ v.render ++ trail))
    (htorn : ∀ xs ys : List Str, partition cores (pre ++ v.render ++ trail) = some ((xs ++ ys).map some) → xs ≠ [] → ys ≠ [] →
      UntornChosen p pre v xs.flatten.length) :
    results O (astOf p) (pre ++ v.render ++ trail) = some r.pf.output := by
  obtain ⟨c, hbc, hpc⟩ := pathCtx_of_build p hp hlen
  have hsize : (v.render.length : Int) ≤ intMax := by
    have := h.size
    simp only [List.length_append, MEMORY_FOOTPRINT] at this
    simp only [intMax]; omega
  exact (tree_ct O (astOf p) hbc (c.dead hpc.ok) (hpc.noIdx_counted [] (by simp)) pre trail v h hpl h0 cores hc none nodup_none (u 0) r
    (parallelRun_single O _ cores u _ _ c hbc h.nonempty h.size hr) hbad hclean
    (fun xs ys e hx hy hbf => hpc.cutsOK_chosen hb hsize hbf (htorn xs ys e hx hy)) (.inl fun ps _ _ => ctChunks_none ps _)).1

/-- **C45 for every path without filters.**  Slices may follow descendant steps.  The parallel run meets no undefined behaviour and prints what
`chosen` describes. -/
theorem c45_chosen_partial (O : NumOps) (p : List Step) (hp : p ≠ []) (hlen : fewNames p) (hb : boundsOk p)
    (pre trail : Str) (v : J) (h : Readable pre trail v) (ht : v.tidy = true) (hpl : v.plainStrings = true)
    (h0 : NUL ∉ pre ++ v.render ++ trail)
    (cores : Nat) (hc : 0 < cores) (hcm : cores ≤ MAX_THREAD) (u : Nat → Nat → UState)
    (hpart : partition cores (pre ++ v.render ++ trail) ≠ none) (hsz : ∀ q, buildQuery (astOf p) = some q → Sizes q.1 v)
    (hnum : (chosen p v).length ≤ MAX_OUTPUT) (htext : ∀ x ∈ chosen p v, x.render.length ≤ 998)
    (htorn : ∀ xs ys : List Str, partition cores (pre ++ v.render ++ trail) = some ((xs ++ ys).map some) → xs ≠ [] → ys ≠ [] →
      UntornChosen p pre v xs.flatten.length) :
    ∃ r, parallelRun O MEMORY_FOOTPRINT cores u (astOf p) (pre ++ v.render ++ trail) = some (some r) ∧
      r.k.bad = false ∧ r.pf.ub = false ∧ r.pf.output = (chosen p v).map J.render := by
  obtain ⟨c, hbc, hpc⟩ := pathCtx_of_build p hp hlen
  have hq : buildQuery (astOf p) = some (tableOf c, contextOf c) := by unfold buildQuery; rw [hbc]; rfl
  have hsize : (v.render.length : Int) ≤ intMax := by
    have := h.size
    simp only [List.length_append, MEMORY_FOOTPRINT] at this
    simp only [intMax]; omega
  obtain ⟨h1, h2⟩ := c02_actual_partial O p hp hb hlen pre trail v h ht
  have hclean := h2 (short_mono (by decide) v (hsz _ hq).short) hnum htext
  obtain ⟨r, a1, a2⟩ := tree_ct_safe O (astOf p) hbc (c.dead hpc.ok) (hpc.noIdx_counted [] (by simp)) pre trail v h hpl h0 cores hc hcm none
    nodup_none (statesIn_none _) (u 0) hpart (hsz _ hq) (.inl rfl) hclean
    (fun xs ys e hx hy hbf => hpc.cutsOK_chosen hb hsize hbf (htorn xs ys e hx hy))
    (fun _ _ _ _ _ _ => chunksPred_of (hpc.noPredicate hb) _ _ _ (Nat.le_refl _))
  obtain ⟨h3, h4⟩ := a2 (.inl fun ps _ _ => ctChunks_none ps _)
  have hr : parallelRun O MEMORY_FOOTPRINT cores u (astOf p) (pre ++ v.render ++ trail) = some (some r) := by
    rw [parallelRun_single_eq O _ cores u _ _ c hbc h.nonempty h.size, a1]; rfl
  refine ⟨r, hr, h3, h4, ?_⟩
  have := c32_chosen_partial O p hp hlen hb pre trail v h hpl h0 cores hc u r hr h3 hclean htorn
  rw [h1] at this
  exact (Option.some.inj this).symm

/-- The same with the values that the path selects, when no sliced array lies in another one. -/
theorem c45_flat_partial (O : NumOps) (p : List Step) (hp : p ≠ []) (hlen : fewNames p) (hb : boundsOk p)
    (pre trail : Str) (v : J) (hf : Flat p v) (h : Readable pre trail v) (ht : v.tidy = true) (hpl : v.plainStrings = true)
    (h0 : NUL ∉ pre ++ v.render ++ trail)
    (cores : Nat) (hc : 0 < cores) (hcm : cores ≤ MAX_THREAD) (u : Nat → Nat → UState)
    (hpart : partition cores (pre ++ v.render ++ trail) ≠ none) (hsz : ∀ q, buildQuery (astOf p) = some q → Sizes q.1 v)
    (hnum : (selected p v).length ≤ MAX_OUTPUT) (htext : ∀ x ∈ selected p v, x.render.length ≤ 998)
    (htorn : ∀ xs ys : List Str, partition cores (pre ++ v.render ++ trail) = some ((xs ++ ys).map some) → xs ≠ [] → ys ≠ [] →
      UntornChosen p pre v xs.flatten.length) :
    ∃ r, parallelRun O MEMORY_FOOTPRINT cores u (astOf p) (pre ++ v.render ++ trail) = some (some r) ∧
      r.k.bad = false ∧ r.pf.ub = false ∧ r.pf.output = (selected p v).map J.render := by
  rw [← chosen_selected hf] at hnum htext ⊢
  exact c45_chosen_partial O p hp hlen hb pre trail v h ht hpl h0 cores hc hcm u hpart hsz hnum htext htorn

/-- **C22 for every path without filters**, also with slices below descendant steps: the footprint does not matter. -/
theorem c22_chosen_partial (O : NumOps) (p : List Step) (hp : p ≠ []) (hs : fewNames p) (hb : boundsOk p) (pre trail : Str) (v : J)
    (h : DocOK pre trail v)
    (hsp : pre.head? ≠ some ' ') (hpl : v.plainStrings = true) (hff : ∀ c ∈ pre ++ v.render ++ trail, c.toNat ≠ 255)
    (hint : (v.render.length : Int) ≤ intMax) (B : Nat) (hB : 0 < B)
    (hub : ∀ r, serialRun O (pre ++ v.render ++ trail).length (astOf p) (pre ++ v.render ++ trail) = some r → r.sa.ub = false)
    (htorn : ∀ xs ys, pieces B (pre ++ v.render ++ trail) ((pre ++ v.render ++ trail).length + 1) 0 = xs ++ ys →
      xs ≠ [] → ys ≠ [] → UntornC (Chosen p) pre v xs.flatten.length) :
    (serialRun O B (astOf p) (pre ++ v.render ++ trail)).map (·.pf.output) =
      (serialRun O (pre ++ v.render ++ trail).length (astOf p) (pre ++ v.render ++ trail)).map (·.pf.output) := by
  obtain ⟨c, hbc, hpc⟩ := pathCtx_of_build p hp hs
  refine footprint_any O (astOf p) hbc (Chosen p) pre trail v (fun l hl hn => ?_) h hsp hpl hff B hB hub htorn
  rw [hpc.matched_chosen hb l (fun i hi => by have := hl i hi; omega), if_neg hn]
  exact fun hz => by cases hz

/-- **C02 for files of any size**, also with slices below descendant steps. -/
theorem c02_chosen_footprint_partial (O : NumOps) (p : List Step) (hp : p ≠ []) (hs : fewNames p) (hb : boundsOk p)
    (pre trail : Str) (v : J) (h : DocOK pre trail v)
    (hsp : pre.head? ≠ some ' ') (hpl : v.plainStrings = true) (hff : ∀ c ∈ pre ++ v.render ++ trail, c.toNat ≠ 255)
    (hint : (v.render.length : Int) ≤ intMax) (ht : v.tidy = true) (hsh : v.short 3996 = true)
    (hout : (chosen p v).length ≤ MAX_OUTPUT) (hsel : ∀ x ∈ chosen p v, x.render.length ≤ 998) (B : Nat) (hB : 0 < B)
    (htorn : ∀ xs ys, pieces B (pre ++ v.render ++ trail) ((pre ++ v.render ++ trail).length + 1) 0 = xs ++ ys →
      xs ≠ [] → ys ≠ [] → UntornC (Chosen p) pre v xs.flatten.length) :
    (serialRun O B (astOf p) (pre ++ v.render ++ trail)).map (·.pf.output) = some ((chosen p v).map J.render) := by
  obtain ⟨c, hbc, hpc⟩ := pathCtx_of_build p hp hs
  have hwhole := serialRun_single O _ (astOf p) (pre ++ v.render ++ trail) c hbc h.nonempty (Nat.le_refl _)
  have hroot : ¬ Chosen p [] := by
    rintro ⟨hm, _⟩
    cases p with
    | nil => exact hp rfl
    | cons s r => cases s <;> cases hm
  obtain ⟨h1, h2⟩ := serial_outputs O (tableOf c) (contextOf c) (hpc.predStates hb) (Chosen p) pre trail v h.preWs h.trailWs hsp h.container
    h.wf h.tight h.depth (fun l hl => hpc.matched_chosen hb l fun i hi => by have := hl i hi; omega) hroot
  have h1' : (serialPartialRun O (tableOf c) (contextOf c) none (pre ++ v.render ++ trail)).pf.output =
      (chosen p v).map J.render := h1.trans (chosen_texts p v ht)
  have hcl := h2.2 ⟨toks_short id pre.length v h.container hsh, by rw [h1']; simpa using hout, by
    rw [h1']; intro t ht
    obtain ⟨x, hx, rfl⟩ := List.mem_map.1 ht
    exact hsel x hx⟩
  rw [c22_chosen_partial O p hp hs hb pre trail v h hsp hpl hff hint B hB (by
    intro r hr
    rw [hwhole] at hr; cases hr
    exact hcl.1) htorn, hwhole, Option.map_some, h1']

/-- `$..b[1:]`. -/
def exParDescPath : List Step := [.descProp ['b'], .slice (some 1) none]

/-- The steps before the slice. -/
theorem exParDesc_split {q : List Step} {a b : Option Int} {r : List Step} (he : exParDescPath = q ++ .slice a b :: r) :
    q = [] ++ [.descProp ['b']] := by
  match q, he with
  | [], he => simp [exParDescPath] at he
  | [x], he => simp [exParDescPath] at he; simp [he.1]
  | [_, _], he => simp [exParDescPath] at he
  | _ :: _ :: _ :: q, he => simp [exParDescPath] at he

theorem exParDesc_counted {l : Loc} (h : CountedAt exParDescPath l) :
    (match l.reverse with
      | .key b :: _ => b = ['b']
      | _ => false) = true := by
  obtain ⟨q, a, b, r, he, hm⟩ := h
  rw [exParDesc_split he] at hm
  obtain ⟨l3, rfl⟩ := named_key (k := ['b']) rfl hm
  simp

theorem exParDesc_chosen {l : Loc} (h : Chosen exParDescPath l) :
    (match l.reverse with
      | .elem _ :: .key b :: _ => b = ['b']
      | _ => false) = true := by
  have hm := h.1
  rw [show exParDescPath = ([] ++ [.descProp ['b']]) ++ [.slice (some 1) none] from rfl, List.map_append] at hm
  obtain ⟨l1, l2, rfl, h1, h2⟩ := matches_split hm
  obtain ⟨l3, rfl⟩ := named_key (k := ['b']) rfl h1
  simp only [List.map_cons, List.map_nil, Step.anyElem] at h2
  cases h2 with
  | all i h2 => cases h2; simp

theorem exParDesc_slices : ∀ {k : Nat}, (allSpans [] exParSlice).all (fun y => !(match y.1.reverse with
    | .key b :: _ => b = ['b']
    | _ => false) || !(decide (y.2.2 < k) && decide (k < y.2.2 + y.2.1.render.length))) = true →
    ∀ y ∈ allSpans [] exParSlice, ∀ w es, y.2.1 = .arr w es → across y k → ¬ CountedAt exParDescPath y.1 := by
  intro k hk y hy w es _ ha hz
  have := List.all_eq_true.1 hk y hy
  rw [exParDesc_counted hz, decide_eq_true ha.1, decide_eq_true ha.2] at this
  cases this

theorem exParDesc_untorn : ∀ xs ys : List Str, partition 3 ([] ++ exParSlice.render ++ []) = some ((xs ++ ys).map some) → xs ≠ [] → ys ≠ [] →
    UntornChosen exParDescPath [] exParSlice xs.flatten.length := by
  intro xs ys h
  have hxy : exParSliceChunks = xs ++ ys := by
    have e := exParSlice_partition
    rw [List.nil_append, List.append_nil] at h
    rw [h] at e
    exact (map_some_inj (by simpa using e)).symm
  exact cuts_three (P := fun xs => UntornChosen exParDescPath [] exParSlice xs.flatten.length)
    ⟨untorn_of (fun _ => exParDesc_chosen) (by decide), exParDesc_slices (by decide)⟩ ⟨untorn_of (fun _ => exParDesc_chosen) (by decide), exParDesc_slices (by decide)⟩
    xs ys hxy

theorem exParDesc_bounds : boundsOk exParDescPath := by
  intro a b h
  simp [exParDescPath] at h
  obtain ⟨rfl, rfl⟩ := h
  simp [sliceLo]

theorem exParDesc_flat : Flat exParDescPath exParSlice := flat_once fun _ _ _ _ he => ⟨[], _, _, exParDesc_split he, rfl, by decide⟩

set_option maxRecDepth 100000 in
theorem exParDesc_selected : (selected exParDescPath exParSlice).map J.render = ["2".toList, "3".toList, "5".toList] := by
  have hR : Readable [] [] exParSlice := ⟨by decide, by decide, by decide, by decide, by decide, by decide, by decide, by decide⟩
  have h := (c02_flat_partial intOps exParDescPath (by decide) exParDesc_bounds (by decide) [] [] exParSlice exParDesc_flat hR (by decide)).1
  have e : results intOps (astOf exParDescPath) ([] ++ exParSlice.render ++ []) = some ["2".toList, "3".toList, "5".toList] := by
    with_unfolding_all rfl
  rw [e] at h
  exact (Option.some.inj h).symm

/-- `c45_flat_partial`, with it `c45_chosen_partial` and `c32_chosen_partial`, applied: `$..b[1:]` on three threads. -/
example (O : NumOps) (u : Nat → Nat → UState) :
    ∃ r, parallelRun O MEMORY_FOOTPRINT 3 u (astOf exParDescPath) ([] ++ exParSlice.render ++ []) = some (some r) ∧
      r.k.bad = false ∧ r.pf.ub = false ∧ r.pf.output = ["2".toList, "3".toList, "5".toList] := by
  rw [← exParDesc_selected]
  have hR : Readable [] [] exParSlice := ⟨by decide, by decide, by decide, by decide, by decide, by decide, by decide, by decide⟩
  refine c45_flat_partial O exParDescPath (by decide) (by decide) exParDesc_bounds [] [] exParSlice exParDesc_flat hR (by decide) (by decide)
    (by decide) 3 (by decide) (by decide) u ?_ ?_ ?_ ?_ exParDesc_untorn
  · rw [List.nil_append, List.append_nil, exParSlice_partition]; nofun
  · intro q hq
    have e : (buildQuery (astOf exParDescPath)).map (·.1.statesNum) = some 5 := by decide
    rw [hq] at e
    have e : q.1.statesNum = 5 := Option.some.inj e
    exact ⟨by decide, by decide, by rw [e]; decide, by rw [e]; decide, by rw [e]; decide⟩
  · have := congrArg List.length exParDesc_selected
    rw [List.length_map] at this
    rw [this]; decide
  · intro x hx
    have := List.mem_map_of_mem (f := J.render) hx
    rw [exParDesc_selected] at this
    revert this
    generalize x.render = y
    intro h
    simp only [List.mem_cons, List.not_mem_nil, or_false] at h
    rcases h with rfl | rfl | rfl <;> decide

/-- `$..a[1:]` loaded with footprint 10, in three pieces: `c02_chosen_footprint_partial`, and with it `c22_chosen_partial`, applied. -/
example (O : NumOps) : (serialRun O 10 (astOf [.descProp ['a'], .slice (some 1) none]) ([] ++ exPiecesDoc.render ++ [])).map (·.pf.output) =
    some ["2".toList] := by
  have hsp : ∀ q a b r, [.descProp ['a'], .slice (some 1) none] = q ++ .slice a b :: r →
      ∃ q0 s k, q = q0 ++ [s] ∧ stepName s = some k ∧ once k exPiecesDoc = true := by
    intro q a b r hp
    match q, hp with
    | [s], hp => simp at hp; exact ⟨[], s, ['a'], rfl, by rw [← hp.1]; rfl, by decide⟩
    | [], hp => simp at hp
    | [_, _], hp => simp at hp
    | _ :: _ :: _ :: _, hp => simp at hp
  have he : (chosen [.descProp ['a'], .slice (some 1) none] exPiecesDoc).map J.render = ["2".toList] := by
    rw [chosen_selected (flat_once hsp)]
    simp [selected, exPiecesDoc, J.parts, Members.parts, Elems.parts, matches_descProp, matches_slice, matches_nil, matches_nil_left,
      inSlice, J.render]
  rw [← he]
  have hpc : pieces 10 ([] ++ exPiecesDoc.render ++ []) (([] ++ exPiecesDoc.render ++ []).length + 1) 0 = exPieces := by decide
  refine c02_chosen_footprint_partial O _ (by simp) (by decide) (by intro a b h; simp at h; obtain ⟨rfl, rfl⟩ := h; decide) [] [] exPiecesDoc
    ⟨by decide, by decide, by decide, by decide, by decide, by decide⟩ (by decide) (by decide) (by decide) (by decide) (by decide) (by decide)
    ?_ ?_ 10 (by decide) ?_
  · rw [← List.length_map (f := J.render), he]; decide
  · intro x hx
    have := List.mem_map_of_mem (f := J.render) hx
    rw [he, List.mem_singleton] at this
    rw [this]; decide
  · rw [hpc]
    have hsel : ∀ l, Chosen [.descProp ['a'], .slice (some 1) none] l → (match l.reverse with
        | .elem _ :: .key b :: _ => b = ['a']
        | _ => false) = true := by
      intro l h
      have hm := h.1
      rw [show [Step.descProp ['a'], .slice (some 1) none] = ([] ++ [.descProp ['a']]) ++ [.slice (some 1) none] from rfl,
        List.map_append] at hm
      obtain ⟨l1, l2, rfl, h1, h2⟩ := matches_split hm
      obtain ⟨l3, rfl⟩ := named_key (k := ['a']) rfl h1
      simp only [List.map_cons, List.map_nil, Step.anyElem] at h2
      cases h2 with
      | all i h2 => cases h2; simp
    exact cuts_three (P := fun xs => UntornC (Chosen [.descProp ['a'], .slice (some 1) none]) [] exPiecesDoc xs.flatten.length)
      (untorn_of hsel (by decide)).containers (untorn_of hsel (by decide)).containers

end JPS
