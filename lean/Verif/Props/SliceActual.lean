import Verif.SliceActual
import Verif.Props.Query
/-!
# C02: slices below descendant steps

What the program selects for every path with slices, and when its results are at least correct.
-/

set_option autoImplicit false

namespace JPS
open Spec

theorem chosen_texts (p : List Step) (v : J) (ht : v.tidy = true) :
    (open Classical in
    ((seen [] v).filter (fun x => decide (Chosen p x.1))).map (fun x => x.2.2) = (chosen p v).map J.render) := by
  have : (open Classical in chosen p v = ((seen [] v).filter (fun x => decide (Chosen p x.1))).map (fun x => x.2.1)) := by
    unfold chosen
    rw [← seen_parts, List.filter_map, List.map_map]
    rfl
  rw [this, List.map_map]
  apply List.map_congr_left
  intro x hx
  exact seen_tidy [] v ht x (List.mem_filter.1 hx).1

theorem run_chosen (O : NumOps) (p : List Step) (hp : p ≠ []) (hb : boundsOk p) (hs : fewNames p)
    {pre trail : Str} {v : J} (h : Readable pre trail v) :
    ∃ r, serialRun O MEMORY_FOOTPRINT (astOf p) (pre ++ v.render ++ trail) = some r ∧
      (open Classical in r.pf.output = ((seen [] v).filter (fun x => decide (Chosen p x.1))).map (fun x => x.2.2)) ∧
      (r.sa.ub = false ∧ r.pf.ub = false ↔ (toks id pre.length v).any tokUb = false ∧
        r.pf.output.length ≤ MAX_OUTPUT ∧ ∀ t ∈ r.pf.output, t.length ≤ 998) := by
  obtain ⟨c, hc, hpc⟩ := pathCtx_of_build p hp hs
  have hlen : (v.render.length : Int) ≤ intMax := by
    have := h.size
    simp only [List.length_append, MEMORY_FOOTPRINT] at this
    simp only [intMax]; omega
  have hroot : ¬ Chosen p [] := by
    rintro ⟨hm, _⟩
    cases p with
    | nil => exact hp rfl
    | cons s r => cases s <;> cases hm
  have := serial_outputs O (tableOf c) (contextOf c) (hpc.predStates hb) (Chosen p) pre trail v h.preWs h.trailWs h.noBlank h.container h.wf
    h.tight h.depth (fun l hl => hpc.matched_chosen hb l fun i hi => by have := hl i hi; omega) hroot
  exact ⟨_, serialRun_single O MEMORY_FOOTPRINT (astOf p) _ c hc h.nonempty h.size, this.1, this.2⟩

/-- C02: what a run reports, for every path whose slices have effect, also below descendant steps, and when the run is defined. -/
theorem c02_actual_partial (O : NumOps) (p : List Step) (hp : p ≠ []) (hb : boundsOk p) (hs : fewNames p)
    (pre trail : Str) (v : J) (h : Readable pre trail v) (ht : v.tidy = true) :
    results O (astOf p) (pre ++ v.render ++ trail) = some ((chosen p v).map J.render) ∧
    (v.short 3996 = true → (chosen p v).length ≤ MAX_OUTPUT → (∀ x ∈ chosen p v, x.render.length ≤ 998) →
      clean O (astOf p) (pre ++ v.render ++ trail)) := by
  obtain ⟨r, h1, h2, h3⟩ := run_chosen O p hp hb hs h
  rw [chosen_texts p v ht] at h2
  refine ⟨by unfold results; rw [h1]; simp [h2], ?_⟩
  intro a1 a2 a3 r' hr'
  rw [h1] at hr'; cases hr'
  refine h3.2 ⟨toks_short id pre.length v h.container a1, by rw [h2]; simpa using a2, ?_⟩
  rw [h2]; intro t ht
  obtain ⟨x, hx, rfl⟩ := List.mem_map.1 ht
  exact a3 x hx

theorem anyElem_weaken {p : List Step} {l : Loc} (h : Matches p l) : Matches (p.map Step.anyElem) l := by
  rw [anyElem_eq]; exact matches_unslice h

/-- If no sliced array lies in another one, the program selects what the path selects. -/
theorem chosen_flat {p : List Step} {v : J} (hf : Flat p v) {x : Loc × J} (hx : x ∈ v.parts []) : Chosen p x.1 ↔ Matches p x.1 := by
  constructor
  · rintro ⟨hm, hr⟩
    have key : ∀ (r q : List Step) (l1 l2 : Loc), p = q ++ r → x.1 = l1 ++ l2 → Matches q l1 → Matches (r.map Step.anyElem) l2 →
        Matches p x.1 := by
      intro r
      induction r with
      | nil =>
        intro q l1 l2 hp hl h1 h2
        cases h2
        rw [hp, hl]; simpa using h1
      | cons s r ih =>
        intro q l1 l2 hp hl h1 h2
        rw [List.map_cons, ← List.singleton_append] at h2
        obtain ⟨m1, m2, rfl, e1, e2⟩ := matches_split h2
        have step : Matches [s] m1 → Matches p x.1 := fun hs =>
          ih (q ++ [s]) (l1 ++ m1) m2 (by simp [hp]) (by simp [hl]) (matches_append h1 hs) e2
        cases s with
        | slice a b =>
          simp only [Step.anyElem] at e1
          cases e1 with
          | all i e1 =>
            cases e1
            refine step (.slice a b i ?_ .nil)
            refine hr l1 i m2 (by simp [hl]) q a b ⟨⟨⟨r, by simp [hp]⟩, .inr ⟨q, a, b, rfl⟩⟩, ?_, ?_⟩
            · rw [List.map_append]
              exact matches_append (anyElem_weaken h1) (.all i .nil)
            · rintro q' ⟨⟨r', hq'⟩, _⟩ hm'
              apply Classical.byContradiction
              intro hlt
              simp only [List.length_append, List.length_cons, List.length_nil] at hlt
              -- the longer beginning passes the same slice earlier
              obtain ⟨n, hn⟩ : ∃ n, q' = q ++ [.slice a b] ++ n := by
                have e : (q ++ [Step.slice a b]) ++ r = q' ++ r' := by rw [← hq', hp]; simp
                have : q' = (q ++ [Step.slice a b]) ++ q'.drop (q.length + 1) := by
                  have := congrArg (List.take (q.length + 1)) e
                  rw [List.take_left' (by simp), List.take_append_of_le_length (by omega)] at this
                  rw [this, List.take_append_drop]
                exact ⟨_, this⟩
              have hnl : n ≠ [] := by
                rintro rfl
                rw [hn] at hlt
                simp at hlt
              rw [hn, List.append_assoc, List.map_append] at hm'
              obtain ⟨k1, k2, ek, g1, g2⟩ := matches_split hm'
              have hlen := matches_length_le g2
              simp only [List.map_append, List.map_cons, List.map_nil, List.length_append, List.length_cons, List.length_nil,
                List.length_map] at hlen
              have hnp := List.length_pos_iff.2 hnl
              have hpre : k1 <+: x.1 := by
                refine ⟨k2 ++ m2, ?_⟩
                rw [← List.append_assoc, ← ek, hl]; simp
              have := hf q a b r hp x hx l1 k1 ⟨_, hl.symm⟩ hpre (anyElem_weaken h1) g1
              subst this
              have := congrArg List.length ek
              simp only [List.length_append, List.length_cons, List.length_nil] at this
              omega
        | _ => exact step e1
    exact key p [] [] x.1 rfl rfl .nil hm
  · intro hm
    refine ⟨anyElem_weaken hm, ?_⟩
    intro l1 i l2 hl q a b hfc
    obtain ⟨⟨⟨r, hp⟩, _⟩, hq, _⟩ := hfc
    have hp' : p = q ++ .slice a b :: r := by rw [hp]; simp
    rw [hp'] at hm
    obtain ⟨k1, k2, hk, g1, g2⟩ := matches_split hm
    rw [List.map_append] at hq
    obtain ⟨n1, n2, hn, f1, f2⟩ := matches_split hq
    simp only [List.map_cons, List.map_nil, Step.anyElem] at f2
    cases f2 with
    | all i' f2 =>
      cases f2
      obtain ⟨rfl, he⟩ := List.append_inj' hn rfl
      cases g2 with
      | @slice _ k2 _ _ i2 hs g2 =>
        have := hf q a b r hp' x hx l1 k1 ⟨_, hl.symm⟩ ⟨_, hk.symm⟩ f1 (anyElem_weaken g1)
        subst this
        rw [hl] at hk
        have := List.append_cancel_left hk
        simp only [List.cons.injEq, Label.elem.injEq] at this
        rw [this.1]; exact hs

/-- Without descendant steps before slices no sliced array lies in another one. -/
theorem flat_noDesc {p : List Step} (hd : noDescBeforeSlice p = true) (v : J) : Flat p v := by
  intro q a b r hp x _ l l' hl hl' hm hm'
  have hq : ∀ s ∈ q, isDesc s = false := fun s hs => noDesc_prefix hd (q := q ++ [.slice a b]) (r := r) (by simp [hp])
    (endsSlice_iff.2 ⟨q, a, b, rfl⟩) s (List.mem_append_left _ hs)
  rw [anyElem_eq] at hm hm'
  have e1 := matches_length hm (unslice_noDesc hq)
  have e2 := matches_length hm' (unslice_noDesc hq)
  rw [List.prefix_iff_eq_take.1 hl, List.prefix_iff_eq_take.1 hl', ← e1, ← e2]

theorem chosen_selected {p : List Step} {v : J} (hf : Flat p v) : chosen p v = selected p v := by
  unfold chosen selected
  congr 1
  apply List.filter_congr
  intro x hx
  simp only [decide_eq_decide]
  exact chosen_flat hf hx

/-- C02 also below descendant steps, when no array whose elements a slice counts lies in another one. -/
theorem c02_flat_partial (O : NumOps) (p : List Step) (hp : p ≠ []) (hb : boundsOk p) (hs : fewNames p)
    (pre trail : Str) (v : J) (hf : Flat p v) (h : Readable pre trail v) (ht : v.tidy = true) :
    results O (astOf p) (pre ++ v.render ++ trail) = some ((selected p v).map J.render) ∧
    (v.short 3996 = true → (selected p v).length ≤ MAX_OUTPUT → (∀ x ∈ selected p v, x.render.length ≤ 998) →
      clean O (astOf p) (pre ++ v.render ++ trail)) := by
  rw [← chosen_selected hf]
  exact c02_actual_partial O p hp hb hs pre trail v h ht

/-- The same in the general form, as for C01. -/
theorem c02_flat_shows_partial (O : NumOps) (p : List Step) (hp : p ≠ []) (hb : boundsOk p) (hs : fewNames p)
    (pre trail : Str) (v : J) (hf : Flat p v) (h : Readable pre trail v) :
    ∃ texts, results O (astOf p) (pre ++ v.render ++ trail) = some texts ∧ All2 Shows (selected p v) texts := by
  obtain ⟨r, h1, h2, _⟩ := run_chosen O p hp hb hs h
  refine ⟨r.pf.output, by unfold results; rw [h1]; rfl, ?_⟩
  have : (open Classical in (seen [] v).filter (fun x => decide (Chosen p x.1)) = (seen [] v).filter (fun x => decide (Matches p x.1))) := by
    apply List.filter_congr
    intro x hx
    simp only [decide_eq_decide]
    exact chosen_flat hf (x := (x.1, x.2.1)) (by rw [← seen_parts]; exact List.mem_map_of_mem hx)
  rw [h2, this]; exact shows_texts p v h.wf

/-- No slice in these steps. -/
def noBounds (p : List Step) : Prop := ∀ a b, Step.slice a b ∉ p

theorem anyElem_noBounds {p : List Step} (h : noBounds p) : p.map Step.anyElem = p := by
  induction p with
  | nil => rfl
  | cons s r ih =>
    rw [List.map_cons, ih fun a b hm => h a b (List.mem_cons_of_mem _ hm)]
    cases s with
    | slice a b => exact absurd (List.mem_cons_self ..) (h a b)
    | _ => rfl

/-- The last step is a name. -/
def lastNamed (p : List Step) : Prop := ∃ q s, p = q ++ [s] ∧ stepName s ≠ none

theorem descProp_key {k : List Char} {l : Loc} (h : Matches [.descProp k] l) : ∃ l3, l = l3 ++ [Label.key k] := by
  generalize hr : [Step.descProp k] = r at h
  induction h with
  | descProp k' h => cases hr; cases h; exact ⟨[], rfl⟩
  | descPropMore x h ih =>
    obtain ⟨l3, e⟩ := ih hr
    exact ⟨x :: l3, by rw [e]; rfl⟩
  | _ => cases hr

/-- A path that ends in a name leads to members of that name. -/
theorem named_key {q : List Step} {s : Step} {k : List Char} (hs : stepName s = some k) {l : Loc}
    (hm : Matches ((q ++ [s]).map Step.anyElem) l) : ∃ l3, l = l3 ++ [.key k] := by
  rw [List.map_append] at hm
  obtain ⟨l1, l2, rfl, _, h2⟩ := matches_split hm
  have key : ∃ l3, l2 = l3 ++ [.key k] := by
    cases s with
    | prop k =>
      cases hs
      simp only [List.map_cons, List.map_nil, Step.anyElem] at h2
      cases h2 with
      | prop _ h => cases h; exact ⟨[], rfl⟩
    | descProp k =>
      cases hs
      simp only [List.map_cons, List.map_nil, Step.anyElem] at h2
      exact descProp_key h2
    | _ => simp [stepName] at hs
  obtain ⟨l3, rfl⟩ := key
  exact ⟨l1 ++ l3, by simp⟩

theorem lastNamed_key {p : List Step} (h : lastNamed p) {l : Loc} {i : Nat} : ¬ Matches (p.map Step.anyElem) (l ++ [.elem i]) := by
  obtain ⟨q, s, rfl, hs⟩ := h
  intro hm
  cases hk : stepName s with
  | none => exact hs hk
  | some k =>
    obtain ⟨l3, e⟩ := named_key hk hm
    have := (List.append_inj' e rfl).2
    simp at this

/-- With one slice that ends the path, or in a path that ends in a name, what the program selects is selected by the path. -/
theorem chosen_right {p1 p2 : List Step} {a b : Option Int} (h1 : noBounds p1) (h2 : noBounds p2)
    (he : p2 = [] ∨ lastNamed p2) {l : Loc} (hc : Chosen (p1 ++ .slice a b :: p2) l) : Matches (p1 ++ .slice a b :: p2) l := by
  obtain ⟨hm, hr⟩ := hc
  rw [List.map_append, List.map_cons, anyElem_noBounds h1, anyElem_noBounds h2] at hm
  obtain ⟨l1, l2, rfl, m1, m2⟩ := matches_split hm
  simp only [Step.anyElem] at m2
  cases m2 with
  | @all _ l2 i m2 =>
    refine matches_append m1 (.slice a b i ?_ m2)
    have mq : Matches ((p1 ++ [Step.slice a b]).map Step.anyElem) (l1 ++ [.elem i]) := by
      rw [List.map_append, anyElem_noBounds h1]
      exact matches_append m1 (.all i .nil)
    refine hr l1 i l2 rfl p1 a b ⟨⟨⟨p2, by simp⟩, .inr ⟨p1, a, b, rfl⟩⟩, mq, ?_⟩
    rintro q' ⟨⟨r, hq⟩, hq'⟩ hm'
    rcases hq' with rfl | ⟨q2, a2, b2, rfl⟩
    · rcases he with rfl | ⟨q, s, rfl, hs⟩
      · exact Nat.le_refl _
      · exact absurd hm' (lastNamed_key ⟨p1 ++ .slice a b :: q, s, by simp, hs⟩)
    · -- the only beginning that ends in a slice
      apply Classical.byContradiction
      intro hlt
      simp only [List.length_append, List.length_cons, List.length_nil] at hlt
      have hlen : p1.length + 1 ≤ q2.length := by omega
      have e := congrArg (fun x => x[q2.length]?) hq
      simp only [List.append_assoc, List.cons_append, List.nil_append] at e
      rw [List.getElem?_append_right (by omega), List.getElem?_append_right (Nat.le_refl _), Nat.sub_self] at e
      obtain ⟨n, hn⟩ : ∃ n, q2.length - p1.length = n + 1 := ⟨q2.length - p1.length - 1, by omega⟩
      rw [hn] at e
      simp only [List.getElem?_cons_succ, List.getElem?_cons_zero] at e
      exact h2 a2 b2 (List.mem_of_getElem? e)

/-- C02: with one slice that ends the path, or in a path that ends in a name, every reported value is selected by the path and reported in the
right order; below descendant steps values can be missing. -/
theorem c02_one_slice_partial (O : NumOps) (p1 p2 : List Step) (a b : Option Int) (h1 : noBounds p1) (h2 : noBounds p2)
    (he : p2 = [] ∨ lastNamed p2) (hb : boundsOk (p1 ++ .slice a b :: p2)) (hs : fewNames (p1 ++ .slice a b :: p2))
    (pre trail : Str) (v : J) (h : Readable pre trail v) (ht : v.tidy = true) :
    ∃ texts, results O (astOf (p1 ++ .slice a b :: p2)) (pre ++ v.render ++ trail) = some texts ∧
      texts.Sublist ((selected (p1 ++ .slice a b :: p2) v).map J.render) := by
  refine ⟨_, (c02_actual_partial O _ (by simp) hb hs pre trail v h ht).1, List.Sublist.map _ ?_⟩
  unfold chosen selected
  refine List.Sublist.map _ ?_
  have : ∀ L : List (Loc × J), ((open Classical in L.filter fun x => decide (Chosen (p1 ++ .slice a b :: p2) x.1)).Sublist
      (open Classical in L.filter fun x => decide (Matches (p1 ++ .slice a b :: p2) x.1))) := by
    intro L
    induction L with
    | nil => exact .slnil
    | cons x L ih =>
      rw [List.filter_cons, List.filter_cons]
      split
      · rename_i hx
        rw [if_pos (by simp only [decide_eq_true_eq] at hx ⊢; exact chosen_right h1 h2 he hx)]
        exact ih.cons₂ x
      · split
        · exact ih.cons x
        · exact ih
  exact this _

theorem once_prefix {k : List Char} {y m m' : Loc} (hc : y.count (.key k) ≤ 1) (h : m ++ [.key k] <+: y) (h' : m' ++ [.key k] <+: y)
    (hle : m.length ≤ m'.length) : m ++ [.key k] = m' ++ [.key k] := by
  by_cases he : m.length = m'.length
  · rw [List.prefix_iff_eq_take.1 h, List.prefix_iff_eq_take.1 h']
    simp [he]
  · have h1 : m ++ [.key k] <+: m' := by
      refine List.prefix_of_prefix_length_le h (List.IsPrefix.trans ⟨[.key k], rfl⟩ h') ?_
      simp; omega
    have c1 := h1.sublist.count_le (.key k)
    have c2 := h'.sublist.count_le (.key k)
    simp only [List.count_append, List.count_cons_self, List.count_nil] at c1 c2
    omega

/-- Sliced members that do not lie in members of the same name. -/
theorem flat_once {p : List Step} {v : J}
    (h : ∀ q a b r, p = q ++ .slice a b :: r → ∃ q0 s k, q = q0 ++ [s] ∧ stepName s = some k ∧ once k v = true) : Flat p v := by
  intro q a b r hp x hx l l' hl hl' hm hm'
  obtain ⟨q0, s, k, rfl, hs, ho⟩ := h q a b r hp
  have hc : x.1.count (.key k) ≤ 1 := by
    have := List.all_eq_true.1 ho x hx
    simpa using this
  obtain ⟨m, rfl⟩ := named_key hs hm
  obtain ⟨m', rfl⟩ := named_key hs hm'
  by_cases hle : m.length ≤ m'.length
  · exact once_prefix hc hl hl' hle
  · exact (once_prefix hc hl' hl (by omega)).symm

/-- C02 for paths, with any descendant steps, in which every slice follows a name, on documents in which members of these names do not lie in
each other. -/
theorem c02_once_partial (O : NumOps) (p : List Step) (hp : p ≠ []) (hb : boundsOk p) (hs : fewNames p) (pre trail : Str) (v : J)
    (ho : ∀ q a b r, p = q ++ .slice a b :: r → ∃ q0 s k, q = q0 ++ [s] ∧ stepName s = some k ∧ once k v = true)
    (h : Readable pre trail v) (ht : v.tidy = true) :
    results O (astOf p) (pre ++ v.render ++ trail) = some ((selected p v).map J.render) :=
  (c02_flat_partial O p hp hb hs pre trail v (flat_once ho) h ht).1

/-- `{"a": [{"a": [0 ,{"a": [1 ]}]}]}`. -/
def exThreeDeep : J := .obj [] (.cons [] ['a'] [] [' '] (.arr [] (.cons [] (.obj [] (.cons [] ['a'] [] [' '] (.arr []
  (.cons [] (.lit ['0']) [' '] (.cons [] (.obj [] (.cons [] ['a'] [] [' '] (.arr [] (.cons [] (.lit ['1']) [' '] .nil)) [] .nil)) []
    .nil))) [] .nil)) [] .nil)) [] .nil)

set_option maxRecDepth 100000 in
/-- C02 is also false in the other direction: `$..a[0:1].a[*]` on `{"a": [{"a": [0 ,{"a": [1 ]}]}]}` reports the 1, which only
the element 1 of an array leads to.  The state of the table at that element stands for the whole path, which has no bounds
(dfa_builder.cpp:290-311), and no longer for the slice. -/
theorem c02_false_wrong (O : NumOps) :
    results O (astOf [.descProp ['a'], .slice (some 0) (some 1), .prop ['a'], .all]) exThreeDeep.render =
      some ["0".toList, "1".toList, "{\"a\": [1 ]}".toList] ∧
    (selected [.descProp ['a'], .slice (some 0) (some 1), .prop ['a'], .all] exThreeDeep).map J.render =
      ["0".toList, "{\"a\": [1 ]}".toList] := by
  constructor
  · with_unfolding_all rfl
  · simp [selected, exThreeDeep, J.parts, Elems.parts, Members.parts, matches_descProp, matches_slice, matches_prop, matches_all,
      matches_nil, matches_nil_left, inSlice, J.render, Members.render, Elems.render]
    decide

theorem exThreeDeep_readable : Readable [] [] exThreeDeep := ⟨rfl, rfl, by decide, rfl, by decide, by decide, by decide, by decide⟩

/-- `$..a[0:1].a[*]` meets the hypotheses of `c02_actual_partial`, so the 1 is among the values the description gives. -/
example : (chosen [.descProp ['a'], .slice (some 0) (some 1), .prop ['a'], .all] exThreeDeep).map J.render =
    ["0".toList, "1".toList, "{\"a\": [1 ]}".toList] := by
  have h := (c02_actual_partial intOps [.descProp ['a'], .slice (some 0) (some 1), .prop ['a'], .all] (by simp)
    (by intro a b h; simp at h; obtain ⟨rfl, rfl⟩ := h; decide) (by decide) [] [] exThreeDeep exThreeDeep_readable (by decide)).1
  rw [List.nil_append, List.append_nil, (c02_false_wrong _).1] at h
  exact (Option.some.inj h).symm

/-- `$..a[1:2].a` meets the hypotheses of `c02_one_slice_partial`. -/
example (O : NumOps) : ∃ texts, results O (astOf [.descProp ['a'], .slice (some 1) (some 2), .prop ['a']]) ([] ++ exThreeDeep.render ++ []) = some texts ∧
    texts.Sublist ((selected [.descProp ['a'], .slice (some 1) (some 2), .prop ['a']] exThreeDeep).map J.render) :=
  c02_one_slice_partial O [.descProp ['a']] [.prop ['a']] (some 1) (some 2) (by intro a b h; simp at h) (by intro a b h; simp at h)
    (.inr ⟨[], _, rfl, by simp [stepName]⟩) (by intro a b h; simp at h; obtain ⟨rfl, rfl⟩ := h; decide) (by decide) [] [] exThreeDeep
    exThreeDeep_readable (by decide)

set_option maxRecDepth 100000 in
/-- `$..a[0:1]` on the same document: the results are correct and not empty. -/
example (O : NumOps) : results O (astOf [.descProp ['a'], .slice (some 0) (some 1)]) exThreeDeep.render =
    some ["0".toList, "{\"a\": [0 ,{\"a\": [1 ]}]}".toList] := by
  with_unfolding_all rfl

/-- `{"x": {"b": [1 ,2 ]},"b": [3 ,4 ]}`. -/
def exTwoArrays : J := .obj [] (.cons [] ['x'] [] [' '] (.obj [] (.cons [] ['b'] [] [' '] (.arr [] (.cons [] (.lit ['1']) [' ']
  (.cons [] (.lit ['2']) [' '] .nil))) [] .nil)) [] (.cons [] ['b'] [] [' '] (.arr [] (.cons [] (.lit ['3']) [' ']
  (.cons [] (.lit ['4']) [' '] .nil))) [] .nil))

theorem exTwoArrays_once : ∀ q a b r, [.descProp ['b'], .slice (some 1) (some 2)] = q ++ .slice a b :: r →
    ∃ q0 s k, q = q0 ++ [s] ∧ stepName s = some k ∧ once k exTwoArrays = true := by
  intro q a b r hp
  match q, hp with
  | [s], hp => simp at hp; exact ⟨[], s, ['b'], rfl, by rw [← hp.1]; rfl, by decide⟩
  | [], hp => simp at hp
  | [_, _], hp => simp at hp
  | _ :: _ :: _ :: _, hp => simp at hp

/-- `$..b[1:2]` meets the hypotheses of `c02_once_partial`, and with them those of `c02_flat_partial`, and selects elements. -/
example (O : NumOps) : results O (astOf [.descProp ['b'], .slice (some 1) (some 2)]) ([] ++ exTwoArrays.render ++ []) =
      some ((selected [.descProp ['b'], .slice (some 1) (some 2)] exTwoArrays).map J.render) ∧
    (selected [.descProp ['b'], .slice (some 1) (some 2)] exTwoArrays).map J.render = ["2".toList, "4".toList] := by
  refine ⟨c02_once_partial O _ (by simp) (by intro a b h; simp at h; obtain ⟨rfl, rfl⟩ := h; decide) (by decide) [] [] exTwoArrays
    exTwoArrays_once ⟨rfl, rfl, by decide, rfl, by decide, by decide, by decide, by decide⟩ (by decide), ?_⟩
  simp [selected, exTwoArrays, J.parts, Elems.parts, Members.parts, matches_descProp, matches_slice, matches_nil, matches_nil_left,
    inSlice, J.render]

end JPS
