import Verif.Props.ParallelSafe
import Verif.Props.Footprint
import Verif.Props.StateCount
import Verif.Props.ParallelFilter
/-!
# C45 and C58 together: parallel runs with limits on path and document only

The limits of `Sizes` speak about the number of states of the compiled table.  Here they are replaced by limits on the path.
-/

set_option autoImplicit false

namespace JPS
open Spec

/-- If a path without slices ends in the name of a key and selects scalars only, no cut tears anything it selects. -/
theorem untorn_scalars {p : List Step} (hs : noSlices p)
    (hlast : ∃ k, p.getLast? = some (.prop k) ∨ p.getLast? = some (.descProp k)) (pre : Str) {v : J}
    (hscl : ∀ x ∈ selected p v, x.isContainer = false) (n : Nat) : UntornPath p pre v n := by
  refine Untorn.path ⟨fun y hy hcn _ hm => ?_, fun y hy w es _ _ j x _ _ hm => ?_⟩ hs
  · rcases List.mem_cons.1 hy with rfl | hy
    · obtain ⟨k, hk⟩ := ends_key hm hlast
      simp at hk
    · have hx : y.2.1 ∈ selected p v := by
        unfold selected
        exact List.mem_map.2 ⟨(y.1, y.2.1), List.mem_filter.2 ⟨spans_part hy, by simpa using hm⟩, rfl⟩
      rw [hscl _ hx] at hcn; cases hcn
  · obtain ⟨k, hk⟩ := ends_key hm hlast
    simp at hk

/-- The limits of a parallel run of a path with at most `n` states on a value. -/
structure PathLimits (n : Nat) (v : J) : Prop where
  short : v.short 996 = true
  depth : v.depth < MAX_STACK
  states : n ≤ MAX_STATE
  nodes : n * (v.nest + 2) ≤ MAX_NODE
  tuples : 2 * n * v.tokenCount ≤ MAX_TUPLE_LIST

instance (n : Nat) (v : J) : Decidable (PathLimits n v) :=
  decidable_of_iff (v.short 996 = true ∧ v.depth < MAX_STACK ∧ n ≤ MAX_STATE ∧ n * (v.nest + 2) ≤ MAX_NODE ∧
    2 * n * v.tokenCount ≤ MAX_TUPLE_LIST) ⟨fun ⟨a, b, c, d, e⟩ => ⟨a, b, c, d, e⟩, fun ⟨a, b, c, d, e⟩ => ⟨a, b, c, d, e⟩⟩

theorem PathLimits.sizes {n : Nat} {v : J} (h : PathLimits n v) {d : QDfa} (hd : d.statesNum ≤ n) : Sizes d v :=
  ⟨h.short, h.depth, Nat.le_trans hd h.states, Nat.le_trans (Nat.mul_le_mul_right _ hd) h.nodes,
    Nat.le_trans (Nat.mul_le_mul_right _ (Nat.mul_le_mul_left 2 hd)) h.tuples⟩

/-- **C45 for scalars, no condition on the cuts.**  A path without slices that ends in the name of a key and selects scalars: within the
limits the parallel run on any number of threads prints exactly the selected values. -/
theorem c45_scalars_partial (O : NumOps) (p : List Step) (hlen : fewNames p) (hs : noSlices p)
    (hlast : ∃ k, p.getLast? = some (.prop k) ∨ p.getLast? = some (.descProp k))
    (pre trail : Str) (v : J) (h : Readable pre trail v) (ht : v.tidy = true) (hpl : v.plainStrings = true)
    (h0 : NUL ∉ pre ++ v.render ++ trail) (hscl : ∀ x ∈ selected p v, x.isContainer = false)
    (cores : Nat) (hc : 0 < cores) (hcm : cores ≤ MAX_THREAD) (u : Nat → Nat → UState)
    (hpart : partition cores (pre ++ v.render ++ trail) ≠ none) (hsz : ∀ q, buildQuery (astOf p) = some q → Sizes q.1 v)
    (hnum : (selected p v).length ≤ MAX_OUTPUT) (htext : ∀ x ∈ selected p v, x.render.length ≤ 998) :
    ∃ r, parallelRun O MEMORY_FOOTPRINT cores u (astOf p) (pre ++ v.render ++ trail) = some (some r) ∧
      r.k.bad = false ∧ r.pf.ub = false ∧ r.pf.output = (selected p v).map J.render :=
  c45_exact_partial O p (by rintro rfl; simp at hlast) hlen hs.ok pre trail v h ht hpl h0 cores hc hcm u hpart hsz hnum htext
    fun _ _ _ _ _ => untorn_scalars hs hlast pre hscl _

/-- **C45 and C58: names, `.*` and `[*]`.**  Such a path, ending in a name, that selects scalars; a tidy document with a possible cut in
every window of `L` characters and at least `cores² (L + 1)` characters; limits on the length of the path, the nesting and the number of
tokens.  The parallel run prints exactly the selected values, whatever the number of threads up to 100.  Neither the cuts nor the
compiled table occur in the conditions. -/
theorem c45_levels_partial (O : NumOps) (p : List Step) (hlen : fewNames p) (hs : noSlices p) (hd : ∀ s ∈ p, isDesc s = false)
    (hlast : ∃ k, p.getLast? = some (.prop k)) (trail : Str) (v : J) (h : Readable [] trail v) (ht : v.tidy = true)
    (hpl : v.plainStrings = true) (h0 : NUL ∉ v.render ++ trail) (hscl : ∀ x ∈ selected p v, x.isContainer = false)
    (cores L : Nat) (hc : 0 < cores) (hcm : cores ≤ MAX_THREAD) (hL : L ≤ MAX_EXTENSION) (hdense : Dense L (v.render ++ trail))
    (hn : cores * cores * (L + 1) ≤ (v.render ++ trail).length) (u : Nat → Nat → UState) (hlim : PathLimits (p.length + 2) v)
    (hnum : (selected p v).length ≤ MAX_OUTPUT) (htext : ∀ x ∈ selected p v, x.render.length ≤ 998) :
    ∃ r, parallelRun O MEMORY_FOOTPRINT cores u (astOf p) (v.render ++ trail) = some (some r) ∧
      r.k.bad = false ∧ r.pf.ub = false ∧ r.pf.output = (selected p v).map J.render := by
  have hp : p ≠ [] := by rintro rfl; simp at hlast
  have hhead : ∃ c, (v.render ++ trail).head? = some c ∧ isSkip c = false := by
    have := h.container
    cases v with
    | obj w ms => exact ⟨'{', rfl, by decide⟩
    | arr w es => exact ⟨'[', rfl, by decide⟩
    | str _ => cases this
    | lit _ => cases this
  obtain ⟨cs, hcs, _⟩ := c20_dense_partial cores L (v.render ++ trail) hc h0 hhead hL hdense hn
  have hst := c58_levels_partial p hp hlen hd
  obtain ⟨k, hk⟩ := hlast
  refine c45_scalars_partial O p hlen hs ⟨k, .inl hk⟩ [] trail v h ht hpl h0 hscl cores hc hcm u (by rw [List.nil_append, hcs]; nofun) ?_ hnum htext
  intro q hq
  rw [hq] at hst
  exact hlim.sizes (Nat.le_of_eq (Option.some.inj hst))

/-- **C45 and C58: descendant steps.**  The same for a path whose first descendant step is `d`. -/
theorem c45_desc_partial (O : NumOps) (B R : List Step) (d : Step) (hlen : fewNames (B ++ d :: R)) (hs : noSlices (B ++ d :: R))
    (hB : ∀ s ∈ B, isDesc s = false) (hd : isDesc d = true)
    (hlast : ∃ k, (B ++ d :: R).getLast? = some (.prop k) ∨ (B ++ d :: R).getLast? = some (.descProp k))
    (trail : Str) (v : J) (h : Readable [] trail v) (ht : v.tidy = true)
    (hpl : v.plainStrings = true) (h0 : NUL ∉ v.render ++ trail) (hscl : ∀ x ∈ selected (B ++ d :: R) v, x.isContainer = false)
    (cores L : Nat) (hc : 0 < cores) (hcm : cores ≤ MAX_THREAD) (hL : L ≤ MAX_EXTENSION) (hdense : Dense L (v.render ++ trail))
    (hn : cores * cores * (L + 1) ≤ (v.render ++ trail).length) (u : Nat → Nat → UState)
    (hlim : PathLimits (B.length + 2 + 2 ^ (((d :: R).map stepItems).sum - 1)) v)
    (hnum : (selected (B ++ d :: R) v).length ≤ MAX_OUTPUT) (htext : ∀ x ∈ selected (B ++ d :: R) v, x.render.length ≤ 998) :
    ∃ r, parallelRun O MEMORY_FOOTPRINT cores u (astOf (B ++ d :: R)) (v.render ++ trail) = some (some r) ∧
      r.k.bad = false ∧ r.pf.ub = false ∧ r.pf.output = (selected (B ++ d :: R) v).map J.render := by
  have hhead : ∃ c, (v.render ++ trail).head? = some c ∧ isSkip c = false := by
    have := h.container
    cases v with
    | obj w ms => exact ⟨'{', rfl, by decide⟩
    | arr w es => exact ⟨'[', rfl, by decide⟩
    | str _ => cases this
    | lit _ => cases this
  obtain ⟨cs, hcs, _⟩ := c20_dense_partial cores L (v.render ++ trail) hc h0 hhead hL hdense hn
  obtain ⟨q', hq', hst⟩ := c58_desc_partial B R d hlen hB hd
  refine c45_scalars_partial O _ hlen hs hlast [] trail v h ht hpl h0 hscl cores hc hcm u (by rw [List.nil_append, hcs]; nofun) ?_ hnum htext
  intro q hq
  rw [hq] at hq'
  obtain rfl := Option.some.inj hq'
  exact hlim.sizes hst

/-- `[{"a": 1}, {"a": 1}, {"a": 1}, {"a": 1}, {"a": 1}]`. -/
def exFive : J :=
  let r : J := .obj [] (.cons [] ['a'] [] [' '] (.lit ['1']) [] .nil)
  .arr [] (.cons [] r [] (.cons [' '] r [] (.cons [' '] r [] (.cons [' '] r [] (.cons [' '] r [] .nil)))))

set_option maxRecDepth 100000 in
theorem exFive_dense : Dense 10 (exFive.render ++ []) := by
  intro k hk hk2
  have hlen : (exFive.render ++ []).length = 50 := by decide
  have hall : ∀ k < 41, ∃ j < 50, k ≤ j ∧ j < k + 10 ∧ (exFive.render ++ [])[j]? = some '"' ∧
      opensToken (prevChar ((exFive.render ++ []).take j).reverse) = true := by decide +kernel
  obtain ⟨j, _, h1, h2, h3, h4⟩ := hall k (by omega)
  exact ⟨j, h1, h2, cutAt_of h3 h4⟩

theorem exFive_selected : (selected [.all, .prop ['a']] exFive).map J.render = List.replicate 5 ['1'] ∧
    (selected [.descProp ['a']] exFive).map J.render = List.replicate 5 ['1'] ∧
    (∀ x ∈ selected [.all, .prop ['a']] exFive, x = .lit ['1']) ∧ ∀ x ∈ selected [.descProp ['a']] exFive, x = .lit ['1'] := by
  simp [selected, exFive, J.parts, Members.parts, Elems.parts, matches_descProp, matches_all, matches_prop, matches_nil, matches_nil_left, J.render]

/-- `c45_levels_partial`: `$[*].a` on two threads. -/
example (O : NumOps) (u : Nat → Nat → UState) :
    ∃ r, parallelRun O MEMORY_FOOTPRINT 2 u (astOf [.all, .prop ['a']]) (exFive.render ++ []) = some (some r) ∧
      r.k.bad = false ∧ r.pf.ub = false ∧ r.pf.output = List.replicate 5 ['1'] := by
  obtain ⟨e1, _, e2, _⟩ := exFive_selected
  rw [← e1]
  exact c45_levels_partial O _ (by decide) (by simp [noSlices, isSlice]) (by simp [isDesc]) ⟨_, rfl⟩ [] exFive
    ⟨by decide, by decide, by decide, by decide, by decide, by decide, by decide, by decide⟩ (by decide) (by decide) (by decide)
    (fun x hx => by rw [e2 x hx]; rfl) 2 10 (by decide) (by decide) (by decide) exFive_dense (by decide) u (by decide)
    (by rw [← List.length_map, e1]; decide) (fun x hx => by rw [e2 x hx]; decide)

/-- `c45_desc_partial`: `$..a` on two threads. -/
example (O : NumOps) (u : Nat → Nat → UState) :
    ∃ r, parallelRun O MEMORY_FOOTPRINT 2 u (astOf [.descProp ['a']]) (exFive.render ++ []) = some (some r) ∧
      r.k.bad = false ∧ r.pf.ub = false ∧ r.pf.output = List.replicate 5 ['1'] := by
  obtain ⟨_, e1, _, e2⟩ := exFive_selected
  rw [← e1]
  exact c45_desc_partial O [] [] (.descProp ['a']) (by decide) (by simp [noSlices, isSlice]) (by simp) rfl ⟨_, .inr rfl⟩ [] exFive
    ⟨by decide, by decide, by decide, by decide, by decide, by decide, by decide, by decide⟩ (by decide) (by decide) (by decide)
    (fun x hx => by rw [e2 x hx]; rfl) 2 10 (by decide) (by decide) (by decide) exFive_dense (by decide) u (by decide)
    (by simp only [List.nil_append]; rw [← List.length_map, e1]; decide) (fun x hx => by rw [e2 x hx]; decide)

/-! ### Filters -/

/-- If `partition` gives more than one chunk, the first one has more than `length / cores` characters. -/
theorem partition_first {cores : Nat} {s x y : Str} {xs : List Str} (hc : 0 < cores) (hs : s ≠ []) (h0 : NUL ∉ s) (hl : s.head? ≠ some ' ')
    (h : partition cores s = some ((x :: y :: xs).map some)) : s.length / cores < x.length := by
  have hl := lead_zero hl
  have hn : 0 < s.length := List.length_pos_iff.2 hs
  unfold partition at h
  rw [if_neg (by omega)] at h
  obtain ⟨i, hi⟩ : ∃ i, cores - 1 = i := ⟨_, rfl⟩
  rw [hi] at h
  cases i with
  | zero =>
    simp only [partLoop, List.map_nil, List.nil_append, hn, if_true] at h
    split at h
    · cases h
    · exact absurd (congrArg List.length (Option.some.inj h)) (by simp)
  | succ i =>
    have hC : s.length / cores + 1 ≤ s.length := by
      have : s.length / cores ≤ s.length / 2 := Nat.div_le_div_left (by omega) (by omega)
      omega
    generalize s.length / cores = C at h hC
    have hhd : ((ltrim s ++ [NUL]).drop 0).take (C + 1) = s.take (C + 1) := by
      rw [List.drop_zero, ltrim, hl, List.drop_zero, List.take_append_of_le_length hC]
    have hlen : ∀ t : Str, C < (cText (s.take (C + 1) ++ t)).length := by
      intro t
      have : cText (s.take (C + 1) ++ t) = s.take (C + 1) ++ cText t := by
        unfold cText
        rw [List.takeWhile_append_of_pos]
        intro c hcm
        simp only [decide_eq_true_eq]
        rintro rfl
        exact h0 (List.mem_of_mem_take hcm)
      rw [this]
      simp only [List.length_append, List.length_take]
      omega
    simp only [partLoop, hhd, hl, Nat.zero_add] at h
    rw [if_neg (by omega), if_pos hC] at h
    have key : ∀ (r : Option (List Str × Nat)), (∀ a b, r = some (a, b) → ∃ t a', a = cText (s.take (C + 1) ++ t) :: a') →
        (match r with
          | none => none
          | some (cs, sum) =>
            if sum < s.length then
              if substringOOB s s.length then none
              else some (cs.map some ++ [some (substring s sum s.length)])
            else some (cs.map some ++ [none])) = some ((x :: y :: xs).map some) → C < x.length := by
      intro r hr he
      cases r with
      | none => cases he
      | some r =>
        obtain ⟨a, b⟩ := r
        obtain ⟨t, a', rfl⟩ := hr _ _ rfl
        have hx : x = cText (s.take (C + 1) ++ t) := by
          simp only at he
          split at he
          · split at he
            · cases he
            · simpa using (congrArg List.head? (Option.some.inj he)).symm
          · simpa using (congrArg List.head? (Option.some.inj he)).symm
        rw [hx]
        exact hlen t
    refine key _ ?_ h
    intro a b he
    split at he
    · cases he
    · rename_i ext _
      split at he
      · cases he
      · split at he
        · cases he
          exact ⟨ext, [], rfl⟩
        · rw [Option.map_eq_some_iff] at he
          obtain ⟨r, _, he⟩ := he
          cases he
          exact ⟨ext, r.1, rfl⟩

theorem untorn_candidates {p : List (QStep Num)} (hlast : ∃ k, p.getLast? = some (.prop k)) (pre : Str) {v : J}
    (hscl : ∀ x ∈ selected (p.map sk) v, x.isContainer = false) (n : Nat) : Untorn (Matches (p.map sk)) pre v n := by
  obtain ⟨k, hk⟩ := hlast
  refine (untorn_scalars (p := p.map sk) ?_ ⟨k, .inl (by rw [List.getLast?_map, hk]; rfl)⟩ pre hscl n).toUntorn
  intro s hs
  obtain ⟨t, _, rfl⟩ := List.mem_map.1 hs
  cases t <;> rfl

/-- **C45 and C58: filters, limits on query and document only.**  A filter query of C03 that ends in a name, whose candidates are scalars;
a tidy document with a possible cut in every window of `L` characters and at least `cores² (L + 1)` characters, in which the filtered
arrays begin in the first `1 / cores` of the file; limits on the number of steps and tested steps, the nesting, and the numbers of tokens and
candidates.  The parallel run meets no undefined behaviour and prints exactly the selected values.  Neither the cuts nor the compiled
table occur in the conditions, and filtered elements may lie across cuts. -/
theorem c45_filters_levels_partial (O : NumOps) (p : List (QStep Num)) (hq : FilterQuery p) (hlast : ∃ k, p.getLast? = some (.prop k))
    (trail : Str) (v : J) (h : Readable [] trail v) (ht : v.tidy = true) (hd : v.decided (arith O) O.atof p = true)
    (hw : v.within 998 = true) (hscl : ∀ x ∈ selected (p.map sk) v, x.isContainer = false)
    (hn : (v.select (arith O) O.atof (unfiltered p)).length ≤ MAX_OUTPUT)
    (hx : ∀ x ∈ v.select (arith O) O.atof (unfiltered p), x.render.length ≤ 998)
    (hpl : v.plainStrings = true) (h0 : NUL ∉ v.render ++ trail)
    (cores L : Nat) (hc : 0 < cores) (hcm : cores ≤ MAX_THREAD) (hL : L ≤ MAX_EXTENSION) (hdense : Dense L (v.render ++ trail))
    (hlen : cores * cores * (L + 1) ≤ (v.render ++ trail).length) (u : Nat → Nat → UState) (hlim : PathLimits (treeSize p + 2) v)
    (hearly : ∀ y ∈ allSpans [] v, ∀ w es, y.2.1 = .arr w es → Filtered p y.1 → y.2.2 ≤ (v.render ++ trail).length / cores) :
    ∃ r, parallelRun O MEMORY_FOOTPRINT cores u (fAst p) (v.render ++ trail) = some (some r) ∧
      r.k.bad = false ∧ r.pf.ub = false ∧ r.pf.output = (v.select (arith O) O.atof p).map J.render := by
  have hhead : ∃ c, (v.render ++ trail).head? = some c ∧ isSkip c = false := by
    have := h.container
    cases v with
    | obj w ms => exact ⟨'{', rfl, by decide⟩
    | arr w es => exact ⟨'[', rfl, by decide⟩
    | str _ => cases this
    | lit _ => cases this
  obtain ⟨cs, hcs, _⟩ := c20_dense_partial cores L (v.render ++ trail) hc h0 hhead hL hdense hlen
  obtain ⟨c, hc1, hc2⟩ := hhead
  have hblank : (v.render ++ trail).head? ≠ some ' ' := by
    rw [hc1]; rintro e; cases e; revert hc2; decide
  have hne : v.render ++ trail ≠ [] := by rintro e; rw [e] at hc1; cases hc1
  have hst : ∀ q, buildQuery (fAst p) = some q → q.1.statesNum ≤ treeSize p + 2 := by
    intro q hbq
    obtain ⟨c, hbc, hf⟩ := ftab_of_build p hq.ne hq.clean hq.named hq.fresh hq.names
    have : buildQuery (fAst p) = some (tableOf c, contextOf c) := by unfold buildQuery; rw [hbc]; rfl
    rw [hbq] at this
    obtain rfl := Option.some.inj this
    have := hf.states_le (pathRegs_stepTree p)
    rw [length_stepTree] at this
    show (tableOf c).statesNum ≤ _
    omega
  refine c45_filters_exact_partial O p hq [] trail v h ht hd hw ?_ hn hx hpl h0 cores hc hcm u
    (by rw [List.nil_append, hcs]; nofun) (fun q hbq => hlim.sizes (hst q hbq)) (fun _ _ _ _ _ => untorn_candidates hlast [] hscl _) ?_
  · have := hlim.tuples
    have : 1 * v.tokenCount ≤ 2 * (treeSize p + 2) * v.tokenCount := Nat.mul_le_mul_right _ (by omega)
    omega
  · intro x xs ys hp hys y hy w es hw' hfl _
    rw [List.nil_append] at hp
    have hlt : (v.render ++ trail).length / cores < x.length := by
      cases xs with
      | nil =>
        cases ys with
        | nil => exact absurd rfl hys
        | cons z zs => exact partition_first hc hne h0 hblank hp
      | cons z zs => exact partition_first hc hne h0 hblank hp
    exact Nat.lt_of_le_of_lt (hearly y hy w es hw' hfl) hlt

/-- `[{"a": 1 ,"x": 2 },{"a": 3 ,"x": 4 }, …]`: five records. -/
def exRecords : J :=
  let r (a x : Char) : J := .obj [] (.cons [] ['a'] [] [' '] (.lit [a]) [' '] (.cons [] ['x'] [] [' '] (.lit [x]) [' '] .nil))
  .arr [] (.cons [] (r '1' '2') [] (.cons [] (r '3' '4') [] (.cons [] (r '5' '6') [] (.cons [] (r '7' '0') [] (.cons [] (r '9' '8') [] .nil)))))

/-- `$[?(@.x > 3)].a` -/
def exRecordsPath : List (QStep Num) := [.filter (.bin .gt (.prop [['x']]) (.num ⟨false, 3, []⟩)), .prop ['a']]

set_option maxRecDepth 100000 in
theorem exRecords_dense : Dense 12 (exRecords.render ++ []) := by
  intro k hk hk2
  have hlen : (exRecords.render ++ []).length = 91 := by decide
  have hall : ∀ k < 80, ∃ j < 91, k ≤ j ∧ j < k + 12 ∧ (exRecords.render ++ [])[j]? = some '"' ∧
      opensToken (prevChar ((exRecords.render ++ []).take j).reverse) = true := by decide +kernel
  obtain ⟨j, _, h1, h2, h3, h4⟩ := hall k (by omega)
  exact ⟨j, h1, h2, cutAt_of h3 h4⟩

theorem exRecords_selected : ∀ x ∈ selected (exRecordsPath.map sk) exRecords, x.isContainer = false := by
  simp [selected, exRecordsPath, sk, exRecords, J.parts, Members.parts, Elems.parts, matches_all, matches_prop, matches_nil, matches_nil_left,
    J.isContainer]

/-- `c45_filters_levels_partial`: `$[?(@.x > 3)].a` on two threads. -/
example (u : Nat → Nat → UState) :
    ∃ r, parallelRun intOps MEMORY_FOOTPRINT 2 u (fAst exRecordsPath) (exRecords.render ++ []) = some (some r) ∧
      r.k.bad = false ∧ r.pf.ub = false ∧ r.pf.output = [['3'], ['5'], ['9']] := by
  have e : (exRecords.select (arith intOps) intOps.atof exRecordsPath).map J.render = [['3'], ['5'], ['9']] := by with_unfolding_all rfl
  have e2 : (exRecords.select (arith intOps) intOps.atof (unfiltered exRecordsPath)).map J.render = [['1'], ['3'], ['5'], ['7'], ['9']] := by
    with_unfolding_all rfl
  rw [← e]
  refine c45_filters_levels_partial intOps exRecordsPath ⟨rfl, rfl, rfl, ⟨rfl, by unfold cleanName; decide⟩, by decide, by decide⟩ ⟨_, rfl⟩ []
    exRecords ⟨by decide, by decide, by decide, by decide, by decide, by decide, by decide, by decide⟩ (by decide)
    (by with_unfolding_all rfl) (by decide) exRecords_selected (by rw [← List.length_map, e2]; decide) ?_ (by decide) (by decide) 2 12 (by decide) (by decide)
    (by decide) exRecords_dense (by decide) u (by decide) ?_
  · intro x hx
    have := List.mem_map_of_mem (f := J.render) hx
    rw [e2] at this
    revert this
    generalize x.render = y
    intro h
    simp only [List.mem_cons, List.not_mem_nil, or_false] at h
    rcases h with rfl | rfl | rfl | rfl | rfl <;> decide
  · have hall : ∀ y ∈ allSpans [] exRecords, (match y.2.1 with | .arr _ _ => y.2.2 ≤ 45 | _ => True) := by
      simp [allSpans, exRecords, J.spans, Elems.spans, Members.spans]
    intro y hy w es hw _
    have := hall y hy
    rw [hw] at this
    exact this

end JPS
