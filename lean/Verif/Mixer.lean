import Verif.Regex
/-!
# `Lexer/dfa_mixer.cpp`

The product of the automata of all rules.  `prerequisites` are never set for JSONPath rules, so
the only start vector is all ones and `CombineSpecial` is called once.  The list modelled here
is `statelist` without its zero vector at index 0, which `find_states` skips
(`begin = 1`, `top = 2`, lines 10-24 and 106).
-/

namespace JPS

/-- The inner loop of `CombineSpecial`, dfa_mixer.cpp:33-43, for one letter. -/
def mixVec (ds : List SDfa) (v : List Nat) (c : Nat) : List Nat :=
  List.zipWith (fun d s => if s ≠ 0 then d.next s c else 0) ds v

/-- The test `all_zero`, dfa_mixer.cpp:40, 44. -/
def mixNext (ds : List SDfa) (v : List Nat) (c : Nat) : Option (List Nat) :=
  if (mixVec ds v c).all (· == 0) then none else some (mixVec ds v c)

/-- The backward loop of `addStopState`, dfa_mixer.cpp:115-126; `i` is the index of the head of
the remaining list, later rules are tried first. -/
def lastStop : List SDfa → List Nat → Nat → Nat
  | d :: ds, s :: v, i =>
    let r := lastStop ds v (i + 1)
    if r ≠ 0 then r else if s ≠ 0 ∧ d.stop s ≠ 0 then i + 1 else 0
  | _, _, _ => 0

/-- Largest entry of the rows, bounds the number of states. -/
def maxEntry (rows : List (List Nat)) : Nat := rows.foldr (fun r m => max (r.foldr max 0) m) 0

/-- Bound on the states of all components. -/
def mixBound (ds : List SDfa) : Nat := ds.foldr (fun d m => max (maxEntry d.rows) m) 1

/-- Enough iterations of the outer loop. -/
def mixFuel (ds : List SDfa) : Nat := (mixBound ds + 1) ^ ds.length + 1

/-- `Combine`, dfa_mixer.cpp:63-113: rows of the states 1, 2, ... as handed to `addEdge`
(line 57) and their stop values. -/
def combine (ds : List SDfa) (m : Nat) : SDfa :=
  let r := wlLoop (mixNext ds) m (mixFuel ds) 0 [List.replicate ds.length 1] []
  { rows := r.2
    stops := r.1.map fun v => lastStop ds v 0 }

/-- The pipeline `SetConverter`, `RegexBuilder`, `DFAMixer` up to the table compression,
dfa_builder.cpp:374-381. -/
def buildDfa (rules : List (List Item)) (m : Nat) : SDfa :=
  combine (rules.map (createDFA · m)) m

/-! ### Facts -/

theorem le_foldr_max (r : List Nat) : ∀ x ∈ r, x ≤ r.foldr max 0 := by
  induction r with
  | nil => simp
  | cons y r ih =>
    intro x hx
    simp only [List.foldr_cons]
    rcases List.mem_cons.1 hx with rfl | h
    · omega
    · have := ih x h; omega

theorem le_maxEntry (rows : List (List Nat)) : ∀ r ∈ rows, ∀ x ∈ r, x ≤ maxEntry rows := by
  induction rows with
  | nil => simp
  | cons r0 rows ih =>
    intro r hr x hx
    have e : maxEntry (r0 :: rows) = max (r0.foldr max 0) (maxEntry rows) := rfl
    rw [e]
    rcases List.mem_cons.1 hr with rfl | h
    · have := le_foldr_max r x hx; omega
    · have := ih r h x hx; omega

theorem rowsNext_le (rows : List (List Nat)) (s a : Nat) : rowsNext rows s a ≤ maxEntry rows := by
  unfold rowsNext
  split
  · omega
  · cases h : rows[s - 1]? with
    | none => simp
    | some r =>
      simp only [Option.bind_some]
      cases h2 : r[a]? with
      | none => simp
      | some x =>
        exact le_maxEntry rows r (List.mem_of_getElem? h) x (List.mem_of_getElem? h2)

theorem le_mixBound (ds : List SDfa) : ∀ d ∈ ds, maxEntry d.rows ≤ mixBound ds := by
  induction ds with
  | nil => simp
  | cons d0 ds ih =>
    intro d hd
    have e : mixBound (d0 :: ds) = max (maxEntry d0.rows) (mixBound ds) := rfl
    rw [e]
    rcases List.mem_cons.1 hd with rfl | h
    · omega
    · have := ih d h; omega

theorem one_le_mixBound (ds : List SDfa) : 1 ≤ mixBound ds := by
  induction ds with
  | nil => exact Nat.le_refl 1
  | cons d0 ds ih =>
    have e : mixBound (d0 :: ds) = max (maxEntry d0.rows) (mixBound ds) := rfl
    omega

/-- All vectors of length `k` with entries below `b`. -/
def vecs (b : Nat) : Nat → List (List Nat)
  | 0 => [[]]
  | k + 1 => (List.range b).flatMap fun x => (vecs b k).map (x :: ·)

theorem mem_vecs {b : Nat} : ∀ {k : Nat} {v : List Nat}, v.length = k → (∀ x ∈ v, x < b) → v ∈ vecs b k
  | 0, [], _, _ => by simp [vecs]
  | k + 1, x :: v, hl, h => by
    simp only [vecs, List.mem_flatMap, List.mem_range, List.mem_map]
    refine ⟨x, h x (by simp), v, mem_vecs (by simpa using hl) (fun y hy => h y (by simp [hy])), rfl⟩

theorem length_vecs (b : Nat) : ∀ k, (vecs b k).length = b ^ k
  | 0 => rfl
  | k + 1 => by
    simp only [vecs, List.length_flatMap, List.length_map, length_vecs b k]
    simp [List.map_const', List.sum_replicate_nat, Nat.pow_succ, Nat.mul_comm]

/-- Vectors of the right length. -/
theorem length_mixVec {ds : List SDfa} {v : List Nat} {c : Nat} (h : v.length = ds.length) :
    (mixVec ds v c).length = ds.length := by simp [mixVec, h]

theorem mixVec_lt (ds : List SDfa) (v : List Nat) (c : Nat) :
    ∀ x ∈ mixVec ds v c, x < mixBound ds + 1 := by
  have gen : ∀ (B : Nat) (ds : List SDfa) (v : List Nat), (∀ d ∈ ds, maxEntry d.rows ≤ B) →
      ∀ x ∈ mixVec ds v c, x < B + 1 := by
    intro B ds
    induction ds with
    | nil => intro v _ x hx; simp [mixVec] at hx
    | cons d ds ih =>
      intro v hb x hx
      cases v with
      | nil => simp [mixVec] at hx
      | cons s v =>
        simp only [mixVec, List.zipWith_cons_cons, List.mem_cons] at hx
        rcases hx with rfl | hx
        · have h1 := hb d (by simp)
          have h2 := rowsNext_le d.rows s c
          split
          · unfold SDfa.next; omega
          · omega
        · exact ih v (fun d hd => hb d (by simp [hd])) x hx
  exact gen _ ds v (le_mixBound ds)

/-- Vectors as states, of fixed length. -/
theorem combine_explored (ds : List SDfa) (m : Nat) :
    Explored (mixNext ds) m (List.replicate ds.length 1)
      (wlLoop (mixNext ds) m (mixFuel ds) 0 [List.replicate ds.length 1] []).1
      (combine ds m).rows := by
  -- vectors shorter than `ds` cannot occur; the universe lists all lengths through padding
  have key : ∀ v, v.length = ds.length → (∀ x ∈ v, x < mixBound ds + 1) →
      v ∈ vecs (mixBound ds + 1) ds.length := fun v h1 h2 => mem_vecs h1 h2
  -- restrict `next` to vectors of the right length
  let nx : List Nat → Nat → Option (List Nat) :=
    fun v c => if v.length = ds.length then mixNext ds v c else none
  have hex := wl_explored nx m (List.replicate ds.length 1) (vecs (mixBound ds + 1) ds.length)
    (key _ (by simp) (by
      intro x hx
      have := one_le_mixBound ds
      rw [List.eq_of_mem_replicate hx]; omega)) ?_ (mixFuel ds) (by rw [length_vecs]; exact Nat.lt_succ_self _)
  · have hlen : ∀ s a t, nx s a = some t → t.length = ds.length := by
      intro s a t h
      simp only [nx] at h
      split at h
      · rename_i hl
        unfold mixNext at h
        split at h
        · cases h
        · cases h; exact length_mixVec hl
      · cases h
    have hrow : ∀ s, s.length = ds.length → ∀ as L, wlRow nx s as L = wlRow (mixNext ds) s as L := by
      intro s hs as
      induction as with
      | nil => intro L; rfl
      | cons a as ih =>
        intro L
        have : nx s a = mixNext ds s a := by simp [nx, hs]
        simp only [wlRow, this, ih]
    have hrowlen : ∀ s as L, (∀ v ∈ L, v.length = ds.length) →
        ∀ v ∈ (wlRow nx s as L).1, v.length = ds.length := by
      intro s as
      induction as with
      | nil => intro L h; exact h
      | cons a as ih =>
        intro L h
        simp only [wlRow]
        cases hn : nx s a with
        | none => exact ih L h
        | some t =>
          refine ih _ ?_
          intro v hv
          split at hv
          · exact h v hv
          · rcases List.mem_append.1 hv with hv | hv
            · exact h v hv
            · simp at hv; subst hv; exact hlen _ _ _ hn
    have hloop : ∀ fuel p L rows, (∀ v ∈ L, v.length = ds.length) →
        wlLoop nx m fuel p L rows = wlLoop (mixNext ds) m fuel p L rows := by
      intro fuel
      induction fuel with
      | zero => intros; rfl
      | succ f ih =>
        intro p L rows h
        unfold wlLoop
        cases hp : L[p]? with
        | none => rfl
        | some s =>
          have hs := h s (List.mem_of_getElem? hp)
          simp only
          rw [hrow s hs, ih]
          rw [← hrow s hs]
          exact hrowlen s _ L h
    have hinit : ∀ v ∈ [List.replicate ds.length 1], v.length = ds.length := by simp
    rw [hloop _ _ _ _ hinit] at hex
    refine ⟨hex.nodup, hex.first, hex.len, ⟨hex.ok.len, ?_, hex.ok.rowLen, hex.ok.zero⟩⟩
    intro i s hi hs a h1 h2
    have hsl : s.length = ds.length := by
      have hmem := List.mem_of_getElem? hs
      rw [← hloop _ _ _ _ hinit] at hmem
      have hall : ∀ fuel p L rows, (∀ v ∈ L, v.length = ds.length) →
          ∀ v ∈ (wlLoop nx m fuel p L rows).1, v.length = ds.length := by
        intro fuel
        induction fuel with
        | zero => intro p L rows h; exact h
        | succ f ih =>
          intro p L rows h
          unfold wlLoop
          cases hp : L[p]? with
          | none => exact h
          | some s => exact ih _ _ _ (hrowlen s _ L h)
      exact hall _ _ _ _ hinit s hmem
    have := hex.ok.succ i s hi hs a h1 h2
    have e : nx s a = mixNext ds s a := by simp [nx, hsl]
    rw [e] at this
    exact this
  · intro s a t h
    simp only [nx] at h
    split at h
    · rename_i hl
      unfold mixNext at h
      split at h
      · cases h
      · cases h; exact key _ (length_mixVec hl) (mixVec_lt ds s a)
    · cases h

/-- Componentwise run. -/
def runVec (ds : List SDfa) (v : List Nat) (w : List Nat) : List Nat := w.foldl (mixVec ds) v

theorem mixVec_zero {ds : List SDfa} {v : List Nat} {c : Nat} (h : ∀ x ∈ v, x = 0) :
    ∀ x ∈ mixVec ds v c, x = 0 := by
  induction ds generalizing v with
  | nil => intro x hx; simp [mixVec] at hx
  | cons d ds ih =>
    cases v with
    | nil => intro x hx; simp [mixVec] at hx
    | cons s v =>
      intro x hx
      simp only [mixVec, List.zipWith_cons_cons, List.mem_cons] at hx
      rcases hx with rfl | hx
      · simp [h s (by simp)]
      · exact ih (fun y hy => h y (by simp [hy])) x hx

/-- The option machine is the vector machine where the zero vector counts as dead. -/
theorem optRun_mix {ds : List SDfa} : ∀ (w : List Nat) (o : Option (List Nat)) (v : List Nat),
    (o = none ∧ (∀ x ∈ v, x = 0) ∨ o = some v) →
    (optRun (mixNext ds) o w = none ∧ (∀ x ∈ runVec ds v w, x = 0)) ∨
      optRun (mixNext ds) o w = some (runVec ds v w)
  | [], _, _, h => h
  | c :: w, o, v, h => by
    refine optRun_mix w (o.bind (mixNext ds · c)) (mixVec ds v c) ?_
    rcases h with ⟨rfl, h⟩ | rfl
    · exact .inl ⟨rfl, mixVec_zero h⟩
    · simp only [Option.bind_some, mixNext]
      split
      · rename_i hz
        left
        refine ⟨rfl, ?_⟩
        intro x hx
        simpa using List.all_eq_true.1 hz x hx
      · right; rfl

theorem lastStop_zero {ds : List SDfa} {v : List Nat} (h : ∀ x ∈ v, x = 0) (i : Nat) :
    lastStop ds v i = 0 := by
  induction ds generalizing v i with
  | nil => simp [lastStop]
  | cons d ds ih =>
    cases v with
    | nil => simp [lastStop]
    | cons s v =>
      have h1 := ih (v := v) (fun y hy => h y (List.mem_cons_of_mem _ hy)) (i + 1)
      have h2 := h s (by simp)
      simp [lastStop, h1, h2]

/-- State and stop value of the product automaton after a word. -/
theorem combine_run (ds : List SDfa) (m : Nat) (w : List Nat) (hw : ∀ a ∈ w, 1 ≤ a ∧ a < m) :
    (combine ds m).stop (w.foldl (combine ds m).next 1) =
      lastStop ds (runVec ds (List.replicate ds.length 1) w) 0 ∧
    (ds ≠ [] → (w.foldl (combine ds m).next 1 = 0 ↔
      ∀ x ∈ runVec ds (List.replicate ds.length 1) w, x = 0)) := by
  have hex := combine_explored ds m
  obtain ⟨h1, h2⟩ := hex.run1 w hw
  have hfold : w.foldl (combine ds m).next 1 = w.foldl (rowsNext (combine ds m).rows) 1 := rfl
  rw [hfold, h2]
  have hget := numOf_get h1
  have hst : (combine ds m).stops =
    (wlLoop (mixNext ds) m (mixFuel ds) 0 [List.replicate ds.length 1] []).1.map
      fun v => lastStop ds v 0 := rfl
  have hnz : optRun (mixNext ds) (some (List.replicate ds.length 1)) w ≠ none → ds ≠ [] →
      ¬ ∀ x ∈ runVec ds (List.replicate ds.length 1) w, x = 0 := by
    -- a live vector is the start vector or passed the zero test
    have gen : ∀ (w : List Nat) (o : Option (List Nat)),
        (∀ v, o = some v → ¬ ∀ x ∈ v, x = 0) →
        (∀ v, optRun (mixNext ds) o w = some v → ¬ ∀ x ∈ v, x = 0) := by
      intro w
      induction w with
      | nil => intro o h; exact h
      | cons c w ih =>
        intro o h
        refine ih (o.bind (mixNext ds · c)) ?_
        intro v hv
        cases o with
        | none => cases hv
        | some u =>
          simp only [Option.bind_some, mixNext] at hv
          split at hv
          · cases hv
          · rename_i hz
            cases hv
            intro hall
            apply hz
            rw [List.all_eq_true]
            intro x hx; simp [hall x hx]
    intro hne hds hall
    rcases optRun_mix (ds := ds) w (some (List.replicate ds.length 1)) _ (.inr rfl) with ⟨h, _⟩ | h
    · exact hne h
    · refine gen w _ ?_ _ h hall
      intro v hv hz
      cases hv
      cases ds with
      | nil => exact hds rfl
      | cons d ds => exact absurd (hz 1 (by simp)) (by decide)
  rcases optRun_mix (ds := ds) w (some (List.replicate ds.length 1)) _ (.inr rfl) with ⟨h, hz⟩ | h
  · rw [h]
    refine ⟨?_, fun _ => ⟨fun _ => hz, fun _ => rfl⟩⟩
    rw [lastStop_zero hz]; simp [SDfa.stop, numOf]
  · rw [h] at hget ⊢
    have hpos : ∀ L : List (List Nat), numOf L (some (runVec ds (List.replicate ds.length 1) w)) ≠ 0 := by
      intro L; simp [numOf]
    rw [if_neg (hpos _)] at hget
    refine ⟨?_, fun hds => ⟨fun h0 => absurd h0 (hpos _), fun hall => absurd hall (hnz (by simp [h]) hds)⟩⟩
    rw [SDfa.stop, if_neg (hpos _), hst, List.getElem?_map, hget]
    rfl

/-! ### The last matching rule -/

/-- Number (from 1) of the last rule whose language contains the word, 0 if there is none. -/
noncomputable def lastMatch (rules : List (List Item)) (w : List Nat) (i : Nat := 0) : Nat :=
  match rules with
  | [] => 0
  | r :: rs =>
    let k := lastMatch rs w (i + 1)
    open Classical in
    if k ≠ 0 then k else if Lang r w then i + 1 else 0

theorem foldl_next_zero (d : SDfa) (w : List Nat) :
    w.foldl (fun s c => if s ≠ 0 then d.next s c else 0) 0 = 0 := by
  induction w with
  | nil => rfl
  | cons c w ih => simpa using ih

theorem foldl_guard (d : SDfa) (w : List Nat) (s : Nat) :
    w.foldl (fun s c => if s ≠ 0 then d.next s c else 0) s = w.foldl d.next s := by
  induction w generalizing s with
  | nil => rfl
  | cons c w ih =>
    simp only [List.foldl_cons, ih]
    by_cases h : s = 0
    · subst h; simp [SDfa.next, rowsNext]
    · simp [h]

theorem runVec_cons (d : SDfa) (ds : List SDfa) (s : Nat) (v w : List Nat) :
    runVec (d :: ds) (s :: v) w = w.foldl d.next s :: runVec ds v w := by
  rw [← foldl_guard]
  induction w generalizing s v with
  | nil => rfl
  | cons c w ih =>
    simp only [runVec, List.foldl_cons] at ih ⊢
    rw [← ih]
    rfl

theorem runVec_nil (v w : List Nat) (h : v = []) : runVec [] v w = [] := by
  subst h
  induction w with
  | nil => rfl
  | cons c w ih => simpa [runVec, mixVec] using ih

theorem lastStop_rules (m : Nat) (w : List Nat) (hw : ∀ a ∈ w, 1 ≤ a ∧ a < m) (hne : w ≠ []) :
    ∀ (rules : List (List Item)) (i : Nat),
    lastStop (rules.map (createDFA · m))
      (runVec (rules.map (createDFA · m)) (List.replicate rules.length 1) w) i = lastMatch rules w i
  | [], i => by simp [lastStop, lastMatch]
  | r :: rs, i => by
    rw [List.map_cons, List.length_cons, List.replicate_succ, runVec_cons, lastStop,
      lastStop_rules m w hw hne rs (i + 1), lastMatch]
    have h := createDFA_lang r m w hw hne
    have h0 : w.foldl (createDFA r m).next 1 = 0 → ¬ Lang r w := by
      intro h0 hl
      rw [h0, if_pos hl] at h
      simp [SDfa.stop] at h
    by_cases hl : Lang r w
    · rw [if_pos hl] at h
      have : w.foldl (createDFA r m).next 1 ≠ 0 := fun h' => h0 h' hl
      simp only [h, this, hl, ne_eq, not_false_eq_true, Nat.one_ne_zero, and_self, if_true]
    · rw [if_neg hl] at h
      simp only [h, hl, ne_eq, not_true_eq_false, and_false, if_false]

/-- **Product automaton**: after a nonempty word the stop value is the last matching rule. -/
theorem buildDfa_lang (rules : List (List Item)) (m : Nat) (w : List Nat)
    (hw : ∀ a ∈ w, 1 ≤ a ∧ a < m) (hne : w ≠ []) :
    (buildDfa rules m).stop (w.foldl (buildDfa rules m).next 1) = lastMatch rules w := by
  have := (combine_run (rules.map (createDFA · m)) m w hw).1
  rw [List.length_map, lastStop_rules m w hw hne] at this
  exact this

theorem buildDfa_start (rules : List (List Item)) (m : Nat) : (buildDfa rules m).stop 1 = 0 := by
  have := (combine_run (rules.map (createDFA · m)) m [] (by simp)).1
  have e : ∀ (rules : List (List Item)) i, lastStop (rules.map (createDFA · m))
      (List.replicate rules.length 1) i = 0 := by
    intro rules
    induction rules with
    | nil => intro i; simp [lastStop]
    | cons r rs ih =>
      intro i
      simp [List.replicate_succ, lastStop, ih, createDFA_start]
  rw [List.length_map] at this
  simpa [e, buildDfa, runVec] using this

/-! ### Letter 1 ("other") is only read by wildcards -/

theorem createDFA_zero (items : List Item) (m : Nat) (w : List Nat)
    (hw : ∀ a ∈ w, 1 ≤ a ∧ a < m) :
    w.foldl (createDFA items m).next 1 = 0 ↔ optRun (bNext items) (some [items.length]) w = none := by
  obtain ⟨_, h2⟩ := (createDFA_explored items m).run1 w hw
  have hfold : w.foldl (createDFA items m).next 1 = w.foldl (rowsNext (createDFA items m).rows) 1 := rfl
  rw [hfold, h2]
  cases optRun (bNext items) (some [items.length]) w <;> simp [numOf]

theorem nextSet_other {items : List Item} (h1 : ∀ it ∈ items, it.ch ≠ some 1) {S : List Nat} {c : Nat}
    (hc : c < 256) (h : nextSet items S c = []) : nextSet items S 1 = [] := by
  rw [List.eq_nil_iff_forall_not_mem] at h ⊢
  intro f hf
  obtain ⟨it, p, e1, e2, e3, e4⟩ := mem_nextSet.1 hf
  refine h f (mem_nextSet.2 ⟨it, p, e1, ?_, e3, e4⟩)
  have := h1 it (List.mem_of_getElem? e1)
  unfold Item.edge at e2 ⊢
  cases hch : it.ch with
  | none => simpa using hc
  | some k =>
    rw [hch] at e2 this
    simp at e2; subst e2; exact absurd rfl this

theorem optRun_append {σ : Type} [DecidableEq σ] (next : σ → Nat → Option σ) (o : Option σ)
    (w u : List Nat) : optRun next o (w ++ u) = optRun next (optRun next o w) u := by
  simp [optRun]

theorem createDFA_other (items : List Item) (h1 : ∀ it ∈ items, it.ch ≠ some 1) (m : Nat)
    (w : List Nat) (hw : ∀ a ∈ w, 1 ≤ a ∧ a < m) (c : Nat) (hc : c < 256) (hc1 : 1 ≤ c) (hcm : c < m)
    (h : (w ++ [c]).foldl (createDFA items m).next 1 = 0) :
    (w ++ [1]).foldl (createDFA items m).next 1 = 0 := by
  rw [createDFA_zero _ _ _ (by
    intro a ha; rcases List.mem_append.1 ha with h | h
    · exact hw a h
    · simp at h; omega)] at h ⊢
  rw [optRun_append] at h ⊢
  cases ho : optRun (bNext items) (some [items.length]) w with
  | none => rfl
  | some S =>
    rw [ho] at h
    have h' : bNext items S c = none := h
    show bNext items S 1 = none
    unfold bNext at h' ⊢
    have : nextSet items S c = [] := by
      by_cases hn : nextSet items S c = []
      · exact hn
      · rw [if_neg hn] at h'; cases h'
    rw [if_pos (nextSet_other h1 hc this)]

theorem mem_runVec {m : Nat} {w : List Nat} {x : Nat} : ∀ {rules : List (List Item)},
    x ∈ runVec (rules.map (createDFA · m)) (List.replicate rules.length 1) w ↔
      ∃ r ∈ rules, x = w.foldl (createDFA r m).next 1
  | [] => by simp [runVec_nil]
  | r :: rs => by
    rw [List.map_cons, List.length_cons, List.replicate_succ, runVec_cons, List.mem_cons, mem_runVec]
    simp

theorem buildDfa_zero (rules : List (List Item)) (hr : rules ≠ []) (m : Nat) (w : List Nat)
    (hw : ∀ a ∈ w, 1 ≤ a ∧ a < m) :
    w.foldl (buildDfa rules m).next 1 = 0 ↔ ∀ r ∈ rules, w.foldl (createDFA r m).next 1 = 0 := by
  have := (combine_run (rules.map (createDFA · m)) m w hw).2 (by simpa using hr)
  rw [List.length_map] at this
  show w.foldl (combine (rules.map (createDFA · m)) m).next 1 = 0 ↔ _
  rw [this]
  constructor
  · intro h r hrm; exact h _ (mem_runVec.2 ⟨r, hrm, rfl⟩)
  · intro h x hx
    obtain ⟨r, hrm, rfl⟩ := mem_runVec.1 hx
    exact h r hrm

/-- A missing transition by some letter implies that there is none by "other". -/
theorem buildDfa_other (rules : List (List Item)) (hr : rules ≠ [])
    (h1 : ∀ r ∈ rules, ∀ it ∈ r, it.ch ≠ some 1) (m : Nat) (w : List Nat)
    (hw : ∀ a ∈ w, 1 ≤ a ∧ a < m) (c : Nat) (hc : c < 256) (hc1 : 1 ≤ c) (hcm : c < m)
    (h : (buildDfa rules m).next (w.foldl (buildDfa rules m).next 1) c = 0) :
    (buildDfa rules m).next (w.foldl (buildDfa rules m).next 1) 1 = 0 := by
  have e : ∀ x, (buildDfa rules m).next (w.foldl (buildDfa rules m).next 1) x =
      (w ++ [x]).foldl (buildDfa rules m).next 1 := by intro x; simp
  have hw' : ∀ x, 1 ≤ x → x < m → ∀ a ∈ w ++ [x], 1 ≤ a ∧ a < m := by
    intro x hx1 hx2 a ha
    rcases List.mem_append.1 ha with h | h
    · exact hw a h
    · simp at h; omega
  rw [e, buildDfa_zero rules hr m _ (hw' c hc1 hcm)] at h
  rw [e, buildDfa_zero rules hr m _ (hw' 1 (by omega) (by omega))]
  intro r hrm
  exact createDFA_other r (h1 r hrm) m w hw c hc hc1 hcm (h r hrm)

end JPS
