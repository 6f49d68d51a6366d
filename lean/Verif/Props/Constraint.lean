import Verif.Constraint
import Verif.Spec.Log
import Verif.Props.Stream
/-!
# C29, C30: the table of data constraints
-/

set_option autoImplicit false

namespace JPS
open Spec

/-! ### The specification -/

section
variable {α κ : Type} [DecidableEq α] [DecidableEq κ]

theorem mem_firsts (x : α) : ∀ l : List α, x ∈ firsts l ↔ x ∈ l
  | [] => Iff.rfl
  | y :: l => by
    simp only [firsts, List.mem_cons, List.mem_filter, mem_firsts x l, decide_eq_true_eq]
    by_cases h : x = y <;> simp [h]

theorem nodup_firsts : ∀ l : List α, (firsts l).Nodup
  | [] => List.nodup_nil
  | y :: l => by
    simp only [firsts, List.nodup_cons, List.mem_filter, decide_eq_true_eq]
    exact ⟨by simp, (nodup_firsts l).filter _⟩

theorem firsts_snoc (x : α) : ∀ l : List α, firsts (l ++ [x]) = if x ∈ l then firsts l else firsts l ++ [x]
  | [] => rfl
  | y :: l => by
    simp only [List.cons_append, firsts, firsts_snoc x l, List.mem_cons]
    by_cases hl : x ∈ l
    · simp [hl]
    · by_cases hy : x = y
      · subst hy; simp [hl]
      · simp [hl, hy, List.filter_append]

theorem recordedFor_snoc (h : List (α × κ)) (r : α × κ) (k : κ) :
    recordedFor (h ++ [r]) k = recordedFor h k ++ if r.2 = k then [r.1] else [] := by
  simp only [recordedFor, List.filter_append, List.map_append]
  by_cases hk : r.2 = k <;> simp [hk]

theorem recordedFor_ne_nil (h : List (α × κ)) (k : κ) : recordedFor h k ≠ [] ↔ k ∈ keysOf h := by
  simp only [recordedFor, keysOf, mem_firsts, ne_eq, List.map_eq_nil_iff, List.filter_eq_nil_iff,
    decide_eq_true_eq, List.mem_map]
  constructor
  · intro hn
    simp only [Classical.not_forall, Classical.not_not] at hn
    obtain ⟨r, hr, e⟩ := hn
    exact ⟨r, hr, e⟩
  · rintro ⟨r, hr, e⟩ hn
    exact hn r hr e

theorem logOf_eq (h : List (α × κ)) (k : κ) :
    logOf h k = if k ∈ keysOf h then some (firsts (recordedFor h k)) else none := by
  have := recordedFor_ne_nil h k
  unfold logOf
  split
  · next e => rw [if_neg (by rw [← this, e]; simp)]
  · next l hl => rw [if_pos (by rw [← this]; exact fun e => hl e)]

end

/-! ### The table -/

/-- The entries for the keys `ks`, starting at index `n`, with the states `f`. -/
def mkInfo (g : Nat → Str) (f : CKey → List Nat) : Nat → List CKey → List CInfo
  | _, [] => []
  | n, k :: ks => ⟨newName g n k, if k.isSome then .ky else .lb, f k⟩ :: mkInfo g f (n + 1) ks

theorem mkInfo_length (g : Nat → Str) (f : CKey → List Nat) : ∀ (ks : List CKey) (n : Nat),
    (mkInfo g f n ks).length = ks.length
  | [], _ => rfl
  | _ :: ks, n => by simp [mkInfo, mkInfo_length g f ks]

theorem mkInfo_append (g : Nat → Str) (f : CKey → List Nat) : ∀ (ks ls : List CKey) (n : Nat),
    mkInfo g f n (ks ++ ls) = mkInfo g f n ks ++ mkInfo g f (n + ks.length) ls
  | [], _, _ => rfl
  | k :: ks, ls, n => by
    simp only [List.cons_append, mkInfo, mkInfo_append g f ks, List.length_cons, Nat.add_right_comm n 1,
      Nat.add_assoc, Nat.add_comm 1]

theorem mkInfo_congr (g : Nat → Str) (f f' : CKey → List Nat) : ∀ (ks : List CKey) (n : Nat),
    (∀ k ∈ ks, f k = f' k) → mkInfo g f n ks = mkInfo g f' n ks
  | [], _, _ => rfl
  | k :: ks, n, h => by
    simp only [mkInfo, h k (by simp), mkInfo_congr g f f' ks (n + 1) (fun x hx => h x (by simp [hx]))]

/-- A key that no array entry carries by accident in its uninitialised name. -/
def Fresh (g : Nat → Str) (k : CKey) : Prop := ∀ n, k ≠ some (g n)

theorem hits_iff {g : Nat → Str} {k k' : CKey} (h : Fresh g k) (n : Nat) (l : List Nat) :
    CInfo.hits k ⟨newName g n k', if k'.isSome then .ky else .lb, l⟩ = decide (k = k') := by
  cases k <;> cases k' <;> simp [CInfo.hits, newName]
  · exact decide_eq_false fun e => h n (by rw [e])
  · exact decide_eq_decide.2 Iff.rfl

theorem find_mkInfo {g : Nat → Str} {f : CKey → List Nat} {k : CKey} (h : Fresh g k) :
    ∀ (ks : List CKey) (n : Nat),
    ((mkInfo g f n ks).find? (CInfo.hits k)).map CInfo.states = if k ∈ ks then some (f k) else none
  | [], _ => by simp [mkInfo]
  | k' :: ks, n => by
    simp only [mkInfo, List.find?_cons, hits_iff h]
    by_cases e : k = k'
    · subst e; simp
    · simp [e, find_mkInfo h ks]

theorem addIn_mkInfo {g : Nat → Str} {f : CKey → List Nat} {k : CKey} (s : Nat) (h : Fresh g k) :
    ∀ (ks : List CKey) (n : Nat), ks.Nodup →
    addIn k s (mkInfo g f n ks) = if k ∈ ks then
      some (mkInfo g (fun x => if x = k then (if s ∈ f k then f k else f k ++ [s]) else f x) n ks) else none
  | [], _, _ => by simp [mkInfo, addIn]
  | k' :: ks, n, hn => by
    obtain ⟨h1, h2⟩ := List.nodup_cons.1 hn
    simp only [mkInfo, addIn, hits_iff h]
    by_cases e : k = k'
    · subst e
      simp only [decide_true, if_true, List.mem_cons, true_or, CInfo.addState]
      rw [mkInfo_congr g f (fun x => if x = k then (if s ∈ f k then f k else f k ++ [s]) else f x) ks]
      · split <;> rfl
      · intro x hx
        rw [if_neg (by rintro rfl; exact h1 hx)]
    · simp only [e, decide_false, Bool.false_eq_true, if_false, addIn_mkInfo s h ks (n + 1) h2, List.mem_cons,
        false_or]
      have e' : ¬ k' = k := fun h => e h.symm
      by_cases hm : k ∈ ks <;> simp [e', hm]

/-- Within the arrays of the table. -/
def Capacity (h : List (Nat × CKey)) : Prop :=
  (keysOf h).length ≤ MAX_CONSTRAINT ∧ (∀ k, (firsts (recordedFor h k)).length ≤ MAX_STATES) ∧
    ∀ k, some k ∈ keysOf h → k.length + 2 ≤ MAX_KEY_TEXT

theorem any_mkInfo {g : Nat → Str} {f : CKey → List Nat} {p : CInfo → Bool} : ∀ (ks : List CKey) (n : Nat),
    (mkInfo g f n ks).any p = true → ∃ k ∈ ks, ∃ m, p ⟨newName g m k, if k.isSome then .ky else .lb, f k⟩ = true
  | [], _, h => by simp [mkInfo] at h
  | k :: ks, n, h => by
    simp only [mkInfo, List.any_cons, Bool.or_eq_true] at h
    rcases h with h | h
    · exact ⟨k, by simp, n, h⟩
    · obtain ⟨k', hk, m, hp⟩ := any_mkInfo ks _ h
      exact ⟨k', by simp [hk], m, hp⟩

theorem any_mkInfo' {g : Nat → Str} {f : CKey → List Nat} {p : CInfo → Bool} {k : CKey}
    (hp : ∀ m, p ⟨newName g m k, if k.isSome then .ky else .lb, f k⟩ = true) : ∀ (ks : List CKey) (n : Nat),
    k ∈ ks → (mkInfo g f n ks).any p = true
  | [], _, h => by simp at h
  | k' :: ks, n, h => by
    simp only [mkInfo, List.any_cons, Bool.or_eq_true]
    rcases List.mem_cons.1 h with rfl | h
    · exact .inl (hp n)
    · exact .inr (any_mkInfo' hp ks _ h)

theorem snocInd {α : Type} {P : List α → Prop} (h0 : P []) (h1 : ∀ l x, P l → P (l ++ [x])) (l : List α) :
    P l := by
  have : ∀ l : List α, P l.reverse := by
    intro l
    induction l with
    | nil => exact h0
    | cons x l ih => rw [List.reverse_cons]; exact h1 _ _ ih
  simpa using this l.reverse

theorem keysOf_snoc {α κ : Type} [DecidableEq α] [DecidableEq κ] (h : List (α × κ)) (r : α × κ) :
    keysOf (h ++ [r]) = if r.2 ∈ keysOf h then keysOf h else keysOf h ++ [r.2] := by
  simp only [keysOf, List.map_append, List.map_cons, List.map_nil, firsts_snoc, mem_firsts]

theorem states_snoc (h : List (Nat × CKey)) (s : Nat) (k x : CKey) :
    firsts (recordedFor (h ++ [(s, k)]) x) = if x = k then
      (if s ∈ firsts (recordedFor h k) then firsts (recordedFor h k) else firsts (recordedFor h k) ++ [s])
      else firsts (recordedFor h x) := by
  rw [recordedFor_snoc]
  by_cases e : x = k
  · subst e
    simp only [if_true, firsts_snoc, mem_firsts]
  · have : ¬ k = x := fun h => e h.symm
    simp [e, this]

/-- The table after a history. -/
theorem addAll_info (g : Nat → Str) (h : List (Nat × CKey)) : (∀ r ∈ h, Fresh g r.2) →
    (CTable.empty.addAll g h).info = mkInfo g (fun k => firsts (recordedFor h k)) 0 (keysOf h) ∧
    ((CTable.empty.addAll g h).ub = false ↔ Capacity h) := by
  refine snocInd (P := fun h => (∀ r ∈ h, Fresh g r.2) →
    (CTable.empty.addAll g h).info = mkInfo g (fun k => firsts (recordedFor h k)) 0 (keysOf h) ∧
    ((CTable.empty.addAll g h).ub = false ↔ Capacity h)) ?_ ?_ h
  · intro _
    refine ⟨rfl, ?_⟩
    simp [CTable.addAll, CTable.empty, Capacity, keysOf, firsts, recordedFor]
  · rintro h ⟨s, k⟩ ih hf
    obtain ⟨ihi, ihu⟩ := ih (fun r hr => hf r (by simp [hr]))
    have hk : Fresh g k := hf (s, k) (by simp)
    have hstep : CTable.empty.addAll g (h ++ [(s, k)]) = (CTable.empty.addAll g h).add g s k := by
      simp [CTable.addAll, List.foldl_append]
    have hnd : (keysOf h).Nodup := nodup_firsts _
    have hadd := addIn_mkInfo (g := g) (f := fun k => firsts (recordedFor h k)) s hk (keysOf h) 0 hnd
    rw [hstep]
    unfold CTable.add
    rw [ihi, hadd]
    by_cases hm : k ∈ keysOf h
    · have hks : keysOf (h ++ [(s, k)]) = keysOf h := by rw [keysOf_snoc, if_pos hm]
      simp only [if_pos hm]
      refine ⟨?_, ?_⟩
      · rw [hks]
        exact mkInfo_congr _ _ _ _ _ fun x _ => (states_snoc h s k x).symm
      · simp only [Bool.or_eq_false_iff, ihu]
        unfold Capacity
        rw [hks]
        constructor
        · rintro ⟨⟨c1, c2, c3⟩, hany⟩
          refine ⟨c1, ?_, c3⟩
          intro x
          rw [states_snoc]
          by_cases e : x = k
          · subst e
            rw [if_pos rfl]
            apply Classical.byContradiction
            intro hl
            have := any_mkInfo' (g := g) (p := fun i => decide (i.states.length > MAX_STATES)) (k := x)
              (f := fun y => if y = x then (if s ∈ firsts (recordedFor h x) then firsts (recordedFor h x)
                else firsts (recordedFor h x) ++ [s]) else firsts (recordedFor h y))
              (by intro m; simp only [if_true, decide_eq_true_eq]; omega) (keysOf h) 0 hm
            rw [this] at hany
            cases hany
          · rw [if_neg e]; exact c2 x
        · rintro ⟨c1, c2, c3⟩
          refine ⟨⟨c1, ?_, c3⟩, ?_⟩
          · intro x
            have := c2 x
            rw [states_snoc] at this
            by_cases e : x = k
            · subst e
              rw [if_pos rfl] at this
              split at this
              · exact this
              · simp at this; omega
            · rw [if_neg e] at this; exact this
          · apply Bool.eq_false_iff.2
            intro hany
            obtain ⟨x, hx, m, hp⟩ := any_mkInfo _ _ hany
            have := c2 x
            rw [states_snoc] at this
            simp only [decide_eq_true_eq] at hp
            omega
    · have hks : keysOf (h ++ [(s, k)]) = keysOf h ++ [k] := by rw [keysOf_snoc, if_neg hm]
      have hnil : recordedFor h k = [] := by
        apply Classical.byContradiction
        intro hn
        exact hm ((recordedFor_ne_nil h k).1 hn)
      have hst : ∀ x, firsts (recordedFor (h ++ [(s, k)]) x) =
          if x = k then [s] else firsts (recordedFor h x) := by
        intro x
        rw [states_snoc, hnil]
        simp [firsts]
      simp only [if_neg hm]
      refine ⟨?_, ?_⟩
      · rw [hks, mkInfo_append]
        congr 1
        · apply mkInfo_congr
          intro x hx
          rw [hst, if_neg (by rintro rfl; exact hm hx)]
        · simp only [mkInfo, hst, if_true, mkInfo_length, Nat.zero_add]
      · simp only [Bool.or_eq_false_iff, ihu, mkInfo_length]
        unfold Capacity
        rw [hks]
        simp only [hst, List.length_append, List.length_cons, List.length_nil, List.mem_append, List.mem_singleton]
        constructor
        · rintro ⟨⟨⟨c1, c2, c3⟩, c4⟩, c5⟩
          refine ⟨by simp only [ge_iff_le, decide_eq_false_iff_not] at c4; omega, ?_, ?_⟩
          · intro x
            split
            · simp [MAX_STATES]
            · exact c2 x
          · rintro x (hx | hx)
            · exact c3 x hx
            · subst hx
              simp [strcopyBytes] at c5
              omega
        · rintro ⟨c1, c2, c3⟩
          refine ⟨⟨⟨by omega, ?_, fun x hx => c3 x (.inl hx)⟩, ?_⟩, ?_⟩
          · intro x
            have := c2 x
            by_cases e : x = k
            · subst e; rw [hnil]; simp [firsts]
            · rw [if_neg e] at this; exact this
          · simp only [ge_iff_le, decide_eq_false_iff_not]; omega
          · cases k with
            | none => rfl
            | some k =>
              have := c3 k (.inr rfl)
              simp [strcopyBytes]
              omega

/-! ## C29 -/

/-- The full claim of C29. -/
def C29Full : Prop := ∀ (g : Nat → Str) (h : List (Nat × CKey)) (k : CKey), Capacity h →
  (CTable.empty.addAll g h).lookup k = logOf h k

/-- **C29** After every history of recordings, a lookup returns exactly the states recorded for the key, each
once, in the order of first recording, for all keys that differ from the bytes `malloc` left in the names
of array entries; `addConstraintInfo` stays within its arrays exactly when the distinct keys, states and
names fit. -/
theorem c29_lookup_partial (g : Nat → Str) (h : List (Nat × CKey)) (k : CKey) (hf : ∀ r ∈ h, Fresh g r.2)
    (hk : Fresh g k) :
    (CTable.empty.addAll g h).lookup k = logOf h k ∧ ((CTable.empty.addAll g h).ub = false ↔ Capacity h) := by
  obtain ⟨hi, hu⟩ := addAll_info g h hf
  refine ⟨?_, hu⟩
  unfold CTable.lookup
  rw [hi, find_mkInfo hk, logOf_eq]
  by_cases hm : k ∈ keysOf h <;> simp [hm]

/-- Array starts alone need no hypothesis on the query: the lookup of an array start is exact for every
history whose keys are fresh. -/
theorem c29_array_partial (g : Nat → Str) (h : List (Nat × CKey)) (hf : ∀ r ∈ h, Fresh g r.2) :
    (CTable.empty.addAll g h).lookup none = logOf h none :=
  (c29_lookup_partial g h none hf (by intro n; simp)).1

/-- Recordings of two keys and an array in fresh zeroed memory. -/
def exLog : List (Nat × CKey) := [(3, some ['a']), (1, none), (2, some ['a']), (3, some ['a']), (0, none)]

/-- The hypotheses of `c29_lookup_partial` hold for `exLog`. -/
example : (CTable.empty.addAll (fun _ => []) exLog).lookup (some ['a']) = some [3, 2] ∧
    (CTable.empty.addAll (fun _ => []) exLog).ub = false := by
  obtain ⟨h1, h2⟩ := c29_lookup_partial (fun _ => []) exLog (some ['a'])
    (by simp [exLog, Fresh]) (by simp [Fresh])
  refine ⟨by rw [h1]; rfl, ?_⟩
  exact h2.2 ⟨by decide, by
    intro k
    have : (firsts (recordedFor exLog k)).length ≤ (recordedFor exLog k).length := by
      generalize recordedFor exLog k = l
      induction l with
      | nil => simp [firsts]
      | cons x l ih => simp [firsts]; exact Nat.le_trans (List.length_filter_le _ _) ih
    have h2 : (recordedFor exLog k).length ≤ exLog.length := by
      simp [recordedFor]; exact List.length_filter_le _ _
    have h3 : exLog.length = 5 := rfl
    simp only [MAX_STATES]; omega, by
    intro k hk
    have : keysOf exLog = [some ['a'], none] := by decide
    rw [this] at hk
    simp at hk
    subst hk
    decide⟩

/-- **C29 is false**: the name of an array entry is never written (constraint.h:133), so in zeroed memory the
empty key finds the states of array starts. -/
theorem c29_false : ¬ C29Full := by
  intro h
  have := h (fun _ => []) [(1, none)] (some []) ⟨by decide, by
    intro k
    have : (recordedFor [((1 : Nat), (none : CKey))] k).length ≤ 1 := by
      simp [recordedFor]; exact List.length_filter_le _ _
    revert this
    generalize recordedFor [((1 : Nat), (none : CKey))] k = l
    intro this
    match l, this with
    | [], _ => simp [firsts]
    | [x], _ => simp [firsts, MAX_STATES], by
    intro k hk
    have : keysOf [((1 : Nat), (none : CKey))] = [none] := by decide
    rw [this] at hk
    simp at hk⟩
  revert this
  decide

/-! ## C30 -/

theorem addIn_lookup (k : CKey) (s : Nat) : ∀ (is js : List CInfo), addIn k s is = some js →
    ∃ l, (js.find? (CInfo.hits k)).map CInfo.states = some l ∧ s ∈ l
  | [], _, h => by simp [addIn] at h
  | i :: is, js, h => by
    simp only [addIn] at h
    have hh : (i.addState s).hits k = i.hits k := by
      unfold CInfo.addState; split <;> rfl
    split at h
    · next hi =>
      obtain rfl := Option.some.inj h
      rw [List.find?_cons_of_pos (by rw [hh]; exact hi)]
      refine ⟨_, rfl, ?_⟩
      unfold CInfo.addState
      split
      · assumption
      · simp
    · next hi =>
      obtain ⟨ks, hks, rfl⟩ := Option.map_eq_some_iff.1 h
      rw [List.find?_cons_of_neg hi]
      exact addIn_lookup k s is ks hks

theorem addIn_mono (k k' : CKey) (s x : Nat) : ∀ (is js : List CInfo), addIn k s is = some js →
    ∀ l, (is.find? (CInfo.hits k')).map CInfo.states = some l → x ∈ l →
    ∃ l', (js.find? (CInfo.hits k')).map CInfo.states = some l' ∧ x ∈ l'
  | [], _, h, _, _, _ => by simp [addIn] at h
  | i :: is, js, h, l, hl, hx => by
    simp only [addIn] at h
    have hh : (i.addState s).hits k' = i.hits k' := by
      unfold CInfo.addState; split <;> rfl
    have hm : ∀ y ∈ i.states, y ∈ (i.addState s).states := by
      intro y hy; unfold CInfo.addState; split
      · exact hy
      · simp [hy]
    by_cases hk : i.hits k' = true
    · rw [List.find?_cons_of_pos hk] at hl
      simp only [Option.map_some, Option.some.injEq] at hl
      subst hl
      split at h
      · obtain rfl := Option.some.inj h
        rw [List.find?_cons_of_pos (by rw [hh]; exact hk)]
        exact ⟨_, rfl, hm x hx⟩
      · obtain ⟨ks, hks, rfl⟩ := Option.map_eq_some_iff.1 h
        rw [List.find?_cons_of_pos hk]
        exact ⟨_, rfl, hx⟩
    · rw [List.find?_cons_of_neg hk] at hl
      split at h
      · obtain rfl := Option.some.inj h
        rw [List.find?_cons_of_neg (by rw [hh]; exact hk)]
        exact ⟨_, hl, hx⟩
      · obtain ⟨ks, hks, rfl⟩ := Option.map_eq_some_iff.1 h
        rw [List.find?_cons_of_neg hk]
        exact addIn_mono k k' s x is ks hks l hl hx

theorem addIn_none (k : CKey) (s : Nat) : ∀ (is : List CInfo), addIn k s is = none → is.find? (CInfo.hits k) = none
  | [], _ => rfl
  | i :: is, h => by
    simp only [addIn] at h
    split at h
    · cases h
    · next hi =>
      rw [List.find?_cons_of_neg hi]
      exact addIn_none k s is (by simpa using h)

theorem add_keeps (g : Nat → Str) (ct : CTable) (s x : Nat) (k k' : CKey) (l : List Nat)
    (h : ct.lookup k' = some l) (hx : x ∈ l) : ∃ l', (ct.add g s k).lookup k' = some l' ∧ x ∈ l' := by
  unfold CTable.add
  split
  · next is his => exact addIn_mono k k' s x _ _ his l h hx
  · refine ⟨l, ?_, hx⟩
    unfold CTable.lookup at h ⊢
    simp only [List.find?_append]
    cases hf : ct.info.find? (CInfo.hits k') with
    | none => rw [hf] at h; cases h
    | some i => rw [hf] at h; exact h

theorem add_finds (g : Nat → Str) (ct : CTable) (s : Nat) (k : CKey) :
    ∃ l, (ct.add g s k).lookup k = some l ∧ s ∈ l := by
  unfold CTable.add
  split
  · next is his => exact addIn_lookup k s _ _ his
  · next hn =>
    refine ⟨[s], ?_, by simp⟩
    unfold CTable.lookup
    simp only [List.find?_append, addIn_none k s _ hn]
    cases k <;> simp [CInfo.hits, newName]

theorem addAll_keeps (g : Nat → Str) (x : Nat) (k' : CKey) : ∀ (h : List (Nat × CKey)) (ct : CTable) (l : List Nat),
    ct.lookup k' = some l → x ∈ l → ∃ l', (ct.addAll g h).lookup k' = some l' ∧ x ∈ l'
  | [], _, l, h, hx => ⟨l, h, hx⟩
  | (s, k) :: hs, ct, l, h, hx => by
    obtain ⟨l1, h1, hx1⟩ := add_keeps g ct s x k k' l h hx
    exact addAll_keeps g x k' hs (ct.add g s k) l1 h1 hx1

theorem addAll_finds (g : Nat → Str) (s : Nat) (k : CKey) (h1 h2 : List (Nat × CKey)) (ct : CTable) :
    ∃ l, (ct.addAll g (h1 ++ (s, k) :: h2)).lookup k = some l ∧ s ∈ l := by
  obtain ⟨l, hl, hs⟩ := add_finds g (ct.addAll g h1) s k
  have : ct.addAll g (h1 ++ (s, k) :: h2) = ((ct.addAll g h1).add g s k).addAll g h2 := by
    simp [CTable.addAll, List.foldl_append]
  rw [this]
  exact addAll_keeps g s k h2 _ l hl hs

/-- The token that starts a key or an array. -/
def startTok : Option Str → Nat → Tok
  | some k, _ => .ky k
  | none, p => .lb p

/-- **C30** Collect constraints over any tokens of any text, with any automaton and whatever the memory of
the table held before: for every position at which a key or an array starts, the state in force there is
among those the finished table returns for that key or for an array. -/
theorem c30_learned_sound (g : Nat → Str) (d : QDfa) (s : Str) (a : SA) (us vs : List Tok) (k : CKey) (p : Nat) :
    ∃ l, (runCollect g d s (a, .empty) (us ++ startTok k p :: vs)).2.lookup k = some l ∧
      (runToks d s a us).elt.st ∈ l := by
  rw [runCollect_eq, recordsOf_append]
  simp only [recordsOf]
  cases k with
  | none =>
    simp only [startTok, records, List.cons_append]
    exact addAll_finds g _ none _ _ _
  | some k =>
    simp only [startTok, records, List.cons_append]
    exact addAll_finds g _ (some k) _ _ _

/-- Collecting constraints does not change what the automaton does. -/
theorem c30_same_run (g : Nat → Str) (d : QDfa) (s : Str) (a : SA) (ct : CTable) (ts : List Tok) :
    (runCollect g d s (a, ct) ts).1 = runToks d s a ts := by
  rw [runCollect_eq]

/-- `collectDataConstraints`, path_processor.h:245-263, with `loadInputStream` (25-39): the table collected
from a whole file. -/
def collectConstraints (g : Nat → Str) (d : QDfa) (file : Str) : CTable :=
  (runCollect g d file (SA.init, .empty) (lexAll file)).2

/-- **C30 on a file** For every file and automaton, and every place where the tokenizer reports a key or an
array start, the table returns the state the serial automaton is in there. -/
theorem c30_file_sound (g : Nat → Str) (d : QDfa) (file : Str) (us vs : List Tok) (k : CKey) (p : Nat)
    (h : lexAll file = us ++ startTok k p :: vs) :
    ∃ l, (collectConstraints g d file).lookup k = some l ∧ (runToks d file SA.init us).elt.st ∈ l := by
  unfold collectConstraints
  rw [h]
  exact c30_learned_sound g d file SA.init us vs k p

/-- `{"a": [[1, 2]], "b": {"a": 3 }}` with `$.a`. -/
example : (collectConstraints (fun _ => []) exQuery "{\"a\": [[1, 2]], \"b\": {\"a\": 3 }}".toList) =
    ⟨[⟨['a'], .ky, [1, 0]⟩, ⟨[], .lb, [2, 0]⟩, ⟨['b'], .ky, [1]⟩], false⟩ := by decide

end JPS
