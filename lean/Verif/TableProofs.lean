import Verif.QueryBuilder
import Verif.Doc
/-!
# The final table agrees with the product automaton
-/

namespace JPS
open Spec

/-- Facts about a finished compilation context used below. -/
structure SCtx.Ok (c : SCtx) : Prop where
  rules : c.rules ≠ []
  noOther : ∀ r ∈ c.rules, ∀ it ∈ r, it.ch ≠ some 1
  nodup : c.names.Nodup
  few : c.names.length ≤ 253

/-- The product automaton of a context. -/
def SCtx.dfa (c : SCtx) : SDfa := buildDfa c.rules (c.names.length + 3)

/-- State of the product automaton after a word. -/
def SCtx.run (c : SCtx) (w : List Nat) : Nat := w.foldl c.dfa.next 1

/-- The letter of a label. -/
def SCtx.col (c : SCtx) : Label → Nat
  | .key k => if k ∈ c.names then nameCol c.names k else 1
  | .elem _ => 2

/-- Letters of the automaton. -/
def SCtx.letters (c : SCtx) (w : List Nat) : Prop := ∀ a ∈ w, 1 ≤ a ∧ a < c.names.length + 3

theorem SCtx.col_ok (c : SCtx) (x : Label) : 1 ≤ c.col x ∧ c.col x < c.names.length + 3 := by
  cases x with
  | key k =>
    unfold SCtx.col nameCol
    simp only
    split
    · rename_i h
      have := List.idxOf_lt_length_of_mem h
      omega
    · omega
  | elem i => simp [SCtx.col]

theorem SCtx.letters_map (c : SCtx) (l : Loc) : c.letters (l.map c.col) := by
  intro a ha
  obtain ⟨x, _, rfl⟩ := List.mem_map.1 ha
  exact c.col_ok x

theorem SCtx.explored (c : SCtx) :
    Explored (mixNext (c.rules.map (createDFA · (c.names.length + 3)))) (c.names.length + 3)
      (List.replicate (c.rules.map (createDFA · (c.names.length + 3))).length 1)
      (wlLoop (mixNext (c.rules.map (createDFA · (c.names.length + 3)))) (c.names.length + 3)
        (mixFuel (c.rules.map (createDFA · (c.names.length + 3)))) 0
        [List.replicate (c.rules.map (createDFA · (c.names.length + 3))).length 1] []).1
      c.dfa.rows := combine_explored _ _

theorem SCtx.run_lt (c : SCtx) (w : List Nat) (hw : c.letters w) :
    c.run w < c.dfa.rows.length + 1 := by
  obtain ⟨h1, h2⟩ := c.explored.run1 w hw
  have : c.run w = w.foldl (rowsNext c.dfa.rows) 1 := rfl
  rw [this, h2, c.explored.len]
  exact Nat.lt_succ_of_le (numOf_le h1)

/-- Entries of the table are transitions of the product automaton. -/
theorem SCtx.table_few (c : SCtx) (h : c.names.length + 3 ≤ 2147483648) (s a : Nat) (hs : s < c.dfa.rows.length + 1)
    (ha1 : 1 ≤ a) (ha2 : a < c.names.length + 3) : (tableOf c).table s a = c.dfa.next s a := by
  have e : (tableOf c).table s a =
      if s < c.dfa.rows.length + 1 ∧ a < c.names.length + 3 then (compress c.dfa.rows).nextState s a
      else 0 := rfl
  rw [e, if_pos ⟨hs, ha2⟩]
  unfold SDfa.next rowsNext
  by_cases h0 : s = 0
  · rw [if_pos h0, Comp.nextState_zero _ _ _ (.inl h0)]
  · rw [if_neg h0]
    obtain ⟨t, rfl⟩ : ∃ t, s = t + 1 := ⟨s - 1, by omega⟩
    have hlt : t < c.dfa.rows.length := by omega
    have hg := List.getElem?_eq_getElem hlt
    have hlen := c.explored.ok.rowLen
    have hl : ∀ r ∈ c.dfa.rows, r.length ≤ 2147483648 := by
      intro r hr
      have := hlen r hr (by omega)
      omega
    have hrl := hlen _ (List.getElem_mem hlt) (by omega)
    rw [compress_lookup _ hl t _ hg a ha1 (by omega), Nat.add_sub_cancel, hg]
    simp [List.getD_eq_getElem?_getD]

theorem SCtx.table_eq (c : SCtx) (h : c.Ok) (s a : Nat) (hs : s < c.dfa.rows.length + 1)
    (ha1 : 1 ≤ a) (ha2 : a < c.names.length + 3) : (tableOf c).table s a = c.dfa.next s a := c.table_few (by have := h.few; omega) s a hs ha1 ha2

theorem SCtx.table_run (c : SCtx) (h : c.Ok) (w : List Nat) (hw : c.letters w) (a : Nat)
    (ha1 : 1 ≤ a) (ha2 : a < c.names.length + 3) :
    (tableOf c).table (c.run w) a = c.run (w ++ [a]) := by
  rw [c.table_eq h _ _ (c.run_lt w hw) ha1 ha2]
  simp [SCtx.run]

theorem table_zero (c : SCtx) (a : Nat) : (tableOf c).table 0 a = 0 := by
  have e : (tableOf c).table 0 a =
      if 0 < c.dfa.rows.length + 1 ∧ a < c.names.length + 3 then (compress c.dfa.rows).nextState 0 a
      else 0 := rfl
  rw [e, Comp.nextState_zero _ _ _ (.inl rfl)]; simp

/-- Result of the search loop of `dfaNextStateByStr`. -/
theorem QDfa.findCol_spec (d : QDfa) (s : Nat) (k : Str) : ∀ (n c : Nat),
    (∀ x, d.findCol s k c n = some x → c ≤ x ∧ x < c + n ∧ d.table s x ≠ 0 ∧ d.names x = k) ∧
    (d.findCol s k c n = none → ∀ x, c ≤ x → x < c + n → ¬ (d.table s x ≠ 0 ∧ d.names x = k))
  | 0, c => by
    refine ⟨by simp [QDfa.findCol], ?_⟩
    intro _ x h1 h2; omega
  | n + 1, c => by
    obtain ⟨h1, h2⟩ := QDfa.findCol_spec d s k n (c + 1)
    unfold QDfa.findCol
    split
    · rename_i hc
      refine ⟨?_, by simp⟩
      intro x hx; cases hx
      exact ⟨Nat.le_refl _, by omega, hc⟩
    · rename_i hc
      refine ⟨?_, ?_⟩
      · intro x hx
        have := h1 x hx
        exact ⟨by omega, by omega, this.2.2⟩
      · intro hn x hx1 hx2
        by_cases hxc : x = c
        · subst hxc; exact hc
        · exact h2 hn x (by omega) (by omega)

theorem tableOf_names (c : SCtx) (a : Nat) (h : 3 ≤ a) :
    (tableOf c).names a = (c.names[a - 3]?).getD [] := by
  have e : (tableOf c).names a = if a = 1 then "other".toList else if a = 2 then "array".toList
      else (c.names[a - 3]?).getD [] := rfl
  rw [e, if_neg (by omega), if_neg (by omega)]

/-- The transition by a label from a reachable state. -/
theorem SCtx.nextByStr_run (c : SCtx) (h : c.Ok) (w : List Nat) (hw : c.letters w) (k : Str) :
    (tableOf c).nextByStr (c.run w) (some k) = c.run (w ++ [c.col (.key k)]) := by
  obtain ⟨f1, f2⟩ := QDfa.findCol_spec (tableOf c) (c.run w) k ((tableOf c).inputsNum - 3) 3
  have hin : (tableOf c).inputsNum = c.names.length + 3 := rfl
  rw [hin, Nat.add_sub_cancel] at f1 f2
  have e : (tableOf c).nextByStr (c.run w) (some k) =
      match (tableOf c).findCol (c.run w) k 3 c.names.length with
      | some a => (tableOf c).table (c.run w) a
      | none => (tableOf c).table (c.run w) 1 := rfl
  rw [e]
  cases hf : (tableOf c).findCol (c.run w) k 3 c.names.length with
  | some x =>
    obtain ⟨g1, g2, g3, g4⟩ := f1 x hf
    rw [tableOf_names c x g1] at g4
    have hlt : x - 3 < c.names.length := by omega
    rw [List.getElem?_eq_getElem hlt] at g4
    simp only [Option.getD_some] at g4
    have hmem : k ∈ c.names := by rw [← g4]; exact List.getElem_mem hlt
    have hidx : c.names.idxOf k = x - 3 := by
      rw [← g4]; exact h.nodup.idxOf_getElem _ _
    have hcol : c.col (.key k) = x := by
      simp only [SCtx.col, if_pos hmem, nameCol, hidx]; omega
    simp only
    rw [hcol, c.table_run h w hw x (by omega) (by omega)]
  | none =>
    have f2 := f2 hf
    simp only
    rw [c.table_run h w hw 1 (by omega) (by omega)]
    by_cases hmem : k ∈ c.names
    · have hlt := List.idxOf_lt_length_of_mem hmem
      have hcol : c.col (.key k) = c.names.idxOf k + 3 := by simp only [SCtx.col, if_pos hmem, nameCol]
      have hz : (tableOf c).table (c.run w) (c.names.idxOf k + 3) = 0 := by
        apply Classical.byContradiction
        intro hne
        refine f2 (c.names.idxOf k + 3) (by omega) (by omega) ⟨hne, ?_⟩
        rw [tableOf_names c _ (by omega), Nat.add_sub_cancel, List.getElem?_eq_getElem hlt]
        simp
      rw [c.table_run h w hw _ (by omega) (by omega)] at hz
      rw [hcol, hz]
      have := h.few
      have hb := buildDfa_other c.rules h.rules h.noOther (c.names.length + 3) w hw
        (c.names.idxOf k + 3) (by omega) (by omega) (by omega)
      have e2 : ∀ x, (buildDfa c.rules (c.names.length + 3)).next
          (w.foldl (buildDfa c.rules (c.names.length + 3)).next 1) x = c.run (w ++ [x]) := by
        intro x; simp [SCtx.run, SCtx.dfa]
      rw [e2, e2] at hb
      exact hb hz
    · simp only [SCtx.col, if_neg hmem]

/-- State 0 is left by no transition. -/
theorem nextByStr_zero (c : SCtx) (k : Option Str) : (tableOf c).nextByStr 0 k = 0 := by
  cases k with
  | none => exact table_zero c 2
  | some k =>
    simp only [QDfa.nextByStr]
    split <;> exact table_zero c _

theorem SCtx.nextByStr_arr (c : SCtx) (h : c.Ok) (w : List Nat) (hw : c.letters w) :
    (tableOf c).nextByStr (c.run w) none = c.run (w ++ [2]) :=
  c.table_run h w hw 2 (by omega) (by omega)

/-- The stop value of the state after a nonempty word. -/
theorem SCtx.stop_run (c : SCtx) (w : List Nat) (hw : c.letters w) (hne : w ≠ []) :
    c.dfa.stop (c.run w) = lastMatch c.rules w :=
  buildDfa_lang c.rules _ w hw hne

theorem SCtx.lower_run (c : SCtx) (w : List Nat) (hw : c.letters w) :
    (tableOf c).lower (c.run w) =
      if c.dfa.stop (c.run w) ≠ 0 then (c.ranges.getD (c.dfa.stop (c.run w) - 1) (0, 0)).1 else 0 := by
  have e : (tableOf c).lower (c.run w) =
    if c.run w < c.dfa.rows.length + 1 ∧ c.dfa.stop (c.run w) ≠ 0 then
      (c.ranges.getD (c.dfa.stop (c.run w) - 1) (0, 0)).1 else 0 := rfl
  rw [e]; simp [c.run_lt w hw]

theorem SCtx.upper_run (c : SCtx) (w : List Nat) (hw : c.letters w) :
    (tableOf c).upper (c.run w) =
      if c.dfa.stop (c.run w) ≠ 0 then (c.ranges.getD (c.dfa.stop (c.run w) - 1) (0, 0)).2 else 0 := by
  have e : (tableOf c).upper (c.run w) =
    if c.run w < c.dfa.rows.length + 1 ∧ c.dfa.stop (c.run w) ≠ 0 then
      (c.ranges.getD (c.dfa.stop (c.run w) - 1) (0, 0)).2 else 0 := rfl
  rw [e]; simp [c.run_lt w hw]

/-- Whether a state is entered by the array letter. -/
def SCtx.byArray (c : SCtx) (s : Nat) : Bool :=
  (List.range (c.dfa.rows.length + 1)).any fun j => (compress c.dfa.rows).nextState j 2 == s

theorem SCtx.accept_run (c : SCtx) (w : List Nat) (hw : c.letters w) :
    (tableOf c).accept (c.run w) = acceptOf c (c.dfa.stop (c.run w)) (c.byArray (c.run w)) := by
  have e : (tableOf c).accept (c.run w) =
    if c.run w < c.dfa.rows.length + 1 then
      acceptOf c (c.dfa.stop (c.run w)) (c.byArray (c.run w)) else .none := rfl
  rw [e]; simp [c.run_lt w hw]

theorem SCtx.accept_zero (c : SCtx) : (tableOf c).accept 0 = .none := by
  have e : (tableOf c).accept 0 =
    if 0 < c.dfa.rows.length + 1 then
      acceptOf c (c.dfa.stop 0) (c.byArray 0) else .none := rfl
  rw [e]; simp [SDfa.stop, acceptOf]

theorem SCtx.range_zero (c : SCtx) : (tableOf c).lower 0 = 0 ∧ (tableOf c).upper 0 = 0 := by
  have e : (tableOf c).lower 0 = if 0 < c.dfa.rows.length + 1 ∧ c.dfa.stop 0 ≠ 0 then
      (c.ranges.getD (c.dfa.stop 0 - 1) (0, 0)).1 else 0 := rfl
  have e' : (tableOf c).upper 0 = if 0 < c.dfa.rows.length + 1 ∧ c.dfa.stop 0 ≠ 0 then
      (c.ranges.getD (c.dfa.stop 0 - 1) (0, 0)).2 else 0 := rfl
  rw [e, e']; simp [SDfa.stop]

/-- A state entered by the array letter after a word counts as such. -/
theorem SCtx.byArray_run (c : SCtx) (h : c.Ok) (w : List Nat) (hw : c.letters w) :
    c.byArray (c.run (w ++ [2])) = true := by
  unfold SCtx.byArray
  rw [List.any_eq_true]
  refine ⟨c.run w, by simpa using c.run_lt w hw, ?_⟩
  have := c.table_run h w hw 2 (by omega) (by omega)
  have e : (tableOf c).table (c.run w) 2 =
      if c.run w < c.dfa.rows.length + 1 ∧ 2 < c.names.length + 3 then (compress c.dfa.rows).nextState (c.run w) 2
      else 0 := rfl
  rw [e, if_pos ⟨c.run_lt w hw, by omega⟩] at this
  simp [this]

/-! ### States along a location -/

/-- The key of a label, `none` for an array element. -/
def labelKey : Label → Option Str
  | .key k => some k
  | .elem _ => none

/-- The element index of a label (0 for a key). -/
def labelIdx : Label → Nat
  | .key _ => 0
  | .elem i => i

/-- State and index with which the automaton meets the value at a location below a value met
with `(st, cnt)`. -/
def locState (d : QDfa) (st cnt : Nat) : Loc → Nat × Nat
  | [] => (st, cnt)
  | x :: l => locState d (d.go st cnt (labelKey x)) (labelIdx x) l

theorem locState_append (d : QDfa) (l1 l2 : Loc) (st cnt : Nat) :
    locState d st cnt (l1 ++ l2) =
      locState d (locState d st cnt l1).1 (locState d st cnt l1).2 l2 := by
  induction l1 generalizing st cnt with
  | nil => rfl
  | cons x l ih => exact ih _ _

/-- Index of the last label, 0 for the root. -/
def lastIdx (l : Loc) : Nat := (l.getLast?.map labelIdx).getD 0

/-- The value at `l` and all containers of it are inside their index ranges. -/
def inRanges (d : QDfa) (run : Loc → Nat) (l : Loc) : Prop :=
  ∀ n, n < l.length → d.inRange (run (l.take n)) (lastIdx (l.take n)) = true

/-- The state at a location is the automaton's state after its word, as long as no index range is
violated on the way. -/
theorem SCtx.locState_eq (c : SCtx) (h : c.Ok) : ∀ (l : Loc),
    (locState (tableOf c) 1 0 l).2 = lastIdx l ∧
    ((inRanges (tableOf c) (fun l => c.run (l.map c.col)) l →
        (locState (tableOf c) 1 0 l).1 = c.run (l.map c.col)) ∧
     (¬ inRanges (tableOf c) (fun l => c.run (l.map c.col)) l → (locState (tableOf c) 1 0 l).1 = 0)) := by
  intro l
  generalize hn : l.length = n
  induction n generalizing l with
  | zero =>
    have : l = [] := List.length_eq_zero_iff.1 hn
    subst this
    refine ⟨rfl, fun _ => rfl, fun h => absurd ?_ h⟩
    intro n hn; simp at hn
  | succ n ih =>
    obtain ⟨l, x, rfl⟩ : ∃ l' x, l = l' ++ [x] := by
      have hne : l ≠ [] := by intro h; rw [h] at hn; simp at hn
      exact ⟨l.dropLast, l.getLast hne, (List.dropLast_concat_getLast hne).symm⟩
    have hl : l.length = n := by simpa using hn
    obtain ⟨i1, i2, i3⟩ := ih l hl
    rw [locState_append]
    have e : ∀ s k, locState (tableOf c) s k [x] =
      ((tableOf c).go s k (labelKey x), labelIdx x) := fun _ _ => rfl
    rw [e]
    refine ⟨by simp [lastIdx], ?_⟩
    have hsplit : inRanges (tableOf c) (fun l => c.run (l.map c.col)) (l ++ [x]) ↔
        inRanges (tableOf c) (fun l => c.run (l.map c.col)) l ∧
          (tableOf c).inRange (c.run (l.map c.col)) (lastIdx l) = true := by
      constructor
      · intro h
        refine ⟨?_, ?_⟩
        · intro m hm
          have := h m (by simp; omega)
          rwa [List.take_append_of_le_length (by omega)] at this
        · have := h l.length (by simp)
          rwa [List.take_left' rfl] at this
      · rintro ⟨h1, h2⟩ m hm
        by_cases hml : m < l.length
        · rw [List.take_append_of_le_length (by omega)]; exact h1 m hml
        · have : m = l.length := by simp at hm; omega
          subst this
          rw [List.take_left' rfl]; exact h2
    rw [hsplit, i1]
    have hword : (l ++ [x]).map c.col = l.map c.col ++ [c.col x] := by simp
    rw [hword]
    have hnext : (tableOf c).nextByStr (c.run (l.map c.col)) (labelKey x) =
        c.run (l.map c.col ++ [c.col x]) := by
      cases x with
      | key k => exact c.nextByStr_run h _ (c.letters_map l) k
      | elem i => exact c.nextByStr_arr h _ (c.letters_map l)
    unfold QDfa.go
    refine ⟨?_, ?_⟩
    · rintro ⟨h1, h2⟩
      rw [i2 h1, h2, if_pos rfl, hnext]
    · intro hnot
      by_cases h1 : inRanges (tableOf c) (fun l => c.run (l.map c.col)) l
      · rw [i2 h1]
        have h2 : ¬ (tableOf c).inRange (c.run (l.map c.col)) (lastIdx l) = true := fun h2 => hnot ⟨h1, h2⟩
        rw [if_neg h2]
      · rw [i3 h1]
        split
        · exact nextByStr_zero c _
        · rfl

end JPS
