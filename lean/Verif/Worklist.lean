/-!
# The worklist loop shared by `RegexBuilder::CreateDFA` and `DFAMixer::CombineSpecial`

Both functions number newly found states in the order of discovery, look a state up with
`std::find` in the list of known states and write one transition row per state.  The state
with list index `i` has number `i + 1` (in the mixer the list is `statelist` without its
unused zero vector at index 0).
-/

namespace JPS

/-- One row: inner loop over the input letters `as` for state `s`; `next s a = none` means that
there is no successor (number 0).  Returns the extended list and the row entries.
Models regex_builder.cpp:53-73 and dfa_mixer.cpp:30-56. -/
def wlRow {σ : Type} [DecidableEq σ] (next : σ → Nat → Option σ) (s : σ) :
    List Nat → List σ → List σ × List Nat
  | [], L => (L, [])
  | a :: as, L =>
    match next s a with
    | none => ((wlRow next s as L).1, 0 :: (wlRow next s as L).2)
    | some t =>
      let L' := if t ∈ L then L else L ++ [t]
      ((wlRow next s as L').1, (L.idxOf t + 1) :: (wlRow next s as L').2)

/-- The outer loop: `p` is the number of processed states and `rows` their rows (entry 0, the
unused letter 0, is 0).  Models regex_builder.cpp:47-76 and dfa_mixer.cpp:27-59. -/
def wlLoop {σ : Type} [DecidableEq σ] (next : σ → Nat → Option σ) (m : Nat) :
    (fuel p : Nat) → List σ → List (List Nat) → List σ × List (List Nat)
  | 0, _, L, rows => (L, rows)
  | fuel + 1, p, L, rows =>
    match L[p]? with
    | none => (L, rows)
    | some s =>
      let r := wlRow next s (List.range' 1 (m - 1)) L
      wlLoop next m fuel (p + 1) r.1 (rows ++ [0 :: r.2])

/-! ### Facts -/

variable {σ : Type} [DecidableEq σ]

/-- Number of an optional state in a list. -/
def numOf (L : List σ) : Option σ → Nat
  | none => 0
  | some t => L.idxOf t + 1

theorem numOf_append {L L2 : List σ} {o : Option σ} (h : ∀ t, o = some t → t ∈ L) :
    numOf (L ++ L2) o = numOf L o := by
  cases o with
  | none => rfl
  | some t => simp [numOf, List.idxOf_append, h t rfl]

/-- Extension by appending, staying duplicate free and inside a universe. -/
structure Grows (U L L' : List σ) : Prop where
  ext : ∃ L2, L' = L ++ L2
  nodup : L.Nodup → L'.Nodup
  univ : L ⊆ U → L' ⊆ U

theorem Grows.refl (U L : List σ) : Grows U L L := ⟨⟨[], by simp⟩, id, id⟩
theorem Grows.trans {U L1 L2 L3 : List σ} (h1 : Grows U L1 L2) (h2 : Grows U L2 L3) :
    Grows U L1 L3 := by
  obtain ⟨⟨a, rfl⟩, b, c⟩ := h1
  obtain ⟨⟨d, rfl⟩, e, f⟩ := h2
  exact ⟨⟨a ++ d, by simp⟩, fun h => e (b h), fun h => f (c h)⟩

theorem Grows.mem {U L L' : List σ} (h : Grows U L L') {t : σ} (ht : t ∈ L) : t ∈ L' := by
  obtain ⟨L2, rfl⟩ := h.ext; simp [ht]

theorem wlRow_spec (next : σ → Nat → Option σ) (U : List σ) (s : σ)
    (hU : ∀ a t, next s a = some t → t ∈ U) : ∀ (as : List Nat) (L : List σ),
    Grows U L (wlRow next s as L).1 ∧
    (wlRow next s as L).2 = as.map (fun a => numOf (wlRow next s as L).1 (next s a)) ∧
    (∀ a ∈ as, ∀ t, next s a = some t → t ∈ (wlRow next s as L).1)
  | [], L => ⟨Grows.refl _ _, rfl, by simp⟩
  | a :: as, L => by
    cases hn : next s a with
    | none =>
      obtain ⟨h1, h2, h3⟩ := wlRow_spec next U s hU as L
      simp only [wlRow, hn]
      refine ⟨h1, ?_, ?_⟩
      · rw [List.map_cons, hn, ← h2]; rfl
      · intro b hb t ht
        rcases List.mem_cons.1 hb with rfl | hb
        · rw [hn] at ht; cases ht
        · exact h3 b hb t ht
    | some t =>
      let L' := if t ∈ L then L else L ++ [t]
      obtain ⟨h1, h2, h3⟩ := wlRow_spec next U s hU as L'
      have htL' : t ∈ L' := by
        simp only [L']; split
        · assumption
        · simp
      have hg : Grows U L L' := by
        simp only [L']
        split
        · exact Grows.refl _ _
        · rename_i hnot
          refine ⟨⟨[t], rfl⟩, ?_, ?_⟩
          · intro hnd
            rw [List.nodup_append]
            refine ⟨hnd, by simp, ?_⟩
            intro x hx y hy
            simp at hy; subst hy
            rintro rfl; exact hnot hx
          · intro hsub x hx
            rcases List.mem_append.1 hx with hx | hx
            · exact hsub hx
            · simp at hx; subst hx; exact hU a x hn
      have hid : L.idxOf t + 1 = numOf (wlRow next s as L').1 (some t) := by
        obtain ⟨L2, hL2⟩ := h1.ext
        rw [hL2, numOf_append (by simpa using htL'), numOf]
        simp only [L']
        split
        · rfl
        · rename_i hnot
          simp [List.idxOf_append, hnot, List.idxOf_eq_length]
      simp only [wlRow, hn]
      refine ⟨hg.trans h1, ?_, ?_⟩
      · rw [List.map_cons, hn, hid]
        exact congrArg _ h2
      · intro b hb u hu
        rcases List.mem_cons.1 hb with rfl | hb
        · rw [hn] at hu; cases hu; exact h1.mem htL'
        · exact h3 b hb u hu

/-- The rows describe the successors of the first `rows.length` states. -/
structure RowsOk (next : σ → Nat → Option σ) (m : Nat) (L : List σ) (rows : List (List Nat)) :
    Prop where
  len : rows.length ≤ L.length
  succ : ∀ i s, i < rows.length → L[i]? = some s → ∀ a, 1 ≤ a → a < m →
    (∀ t, next s a = some t → t ∈ L) ∧ (rows[i]?.bind (·[a]?)) = some (numOf L (next s a))
  rowLen : ∀ r ∈ rows, 1 ≤ m → r.length = m
  zero : ∀ r ∈ rows, r[0]? = some 0

theorem wlLoop_spec (next : σ → Nat → Option σ) (m : Nat) (U : List σ)
    (hU : ∀ s a t, next s a = some t → t ∈ U) : ∀ (fuel p : Nat) (L : List σ)
    (rows : List (List Nat)), L.Nodup → L ⊆ U → rows.length = p → RowsOk next m L rows →
    U.length < fuel + p →
    Grows U L (wlLoop next m fuel p L rows).1 ∧
    RowsOk next m (wlLoop next m fuel p L rows).1 (wlLoop next m fuel p L rows).2 ∧
    (wlLoop next m fuel p L rows).2.length = (wlLoop next m fuel p L rows).1.length := by
  intro fuel
  induction fuel with
  | zero =>
    intro p L rows hnd hsub hp hrows hf
    have h1 := List.Nodup.length_le_of_subset hnd hsub
    have := hrows.len
    omega
  | succ fuel ih =>
    intro p L rows hnd hsub hp hrows hf
    cases hs : L[p]? with
    | none =>
      have e : wlLoop next m (fuel + 1) p L rows = (L, rows) := by simp [wlLoop, hs]
      rw [e]
      refine ⟨Grows.refl _ _, hrows, ?_⟩
      have := hrows.len
      rw [List.getElem?_eq_none_iff] at hs
      simp only; omega
    | some s =>
      obtain ⟨h1, h2, h3⟩ := wlRow_spec next U s (hU s) (List.range' 1 (m - 1)) L
      have e : wlLoop next m (fuel + 1) p L rows =
          wlLoop next m fuel (p + 1) (wlRow next s (List.range' 1 (m - 1)) L).1
            (rows ++ [0 :: (wlRow next s (List.range' 1 (m - 1)) L).2]) := by
        simp [wlLoop, hs]
      rw [e]
      generalize wlRow next s (List.range' 1 (m - 1)) L = R at *
      obtain ⟨L', row⟩ := R
      simp only at h1 h2 h3 ⊢
      have hlt : p < L.length := (List.getElem?_eq_some_iff.1 hs).1
      obtain ⟨L2, hL2⟩ := h1.ext
      have := ih (p + 1) L' (rows ++ [0 :: row]) (h1.nodup hnd) (h1.univ hsub) (by simp [hp]) ?_ (by omega)
      · exact ⟨h1.trans this.1, this.2⟩
      · constructor
        · simp [hL2]; omega
        · intro i s' hi hs' a ha1 ha2
          by_cases hip : i < p
          · have hsL : L[i]? = some s' := by
              rw [hL2, List.getElem?_append_left (by omega)] at hs'; exact hs'
            obtain ⟨g1, g2⟩ := hrows.succ i s' (by omega) hsL a ha1 ha2
            refine ⟨fun t ht => h1.mem (g1 t ht), ?_⟩
            rw [List.getElem?_append_left (by omega), g2, hL2, numOf_append g1]
          · have hip : i = p := by simp at hi; omega
            subst hip
            have hss : s' = s := by
              rw [hL2, List.getElem?_append_left hlt, hs] at hs'
              exact (Option.some.inj hs').symm
            subst hss
            have hmem : a ∈ List.range' 1 (m - 1) := by simp [List.mem_range']; exact ⟨a - 1, by omega, by omega⟩
            refine ⟨h3 a hmem, ?_⟩
            rw [List.getElem?_append_right (by omega), hp]
            simp only [Nat.sub_self, List.getElem?_cons_zero, Option.bind_some]
            obtain ⟨b, rfl⟩ : ∃ b, a = b + 1 := ⟨a - 1, by omega⟩
            rw [List.getElem?_cons_succ, h2, List.getElem?_map, List.getElem?_range' (by omega)]
            simp [Nat.add_comm]
        · intro r hr hm
          rcases List.mem_append.1 hr with hr | hr
          · exact hrows.rowLen r hr hm
          · simp at hr; subst hr
            simp [h2]; omega
        · intro r hr
          rcases List.mem_append.1 hr with hr | hr
          · exact hrows.zero r hr
          · simp at hr; subst hr; rfl

/-- Table lookup by state number. -/
def rowsNext (rows : List (List Nat)) (s a : Nat) : Nat :=
  if s = 0 then 0 else ((rows[s - 1]?.bind (·[a]?)).getD 0)

/-- Run of the abstract machine. -/
def optRun (next : σ → Nat → Option σ) (o : Option σ) (w : List Nat) : Option σ :=
  w.foldl (fun o a => o.bind (next · a)) o

/-- The complete exploration from one state. -/
structure Explored (next : σ → Nat → Option σ) (m : Nat) (init : σ) (L : List σ)
    (rows : List (List Nat)) : Prop where
  nodup : L.Nodup
  first : L[0]? = some init
  len : rows.length = L.length
  ok : RowsOk next m L rows

theorem wl_explored (next : σ → Nat → Option σ) (m : Nat) (init : σ) (U : List σ)
    (hinit : init ∈ U) (hU : ∀ s a t, next s a = some t → t ∈ U) (fuel : Nat)
    (hf : U.length < fuel) :
    Explored next m init (wlLoop next m fuel 0 [init] []).1 (wlLoop next m fuel 0 [init] []).2 := by
  have h := wlLoop_spec next m U hU fuel 0 [init] [] (by simp) (by simpa using hinit) rfl
    ⟨by simp, by simp, by simp, by simp⟩ hf
  obtain ⟨h1, h2, h3⟩ := h
  obtain ⟨L2, hL2⟩ := h1.ext
  exact ⟨h1.nodup (by simp), by rw [hL2]; rfl, h3, h2⟩

theorem Explored.step {next : σ → Nat → Option σ} {m : Nat} {init : σ} {L : List σ}
    {rows : List (List Nat)} (h : Explored next m init L rows) {o : Option σ}
    (ho : ∀ t, o = some t → t ∈ L) {a : Nat} (h1 : 1 ≤ a) (h2 : a < m) :
    (∀ t, o.bind (next · a) = some t → t ∈ L) ∧
    rowsNext rows (numOf L o) a = numOf L (o.bind (next · a)) := by
  cases o with
  | none => exact ⟨by simp, by simp [rowsNext, numOf]⟩
  | some s =>
    have hs := ho s rfl
    have hlt := List.idxOf_lt_length_of_mem hs
    have hget : L[L.idxOf s]? = some s := by
      rw [List.getElem?_eq_getElem hlt, List.getElem_idxOf]
    obtain ⟨g1, g2⟩ := h.ok.succ (L.idxOf s) s (by rw [h.len]; exact hlt) hget a h1 h2
    refine ⟨g1, ?_⟩
    show rowsNext rows (L.idxOf s + 1) a = numOf L (next s a)
    unfold rowsNext
    rw [if_neg (Nat.succ_ne_zero _), Nat.add_sub_cancel, g2]
    rfl

theorem Explored.run {next : σ → Nat → Option σ} {m : Nat} {init : σ} {L : List σ}
    {rows : List (List Nat)} (h : Explored next m init L rows) : ∀ (w : List Nat) (o : Option σ),
    (∀ t, o = some t → t ∈ L) → (∀ a ∈ w, 1 ≤ a ∧ a < m) →
    (∀ t, optRun next o w = some t → t ∈ L) ∧
    w.foldl (rowsNext rows) (numOf L o) = numOf L (optRun next o w)
  | [], o, ho, _ => ⟨ho, rfl⟩
  | a :: w, o, ho, hw => by
    obtain ⟨h1, h2⟩ := h.step ho (hw a (by simp)).1 (hw a (by simp)).2
    have := Explored.run h w (o.bind (next · a)) h1 (fun b hb => hw b (by simp [hb]))
    simp only [List.foldl_cons, h2]
    exact this

theorem Explored.init_num {next : σ → Nat → Option σ} {m : Nat} {init : σ} {L : List σ}
    {rows : List (List Nat)} (h : Explored next m init L rows) :
    init ∈ L ∧ numOf L (some init) = 1 := by
  have hf := h.first
  cases L with
  | nil => simp at hf
  | cons x L => simp at hf; subst hf; simp [numOf]

/-- From state number 1 the table simulates the machine. -/
theorem Explored.run1 {next : σ → Nat → Option σ} {m : Nat} {init : σ} {L : List σ}
    {rows : List (List Nat)} (h : Explored next m init L rows) (w : List Nat)
    (hw : ∀ a ∈ w, 1 ≤ a ∧ a < m) :
    (∀ t, optRun next (some init) w = some t → t ∈ L) ∧
    w.foldl (rowsNext rows) 1 = numOf L (optRun next (some init) w) := by
  have := h.run w (some init) (by intro t ht; cases ht; exact h.init_num.1) hw
  rwa [h.init_num.2] at this

theorem numOf_le {L : List σ} {o : Option σ} (ho : ∀ t, o = some t → t ∈ L) :
    numOf L o ≤ L.length := by
  cases o with
  | none => exact Nat.zero_le _
  | some t => exact List.idxOf_lt_length_of_mem (ho t rfl)

theorem numOf_get {L : List σ} {o : Option σ} (ho : ∀ t, o = some t → t ∈ L) :
    (if numOf L o = 0 then none else L[numOf L o - 1]?) = o := by
  cases o with
  | none => rfl
  | some t =>
    have hlt := List.idxOf_lt_length_of_mem (ho t rfl)
    simp only [numOf, Nat.add_sub_cancel, if_neg (Nat.succ_ne_zero _)]
    rw [List.getElem?_eq_getElem hlt, List.getElem_idxOf]

end JPS
