/-!
# `Lexer/dfa_compressed.cpp`, `Lexer/dfa_compressed.hpp`: the compressed transition table

The four vectors are modelled by functions that are 0 where nothing was written.  The C++ code
resizes them (filling with 0) before every access: `addEdge` lines 25-29, `checkSpace`
dfa_compressed.hpp:69-74.
-/

namespace JPS

/-- `DFACompressed`, dfa_compressed.hpp:29-41. -/
structure Comp where
  dflt : Nat → Int
  base : Nat → Int
  next : Nat → Nat
  check : Nat → Nat
  top : Nat
  bottom : Nat

/-- The initial members, dfa_compressed.hpp:29-41. -/
def Comp.empty : Comp := ⟨fun _ => 0, fun _ => 0, fun _ => 0, fun _ => 0, 0, 0⟩

/-- `INT_MIN`. -/
def intMin : Int := -2147483648

/-- Write into a vector. -/
def upd {α : Type} (f : Nat → α) (i : Nat) (x : α) : Nat → α := fun j => if j = i then x else f j

/-- `nextState`, dfa_compressed.cpp:7-16.  The C++ function follows `m_default` recursively;
`fuel` bounds the number of links. -/
def Comp.lookup : Nat → Comp → Nat → Nat → Nat
  | 0, _, _, _ => 0
  | f + 1, c, s, ch =>
    if s = 0 ∨ ch = 0 then 0
    else
      let k := c.base s + (ch : Int)
      if 0 ≤ k ∧ k < (c.bottom : Int) ∧ c.check k.toNat = s then c.next k.toNat
      else if c.dflt s > 0 then c.lookup f (c.dflt s).toNat ch
      else (-(c.dflt s)).toNat

/-- `nextState` with enough fuel: links lead to smaller states. -/
def Comp.nextState (c : Comp) (s ch : Nat) : Nat := c.lookup (s + 1) s ch

/-- Letters `1 .. objvec.size()-1` whose entry differs from the default `dv`: the condition of
all three inner loops of `createNewArea` (dfa_compressed.cpp:49-50, 65-66, 74-75) and
`createLinkArea` (94-95, 110-111, 119-120). -/
def diffs (dv : Nat → Nat) (vec : List Nat) : List Nat :=
  (List.range' 1 (vec.length - 1)).filter fun a => decide (dv a ≠ vec.getD a 0)

/-- The writing loop, dfa_compressed.cpp:74-78 and 119-123; the default is evaluated again on
the table under construction. -/
def Comp.write (dv : Comp → Nat → Nat) (s : Nat) (vec : List Nat) (off : Int) :
    List Nat → Comp → Comp
  | [], c => c
  | a :: as, c =>
    if dv c a ≠ vec.getD a 0 then
      Comp.write dv s vec off as
        { c with next := upd c.next (off + (a : Int)).toNat (vec.getD a 0)
                 check := upd c.check (off + (a : Int)).toNat s }
    else Comp.write dv s vec off as c

/-- `while (Top < Bottom && m_check[Top] != 0) Top++`, dfa_compressed.cpp:82 and 127. -/
def Comp.bumpTop : Nat → Comp → Comp
  | 0, c => c
  | f + 1, c =>
    if c.top < c.bottom ∧ c.check c.top ≠ 0 then Comp.bumpTop f { c with top := c.top + 1 } else c

/-- The loop over `i` of `createNewArea` (dfa_compressed.cpp:45-85) and `createLinkArea`
(90-130), with `n` iterations left; `dv` is the default (`base` or `nextState(base, a)`). -/
def Comp.place (dv : Comp → Nat → Nat) (s : Nat) (vec : List Nat) : Nat → Nat → Comp → Comp
  | 0, _, c => c
  | n + 1, i, c =>
    match diffs (dv c) vec with
    | [] => { c with base := upd c.base s intMin }
    | a0 :: ds =>
      let off : Int := (i : Int) - (a0 : Int)
      let last := (a0 :: ds).getLast (by simp)
      if (a0 :: ds).all (fun a => c.check (off + (a : Int)).toNat == 0) then
        let c := c.write dv s vec off (List.range' 1 (vec.length - 1))
        let e := (off + (last : Int) + 1).toNat
        let c := { c with base := upd c.base s off
                          bottom := if c.bottom < e then e else c.bottom }
        c.bumpTop (c.bottom - c.top)
      else Comp.place dv s vec n (i + 1) c

/-- `createNewArea`, dfa_compressed.cpp:43-86. -/
def Comp.newArea (c : Comp) (base s : Nat) (vec : List Nat) : Comp :=
  let c := { c with dflt := upd c.dflt s (-(base : Int)) }
  c.place (fun _ _ => base) s vec (c.bottom - c.top + 1) c.top

/-- `createLinkArea`, dfa_compressed.cpp:88-131. -/
def Comp.linkArea (c : Comp) (base s : Nat) (vec : List Nat) : Comp :=
  let c := { c with dflt := upd c.dflt s (base : Int) }
  c.place (fun c a => c.nextState base a) s vec (c.bottom - c.top + 1) c.top

/-- `compareState`, dfa_compressed.hpp:46-54: the loop over the letters with `counter`. -/
def Comp.cmpLoop (c : Comp) (s : Nat) (vec : List Nat) : List Nat → Int → Bool
  | [], _ => true
  | a :: as, counter =>
    let counter := if vec.getD a 0 ≠ c.nextState s a then counter - 1 else counter
    if counter ≤ 0 then false else c.cmpLoop s vec as counter

/-- `compareState`, dfa_compressed.hpp:46-54. -/
def Comp.compareState (c : Comp) (s : Nat) (vec : List Nat) : Bool :=
  if c.dflt s > 0 then false else c.cmpLoop s vec (List.range' 1 (vec.length - 1)) 10

/-- `getValidSize`, dfa_compressed.hpp:56-67: the most frequent entry (the smallest one in case
of a tie) and its number of occurrences. -/
def mostFrq (vec : List Nat) : Nat × Nat :=
  (List.range (vec.foldr max 0 + 1)).foldl
    (fun b a => if vec.count a > b.2 then (a, vec.count a) else b) (0, 0)

/-- `addEdge`, dfa_compressed.cpp:18-41 (the argument `max` only sizes the vectors). -/
def Comp.addEdge (c : Comp) (s : Nat) (vec : List Nat) : Comp :=
  let q := mostFrq vec
  if vec.length - q.2 ≤ 10 then c.newArea q.1 s vec
  else
    match (List.range' 1 (s - 1)).find? (fun i => c.compareState i vec) with
    | some i => c.linkArea i s vec
    | none => c.newArea q.1 s vec

/-- The calls of `addEdge` made by the mixer (dfa_mixer.cpp:57): rows of states
`s, s+1, ...` in order. -/
def Comp.addRows (c : Comp) (s : Nat) : List (List Nat) → Comp
  | [] => c
  | r :: rs => (c.addEdge s r).addRows (s + 1) rs

/-! ### Invariant -/

theorem upd_same {α : Type} (f : Nat → α) (i : Nat) (x : α) : upd f i x i = x := by simp [upd]
theorem upd_ne {α : Type} (f : Nat → α) {i j : Nat} (x : α) (h : j ≠ i) : upd f i x j = f j := by
  simp [upd, h]

/-- States up to `n` have been added. -/
structure Comp.Inv (c : Comp) (n : Nat) : Prop where
  cell : ∀ k, c.check k ≠ 0 → k < c.bottom ∧ c.check k ≤ n
  top : c.top ≤ c.bottom
  link : ∀ s, 1 ≤ s → s ≤ n → c.dflt s > 0 →
    (c.dflt s).toNat < s ∧ c.dflt (c.dflt s).toNat ≤ 0

theorem Comp.Inv.empty : Comp.Inv .empty 0 :=
  ⟨by simp [Comp.empty], by simp [Comp.empty], by intro s h1 h2; omega⟩

/-- `c'` extends `c`, only state `s` and free cells changed. -/
structure Comp.Ext (c c' : Comp) (s : Nat) : Prop where
  dflt : ∀ t, t ≠ s → c'.dflt t = c.dflt t
  base : ∀ t, t ≠ s → c'.base t = c.base t
  bottom : c.bottom ≤ c'.bottom
  check : ∀ k t, t ≠ s → t ≠ 0 → (c'.check k = t ↔ c.check k = t)
  next : ∀ k, c.check k ≠ 0 → c'.next k = c.next k

/-- Lookup of old states is not affected. -/
theorem Comp.lookup_ext {c c' : Comp} {n s : Nat} (hi : c.Inv n) (hs : n < s) (he : c.Ext c' s) :
    ∀ (f t ch : Nat), t ≤ n → c'.lookup f t ch = c.lookup f t ch
  | 0, _, _, _ => rfl
  | f + 1, t, ch, ht => by
    unfold Comp.lookup
    by_cases h0 : t = 0 ∨ ch = 0
    · simp [h0]
    rw [if_neg h0, if_neg h0]
    have ht0 : t ≠ 0 := fun h => h0 (.inl h)
    have hts : t ≠ s := by omega
    simp only [he.base t hts, he.dflt t hts]
    by_cases hk : 0 ≤ c.base t + (ch : Int) ∧ c.base t + (ch : Int) < (c.bottom : Int) ∧
        c.check (c.base t + (ch : Int)).toNat = t
    · have hk' : 0 ≤ c.base t + (ch : Int) ∧ c.base t + (ch : Int) < (c'.bottom : Int) ∧
          c'.check (c.base t + (ch : Int)).toNat = t := by
        have := he.bottom
        exact ⟨hk.1, by omega, (he.check _ t hts ht0).2 hk.2.2⟩
      rw [if_pos hk, if_pos hk', he.next _ (by rw [hk.2.2]; exact ht0)]
    · have hk' : ¬ (0 ≤ c.base t + (ch : Int) ∧ c.base t + (ch : Int) < (c'.bottom : Int) ∧
          c'.check (c.base t + (ch : Int)).toNat = t) := by
        rintro ⟨h1, _, h3⟩
        have h4 := (he.check _ t hts ht0).1 h3
        have h5 := (hi.cell _ (by rw [h4]; exact ht0)).1
        exact hk ⟨h1, by omega, h4⟩
      rw [if_neg hk, if_neg hk']
      by_cases hd : c.dflt t > 0
      · rw [if_pos hd, if_pos hd]
        have := hi.link t (by omega) ht hd
        exact Comp.lookup_ext hi hs he f _ ch (by omega)
      · rw [if_neg hd, if_neg hd]

/-- More fuel does not change the result. -/
theorem Comp.lookup_fuel {c : Comp} {n : Nat} (hi : c.Inv n) :
    ∀ (f t ch : Nat), t ≤ n → t < f → c.lookup (f + 1) t ch = c.lookup f t ch
  | 0, _, _, _, h => by omega
  | f + 1, t, ch, ht, h => by
    rw [Comp.lookup]
    conv => rhs; rw [Comp.lookup]
    by_cases h0 : t = 0 ∨ ch = 0
    · simp [h0]
    · have h0' : t ≠ 0 := fun h => h0 (.inl h)
      rw [if_neg h0, if_neg h0]
      simp only
      split
      · rfl
      · split
        · rename_i hd
          have := hi.link t (by omega) ht hd
          exact Comp.lookup_fuel hi f _ ch (by omega) (by omega)
        · rfl

theorem Comp.lookup_fuel_le {c : Comp} {n : Nat} (hi : c.Inv n) {t ch : Nat} (ht : t ≤ n) :
    ∀ (f : Nat), t + 1 ≤ f → c.lookup f t ch = c.nextState t ch := by
  intro f hf
  induction f with
  | zero => omega
  | succ f ih =>
    by_cases h : t + 1 = f + 1
    · have : f = t := by omega
      subst this; rfl
    · rw [Comp.lookup_fuel hi f t ch ht (by omega)]
      exact ih (by omega)

/-- The default used for a new state must not depend on free cells. -/
structure DvOk (dv : Comp → Nat → Nat) (n s : Nat) : Prop where
  ext : ∀ c c', c.Inv n → c.Ext c' s → ∀ a, dv c' a = dv c a

/-- Effect of the writing loop. -/
theorem Comp.write_spec {dv : Comp → Nat → Nat} {n s : Nat} {vec : List Nat} {off : Int} {c0 : Comp}
    (hi : c0.Inv n) (hs : n < s) (hdv : DvOk dv n s) :
    ∀ (as : List Nat) (c : Comp), as.Nodup →
      c0.Ext c s → c.bottom = c0.bottom → c.top = c0.top → c.dflt = c0.dflt → c.base = c0.base →
      (∀ a ∈ as, dv c0 a ≠ vec.getD a 0 → 0 ≤ off + (a : Int) ∧ c0.check (off + (a : Int)).toNat = 0) →
      let c' := c.write dv s vec off as
      c0.Ext c' s ∧ c'.bottom = c0.bottom ∧ c'.top = c0.top ∧ c'.dflt = c0.dflt ∧ c'.base = c0.base ∧
      (∀ a ∈ as, dv c0 a ≠ vec.getD a 0 →
        c'.check (off + (a : Int)).toNat = s ∧ c'.next (off + (a : Int)).toNat = vec.getD a 0) ∧
      (∀ k, c'.check k = s → c.check k = s ∨
        ∃ a ∈ as, dv c0 a ≠ vec.getD a 0 ∧ k = (off + (a : Int)).toNat) ∧
      (∀ k, c.check k = s → (∀ a ∈ as, dv c0 a ≠ vec.getD a 0 → k ≠ (off + (a : Int)).toNat) →
        c'.check k = s ∧ c'.next k = c.next k)
  | [], c, _, he, h1, h2, h3, h4, _ => by
    refine ⟨he, h1, h2, h3, h4, by simp, ?_, ?_⟩
    · intro k hk; exact .inl hk
    · intro k hk _; exact ⟨hk, rfl⟩
  | a :: as, c, hnd, he, h1, h2, h3, h4, hfree => by
    have hnd' := List.nodup_cons.1 hnd
    have hdvc : dv c a = dv c0 a := hdv.ext c0 c hi he a
    unfold Comp.write
    rw [hdvc]
    by_cases hd : dv c0 a ≠ vec.getD a 0
    · rw [if_pos hd]
      have hfa := hfree a (by simp) hd
      have hs0 : s ≠ 0 := by omega
      have hE : c0.Ext { c with next := upd c.next (off + (a : Int)).toNat (vec.getD a 0)
                                check := upd c.check (off + (a : Int)).toNat s } s := by
        refine ⟨he.dflt, he.base, he.bottom, ?_, ?_⟩
        · intro k t ht ht0
          simp only
          by_cases hk : k = (off + (a : Int)).toNat
          · subst hk
            rw [upd_same, hfa.2]
            constructor
            · intro h; exact absurd h.symm ht
            · intro h; exact absurd h.symm ht0
          · rw [upd_ne _ _ hk]; exact he.check k t ht ht0
        · intro k hk
          have hne : k ≠ (off + (a : Int)).toNat := by
            intro h; subst h; exact hk hfa.2
          simp only
          rw [upd_ne _ _ hne]; exact he.next k hk
      have ih := Comp.write_spec hi hs hdv as _ hnd'.2 hE h1 h2 h3 h4
        (fun b hb => hfree b (by simp [hb]))
      simp only at ih ⊢
      obtain ⟨g1, g2, g3, g4, g5, g6, g7, g8⟩ := ih
      have hinj : ∀ b ∈ as, dv c0 b ≠ vec.getD b 0 → (off + (a : Int)).toNat ≠ (off + (b : Int)).toNat := by
        intro b hb hdb heq
        have hfb := hfree b (by simp [hb]) hdb
        have : (a : Int) = (b : Int) := by
          have := hfa.1; have := hfb.1; omega
        have : a = b := by omega
        subst this; exact hnd'.1 hb
      refine ⟨g1, g2, g3, g4, g5, ?_, ?_, ?_⟩
      · intro b hb hdb
        rcases List.mem_cons.1 hb with rfl | hb
        · have := g8 (off + (b : Int)).toNat (upd_same _ _ _) hinj
          rw [upd_same] at this
          exact this
        · exact g6 b hb hdb
      · intro k hk
        rcases g7 k hk with h | ⟨b, hb, h⟩
        · by_cases hka : k = (off + (a : Int)).toNat
          · exact .inr ⟨a, by simp, hd, hka⟩
          · rw [upd_ne _ _ hka] at h; exact .inl h
        · exact .inr ⟨b, by simp [hb], h⟩
      · intro k hk hno
        have hka := hno a (by simp) hd
        have := g8 k (by rw [upd_ne _ _ hka]; exact hk) (fun b hb => hno b (by simp [hb]))
        rw [upd_ne _ _ hka] at this
        exact this
    · rw [if_neg hd]
      have ih := Comp.write_spec hi hs hdv as c hnd'.2 he h1 h2 h3 h4
        (fun b hb => hfree b (by simp [hb]))
      simp only at ih ⊢
      obtain ⟨g1, g2, g3, g4, g5, g6, g7, g8⟩ := ih
      refine ⟨g1, g2, g3, g4, g5, ?_, ?_, ?_⟩
      · intro b hb hdb
        rcases List.mem_cons.1 hb with rfl | hb
        · exact absurd hdb hd
        · exact g6 b hb hdb
      · intro k hk
        rcases g7 k hk with h | ⟨b, hb, h⟩
        · exact .inl h
        · exact .inr ⟨b, by simp [hb], h⟩
      · intro k hk hno
        exact g8 k hk (fun b hb => hno b (by simp [hb]))

theorem Comp.bumpTop_spec : ∀ (f : Nat) (c : Comp), c.top ≤ c.bottom →
    ∃ t, c.bumpTop f = { c with top := t } ∧ t ≤ c.bottom
  | 0, c, h => ⟨c.top, rfl, h⟩
  | f + 1, c, h => by
    unfold Comp.bumpTop
    split
    · rename_i hc
      obtain ⟨t, h1, h2⟩ := Comp.bumpTop_spec f { c with top := c.top + 1 } (by simp; omega)
      exact ⟨t, h1, h2⟩
    · exact ⟨c.top, rfl, h⟩

theorem mem_diffs {dv : Nat → Nat} {vec : List Nat} {a : Nat} :
    a ∈ diffs dv vec ↔ 1 ≤ a ∧ a < vec.length ∧ dv a ≠ vec.getD a 0 := by
  simp only [diffs, List.mem_filter, List.mem_range'_1, decide_eq_true_eq]
  constructor
  · rintro ⟨⟨h1, h2⟩, h3⟩; exact ⟨h1, by omega, h3⟩
  · rintro ⟨h1, h2, h3⟩; exact ⟨⟨h1, by omega⟩, h3⟩

theorem diffs_sorted (dv : Nat → Nat) (vec : List Nat) : (diffs dv vec).Pairwise (· < ·) :=
  List.Pairwise.filter _ List.pairwise_lt_range'

theorem sorted_getLast : ∀ (l : List Nat) (h : l ≠ []), l.Pairwise (· < ·) → ∀ a ∈ l, a ≤ l.getLast h
  | [x], _, _, a, ha => by simp at ha; simp [ha]
  | x :: y :: l, _, hp, a, ha => by
    have ih := sorted_getLast (y :: l) (by simp) (List.pairwise_cons.1 hp).2
    rw [List.getLast_cons (by simp)]
    rcases List.mem_cons.1 ha with rfl | ha
    · have h1 := (List.pairwise_cons.1 hp).1 y (by simp)
      have h2 := ih y (by simp)
      omega
    · exact ih a ha

/-- Placing succeeds and the new state's own cells hold the entries that differ. -/
theorem Comp.place_spec {dv : Comp → Nat → Nat} {n s : Nat} {vec : List Nat} {c : Comp}
    (hi : c.Inv n) (hs : n < s) (hdv : DvOk dv n s) (hlen : vec.length ≤ 2147483648) :
    ∀ (m i : Nat), i + m = c.bottom + 1 → 0 < m →
      let c' := c.place dv s vec m i
      c.Ext c' s ∧ c'.dflt = c.dflt ∧ c'.top ≤ c'.bottom ∧
      (∀ k, c'.check k ≠ 0 → k < c'.bottom) ∧
      (∀ a, 1 ≤ a → a < vec.length →
        (dv c a ≠ vec.getD a 0 → 0 ≤ c'.base s + (a : Int) ∧
          c'.base s + (a : Int) < (c'.bottom : Int) ∧
          c'.check (c'.base s + (a : Int)).toNat = s ∧
          c'.next (c'.base s + (a : Int)).toNat = vec.getD a 0) ∧
        (dv c a = vec.getD a 0 → ¬ (0 ≤ c'.base s + (a : Int) ∧
          c'.check (c'.base s + (a : Int)).toNat = s)))
  | 0, _, _, h => by omega
  | m + 1, i, him, _ => by
    have hs0 : s ≠ 0 := by omega
    have hsno : ∀ k, c.check k ≠ s := by
      intro k hk
      have := (hi.cell k (by rw [hk]; exact hs0)).2
      omega
    unfold Comp.place
    cases hd : diffs (dv c) vec with
    | nil =>
      simp only
      refine ⟨⟨fun _ _ => rfl, fun t ht => upd_ne _ _ ht, Nat.le_refl _, fun _ _ _ _ => Iff.rfl,
        fun _ _ => rfl⟩, trivial, hi.top, fun k hk => (hi.cell k hk).1, ?_⟩
      intro a h1 h2
      refine ⟨?_, ?_⟩
      · intro h
        have : a ∈ diffs (dv c) vec := mem_diffs.2 ⟨h1, h2, h⟩
        rw [hd] at this; cases this
      · intro _ h
        rw [upd_same] at h
        have := h.1
        unfold intMin at this
        omega
    | cons a0 ds =>
      simp only
      have hmem : ∀ a, a ∈ a0 :: ds ↔ 1 ≤ a ∧ a < vec.length ∧ dv c a ≠ vec.getD a 0 := by
        intro a; rw [← hd]; exact mem_diffs
      have hsorted : (a0 :: ds).Pairwise (· < ·) := by rw [← hd]; exact diffs_sorted _ _
      have hge : ∀ a ∈ a0 :: ds, a0 ≤ a := by
        intro a ha
        rcases List.mem_cons.1 ha with rfl | ha
        · exact Nat.le_refl _
        · exact Nat.le_of_lt ((List.pairwise_cons.1 hsorted).1 a ha)
      split
      · rename_i hall
        rw [List.all_eq_true] at hall
        have hfree : ∀ a ∈ List.range' 1 (vec.length - 1), dv c a ≠ vec.getD a 0 →
            0 ≤ ((i : Int) - (a0 : Int)) + (a : Int) ∧
              c.check (((i : Int) - (a0 : Int)) + (a : Int)).toNat = 0 := by
          intro a ha hda
          rw [List.mem_range'_1] at ha
          have ha' := (hmem a).2 ⟨ha.1, by omega, hda⟩
          have := hge a ha'
          refine ⟨by omega, ?_⟩
          simpa using hall a ha'
        have hw := Comp.write_spec (off := (i : Int) - (a0 : Int)) (vec := vec) hi hs hdv
          (List.range' 1 (vec.length - 1)) c List.nodup_range'
          ⟨fun _ _ => rfl, fun _ _ => rfl, Nat.le_refl _, fun _ _ _ _ => Iff.rfl, fun _ _ => rfl⟩
          rfl rfl rfl rfl hfree
        simp only at hw
        obtain ⟨g1, g2, g3, g4, g5, g6, g7, _⟩ := hw
        generalize c.write dv s vec ((i : Int) - (a0 : Int)) (List.range' 1 (vec.length - 1)) = cw at *
        have hlast := sorted_getLast (a0 :: ds) (by simp) hsorted
        generalize (a0 :: ds).getLast (by simp) = last at *
        generalize hB : (if cw.bottom < ((i : Int) - (a0 : Int) + (last : Int) + 1).toNat then
          ((i : Int) - (a0 : Int) + (last : Int) + 1).toNat else cw.bottom) = B
        have hB1 : cw.bottom ≤ B := by rw [← hB]; split <;> omega
        have hB2 : ((i : Int) - (a0 : Int) + (last : Int) + 1).toNat ≤ B := by rw [← hB]; split <;> omega
        have htop : cw.top ≤ B := by rw [g3]; have := hi.top; omega
        obtain ⟨t, ht1, ht2⟩ := Comp.bumpTop_spec (B - cw.top)
          { cw with base := upd cw.base s ((i : Int) - (a0 : Int)), bottom := B } htop
        rw [ht1]
        simp only at ht2 ⊢
        rw [upd_same]
        have hown : ∀ a, 1 ≤ a → a < vec.length → dv c a ≠ vec.getD a 0 →
            0 ≤ (i : Int) - (a0 : Int) + (a : Int) ∧ (i : Int) - (a0 : Int) + (a : Int) < (B : Int) := by
          intro a h1 h2 h3
          have h4 := (hmem a).2 ⟨h1, h2, h3⟩
          have h5 := hge a h4
          have h6 := hlast a h4
          omega
        have hcell : ∀ k, cw.check k = s → ∃ a, 1 ≤ a ∧ a < vec.length ∧ dv c a ≠ vec.getD a 0 ∧
            k = ((i : Int) - (a0 : Int) + (a : Int)).toNat := by
          intro k hk
          rcases g7 k hk with h | ⟨a, ha, hda, he⟩
          · exact absurd h (hsno k)
          · rw [List.mem_range'_1] at ha
            exact ⟨a, ha.1, by omega, hda, he⟩
        refine ⟨⟨?_, ?_, ?_, g1.check, g1.next⟩, g4, ht2, ?_, ?_⟩
        · intro t ht; simp only; rw [g4]
        · intro t ht; simp only; rw [upd_ne _ _ ht, g5]
        · simp only; omega
        · intro k hk
          by_cases hks : cw.check k = s
          · obtain ⟨a, h1, h2, h3, h4⟩ := hcell k hks
            have := hown a h1 h2 h3
            omega
          · have h5 := (g1.check k (cw.check k) hks hk).1 rfl
            have := (hi.cell k (by rw [h5]; exact hk)).1
            omega
        · intro a h1 h2
          refine ⟨?_, ?_⟩
          · intro h3
            have ha : a ∈ List.range' 1 (vec.length - 1) := by rw [List.mem_range'_1]; omega
            have h6 := g6 a ha h3
            have h5 := hown a h1 h2 h3
            exact ⟨h5.1, h5.2, h6⟩
          · rintro h3 ⟨h4, h5⟩
            obtain ⟨b, e1, e2, e3, e4⟩ := hcell _ h5
            have := hown b e1 e2 e3
            have : a = b := by omega
            subst this
            exact e3 h3
      · rename_i hall
        have hm : 0 < m := by
          apply Nat.pos_of_ne_zero
          rintro rfl
          apply hall
          rw [List.all_eq_true]
          intro a ha
          have := hge a ha
          simp only [beq_iff_eq]
          apply Classical.byContradiction
          intro hc
          have := (hi.cell _ hc).1
          omega
        exact Comp.place_spec hi hs hdv hlen m (i + 1) (by omega) hm

/-- Entries of the added rows are found. -/
def Comp.Holds (c : Comp) (t : Nat) (vec : List Nat) : Prop :=
  ∀ a, 1 ≤ a → a < vec.length → c.nextState t a = vec.getD a 0

theorem Comp.inv_dflt {c : Comp} {n : Nat} (hi : c.Inv n) (x : Int) :
    ({ c with dflt := upd c.dflt (n + 1) x } : Comp).Inv n := by
  refine ⟨hi.cell, hi.top, ?_⟩
  simp only
  intro s h1 h2 h3
  rw [upd_ne _ _ (by omega)] at h3 ⊢
  have := hi.link s h1 h2 h3
  rw [upd_ne _ _ (by omega)]
  exact this

/-- Adding a state with default value `x` and matching default `dv`. -/
theorem Comp.area_spec {dv : Comp → Nat → Nat} {n : Nat} {vec : List Nat} {c : Comp} (x : Int)
    (hi : c.Inv n) (hdv : DvOk dv n (n + 1)) (hlen : vec.length ≤ 2147483648)
    (hx : x > 0 → x.toNat < n + 1 ∧ c.dflt x.toNat ≤ 0)
    (hval : ∀ a, 1 ≤ a → dv { c with dflt := upd c.dflt (n + 1) x } a =
      if x > 0 then c.nextState x.toNat a else (-x).toNat) :
    let c1 : Comp := { c with dflt := upd c.dflt (n + 1) x }
    let c' := c1.place dv (n + 1) vec (c1.bottom - c1.top + 1) c1.top
    c'.Inv (n + 1) ∧ c'.Holds (n + 1) vec ∧
      (∀ t row, 1 ≤ t → t ≤ n → c.Holds t row → c'.Holds t row) := by
  intro c1 c'
  have hi1 : c1.Inv n := Comp.inv_dflt hi x
  have htop := hi1.top
  obtain ⟨p1, p2, p3, p4, p5⟩ := Comp.place_spec (vec := vec) hi1 (Nat.lt_succ_self n) hdv hlen
    (c1.bottom - c1.top + 1) c1.top (by omega) (by omega)
  have p1 : c1.Ext c' (n + 1) := p1
  have hd : ∀ t, c'.dflt t = if t = n + 1 then x else c.dflt t := by
    intro t; rw [show c'.dflt = c1.dflt from p2]; rfl
  have hinv : c'.Inv (n + 1) := by
    refine ⟨?_, p3, ?_⟩
    · intro k hk
      refine ⟨p4 k hk, ?_⟩
      by_cases hks : c'.check k = n + 1
      · omega
      · have h5 := (p1.check k (c'.check k) hks hk).1 rfl
        have := (hi1.cell k (by rw [h5]; exact hk)).2
        omega
    · intro s h1 h2 h3
      rw [hd] at h3 ⊢
      rw [hd]
      by_cases hs : s = n + 1
      · rw [if_pos hs] at h3 ⊢
        have := hx h3
        rw [if_neg (by omega)]
        exact ⟨by omega, this.2⟩
      · rw [if_neg hs] at h3 ⊢
        have := hi.link s h1 (by omega) h3
        rw [if_neg (by omega)]
        exact this
  have hold : ∀ t a, t ≤ n → c'.nextState t a = c.nextState t a := by
    intro t a ht
    have e1 := Comp.lookup_ext hi1 (Nat.lt_succ_self n) p1 (t + 1) t a ht
    have hE : c.Ext c1 (n + 1) :=
      ⟨fun u hu => upd_ne _ _ hu, fun _ _ => rfl, Nat.le_refl _, fun _ _ _ _ => Iff.rfl, fun _ _ => rfl⟩
    have e2 := Comp.lookup_ext hi (Nat.lt_succ_self n) hE (t + 1) t a ht
    exact e1.trans e2
  refine ⟨hinv, ?_, ?_⟩
  · intro a h1 h2
    obtain ⟨q1, q2⟩ := p5 a h1 h2
    have q1 : dv c1 a ≠ vec.getD a 0 → 0 ≤ c'.base (n + 1) + (a : Int) ∧
          c'.base (n + 1) + (a : Int) < (c'.bottom : Int) ∧
          c'.check (c'.base (n + 1) + (a : Int)).toNat = n + 1 ∧
          c'.next (c'.base (n + 1) + (a : Int)).toNat = vec.getD a 0 := q1
    have q2 : dv c1 a = vec.getD a 0 → ¬ (0 ≤ c'.base (n + 1) + (a : Int) ∧
          c'.check (c'.base (n + 1) + (a : Int)).toNat = n + 1) := q2
    unfold Comp.nextState
    rw [Comp.lookup, if_neg (by omega)]
    simp only
    by_cases hda : dv c1 a = vec.getD a 0
    · have hq := q2 hda
      rw [if_neg (fun h => hq ⟨h.1, h.2.2⟩), hd, if_pos rfl]
      have hv := hval a h1
      have hv : dv c1 a = _ := hv
      rw [← hda, hv]
      by_cases hx0 : x > 0
      · have := hx hx0
        rw [if_pos hx0, if_pos hx0, Comp.lookup_fuel_le hinv (by omega) _ (by omega), hold _ _ (by omega)]
      · rw [if_neg hx0, if_neg hx0]
    · have hq := q1 hda
      rw [if_pos ⟨hq.1, hq.2.1, hq.2.2.1⟩, hq.2.2.2]
  · intro t row h1 h2 hh a ha1 ha2
    rw [hold t a h2]
    exact hh a ha1 ha2

theorem Comp.addEdge_spec {n : Nat} {vec : List Nat} {c : Comp} (hi : c.Inv n)
    (hlen : vec.length ≤ 2147483648) :
    (c.addEdge (n + 1) vec).Inv (n + 1) ∧ (c.addEdge (n + 1) vec).Holds (n + 1) vec ∧
      (∀ t row, 1 ≤ t → t ≤ n → c.Holds t row → (c.addEdge (n + 1) vec).Holds t row) := by
  have hnew : ∀ b, (c.newArea b (n + 1) vec).Inv (n + 1) ∧ (c.newArea b (n + 1) vec).Holds (n + 1) vec ∧
      (∀ t row, 1 ≤ t → t ≤ n → c.Holds t row → (c.newArea b (n + 1) vec).Holds t row) := by
    intro b
    refine Comp.area_spec (dv := fun _ _ => b) (-(b : Int)) hi ⟨fun _ _ _ _ _ => rfl⟩ hlen ?_ ?_
    · intro h; omega
    · intro a _; rw [if_neg (by omega)]; omega
  unfold Comp.addEdge
  simp only
  split
  · exact hnew _
  · split
    · rename_i i hf
      have hm := List.mem_of_find?_eq_some hf
      have hc := List.find?_some hf
      rw [List.mem_range'_1] at hm
      have hdi : ¬ c.dflt i > 0 := by
        intro h
        simp [Comp.compareState, h] at hc
      refine Comp.area_spec (dv := fun c a => c.nextState i a) (i : Int) hi
        ⟨?_⟩ hlen ?_ ?_
      · intro c1 c2 h1 h2 a
        exact Comp.lookup_ext h1 (Nat.lt_succ_self n) h2 (i + 1) i a (by omega)
      · intro _; exact ⟨by omega, by simpa using hdi⟩
      · intro a _
        rw [if_pos (by omega)]
        have hE : c.Ext { c with dflt := upd c.dflt (n + 1) (i : Int) } (n + 1) :=
          ⟨fun u hu => upd_ne _ _ hu, fun _ _ => rfl, Nat.le_refl _, fun _ _ _ _ => Iff.rfl, fun _ _ => rfl⟩
        exact Comp.lookup_ext hi (Nat.lt_succ_self n) hE (i + 1) i a (by omega)
    · exact hnew _

theorem Comp.addRows_spec : ∀ (rows : List (List Nat)) (n : Nat) (c : Comp), c.Inv n →
    (∀ r ∈ rows, r.length ≤ 2147483648) →
    (c.addRows (n + 1) rows).Inv (n + rows.length) ∧
    (∀ t row, 1 ≤ t → t ≤ n → c.Holds t row → (c.addRows (n + 1) rows).Holds t row) ∧
    (∀ j row, rows[j]? = some row → (c.addRows (n + 1) rows).Holds (n + 1 + j) row)
  | [], n, c, hi, _ => ⟨hi, fun _ _ _ _ h => h, by simp⟩
  | r :: rs, n, c, hi, hl => by
    obtain ⟨h1, h2, h3⟩ := Comp.addEdge_spec hi (hl r (by simp))
    obtain ⟨g1, g2, g3⟩ := Comp.addRows_spec rs (n + 1) _ h1 (fun x hx => hl x (by simp [hx]))
    unfold Comp.addRows
    refine ⟨?_, ?_, ?_⟩
    · rw [List.length_cons, show n + (rs.length + 1) = n + 1 + rs.length by omega]; exact g1
    · intro t row ht1 ht2 hh
      exact g2 t row ht1 (by omega) (h3 t row ht1 ht2 hh)
    · intro j row hj
      cases j with
      | zero =>
        simp at hj; subst hj
        exact g2 (n + 1) r (by omega) (Nat.le_refl _) h2
      | succ j =>
        rw [show n + 1 + (j + 1) = n + 1 + 1 + j by omega]
        exact g3 j row (by simpa using hj)

/-- The compressed table of a list of rows. -/
def compress (rows : List (List Nat)) : Comp := Comp.empty.addRows 1 rows

/-- **Lossless**: every entry of every row is found again. -/
theorem compress_lookup (rows : List (List Nat)) (hl : ∀ r ∈ rows, r.length ≤ 2147483648)
    (s : Nat) (row : List Nat) (h : rows[s]? = some row) (a : Nat) (h1 : 1 ≤ a) (h2 : a < row.length) :
    (compress rows).nextState (s + 1) a = row.getD a 0 := by
  have := (Comp.addRows_spec rows 0 .empty .empty hl).2.2 s row h a h1 h2
  rw [Nat.zero_add, Nat.add_comm 1 s] at this
  exact this

theorem Comp.nextState_zero (c : Comp) (s a : Nat) (h : s = 0 ∨ a = 0) : c.nextState s a = 0 := by
  simp [Comp.nextState, Comp.lookup, h]

end JPS
