import Verif.Props.Partition
import Verif.Props.Footprint
/-!
# C54: loading stays in its buffer; C55: files are closed
-/

set_option autoImplicit false

namespace JPS
open Spec

theorem extend_short : ∀ (m rev t : Str), (∃ r, t = '"' :: r) →
    opensToken (prevChar (m.reverse ++ rev)) = true → (extend rev (m ++ t)).length ≤ m.length
  | [], rev, t, ⟨r, ht⟩, h => by
    subst ht
    simp only [List.reverse_nil, List.nil_append] at h
    have h1 : isEofByte '"' = false := by decide
    simp [extend, h, h1]
  | c :: m, rev, t, ht, h => by
    rw [List.cons_append, extend]
    split
    · simp
    · split
      · simp
      · have := extend_short m (c :: rev) t ht (by simpa using h)
        simp only [List.length_cons]; omega

theorem extendUnder_false : ∀ (r rev : Str),
    (∀ a b, r = a ++ '"' :: b → ∃ c, (c ∈ rev ∨ c ∈ a) ∧ isSkip c = false) →
    extendUnder rev r = false
  | [], _, _ => rfl
  | c :: r, rev, h => by
    have ih := extendUnder_false r (c :: rev) (by
      intro a b e
      obtain ⟨x, hx, hs⟩ := h (c :: a) b (by rw [e]; rfl)
      refine ⟨x, ?_, hs⟩
      simp only [List.mem_cons] at hx ⊢
      rcases hx with hx | hx | hx
      · exact .inl (.inr hx)
      · exact .inl (.inl hx)
      · exact .inr hx)
    rw [extendUnder]
    split
    · rfl
    · split
      · rename_i hq
        subst hq
        obtain ⟨x, hx, hs⟩ := h [] r rfl
        have hx : x ∈ rev := by simpa using hx
        have hp : (prevChar rev).isNone = false := by
          cases hp : prevChar rev with
          | some => rfl
          | none =>
            unfold prevChar at hp
            have hd : rev.dropWhile isSkip = [] := by
              cases hx : rev.dropWhile isSkip with
              | nil => rfl
              | cons a l => rw [hx] at hp; cases hp
            have := dropWhile_nil hd x hx
            rw [hs] at this; cases this
        rw [hp, ih]; simp
      · exact ih

/-- Where the loop starts a call: at the beginning, or at a quote. -/
def PieceStart (file : Str) (pos : Nat) : Prop :=
  pos = 0 ∨ file.length ≤ pos ∨ file[pos]? = some '"'

/-- Every quote of the file comes after a character that is not blank. -/
def QuoteInside (file : Str) : Prop :=
  ∀ a b, file = a ++ '"' :: b → ∃ c ∈ a, isSkip c = false

theorem loadUb_false {B pos : Nat} {file : Str} (hB : 0 < B) (hq : QuoteInside file)
    (hd : Dense MAX_EXTENSION file) (hs : PieceStart file pos) : loadUb B file pos = false := by
  unfold loadUb
  by_cases hz : min (file.length - pos) B = 0
  · simp [hz]
  generalize hsz : min (file.length - pos) B = size at *
  have hsplit : file.drop pos = (file.drop pos).take size ++ file.drop (pos + size) := by
    rw [← List.drop_drop, List.take_append_drop]
  -- a character that is not blank
  have hmem : ∀ a b, file.drop (pos + size) = a ++ '"' :: b →
      ∃ c, (c ∈ ((file.drop pos).take size) ∨ c ∈ a) ∧ isSkip c = false := by
    intro a b e
    rcases hs with h0 | h0 | h0
    · subst h0
      rw [List.drop_zero] at hsplit ⊢
      obtain ⟨c, h1, h2⟩ := hq (file.take size ++ a) b (by
        conv => lhs; rw [hsplit, e]
        simp)
      exact ⟨c, by simpa using h1, h2⟩
    · omega
    · refine ⟨'"', .inl ?_, by decide⟩
      have : (file.drop pos).take size = '"' :: ((file.drop (pos + 1)).take (size - 1)) := by
        have hlt : pos < file.length := by omega
        rw [List.drop_eq_getElem_cons hlt]
        obtain ⟨n, rfl⟩ : ∃ n, size = n + 1 := ⟨size - 1, by omega⟩
        rw [List.take_succ_cons]
        rw [List.getElem?_eq_getElem hlt] at h0
        rw [Option.some.inj h0]
        rfl
      rw [this]; simp
  have hunder : extendUnder ((file.drop pos).take size).reverse (file.drop (pos + size)) = false :=
    extendUnder_false _ _ (by simpa using hmem)
  have hlen : (extend ((file.drop pos).take size).reverse (file.drop (pos + size))).length < MAX_EXTENSION := by
    apply Classical.byContradiction
    intro hn
    have hle := (extend_prefix (file.drop (pos + size)) ((file.drop pos).take size).reverse).length_le
    rw [List.length_drop] at hle
    obtain ⟨j, h1, h2, r, u, w, c, g1, g2, g3, g4⟩ := hd (pos + size) (by omega) (by omega)
    obtain ⟨p1, p2⟩ := prevChar_of_split g2 g3 g4
    have hm : file.drop (pos + size) = (file.drop (pos + size)).take (j - (pos + size)) ++ file.drop j := by
      have : file.drop j = (file.drop (pos + size)).drop (j - (pos + size)) := by
        rw [List.drop_drop]; congr 1; omega
      rw [this, List.take_append_drop]
    have hrev : (file.take j).reverse = (((file.drop (pos + size)).take (j - (pos + size))).reverse ++
        ((file.drop pos).take size).reverse) ++ (file.take pos).reverse := by
      rw [← List.reverse_append, ← List.reverse_append, ← List.append_assoc, ← List.take_add, ← List.take_add]
      congr 2; omega
    obtain ⟨x, hx, hxs⟩ := hmem ((file.drop (pos + size)).take (j - (pos + size))) r (by rw [← g1]; exact hm)
    have hsh := prevChar_shield (l := ((file.drop (pos + size)).take (j - (pos + size))).reverse ++
        ((file.drop pos).take size).reverse) (m := (file.take pos).reverse)
      ⟨x, by simp only [List.mem_append, List.mem_reverse]; exact hx.symm, hxs⟩
    rw [← hrev, p1] at hsh
    have := extend_short ((file.drop (pos + size)).take (j - (pos + size)))
      ((file.drop pos).take size).reverse (file.drop j) ⟨r, g1⟩ (by rw [← hsh]; exact p2)
    rw [← hm, List.length_take] at this
    omega
  dsimp only
  rw [hunder]
  simp only [Bool.or_false, Bool.and_eq_false_iff, decide_eq_false_iff_not]
  exact .inr (by omega)

theorem loadsUb_false {B : Nat} {file : Str} (hB : 0 < B) (hq : QuoteInside file)
    (hff : ∀ c ∈ file, c.toNat ≠ 255) (hd : Dense MAX_EXTENSION file) : ∀ (fuel pos : Nat),
    PieceStart file pos → loadsUb B file fuel pos = false
  | 0, _, _ => rfl
  | fuel + 1, pos, hs => by
    rw [loadsUb, loadUb_false hB hq hd hs, Bool.false_or]
    cases hl : loadBounded B file pos with
    | none => rfl
    | some s =>
      refine loadsUb_false hB hq hff hd fuel _ ?_
      obtain ⟨t, h1, h2⟩ := c19_boundaries B pos file s hl
      have ht : file.drop (pos + s.length) = t := by
        rw [← List.drop_drop, h1]; simp
      rcases h2 with h2 | ⟨c, r, h2, h3⟩ | ⟨r, _, _, _, h2, _⟩
      · rw [h2] at ht
        exact .inr (.inl (List.drop_eq_nil_iff.1 ht))
      · exact absurd h3 (hff c (List.mem_of_mem_drop (i := pos + s.length) (by rw [ht, h2]; simp)))
      · refine .inr (.inr ?_)
        have := congrArg (·[0]?) (ht.trans h2)
        simpa using this

/-- **C54.**  A file whose quotes come after a character that is not blank (every JSON object or array) is loaded without leaving the
buffer, whatever the footprint, exactly if every window of 2000 characters has a place to cut: a quote after `,`, `{` or `[` and
blanks. -/
theorem c54_exact (file : Str) (hq : QuoteInside file) (hff : ∀ c ∈ file, c.toNat ≠ 255) :
    (∀ B, 0 < B → loadsUb B file (file.length + 1) 0 = false) ↔ Dense MAX_EXTENSION file := by
  constructor
  · intro h k hk hk2
    have hu := h k hk
    rw [loadsUb, Bool.or_eq_false_iff] at hu
    have hu := hu.1
    have hsz : min (file.length - 0) k = k := by omega
    have hne : k ≠ 0 := by omega
    simp only [loadUb, hsz] at hu
    simp only [ne_eq, hne, not_false_eq_true, decide_true, Bool.true_and, Bool.or_eq_false_iff, decide_eq_false_iff_not,
      List.drop_zero, Nat.zero_add] at hu
    have hlen : (extend (file.take k).reverse (file.drop k)).length < MAX_EXTENSION := by omega
    obtain ⟨t, h1, h2⟩ := extend_stop (file.drop k) (file.take k).reverse
    generalize extend (file.take k).reverse (file.drop k) = e at *
    have hdrop : file.drop (k + e.length) = t := by rw [← List.drop_drop, h1]; simp
    have htake : (file.take (k + e.length)).reverse = e.reverse ++ (file.take k).reverse := by
      rw [List.take_add, h1]; simp
    refine ⟨k + e.length, by omega, by omega, ?_⟩
    rcases h2 with h2 | ⟨c, r, h2, h3⟩ | ⟨r, u, w, c, h2, h3, h4, h5⟩
    · rw [h2] at hdrop
      have := List.drop_eq_nil_iff.1 hdrop
      omega
    · exact absurd h3 (hff c (List.mem_of_mem_drop (i := k + e.length) (by rw [hdrop, h2]; simp)))
    · exact ⟨r, u, w, c, hdrop.trans h2, htake.trans h3, h4, h5⟩
  · intro hd B hB
    exact loadsUb_false hB hq hff hd _ 0 (.inl rfl)

/-- The quotes of an object or array come after its bracket. -/
theorem DocOK.quoteInside {pre trail : Str} {v : J} (h : DocOK pre trail v) : QuoteInside (pre ++ v.render ++ trail) := by
  intro a b e
  obtain ⟨c, r, hr, hc, hq⟩ : ∃ c r, v.render = c :: r ∧ isSkip c = false ∧ c ≠ '"' := by
    have := h.container
    cases v with
    | lit t => simp [J.isContainer] at this
    | str t => simp [J.isContainer] at this
    | arr w es => exact ⟨'[', _, by rw [J.render]; rfl, by decide, by decide⟩
    | obj w ms => exact ⟨'{', _, by rw [J.render]; rfl, by decide, by decide⟩
  refine ⟨c, ?_, hc⟩
  rw [hr] at e
  have hpre : ∀ x ∈ pre, x ≠ '"' := by
    intro x hx hxq
    have := List.all_eq_true.1 h.preWs x hx
    rw [hxq] at this
    exact absurd this (by decide)
  clear h hr
  induction pre generalizing a with
  | nil =>
    cases a with
    | nil =>
      simp only [List.nil_append, List.cons_append, List.cons.injEq] at e
      exact absurd e.1 hq
    | cons x a =>
      simp only [List.nil_append, List.cons_append, List.cons.injEq] at e
      rw [e.1]; simp
  | cons x pre ih =>
    cases a with
    | nil =>
      simp only [List.nil_append, List.cons_append, List.cons.injEq] at e
      exact absurd e.1 (hpre x (by simp))
    | cons y a =>
      simp only [List.cons_append, List.cons.injEq] at e
      exact List.mem_cons_of_mem _ (ih a e.2 fun z hz => hpre z (by simp [hz]))

/-- **C54 for documents.**  The loads of a document stay in their buffers for every footprint exactly if every window of 2000
characters has a place to cut. -/
theorem c54_documents_partial (pre trail : Str) (v : J) (h : DocOK pre trail v)
    (hff : ∀ c ∈ pre ++ v.render ++ trail, c.toNat ≠ 255) :
    (∀ B, 0 < B → loadsUb B (pre ++ v.render ++ trail) ((pre ++ v.render ++ trail).length + 1) 0 = false) ↔
      Dense MAX_EXTENSION (pre ++ v.render ++ trail) :=
  c54_exact _ h.quoteInside hff

/-- A document shorter than the footprint is loaded without extension, hence inside the buffer. -/
theorem c54_small (B : Nat) (file : Str) (hB : file.length ≤ B) : loadsUb B file (file.length + 1) 0 = false := by
  rw [loadsUb]
  have hsz : min (file.length - 0) B = file.length := by omega
  have h1 : loadUb B file 0 = false := by
    simp only [loadUb, hsz, Nat.zero_add, List.drop_length, extend, extendUnder, List.length_nil]
    simp [MAX_EXTENSION]
  rw [h1, Bool.false_or]
  cases hl : loadBounded B file 0 with
  | none => rfl
  | some s =>
    simp only [loadBounded, hsz] at hl
    split at hl
    · cases hl
    · cases hl
      rename_i hne
      simp only [Nat.zero_add, List.drop_length, extend, List.append_nil, List.drop_zero, List.take_length]
      obtain ⟨n, hn⟩ : ∃ n, file.length = n + 1 := ⟨file.length - 1, by omega⟩
      have h2 : loadUb B file file.length = false := by simp [loadUb]
      have h3 : loadBounded B file file.length = none := by simp [loadBounded]
      rw [hn, loadsUb, ← hn, h2, h3]
      rfl

theorem extend_all : ∀ (r rev : Str), (∀ c ∈ r, c ≠ '"' ∧ c.toNat ≠ 255) → extend rev r = r
  | [], _, _ => rfl
  | c :: r, rev, h => by
    obtain ⟨h1, h2⟩ := h c (by simp)
    rw [extend, if_neg (by simpa [isEofByte] using h2), if_neg (by simp [h1]),
      extend_all r (c :: rev) (fun x hx => h x (by simp [hx]))]

/-- **Files without quotes** beyond the footprint overrun the buffer if 2000 or more characters follow. -/
theorem c54_no_quotes (B : Nat) (file : Str) (hB : 0 < B) (hl : B + MAX_EXTENSION ≤ file.length)
    (hq : ∀ c ∈ file.drop B, c ≠ '"' ∧ c.toNat ≠ 255) : loadsUb B file (file.length + 1) 0 = true := by
  have hsz : min (file.length - 0) B = B := by omega
  have hne : B ≠ 0 := by omega
  have : loadUb B file 0 = true := by
    simp only [loadUb, hsz, Nat.zero_add]
    rw [extend_all _ _ hq]
    simp only [List.length_drop, ne_eq, hne, not_false_eq_true, decide_true, Bool.true_and, Bool.or_eq_true, decide_eq_true_eq]
    exact .inl (by omega)
  rw [loadsUb, this, Bool.true_or]

/-- `n` further elements `1`. -/
def onesE : Nat → Elems
  | 0 => .cons [] (.lit ['1']) [] .nil
  | n + 1 => .cons [] (.lit ['1']) [] (onesE n)

/-- The array `[1,1,...,1]` of `n + 1` numbers. -/
def onesDoc (n : Nat) : J := .arr [] (onesE n)

theorem onesE_facts : ∀ n, (onesE n).render.length = 2 * n + 1 ∧ (∀ c ∈ (onesE n).render, c = ',' ∨ c = '1') ∧
    (onesE n).wf = true ∧ (onesE n).keysTight = true ∧ (onesE n).depth = 0
  | 0 => by decide
  | n + 1 => by
    obtain ⟨h1, h2, h3, h4, h5⟩ := onesE_facts n
    have hs : (onesE n).sep ',' (onesE n).render = ',' :: (onesE n).render := by cases n <;> rfl
    have hr : (onesE (n + 1)).render = '1' :: ',' :: (onesE n).render := by
      rw [onesE, Elems.render, hs, J.render]; rfl
    refine ⟨?_, ?_, ?_, ?_, ?_⟩
    · rw [hr]; simp only [List.length_cons, h1]; omega
    · rw [hr]
      intro c hc
      simp only [List.mem_cons] at hc
      rcases hc with rfl | rfl | hc
      · exact .inr rfl
      · exact .inl rfl
      · exact h2 c hc
    · rw [onesE, Elems.wf, h3, J.wf]; decide
    · rw [onesE, Elems.keysTight, h4, J.keysTight]; rfl
    · rw [onesE, Elems.depth, h5, J.depth]; rfl

theorem onesDoc_ok (n : Nat) : DocOK [] [] (onesDoc n) := by
  obtain ⟨h1, h2, h3, h4, h5⟩ := onesE_facts n
  refine ⟨rfl, rfl, rfl, ?_, ?_, ?_⟩
  · rw [onesDoc, J.wf, h3]; rfl
  · rw [onesDoc, J.keysTight, h4]
  · rw [onesDoc, J.depth, h5]; decide

/-- The claim of C54: every document is loaded inside the buffers. -/
def C54Full : Prop := ∀ (pre trail : Str) (v : J), DocOK pre trail v →
  loadsUb MEMORY_FOOTPRINT (pre ++ v.render ++ trail) ((pre ++ v.render ++ trail).length + 1) 0 = false

/-- Every array of `n + 1` numbers `1` that is long enough overruns the load buffer. -/
theorem ones_overrun (n : Nat) (hn : 250002000 ≤ 2 * n + 3) :
    loadsUb MEMORY_FOOTPRINT ([] ++ (onesDoc n).render ++ []) (([] ++ (onesDoc n).render ++ []).length + 1) 0 = true := by
  obtain ⟨h1, h2, _⟩ := onesE_facts n
  have hr : [] ++ (onesDoc n).render ++ [] = '[' :: (onesE n).render ++ [']'] := by
    rw [onesDoc, J.render]; simp
  rw [hr]
  refine c54_no_quotes MEMORY_FOOTPRINT _ (by decide) ?_ ?_
  · have : MEMORY_FOOTPRINT + MAX_EXTENSION = 250002000 := by decide
    rw [this]
    simp only [List.length_append, List.length_cons, h1, List.length_nil]
    omega
  · intro c hc
    have hc := List.mem_of_mem_drop hc
    simp only [List.mem_append, List.mem_cons, List.not_mem_nil, or_false] at hc
    rcases hc with (rfl | hc) | rfl
    · decide
    · rcases h2 c hc with rfl | rfl <;> decide
    · decide

/-- **C54 is false**: an array of 125,001,001 numbers overruns the load buffer. -/
theorem c54_false : ¬ C54Full := by
  intro h
  obtain ⟨n, hn⟩ : ∃ n, 250002000 ≤ 2 * n + 3 := ⟨125001000, by decide⟩
  have h := h [] [] (onesDoc n) (onesDoc_ok n)
  rw [ones_overrun n hn] at h
  cases h

/-- Two pieces without undefined behaviour: `["a","b"]` with footprint 3. -/
example : DocOK [] [] (.arr [] (.cons [] (.str ['a']) [] (.cons [] (.str ['b']) [] .nil))) ∧
    pieces 3 ("[\"a\",\"b\"]".toList) 10 0 = ["[\"a\",".toList, "\"b\"]".toList] ∧
    loadsUb 3 ("[\"a\",\"b\"]".toList) 10 0 = false := by
  refine ⟨⟨rfl, rfl, rfl, by decide, by decide, by decide⟩, by decide, by decide⟩

/-- The hypotheses of `c54_exact`: a short document has no window of 2000 characters. -/
example : QuoteInside "[\"a\",\"b\"]".toList ∧ Dense MAX_EXTENSION "[\"a\",\"b\"]".toList := by
  refine ⟨?_, fun k _ h => ?_⟩
  · exact DocOK.quoteInside (pre := []) (trail := [])
      (v := .arr [] (.cons [] (.str ['a']) [] (.cons [] (.str ['b']) [] .nil)))
      ⟨rfl, rfl, rfl, by decide, by decide, by decide⟩
  · have : "[\"a\",\"b\"]".toList.length = 9 := by decide
    rw [this, MAX_EXTENSION] at h
    omega

/-! ### C55 -/

/-- **C55, what holds.**  For every file and footprint exactly one stream stays open after the loading loop: that of its last call. -/
theorem c55_left_open_partial (B : Nat) (hB : 0 < B) (file : Str) : openStreams B file (file.length + 1) 0 = 1 := by
  have : ∀ (fuel pos : Nat), file.length - pos < fuel → openStreams B file fuel pos = 1 := by
    intro fuel
    induction fuel with
    | zero => intro pos h; omega
    | succ fuel ih =>
      intro pos h
      rw [openStreams]
      cases hl : loadBounded B file pos with
      | none => rfl
      | some s =>
        obtain ⟨⟨t, ht⟩, h1, _⟩ := loadBounded_some hB hl
        have hle : s.length ≤ file.length - pos := by
          have := congrArg List.length ht
          simp at this; omega
        exact ih _ (by omega)
  exact this _ 0 (by omega)

/-- **C55 is false**, for every file and footprint. -/
theorem c55_false (B : Nat) (hB : 0 < B) (file : Str) : openStreams B file (file.length + 1) 0 ≠ 0 := by
  rw [c55_left_open_partial B hB file]; decide

/-- A file of two pieces. -/
example : openStreams 3 "[\"a\",\"b\"]".toList 10 0 = 1 ∧
    (pieces 3 ("[\"a\",\"b\"]".toList) 10 0).length = 2 := by decide

end JPS
