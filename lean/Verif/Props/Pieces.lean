import Verif.Serial
import Verif.LexerProofs
/-!
# C19, C22, C23: working piece by piece
-/

set_option autoImplicit false

namespace JPS
open Spec

/-! ## C19 loading -/

theorem extend_prefix : ∀ (r rev : Str), extend rev r <+: r
  | [], _ => by simp [extend]
  | c :: r, rev => by
    unfold extend
    split
    · exact List.nil_prefix
    · split
      · exact List.nil_prefix
      · exact List.prefix_cons_inj c |>.2 (extend_prefix r (c :: rev))

/-- One call delivers a nonempty prefix of what is left of the file, at least `B` characters or
everything. -/
theorem loadBounded_some {B pos : Nat} {file s : Str} (hB : 0 < B)
    (h : loadBounded B file pos = some s) :
    s <+: file.drop pos ∧ 0 < s.length ∧ min B (file.length - pos) ≤ s.length := by
  simp only [loadBounded] at h
  split at h
  · cases h
  · rename_i h0
    injection h with h
    refine ⟨?_, ?_, ?_⟩
    · rw [← h]
      have he := extend_prefix (file.drop (pos + min (file.length - pos) B))
        ((file.drop pos).take (min (file.length - pos) B)).reverse
      have : file.drop pos = (file.drop pos).take (min (file.length - pos) B) ++
          file.drop (pos + min (file.length - pos) B) := by
        rw [← List.drop_drop, List.take_append_drop]
      conv => rhs; rw [this]
      exact (List.prefix_append_right_inj _).2 he
    · rw [← h]; simp; omega
    · rw [← h]; simp; omega

theorem loadBounded_none {B pos : Nat} {file : Str} (hB : 0 < B) :
    loadBounded B file pos = none ↔ file.length ≤ pos := by
  unfold loadBounded
  simp only
  split
  · simp; omega
  · simp; omega

theorem pieces_from {B : Nat} (hB : 0 < B) (file : Str) : ∀ (fuel pos : Nat),
    file.length - pos < fuel →
    (pieces B file fuel pos).flatten = file.drop pos ∧ [] ∉ pieces B file fuel pos
  | 0, pos, h => by omega
  | fuel + 1, pos, h => by
    unfold pieces
    cases hl : loadBounded B file pos with
    | none =>
      have := (loadBounded_none hB).1 hl
      simp [List.drop_eq_nil_of_le this]
    | some s =>
      obtain ⟨⟨t, ht⟩, h1, _⟩ := loadBounded_some hB hl
      have hle : s.length ≤ file.length - pos := by
        have := congrArg List.length ht
        simp at this; omega
      obtain ⟨i1, i2⟩ := pieces_from hB file fuel (pos + s.length) (by omega)
      simp only [List.flatten_cons, i1, List.mem_cons, i2, or_false]
      constructor
      · rw [← List.drop_drop, ← ht]; simp
      · intro hc; rw [← hc] at h1; simp at h1

/-- **C19** The pieces delivered by the loading loop, concatenated, are the file: nothing is lost or
duplicated, for every file and every footprint. -/
theorem c19_lossless (B : Nat) (hB : 0 < B) (file : Str) :
    (pieces B file (file.length + 1) 0).flatten = file := by
  simpa using (pieces_from hB file (file.length + 1) 0 (by omega)).1

theorem pieces_more {B : Nat} (hB : 0 < B) (file : Str) : ∀ (fuel fuel' pos : Nat),
    file.length - pos < fuel → file.length - pos < fuel' →
    pieces B file fuel pos = pieces B file fuel' pos
  | 0, _, _, h, _ => by omega
  | _, 0, _, _, h => by omega
  | fuel + 1, fuel' + 1, pos, h, h' => by
    unfold pieces
    cases hl : loadBounded B file pos with
    | none => rfl
    | some s =>
      obtain ⟨⟨t, ht⟩, h1, _⟩ := loadBounded_some hB hl
      have hle : s.length ≤ file.length - pos := by
        have := congrArg List.length ht
        simp at this; omega
      simp only
      rw [pieces_more hB file fuel fuel' _ (by omega) (by omega)]

/-- **C19** The loop stops after at most as many iterations as the file has characters (a bound on
the iterations does not change the pieces), every piece is nonempty. -/
theorem c19_terminates (B : Nat) (hB : 0 < B) (file : Str) :
    (∀ n, file.length < n → pieces B file n 0 = pieces B file (file.length + 1) 0) ∧
    (pieces B file (file.length + 1) 0).length ≤ file.length ∧
    [] ∉ pieces B file (file.length + 1) 0 := by
  have h := pieces_from hB file (file.length + 1) 0 (by omega)
  refine ⟨fun n hn => pieces_more hB file _ _ _ (by omega) (by omega), ?_, h.2⟩
  have key : ∀ l : List Str, [] ∉ l → l.length ≤ l.flatten.length := by
    intro l
    induction l with
    | nil => simp
    | cons a l ih =>
      intro hl
      simp only [List.mem_cons, not_or] at hl
      have := ih hl.2
      have : 0 < a.length := by
        cases a with
        | nil => exact absurd rfl hl.1
        | cons => simp
      simp only [List.length_cons, List.flatten_cons, List.length_append]; omega
  have := key _ h.2
  rw [h.1] at this
  simpa using this

/-- Where a piece may end: at the end of the file, before a byte read as end of file, or before a
quote whose previous nonblank character opens a token. -/
def StopAt (rev rest : Str) : Prop :=
  rest = [] ∨ (∃ c r, rest = c :: r ∧ c.toNat = 255) ∨
    (∃ r u w c, rest = '"' :: r ∧ rev = w ++ c :: u ∧ w.all isSkip = true ∧
      (c = ',' ∨ c = '{' ∨ c = '['))

theorem prevChar_some {rev : Str} {c : Char} (h : prevChar rev = some c) :
    ∃ w u, rev = w ++ c :: u ∧ w.all isSkip = true := by
  unfold prevChar at h
  refine ⟨rev.takeWhile isSkip, (rev.dropWhile isSkip).tail, ?_, ?_⟩
  · conv => lhs; rw [← List.takeWhile_append_dropWhile (p := isSkip) (l := rev)]
    congr 1
    cases hd : rev.dropWhile isSkip with
    | nil => rw [hd] at h; cases h
    | cons a l => rw [hd] at h; simp at h; simp [h]
  · exact List.all_takeWhile

theorem extend_stop : ∀ (r rev : Str),
    ∃ t, r = extend rev r ++ t ∧ StopAt ((extend rev r).reverse ++ rev) t
  | [], rev => ⟨[], by simp [extend], .inl rfl⟩
  | c :: r, rev => by
    unfold extend
    split
    · rename_i h
      exact ⟨c :: r, by simp, .inr (.inl ⟨c, r, rfl, by simpa [isEofByte] using h⟩)⟩
    · split
      · rename_i h
        refine ⟨c :: r, by simp, .inr (.inr ?_)⟩
        obtain ⟨h1, h2⟩ := h
        have : ∃ x, prevChar rev = some x ∧ (x = ',' ∨ x = '{' ∨ x = '[') := by
          unfold opensToken at h2
          simp [or_assoc] at h2
          rcases h2 with h2 | h2 | h2
          · exact ⟨_, h2, by simp⟩
          · exact ⟨_, h2, by simp⟩
          · exact ⟨_, h2, by simp⟩
        obtain ⟨x, hx, hx'⟩ := this
        obtain ⟨w, u, e1, e2⟩ := prevChar_some hx
        exact ⟨r, u, w, x, by rw [h1], by simpa using e1, e2, hx'⟩
      · obtain ⟨t, h1, h2⟩ := extend_stop r (c :: rev)
        refine ⟨t, ?_, ?_⟩
        · rw [List.cons_append, ← h1]
        · simpa using h2

/-- **C19** Every piece ends at the end of the file, before a byte 0xFF (which `(char)fgetc` reads as
end of file) or directly before a quote that follows `,`, `{` or `[` and blanks. -/
theorem c19_boundaries (B pos : Nat) (file s : Str) (h : loadBounded B file pos = some s) :
    ∃ t, file.drop pos = s ++ t ∧ StopAt s.reverse t := by
  simp only [loadBounded] at h
  split at h
  · cases h
  · injection h with h
    obtain ⟨t, h1, h2⟩ := extend_stop (file.drop (pos + min (file.length - pos) B))
      ((file.drop pos).take (min (file.length - pos) B)).reverse
    refine ⟨t, ?_, ?_⟩
    · rw [← h, List.append_assoc, ← h1, ← List.drop_drop, List.take_append_drop]
    · rw [← h]; simpa using h2

/-- A file of several pieces: footprint 10, cut before `"b"`. -/
example : pieces 10 "{\"a\": [1, 2], \"b\": {\"c\": 3}}".toList 30 0 =
    ["{\"a\": [1, 2], ".toList, "\"b\": {\"c\": 3}}".toList] := by decide

/-! ## C22 cutting the token stream -/

/-- **C22** Running the automaton over consecutive batches of tokens, carrying the configuration along,
ends in the same configuration, with the same results, as one run over all tokens. -/
theorem c22_tokens (d : QDfa) (s : Str) (a : SA) (batches : List (List Tok)) :
    batches.foldl (runToks d s) a = runToks d s a batches.flatten := by
  induction batches generalizing a with
  | nil => rfl
  | cons b bs ih => rw [List.foldl_cons, ih, List.flatten_cons, runToks_append]

/-! ## C23 filtering in batches -/

theorem addOutput_conds (p : PF) (t : Str) : (p.addOutput t).conds = p.conds := rfl

theorem foldl_addOutput_conds (ts : List Str) : ∀ p : PF,
    (ts.foldl PF.addOutput p).conds = p.conds := by
  induction ts with
  | nil => intro p; rfl
  | cons t ts ih => intro p; rw [List.foldl_cons, ih]; rfl

theorem setConds_isSome (f : Nat → Option Conds) (s : Nat) (cs : Conds) (h : (f s).isSome = true) :
    ∀ x, (setConds f s cs x).isSome = (f x).isSome := by
  intro x
  unfold setConds
  split
  · rename_i hx; rw [hx, h]; rfl
  · rfl

theorem pfRelease_conds (v : Bool) (fi : Nat) (last : Bool) (p : PF) :
    (pfRelease v fi last p).conds = p.conds := by
  unfold pfRelease
  split
  · split
    · exact foldl_addOutput_conds _ _
    · rfl
  · rfl

/-- Which states have a condition table never changes. -/
theorem pfStep_isSome (O : NumOps) (ctx : QCtx) (p : PF) (t : Tuple) :
    ∀ x, ((pfStep O ctx p t).conds x).isSome = (p.conds x).isSome := by
  intro x
  unfold pfStep
  split
  · rfl
  · split
    · unfold pfClose
      split
      · rfl
      · rename_i s fi rest _
        cases hv : pfVerdict O ctx p s with
        | none => rfl
        | some v =>
          have hs : (p.conds s).isSome = true := by
            unfold pfVerdict at hv
            cases hc : p.conds s with
            | none => rw [hc] at hv; simp at hv
            | some _ => rfl
          simp only
          rw [setConds_isSome _ _ _ (by rw [pfRelease_conds]; exact hs), pfRelease_conds]
    · unfold pfOther
      split
      · rfl
      · rename_i s _ _ _
        split
        · rfl
        · split
          · rfl
          · rfl
          · rename_i pc _ hpc
            split
            · rfl
            · split
              · exact setConds_isSome _ _ _ (by rw [hpc]; rfl) x
              · rfl

theorem foldl_pfStep_isSome (O : NumOps) (ctx : QCtx) (ts : List Tuple) : ∀ (p : PF) (x : Nat),
    ((ts.foldl (pfStep O ctx) p).conds x).isSome = (p.conds x).isSome := by
  induction ts with
  | nil => intro p x; rfl
  | cons t ts ih => intro p x; rw [List.foldl_cons, ih, pfStep_isSome]

theorem foldl_output_conds (ts : List Tuple) : ∀ p : PF,
    (ts.foldl (fun p t => p.addOutput t.text) p).conds = p.conds := by
  induction ts with
  | nil => intro p; rfl
  | cons t ts ih => intro p; rw [List.foldl_cons, ih]; rfl

theorem generate_append (O : NumOps) (ctx : QCtx) (p : PF) (xs ys : List Tuple) :
    generate O ctx (generate O ctx p xs) ys = generate O ctx p (xs ++ ys) := by
  have hn : ∀ q : PF, (∀ x, (q.conds x).isSome = (p.conds x).isSome) →
      ((List.range MAX_PREDICATE_STATE).all (fun s => (q.conds s).isNone) =
        (List.range MAX_PREDICATE_STATE).all (fun s => (p.conds s).isNone)) := by
    intro q hq
    congr 1
    funext s
    have := hq s
    cases h1 : q.conds s <;> cases h2 : p.conds s <;> simp_all
  by_cases h : (List.range MAX_PREDICATE_STATE).all (fun s => (p.conds s).isNone) = true
  · have e : ∀ l, generate O ctx p l = l.foldl (fun p t => p.addOutput t.text) p := by
      intro l; unfold generate; rw [if_pos h]
    rw [e, e, List.foldl_append]
    unfold generate
    rw [if_pos]
    rw [hn _ (fun x => by rw [foldl_output_conds]), h]
  · have e : ∀ l, generate O ctx p l = l.foldl (pfStep O ctx) p := by
      intro l; unfold generate; rw [if_neg h]
    rw [e, e, List.foldl_append]
    unfold generate
    rw [if_neg]
    rw [hn _ (fun x => foldl_pfStep_isSome O ctx xs p x)]; exact h

/-- **C23** Feeding the predicate filter the tuples in batches, each by its own call of
`generateFinalOutput` as successive pieces of a file do, leaves the filter (output, pending buffer,
stack of open elements, recorded conditions) as one call with all tuples does. -/
theorem c23_batches (O : NumOps) (ctx : QCtx) (p : PF) (batches : List (List Tuple)) :
    batches.foldl (generate O ctx) p = generate O ctx p batches.flatten := by
  induction batches generalizing p with
  | nil =>
    simp only [List.foldl_nil, List.flatten_nil, generate]
    split <;> rfl
  | cons b bs ih => rw [List.foldl_cons, ih, List.flatten_cons, generate_append]

end JPS
