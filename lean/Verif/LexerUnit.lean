import Verif.LexerCut
import Verif.TokenSpec
import Verif.Reprocess
/-!
# Tokens of a part of a text that ends before a closing bracket

The text of a unit that is processed again ends before a bracket (`Verif/UnitSpan.lean`).  Its tokens are those of the whole text, except that a
scalar without quotes directly before the end is not reported.
-/

set_option autoImplicit false

namespace JPS
open Spec

/-- A scalar token without quotes, lexing.c:160-193. -/
def RTok.isLit : RTok → Bool
  | .pri v => decide (v.head? ≠ some '"')
  | _ => false

/-- The same for tokens. -/
def Tok.isLit : Tok → Bool
  | .pri v => decide (v.head? ≠ some '"')
  | _ => false

theorem toTok_isLit {r : RTok} {lx : Lexer} {t : Tok} (h : r.toTok lx = some t) : t.isLit = r.isLit := by
  cases r <;> simp [RTok.toTok] at h <;> subst h <;> rfl

theorem substring_head {S : Str} {b e : Nat} {c : Char} (hb : S[b]? = some c) (hc : c ≠ ' ') (hq : c ≠ '"') :
    (substring (S.drop b) 0 e).head? ≠ some '"' := by
  obtain ⟨tail, h1⟩ := getElem?_drop_cons hb
  have hl : lead (S.drop b) = 0 := by rw [h1]; simp [lead, hc]
  unfold substring ltrim
  rw [hl, List.drop_zero, List.drop_zero, h1]
  cases e with
  | zero => simp
  | succ e => simp [hq]

theorem isAlnum_ne {c : Char} (h : isAlnum c = true) : c ≠ '"' := by
  rintro rfl; revert h; decide

/-- The tokenizer on a prefix of the text that ends before the character `c0` reads the tokens that end in
that prefix, except a scalar without quotes directly before `c0`. -/
theorem lexLoop_takeC {S : Str} {k : Nat} {c0 : Char} (hq : S[k]? = some c0) (hbl : isBlank c0 = false) (hco : c0 ≠ ':') (lx : Lexer) :
    ∀ (rest : Str) (p start tokp st : Nat), S.drop p = rest →
    (lexLoop S lx rest p start tokp st).1 ≠ .eof →
    (lexLoop S lx rest p start tokp st).2.nxt ≤ k →
    ((lexLoop S lx rest p start tokp st).1.isLit = true → (lexLoop S lx rest p start tokp st).2.nxt ≠ k) →
    (st = 0 → tokp = p) → (st = 1 → S[start]? = some '"' ∧ start < p) →
    (2 ≤ st → ∃ c, S[tokp]? = some c ∧ c ≠ ' ' ∧ c ≠ '"' ∧ tokp < p) →
    (st ≠ 1 → (start ≤ tokp ∧ tokp ≤ start + 1) ∨
      (lexLoop S lx rest p start tokp st).1.isPri = false) →
    lexLoop (S.take k) lx (rest.take (k - p)) p start tokp st = lexLoop S lx rest p start tokp st := by
  intro rest
  induction rest with
  | nil => intro p start tokp st _ h; simp [lexLoop] at h
  | cons c rest ih =>
    intro p start tokp st hd hne hn hlost h0 h1 h2 hg
    obtain ⟨hlt, hd'⟩ := drop_cons_lt hd
    have hcp : S[p]? = some c := by
      have := drop_getElem? hd 0
      simpa using this.symm
    have hpr := lexLoop_progress S lx (c :: rest) p start tokp st hd
    rcases hpr with hpr | hpr
    · exact absurd hpr.1 hne
    have hpk : p < k := by
      have hle : p ≤ k := by
        have := hpr.2.1
        split at this <;> omega
      rcases Nat.lt_or_ge p k with h | h
      · exact h
      · have : p = k := by omega
        subst this
        exfalso
        match st with
        | 0 => have := hpr.2.1; simp at this; omega
        | 1 => have := hpr.2.1; simp at this; omega
        | st + 2 =>
          by_cases hc : c = '}' ∨ c = ']' ∨ c = ',' ∨ c = ' ' ∨ c = '\t'
          · have e : lexLoop S lx (c :: rest) p start tokp (st + 2) = primitiveFound S p start tokp lx := by simp only [lexLoop, if_pos hc]
            rw [e] at hlost
            obtain ⟨c', t1, t2, t3, _⟩ := h2 (by omega)
            refine hlost ?_ rfl
            unfold primitiveFound
            simp only [RTok.isLit, decide_eq_true_eq]
            split <;> exact substring_head t1 t2 t3
          · have e : lexLoop S lx (c :: rest) p start tokp (st + 2) =
                lexLoop S lx rest (p + 1) start tokp (st + 2) := by simp only [lexLoop, if_neg hc]
            rw [e] at hn hne
            have := lexLoop_progress S lx rest (p + 1) start tokp (st + 2) hd'
            rcases this with this | this
            · exact hne this.1
            · have := this.2.1
              split at this <;> omega
    have htk : (c :: rest).take (k - p) = c :: rest.take (k - (p + 1)) := by
      rw [show k - p = (k - (p + 1)) + 1 by omega, List.take_succ_cons]
    rw [htk]
    match st with
    | 0 =>
      have htok := h0 rfl
      simp only [lexLoop] at hne hn hg hlost ⊢
      repeat' split
      all_goals first
        | rfl
        | skip
      · rename_i hc1 hc2 hc3 hc4 hc5 hc6
        simp only [hc1, hc2, hc3, hc4, hc5, hc6, if_true, if_false] at hne hn hlost
        exact ih (p + 1) p p 1 hd' hne hn hlost (by simp) (fun _ => ⟨by rw [hcp, hc6], by omega⟩) (by simp) (by simp)
      · rename_i hc1 hc2 hc3 hc4 hc5 hc6 hc7
        simp only [hc1, hc2, hc3, hc4, hc5, hc6, hc7, if_true, if_false] at hne hn hlost
        exact ih (p + 1) (p + 1) (p + 1) 0 hd' hne hn hlost (by simp) (by simp) (by simp) (fun _ => .inl ⟨by omega, by omega⟩)
      · rename_i hc1 hc2 hc3 hc4 hc5 hc6 hc7 hc8
        simp only [hc1, hc2, hc3, hc4, hc5, hc6, hc7, hc8, if_true, if_false] at hne hn hg hlost
        refine ih (p + 1) start tokp 2 hd' hne hn hlost (by simp) (by simp) (fun _ => ⟨c, ?_, ?_, isAlnum_ne hc8, by omega⟩) ?_
        · rw [htok, hcp]
        · simp only [not_or] at hc7; exact hc7.1
        · intro _; exact hg (by simp)
      · rename_i hc1 hc2 hc3 hc4 hc5 hc6 hc7 hc8
        simp only [hc1, hc2, hc3, hc4, hc5, hc6, hc7, hc8, if_true, if_false] at hne hn hlost
        exact ih (p + 1) (p + 1) (p + 1) 0 hd' hne hn hlost (by simp) (by simp) (by simp) (fun _ => .inl ⟨by omega, by omega⟩)
    | 1 =>
      obtain ⟨hs1, hs2⟩ := h1 rfl
      simp only [lexLoop] at hne hn hlost ⊢
      rw [backslashes_take (by omega)]
      by_cases hc : c = '"'
      · simp only [hc, if_true] at hne hn hlost ⊢
        by_cases hb : backslashes S p % 2 = 1
        · simp only [hb, if_true] at hne hn hlost ⊢
          exact ih (p + 1) start tokp 1 hd' hne hn hlost (by simp) (fun _ => ⟨hs1, by omega⟩) (by simp) (by simp)
        · simp only [hb, if_false] at hne hn ⊢
          have hr : rest[k - (p + 1)]? = some c0 := by
            rw [drop_getElem? hd', show p + 1 + (k - (p + 1)) = k by omega]; exact hq
          obtain ⟨t1, t2⟩ := takeWhile_take (p := isBlank) rest (k - (p + 1)) c0 hr hbl
          have hsub := substring_take (S := S) (k := k) (i := 1) (e := p - start) hs1 (by decide) (by omega) (by omega)
          unfold stringFound
          rw [hsub, t1]
          have hget : (rest.take (k - (p + 1)))[(rest.takeWhile isBlank).length]? =
              if (rest.takeWhile isBlank).length < k - (p + 1) then rest[(rest.takeWhile isBlank).length]? else none := by
            rw [List.getElem?_take]
          simp only [hget]
          by_cases hl : (rest.takeWhile isBlank).length < k - (p + 1)
          · rw [if_pos hl]
          · rw [if_neg hl]
            have : (rest.takeWhile isBlank).length = k - (p + 1) := by omega
            rw [this, hr]
            simp [hco]
      · simp only [hc, if_false] at hne hn hlost ⊢
        exact ih (p + 1) start tokp 1 hd' hne hn hlost (by simp) (fun _ => ⟨hs1, by omega⟩) (by simp) (by simp)
    | st + 2 =>
      obtain ⟨c', ht1, ht2, ht4, ht3⟩ := h2 (by omega)
      simp only [lexLoop] at hne hn hg hlost ⊢
      split
      · rename_i hc
        rw [if_pos hc] at hg
        have hg := (hg (by omega)).resolve_right (by simp [primitiveFound, RTok.isPri])
        unfold primitiveFound
        have e1 : (S.take k)[tokp + (p - start) - 1]? = S[tokp + (p - start) - 1]? := by
          rw [List.getElem?_take, if_pos (by omega)]
        have e2 := substring_take (S := S) (k := k) (i := 0) (e := p - start) ht1 ht2 (by omega) (by omega)
        have e3 := substring_take (S := S) (k := k) (i := 0) (e := p - start - 1) ht1 ht2 (by omega) (by omega)
        simp only [e1, e2, e3]
      · rename_i hc
        rw [if_neg hc] at hne hn hg hlost
        exact ih (p + 1) start tokp (st + 2) hd' hne hn hlost (by simp) (by simp)
          (fun _ => ⟨c', ht1, ht2, ht4, by omega⟩) (fun _ => hg (by omega))

/-- From inside a string or a scalar the tokenizer reports a key, a scalar or the end. -/
theorem lexLoop_inside (s : Str) (lx : Lexer) : ∀ (rest : Str) (p start tokp st : Nat), st ≠ 0 →
    (lexLoop s lx rest p start tokp st).1 = .eof ∨ (lexLoop s lx rest p start tokp st).1.isPri = true ∨
      ∃ k, (lexLoop s lx rest p start tokp st).1 = .ky k
  | [], _, _, _, _, _ => by left; simp [lexLoop]
  | c :: rest, p, start, tokp, 1, _ => by
    simp only [lexLoop]
    repeat' split
    all_goals first
      | exact lexLoop_inside s lx rest _ _ _ _ (by decide)
      | skip
    unfold stringFound
    simp only
    split
    · exact .inr (.inr ⟨_, rfl⟩)
    · exact .inr (.inl rfl)
  | c :: rest, p, start, tokp, st + 2, _ => by
    simp only [lexLoop]
    split
    · exact .inr (.inl rfl)
    · exact lexLoop_inside s lx rest _ _ _ _ (by omega)

/-- A closing bracket. -/
def RTok.closes : RTok → Bool
  | .rcb => true
  | .rb => true
  | _ => false

/-- If the next token is the closing bracket at `k`, the prefix before it has no further token. -/
theorem lexLoop_none {s : Str} {k : Nat} (lx : Lexer) : ∀ (rest : Str) (p start tokp : Nat), p ≤ k →
    (lexLoop s lx rest p start tokp 0).1.closes = true → (lexLoop s lx rest p start tokp 0).2.nxt = k + 1 →
    (lexLoop (s.take k) lx (rest.take (k - p)) p start tokp 0) = (.eof, lx)
  | [], _, _, _, _, h, _ => by simp [lexLoop, RTok.closes] at h
  | c :: rest, p, start, tokp, hp, h, hn => by
    rcases Nat.lt_or_ge p k with hlt | hge
    · have htk : (c :: rest).take (k - p) = c :: rest.take (k - (p + 1)) := by
        rw [show k - p = (k - (p + 1)) + 1 by omega, List.take_succ_cons]
      rw [htk]
      have ih := lexLoop_none (s := s) (k := k) lx rest (p + 1) (p + 1) (p + 1) (by omega)
      have inside : ∀ (p start tokp st : Nat), st ≠ 0 → (lexLoop s lx rest p start tokp st).1.closes = true → False := by
        intro p start tokp st hst hc
        rcases lexLoop_inside s lx rest p start tokp st hst with h | h | ⟨k, h⟩
        · rw [h] at hc; cases hc
        · revert h hc
          cases (lexLoop s lx rest p start tokp st).1 <;> simp [RTok.isPri, RTok.closes]
        · rw [h] at hc; cases hc
      simp only [lexLoop] at h hn ⊢
      by_cases c1 : c = '{'
      · simp [c1, charFound, RTok.closes] at h
      by_cases c2 : c = '}'
      · simp [c2, charFound] at hn; omega
      by_cases c3 : c = '['
      · simp [c3, charFound, RTok.closes] at h
      by_cases c4 : c = ']'
      · simp [c4, charFound] at hn; omega
      by_cases c5 : c = ','
      · simp [c5, charFound, RTok.closes] at h
      by_cases c6 : c = '"'
      · rw [if_neg c1, if_neg c2, if_neg c3, if_neg c4, if_neg c5, if_pos c6] at h
        exact (inside _ _ _ _ (by decide) h).elim
      by_cases c7 : c = ' ' ∨ c = '\t'
      · rw [if_neg c1, if_neg c2, if_neg c3, if_neg c4, if_neg c5, if_neg c6, if_pos c7] at h hn ⊢
        exact ih h hn
      by_cases c8 : isAlnum c = true
      · rw [if_neg c1, if_neg c2, if_neg c3, if_neg c4, if_neg c5, if_neg c6, if_neg c7, if_pos c8] at h
        exact (inside _ _ _ _ (by decide) h).elim
      · rw [if_neg c1, if_neg c2, if_neg c3, if_neg c4, if_neg c5, if_neg c6, if_neg c7, if_neg c8] at h hn ⊢
        exact ih h hn
    · rw [show k - p = 0 by omega, List.take_zero]; simp [lexLoop]

/-! ### Token lists -/

/-- The tokens of a text, as steps of the tokenizer. -/
theorem reads_of_lexFrom {S : Str} : ∀ {n : Nat} {lx : Lexer} {xs ys : List Tok}, lexFrom S n lx = xs ++ ys →
    ∃ lx' m, Reads S lx xs lx' ∧ lexFrom S m lx' = ys ∧ m ≤ n
  | n, lx, [], ys, h => ⟨lx, n, rfl, h, Nat.le_refl _⟩
  | 0, _, _ :: _, _, h => by simp [lexFrom] at h
  | n + 1, lx, x :: xs, ys, h => by
    simp only [lexFrom] at h
    rcases ht : (nextToken S lx).1.toTok (nextToken S lx).2 with _ | t
    · rw [ht] at h; simp at h
    · rw [ht] at h
      simp only [List.cons_append, List.cons.injEq] at h
      obtain ⟨lx', m, h1, h2, h3⟩ := reads_of_lexFrom h.2
      exact ⟨lx', m, ⟨by rw [ht, h.1], h1⟩, h2, by omega⟩

/-- Reading on the prefix. -/
theorem Reads.takeC {S : Str} {k : Nat} {c0 : Char} (hq : S[k]? = some c0) (hbl : isBlank c0 = false) (hco : c0 ≠ ':') :
    ∀ {ts : List Tok} {lx lx' : Lexer} {b : Bool}, Reads S lx ts lx' → lx'.nxt ≤ k → NoAdj b ts →
      (b = true ∨ (lx.cur ≤ lx.nxt ∧ lx.nxt ≤ lx.cur + 1)) → (∀ t, ts.getLast? = some t → t.isLit = true → lx'.nxt ≠ k) →
      Reads (S.take k) lx ts lx'
  | [], _, _, _, h, _, _, _, _ => h
  | t :: ts, lx, lx', b, h, hk, hadj, hg, hl => by
    have hle := Reads.nxt_le h.2
    have hpri := toTok_isPri h.1
    have hne : (nextToken S lx).1 ≠ .eof := by
      intro hc
      have := h.1
      rw [toTok_none.2 hc] at this; cases this
    have hlost : (nextToken S lx).1.isLit = true → (nextToken S lx).2.nxt ≠ k := by
      intro hx
      rw [← toTok_isLit h.1] at hx
      cases ts with
      | nil => have := h.2; rw [show (nextToken S lx).2 = lx' from this]; exact hl t rfl hx
      | cons t' ts =>
        have h2 := h.2
        have h3 := Reads.nxt_le h2.2
        rcases nextToken_progress S (nextToken S lx).2 with hp | hp
        · have := h2.1
          rw [toTok_none.2 hp.1] at this; cases this
        · omega
    have e : nextToken (S.take k) lx = nextToken S lx := by
      unfold nextToken at hne hle hpri hlost ⊢
      have := lexLoop_takeC hq hbl hco lx (S.drop lx.nxt) lx.nxt lx.cur lx.nxt 0 rfl hne (by omega) hlost (by simp)
        (by simp) (by simp) (fun _ => by
          rcases hg with hg | hg
          · right; rw [← hpri]; exact hadj.1 hg
          · left; exact hg)
      rw [List.drop_take]; exact this
    refine ⟨by rw [e]; exact h.1, ?_⟩
    rw [e]
    refine Reads.takeC hq hbl hco h.2 hk hadj.2 ?_ ?_
    · rcases lexLoop_good S lx (S.drop lx.nxt) lx.nxt lx.cur lx.nxt 0 with hx | hx | hx
      · exact absurd hx hne
      · left; rw [hpri]; exact hx
      · right; exact hx
    · intro x hx
      refine hl x ?_
      cases ts with
      | nil => cases hx
      | cons t' ts => rw [← hx]; rfl

/-- A scalar without quotes ends after a character that is not blank. -/
theorem lexLoop_lit_prev (s : Str) (lx : Lexer) : ∀ (rest : Str) (p start tokp st : Nat), s.drop p = rest →
    (st = 1 → s[start]? = some '"' ∧ start < p) →
    (2 ≤ st → ∃ c, 0 < p ∧ s[p - 1]? = some c ∧ isBlank c = false) →
    (lexLoop s lx rest p start tokp st).1.isLit = true →
    ∃ c, s[(lexLoop s lx rest p start tokp st).2.nxt - 1]? = some c ∧ isBlank c = false
  | [], _, _, _, _, _, _, _, h => by simp [lexLoop, RTok.isLit] at h
  | c :: rest, p, start, tokp, st, hd, h1, h2, h => by
    obtain ⟨hlt, hd'⟩ := drop_cons_lt hd
    have hcp : s[p]? = some c := by
      have := drop_getElem? hd 0
      simpa using this.symm
    match st with
    | 0 =>
      simp only [lexLoop] at h ⊢
      by_cases c1 : c = '{'
      · simp [c1, charFound, RTok.isLit] at h
      by_cases c2 : c = '}'
      · simp [c2, charFound, RTok.isLit] at h
      by_cases c3 : c = '['
      · simp [c3, charFound, RTok.isLit] at h
      by_cases c4 : c = ']'
      · simp [c4, charFound, RTok.isLit] at h
      by_cases c5 : c = ','
      · simp [c5, charFound, RTok.isLit] at h
      by_cases c6 : c = '"'
      · rw [if_neg c1, if_neg c2, if_neg c3, if_neg c4, if_neg c5, if_pos c6] at h ⊢
        exact lexLoop_lit_prev s lx rest _ _ _ _ hd' (fun _ => ⟨by rw [hcp, c6], by omega⟩) (by simp) h
      by_cases c7 : c = ' ' ∨ c = '\t'
      · rw [if_neg c1, if_neg c2, if_neg c3, if_neg c4, if_neg c5, if_neg c6, if_pos c7] at h ⊢
        exact lexLoop_lit_prev s lx rest _ _ _ _ hd' (by simp) (by simp) h
      by_cases c8 : isAlnum c = true
      · rw [if_neg c1, if_neg c2, if_neg c3, if_neg c4, if_neg c5, if_neg c6, if_neg c7, if_pos c8] at h ⊢
        exact lexLoop_lit_prev s lx rest _ _ _ _ hd' (by simp) (fun _ => ⟨c, by omega, by simpa using hcp, by
          simp only [not_or] at c7; simp [isBlank, c7]⟩) h
      · rw [if_neg c1, if_neg c2, if_neg c3, if_neg c4, if_neg c5, if_neg c6, if_neg c7, if_neg c8] at h ⊢
        exact lexLoop_lit_prev s lx rest _ _ _ _ hd' (by simp) (by simp) h
    | 1 =>
      obtain ⟨hs1, hs2⟩ := h1 rfl
      have i1 := lexLoop_lit_prev s lx rest (p + 1) start tokp 1 hd' (fun _ => ⟨hs1, by omega⟩) (by simp)
      simp only [lexLoop] at h ⊢
      by_cases hc : c = '"'
      · simp only [hc, if_true] at h ⊢
        by_cases hb : backslashes s p % 2 = 1
        · simp only [hb, if_true] at h ⊢; exact i1 h
        · simp only [hb, if_false] at h ⊢
          exfalso
          unfold stringFound at h
          simp only at h
          split at h <;> simp [RTok.isLit] at h
      · simp only [hc, if_false] at h ⊢; exact i1 h
    | st + 2 =>
      simp only [lexLoop] at h ⊢
      by_cases hc : c = '}' ∨ c = ']' ∨ c = ',' ∨ c = ' ' ∨ c = '\t'
      · rw [if_pos hc]
        obtain ⟨c', h3, h4, h5⟩ := h2 (by omega)
        exact ⟨c', h4, h5⟩
      · rw [if_neg hc] at h ⊢
        refine lexLoop_lit_prev s lx rest (p + 1) start tokp (st + 2) hd' (by simp) (fun _ => ⟨c, by omega, by simpa using hcp, ?_⟩) h
        simp only [not_or] at hc
        simp [isBlank, hc]

theorem reads_lit_prev {S : Str} : ∀ {ts : List Tok} {lx lx' : Lexer} {t : Tok}, Reads S lx ts lx' → ts.getLast? = some t → t.isLit = true →
    ∃ c, S[lx'.nxt - 1]? = some c ∧ isBlank c = false
  | [], _, _, _, _, h, _ => by cases h
  | [x], lx, lx', t, h, hl, hlit => by
    have e : (nextToken S lx).2 = lx' := h.2
    have hx : x = t := by simpa using hl
    subst hx
    rw [← e]
    rw [toTok_isLit h.1] at hlit
    unfold nextToken at hlit ⊢
    exact lexLoop_lit_prev S lx _ _ _ _ 0 rfl (by simp) (by simp) hlit
  | _ :: y :: ts, lx, lx', t, h, hl, hlit => reads_lit_prev (ts := y :: ts) h.2 (by rw [← hl]; rfl) hlit

/-- What the closing bracket at `k` tells about the step that reads it. -/
theorem nextToken_close {T : Str} {lx : Lexer} {t : Tok} {k : Nat} (h : (nextToken T lx).1.toTok (nextToken T lx).2 = some t)
    (ht : t = .rcb (k + 1) ∨ t = .rb (k + 1)) : (nextToken T lx).1.closes = true ∧ (nextToken T lx).2.nxt = k + 1 := by
  revert h
  cases (nextToken T lx).1 <;> intro h <;> simp only [RTok.toTok, Option.some.injEq] at h <;> rcases ht with ht | ht <;> subst ht <;>
    simp_all [RTok.closes]

/-- **The tokens before a closing bracket are the tokens of the text before it**, unless a scalar without quotes stands directly
before the bracket. -/
theorem lexAll_before {T : Str} {k : Nat} {ts ys : List Tok} {t1 : Tok} (h : lexAll T = ts ++ t1 :: ys)
    (ht : t1 = .rcb (k + 1) ∨ t1 = .rb (k + 1)) (hadj : NoAdj false (lexAll T))
    (hlast : ∀ t, ts.getLast? = some t → t.isLit = true → ∃ c, T[k - 1]? = some c ∧ isBlank c = true) :
    lexAll (T.take k) = ts := by
  obtain ⟨lx, m, hr, h2, _⟩ := reads_of_lexFrom (S := T) h
  have hat : TokAt T t1 := lexFrom_tokAt T (T.length + 1) Lexer.init t1 (by rw [show lexFrom T (T.length + 1) Lexer.init = _ from h]; simp)
  obtain ⟨c0, hq, hbl, hco⟩ : ∃ c0, T[k]? = some c0 ∧ isBlank c0 = false ∧ c0 ≠ ':' := by
    rcases ht with rfl | rfl
    · exact ⟨'}', by simpa [TokAt] using hat, by decide, by decide⟩
    · exact ⟨']', by simpa [TokAt] using hat, by decide, by decide⟩
  have hx : (nextToken T lx).1.toTok (nextToken T lx).2 = some t1 := by
    cases m with
    | zero => simp [lexFrom] at h2
    | succ m =>
      simp only [lexFrom] at h2
      rcases hz : (nextToken T lx).1.toTok (nextToken T lx).2 with _ | t
      · rw [hz] at h2; cases h2
      · rw [hz] at h2
        simp only [List.cons.injEq] at h2
        rw [h2.1]
  obtain ⟨hc, hn⟩ := nextToken_close hx ht
  have hle : lx.nxt ≤ k := by
    rcases nextToken_progress T lx with hp | hp
    · rw [hp.1] at hc; cases hc
    · omega
  rw [h] at hadj
  have hrt : Reads (T.take k) Lexer.init ts lx := by
    refine Reads.takeC hq hbl hco hr hle hadj.left (.inr (by simp [Lexer.init])) fun t htl hlit hnk => ?_
    obtain ⟨c, h3, h4⟩ := hlast t htl hlit
    obtain ⟨c', h5, h6⟩ := reads_lit_prev hr htl hlit
    rw [hnk, h3] at h5
    cases h5
    rw [h4] at h6; cases h6
  rw [hrt.lexAll]
  have hno : nextToken (T.take k) lx = (.eof, lx) := by
    unfold nextToken at hc hn ⊢
    rw [List.drop_take]
    exact lexLoop_none lx _ _ _ _ hle hc hn
  simp [JPS.lexFrom, hno, RTok.toTok]

/-! ### Beginning inside the text -/

theorem backslashes_dropC {S rest : Str} {k p : Nat} {c0 : Char} (hq : S.drop k = c0 :: rest) (hc : c0 ≠ '\\') (hp : 0 < p) :
    backslashes (S.drop k) p = backslashes S (p + k) := by
  have hk : k < S.length := (drop_cons_lt hq).1
  unfold backslashes
  rw [Nat.add_comm p k, List.take_add, hq]
  obtain ⟨q, rfl⟩ : ∃ q, p = q + 1 := ⟨p - 1, by omega⟩
  rw [List.take_succ_cons, List.reverse_append, List.reverse_cons, List.append_assoc]
  rw [List.takeWhile_append, List.takeWhile_append]
  simp [hc]

/-- The tokenizer on the rest of a text from a character on that is no backslash. -/
theorem lexLoop_dropC {S tail : Str} {k : Nat} {c0 : Char} (hq : S.drop k = c0 :: tail) (hc0 : c0 ≠ '\\') (lx lx2 : Lexer) :
    ∀ (rest : Str) (p start start2 tokp st : Nat), (st = 1 → 0 < p) →
    (st = 0 → tokp = p ∧ (0 < p ∨ start2 ≤ p)) → (st = 1 → start = start2 + k) → (2 ≤ st → 0 < tokp ∨ start2 < p) →
    (start = start2 + k ∨ (lexLoop S lx rest (p + k) start (tokp + k) st).1.isPri = false) →
    (lexLoop (S.drop k) lx2 rest p start2 tokp st).1 = (lexLoop S lx rest (p + k) start (tokp + k) st).1 ∧
    ((lexLoop S lx rest (p + k) start (tokp + k) st).1 ≠ .eof →
      (lexLoop S lx rest (p + k) start (tokp + k) st).2.nxt =
        (lexLoop (S.drop k) lx2 rest p start2 tokp st).2.nxt + k ∧
      ((lexLoop S lx rest (p + k) start (tokp + k) st).1.isPri = true ∨
        (lexLoop S lx rest (p + k) start (tokp + k) st).2.cur =
        (lexLoop (S.drop k) lx2 rest p start2 tokp st).2.cur + k)) := by
  intro rest
  induction rest with
  | nil => intro p start start2 tokp st _ _ _ _ _; simp [lexLoop]
  | cons c rest ih =>
    intro p start start2 tokp st hp h0 h1 h2 hg
    have hadd : p + k + 1 = p + 1 + k := by omega
    match st with
    | 0 =>
      obtain ⟨htok, hps⟩ := h0 rfl
      subst htok
      have i1 := ih (tokp + 1) (tokp + k) tokp tokp 1 (fun _ => by omega) (by simp) (fun _ => rfl) (by simp) (.inl rfl)
      have i2 := ih (tokp + 1) (tokp + 1 + k) (tokp + 1) (tokp + 1) 0 (by simp) (by simp) (by simp) (by simp) (.inl rfl)
      simp only [lexLoop, hadd] at hg ⊢
      by_cases c1 : c = '{'
      · simp [c1, charFound]; omega
      by_cases c2 : c = '}'
      · simp [c2, charFound]; omega
      by_cases c3 : c = '['
      · simp [c3, charFound]; omega
      by_cases c4 : c = ']'
      · simp [c4, charFound]; omega
      by_cases c5 : c = ','
      · simp [c5, charFound]; omega
      by_cases c6 : c = '"'
      · simp only [c6, c1, c2, c3, c4, c5, if_true, if_false] at hg ⊢
        simpa using i1
      by_cases c7 : c = ' ' ∨ c = '\t'
      · simp only [c7, c6, c1, c2, c3, c4, c5, if_true, if_false] at hg ⊢
        exact i2
      by_cases c8 : isAlnum c = true
      · simp only [c8, c7, c6, c1, c2, c3, c4, c5, if_true, if_false] at hg ⊢
        exact ih (tokp + 1) start start2 tokp 2 (by simp) (by simp) (by simp) (fun _ => by omega) hg
      · simp only [c8, c7, c6, c1, c2, c3, c4, c5, if_true, if_false] at hg ⊢
        exact i2
    | 1 =>
      have hst := h1 rfl
      have hp := hp rfl
      subst hst
      have i1 := ih (p + 1) (start2 + k) start2 tokp 1 (fun _ => by omega) (by simp) (fun _ => rfl) (by simp) (.inl rfl)
      simp only [lexLoop, hadd]
      rw [backslashes_dropC hq hc0 hp]
      by_cases hc : c = '"'
      · simp only [hc, if_true]
        by_cases hb : backslashes S (p + k) % 2 = 1
        · simp only [hb, if_true]; exact i1
        · simp only [hb, if_false]
          unfold stringFound
          rw [List.drop_drop, show k + start2 = start2 + k by omega,
            show p + k - (start2 + k) = p - start2 by omega]
          simp only
          split
          · refine ⟨rfl, fun _ => ⟨by simp; omega, .inr (by simp; omega)⟩⟩
          · refine ⟨rfl, fun _ => ⟨by simp; omega, .inl rfl⟩⟩
      · simp only [hc, if_false]; exact i1
    | st + 2 =>
      simp only [lexLoop, hadd] at hg ⊢
      by_cases hc : c = '}' ∨ c = ']' ∨ c = ',' ∨ c = ' ' ∨ c = '\t'
      · simp only [hc, if_true] at hg ⊢
        have hst := hg.resolve_right (by simp [primitiveFound, RTok.isPri])
        subst hst
        unfold primitiveFound
        rw [show p + k - (start2 + k) = p - start2 by omega]
        simp only [List.drop_drop, List.getElem?_drop]
        refine ⟨?_, fun _ => ⟨by simp, .inl rfl⟩⟩
        have : ∀ x, x = tokp + k → k + tokp = x := by intro x; omega
        rw [this _ rfl]
        have := h2 (by omega)
        rw [show k + (tokp + (p - start2) - 1) = tokp + k + (p - start2) - 1 by omega]
      · simp only [hc, if_false] at hg ⊢
        exact ih (p + 1) start start2 tokp (st + 2) (by simp) (by simp) (by simp) (fun h => (h2 h).imp id (by omega)) hg

/-- The rest of the text, when the tokenizer stands in both texts at the same place; the flag tells whether a scalar came before. -/
theorem lexFrom_dropC {S tail : Str} {k : Nat} {c0 : Char} (hq : S.drop k = c0 :: tail) (hc0 : c0 ≠ '\\') :
    ∀ (n : Nat) (lx lx2 : Lexer) (b : Bool), lx.nxt = lx2.nxt + k → (0 < lx2.nxt ∨ lx2.cur = 0) →
      (b = true ∨ lx.cur = lx2.cur + k) → NoAdj b (lexFrom S n lx) →
      lexFrom S n lx = (lexFrom (S.drop k) n lx2).map (Tok.shift k)
  | 0, _, _, _, _, _, _, _ => rfl
  | n + 1, lx, lx2, b, hn, h0, hb, hadj => by
    simp only [lexFrom] at hadj ⊢
    have hloop := lexLoop_dropC hq hc0 lx lx2 (S.drop lx.nxt) lx2.nxt lx.cur lx2.cur lx2.nxt 0 (by simp)
      (fun _ => ⟨rfl, h0.imp id (fun h => by omega)⟩) (by simp) (by simp)
    rw [← hn] at hloop
    have hd : (S.drop k).drop lx2.nxt = S.drop lx.nxt := by
      rw [List.drop_drop, hn, Nat.add_comm]
    have e2 : nextToken (S.drop k) lx2 = lexLoop (S.drop k) lx2 (S.drop lx.nxt) lx2.nxt lx2.cur lx2.nxt 0 := by
      unfold nextToken; rw [hd]
    have e1 : nextToken S lx = lexLoop S lx (S.drop lx.nxt) lx.nxt lx.cur lx.nxt 0 := rfl
    rw [← e1, ← e2] at hloop
    have hprog := nextToken_progress (S.drop k) lx2
    revert hloop hadj hprog
    generalize nextToken S lx = r
    generalize nextToken (S.drop k) lx2 = r2
    intro hadj hloop hprog
    obtain ⟨r, l⟩ := r
    obtain ⟨r2, l2⟩ := r2
    simp only at hloop hprog hadj ⊢
    have hcond : lx.cur = lx2.cur + k ∨ r.isPri = false := by
      rcases hb with hb | hb
      · cases ht : r.toTok l with
        | none => right; rw [toTok_none.1 ht]; rfl
        | some t =>
          rw [ht] at hadj
          right; rw [← toTok_isPri ht]; exact hadj.1 hb
      · left; exact hb
    obtain ⟨h1, h2⟩ := hloop hcond
    subst h1
    cases hr : r2.toTok l with
    | none =>
      have := toTok_none.1 hr
      subst this
      rfl
    | some t =>
      have hne : r2 ≠ .eof := by
        intro hc; rw [toTok_none.2 hc] at hr; cases hr
      obtain ⟨h3, h4⟩ := h2 hne
      rw [hr] at hadj
      have hpri := toTok_isPri hr
      have hr2 : r2.toTok l2 = some (match r2 with | .lcb => .lcb l2.nxt | .rcb => .rcb l2.nxt | .lb => .lb l2.nxt | .rb => .rb l2.nxt | .com => .com | .ky c => .ky c | .pri c => .pri c | .eof => .com) := by
        cases r2 <;> first | rfl | exact absurd rfl hne
      rw [hr2]
      simp only [hne, ne_eq, not_false_eq_true, true_and, false_and, false_or] at hprog
      have ih := lexFrom_dropC hq hc0 n l l2 t.isPri h3 (.inl (by omega)) (by rw [hpri]; exact h4) hadj.2
      simp only [List.map_cons, ih]
      congr 1
      cases r2 <;> simp [RTok.toTok] at hr <;> subst hr <;> simp [Tok.shift, h3]

/-- Brackets and commas leave the tokenizer directly behind them. -/
def RTok.oneChar : RTok → Bool
  | .lcb => true
  | .rcb => true
  | .lb => true
  | .rb => true
  | .com => true
  | _ => false

theorem lexLoop_oneChar (s : Str) (lx : Lexer) : ∀ (rest : Str) (p start tokp st : Nat),
    (lexLoop s lx rest p start tokp st).1.oneChar = true →
    (lexLoop s lx rest p start tokp st).2.cur = (lexLoop s lx rest p start tokp st).2.nxt ∧
    (lexLoop s lx rest p start tokp st).2.cstart = (lexLoop s lx rest p start tokp st).2.nxt := by
  intro rest
  induction rest with
  | nil => intro p start tokp st h; simp [lexLoop, RTok.oneChar] at h
  | cons c rest ih =>
    intro p start tokp st
    match st with
    | 0 =>
      simp only [lexLoop]
      repeat' split
      all_goals first
        | exact ih _ _ _ _
        | (intro _; exact ⟨rfl, rfl⟩)
    | 1 =>
      simp only [lexLoop]
      repeat' split
      all_goals first
        | exact ih _ _ _ _
        | (unfold stringFound
           simp only
           split <;> (intro h; cases h))
    | st + 2 =>
      simp only [lexLoop]
      split
      · intro h; cases h
      · exact ih _ _ _ _

theorem lexLoop_ky_cstart (s : Str) (lx : Lexer) (k : Str) : ∀ (rest : Str) (p start tokp st : Nat),
    (lexLoop s lx rest p start tokp st).1 = .ky k → (lexLoop s lx rest p start tokp st).2.cstart = lx.cur + 1 := by
  intro rest
  induction rest with
  | nil => intro p start tokp st h; simp [lexLoop] at h
  | cons c rest ih =>
    intro p start tokp st
    match st with
    | 0 =>
      simp only [lexLoop]
      repeat' split
      all_goals first
        | exact ih _ _ _ _
        | (intro h; cases h)
    | 1 =>
      simp only [lexLoop]
      repeat' split
      all_goals first
        | exact ih _ _ _ _
        | skip
      unfold stringFound
      simp only
      split <;> (intro _; rfl)
    | st + 2 =>
      simp only [lexLoop]
      split
      · intro h; cases h
      · exact ih _ _ _ _

/-- The tokens with their positions, as steps of the tokenizer. -/
theorem reads_of_lexPosFrom {S : Str} : ∀ {n : Nat} {lx : Lexer} {xs ys : List (Tok × Nat)}, lexPosFrom S n lx = xs ++ ys →
    ∃ lx' m, Reads S lx (xs.map (·.1)) lx' ∧ lexPosFrom S m lx' = ys ∧ n = xs.length + m
  | n, lx, [], ys, h => ⟨lx, n, rfl, h, by simp⟩
  | 0, _, _ :: _, _, h => by simp [lexPosFrom] at h
  | n + 1, lx, x :: xs, ys, h => by
    simp only [lexPosFrom] at h
    rcases ht : (nextToken S lx).1.toTok (nextToken S lx).2 with _ | t
    · rw [ht] at h; simp at h
    · rw [ht] at h
      simp only [List.cons_append, List.cons.injEq] at h
      obtain ⟨lx', m, h1, h2, h3⟩ := reads_of_lexPosFrom h.2
      exact ⟨lx', m, ⟨by rw [ht, ← h.1], h1⟩, h2, by simp; omega⟩

/-- After a bracket or comma, or at the start, the tokenizer stands directly behind the last token. -/
theorem Reads.cur_eq {S : Str} : ∀ {ts : List Tok} {lx lx' : Lexer}, Reads S lx ts lx' → (ts = [] → lx.cur = lx.nxt) →
    (∀ t, ts.getLast? = some t → t = .com ∨ ∃ p, t = .lcb p) → lx'.cur = lx'.nxt
  | [], _, _, h, h0, _ => by cases h; exact h0 rfl
  | [x], lx, lx', h, _, hl => by
    have e : (nextToken S lx).2 = lx' := h.2
    have h1 := h.1
    have hx : (nextToken S lx).1.oneChar = true := by
      revert h1
      rcases hl x rfl with rfl | ⟨p, rfl⟩ <;> cases (nextToken S lx).1 <;> simp [RTok.toTok, RTok.oneChar]
    rw [← e]
    exact (lexLoop_oneChar S lx _ _ _ _ _ hx).1
  | _ :: y :: ts, lx, lx', h, _, hl => Reads.cur_eq (ts := y :: ts) h.2 (by simp) (fun t ht => hl t (by rw [← ht]; rfl))

/-- A closing bracket that is not the first token is not the first character. -/
theorem close_pos {T : Str} {k : Nat} {t0 t1 : Tok} {ts ys : List Tok} (h : lexAll T = t0 :: (ts ++ t1 :: ys))
    (ht : t1 = .rcb (k + 1) ∨ t1 = .rb (k + 1)) : 0 < k := by
  obtain ⟨lx, m, hr, h2, _⟩ := reads_of_lexFrom (S := T) (xs := t0 :: ts) (ys := t1 :: ys) h
  have h3 := Reads.nxt_le hr.2
  have hp0 : 0 < (nextToken T Lexer.init).2.nxt := by
    rcases nextToken_progress T Lexer.init with hp | hp
    · have := hr.1
      rw [toTok_none.2 hp.1] at this; cases this
    · omega
  obtain ⟨lx', m', hr', _, _⟩ := reads_of_lexFrom (S := T) (xs := [t1]) (ys := ys) h2
  obtain ⟨hc, hn⟩ := nextToken_close hr'.1 ht
  rcases nextToken_progress T lx with hp | hp
  · rw [hp.1] at hc; cases hc
  · omega

theorem Reads.length_le {S : Str} : ∀ {ts : List Tok} {lx lx' : Lexer}, Reads S lx ts lx' → lx.nxt + ts.length ≤ lx'.nxt
  | [], _, _, h => by cases h; simp
  | t :: ts, lx, lx', h => by
    have h2 := Reads.length_le h.2
    rcases nextToken_progress S lx with hp | hp
    · have := h.1
      rw [toTok_none.2 hp.1] at this; cases this
    · simp only [List.length_cons]; omega

/-- **From the beginning of a unit on, the tokens of the text are those of the rest of the text**, with other positions. -/
theorem lexAll_start {S : Str} {b : Nat} {xs zs : List (Tok × Nat)} {t0 : Tok} (h : lexPos S = xs ++ (t0, b + 1) :: zs)
    (hs : t0.starts = true) (hprev : (∃ k, t0 = .ky k) → ∀ x, xs.getLast? = some x → x.1 = .com ∨ ∃ p, x.1 = .lcb p)
    (hbs : S[b]? ≠ some '\\') (hadj : NoAdj false (lexAll S)) :
    (lexAll (S.drop b)).map (Tok.shift b) = t0 :: zs.map (·.1) := by
  obtain ⟨lx, m, hr, h2, hm⟩ := reads_of_lexPosFrom (S := S) h
  have hlen := hr.length_le
  have hf : lexFrom S (S.length + 1) lx = t0 :: zs.map (·.1) := by
    have h3 : lexFrom S m lx = t0 :: zs.map (·.1) := by rw [← lexPosFrom_fst, h2]; rfl
    rw [← h3]
    have hm0 : 0 < m := by
      cases m with
      | zero => simp [lexPosFrom] at h2
      | succ m => omega
    refine lexFrom_fuel S _ _ _ (by omega) ?_
    simp only [List.length_map, Lexer.init, Nat.zero_add] at hlen
    omega
  have hadj' : NoAdj false (lexFrom S (S.length + 1) lx) := by
    have e : lexAll S = xs.map (·.1) ++ lexFrom S (S.length + 1) lx := by
      rw [← lexPos_fst, h, hf, List.map_append]; rfl
    rw [e] at hadj
    exact hadj.right.elim fun _ h => h.weaken
  obtain ⟨ht, hc⟩ : (nextToken S lx).1.toTok (nextToken S lx).2 = some t0 ∧ (nextToken S lx).2.cstart = b + 1 := by
    cases m with
    | zero => simp [lexPosFrom] at h2
    | succ m =>
      simp only [lexPosFrom] at h2
      rcases hz : (nextToken S lx).1.toTok (nextToken S lx).2 with _ | t
      · rw [hz] at h2; cases h2
      · rw [hz] at h2
        simp only [List.cons.injEq, Prod.mk.injEq] at h2
        exact ⟨by rw [h2.1.1], h2.1.2⟩
  have hfuel : lexAll (S.drop b) = lexFrom (S.drop b) (S.length + 1) Lexer.init :=
    lexFrom_fuel _ _ _ _ (by simp [Lexer.init]) (by simp [Lexer.init]; omega)
  rw [hfuel, ← hf]
  -- a bracket
  have bracket : ∀ (c : Char) (r : RTok), r.oneChar = true → (nextToken S lx).1 = r → S[b]? = some c →
      (∀ rest lx' start tokp, lexLoop (S.drop b) lx' (c :: rest) 0 start tokp 0 = charFound r 0 lx') → (∀ l : Lexer, r.toTok l ≠ none) →
      (∀ l : Lexer, l.nxt = b + 1 → (r.toTok ⟨1, 1, 1, false⟩).map (Tok.shift b) = r.toTok l) →
      (lexFrom (S.drop b) (S.length + 1) Lexer.init).map (Tok.shift b) = lexFrom S (S.length + 1) lx := by
    intro c r h1 h2 h3 h4 h5 h6
    obtain ⟨tail, hd⟩ := getElem?_drop_cons h3
    have e2 : nextToken (S.drop b) Lexer.init = (r, ⟨1, 1, 1, false⟩) := by
      unfold nextToken
      rw [show (S.drop b).drop Lexer.init.nxt = c :: tail by simp [Lexer.init, hd]]
      exact h4 _ _ _ _
    obtain ⟨g1, g2⟩ := lexLoop_oneChar S lx (S.drop lx.nxt) lx.nxt lx.cur lx.nxt 0 (by
      rw [show (lexLoop S lx (S.drop lx.nxt) lx.nxt lx.cur lx.nxt 0).1 = r from h2]; exact h1)
    have g1 : (nextToken S lx).2.cur = (nextToken S lx).2.nxt := g1
    have g2 : (nextToken S lx).2.cstart = (nextToken S lx).2.nxt := g2
    have hn : (nextToken S lx).2.nxt = b + 1 := by omega
    simp only [lexFrom] at hadj' ⊢
    rw [e2]
    revert hadj' h2 g1 hn
    generalize nextToken S lx = z
    obtain ⟨z1, z2⟩ := z
    intro hadj' h2 g1 hn
    simp only at h2 g1 hn hadj' ⊢
    subst h2
    have h7 := h6 z2 hn
    cases e3 : z1.toTok ⟨1, 1, 1, false⟩ with
    | none => exact absurd e3 (h5 _)
    | some x =>
      rw [e3] at h7
      rw [← h7] at hadj' ⊢
      simp only [Option.map_some, List.map_cons] at hadj' ⊢
      congr 1
      exact (lexFrom_dropC hd (by rintro rfl; exact hbs h3) S.length z2 ⟨1, 1, 1, false⟩ _ (by simp [hn]; omega) (.inl (by decide))
        (.inr (by simp [g1, hn]; omega)) hadj'.2).symm
  have hat : TokAt S t0 := lexFrom_tokAt S _ _ t0 (by rw [hf]; exact List.mem_cons_self)
  cases t0 with
  | lcb p =>
    have hz : (nextToken S lx).1 = .lcb ∧ (nextToken S lx).2.nxt = p := by
      revert ht; cases (nextToken S lx).1 <;> simp [RTok.toTok]
    have hp := (lexLoop_oneChar S lx (S.drop lx.nxt) lx.nxt lx.cur lx.nxt 0 (by
      rw [show (lexLoop S lx (S.drop lx.nxt) lx.nxt lx.cur lx.nxt 0).1 = .lcb from hz.1]; rfl)).2
    have hp : (nextToken S lx).2.cstart = (nextToken S lx).2.nxt := hp
    have hpb : p = b + 1 := by omega
    subst hpb
    exact bracket '{' .lcb rfl hz.1 (by simpa using hat.2) (fun _ _ _ _ => by simp [lexLoop]) (fun _ => by simp [RTok.toTok])
      (fun l hl => by simp [RTok.toTok, Tok.shift, hl]; omega)
  | lb p =>
    have hz : (nextToken S lx).1 = .lb ∧ (nextToken S lx).2.nxt = p := by
      revert ht; cases (nextToken S lx).1 <;> simp [RTok.toTok]
    have hp := (lexLoop_oneChar S lx (S.drop lx.nxt) lx.nxt lx.cur lx.nxt 0 (by
      rw [show (lexLoop S lx (S.drop lx.nxt) lx.nxt lx.cur lx.nxt 0).1 = .lb from hz.1]; rfl)).2
    have hp : (nextToken S lx).2.cstart = (nextToken S lx).2.nxt := hp
    have hpb : p = b + 1 := by omega
    subst hpb
    exact bracket '[' .lb rfl hz.1 (by simpa using hat.2) (fun _ _ _ _ => by simp [lexLoop]) (fun _ => by simp [RTok.toTok])
      (fun l hl => by simp [RTok.toTok, Tok.shift, hl]; omega)
  | ky k =>
    have hz : (nextToken S lx).1 = .ky k := by
      revert ht; cases (nextToken S lx).1 <;> simp [RTok.toTok]
    have h3 : (nextToken S lx).2.cstart = lx.cur + 1 := lexLoop_ky_cstart S lx k _ _ _ _ _ hz
    have h4 : lx.cur = lx.nxt := Reads.cur_eq hr (fun _ => rfl) (fun t ht => by
      rw [List.getLast?_map] at ht
      obtain ⟨x, hx, rfl⟩ := Option.map_eq_some_iff.1 ht
      exact hprev ⟨k, rfl⟩ x hx)
    have hne : S.drop b ≠ [] := by
      intro he
      have : nextToken S lx = (.eof, lx) := by
        unfold nextToken
        rw [show lx.nxt = b by omega, he]; simp [lexLoop]
      rw [this] at hz; cases hz
    obtain ⟨c0, tail, hd⟩ := List.exists_cons_of_ne_nil hne
    have hb0 : S[b]? = some c0 := by
      have := congrArg List.head? hd
      simpa using this
    exact (lexFrom_dropC hd (by rintro rfl; exact hbs hb0) _ lx Lexer.init false (by simp [Lexer.init]; omega) (.inr rfl)
      (.inr (by simp [Lexer.init]; omega)) hadj').symm
  | _ => cases hs

/-- Inside a string no scalar without quotes is found. -/
theorem lexLoop_string_lit (s : Str) (lx : Lexer) : ∀ (rest : Str) (p start tokp : Nat), (lexLoop s lx rest p start tokp 1).1.isLit = false
  | [], _, _, _ => rfl
  | c :: rest, p, start, tokp => by
    have i1 := lexLoop_string_lit s lx rest (p + 1) start tokp
    simp only [lexLoop]
    by_cases hc : c = '"'
    · simp only [hc, if_true]
      by_cases hb : backslashes s p % 2 = 1
      · simp only [hb, if_true]; exact i1
      · simp only [hb, if_false]
        unfold stringFound
        simp only
        split <;> simp [RTok.isLit]
    · simp only [hc, if_false]; exact i1

/-- A scalar without quotes that ends at `k` is not found in the prefix before `k`. -/
theorem lexLoop_lost {s : Str} {k : Nat} (lx : Lexer) : ∀ (rest : Str) (p start tokp st : Nat), p ≤ k → st ≠ 1 →
    (lexLoop s lx rest p start tokp st).1.isLit = true → (lexLoop s lx rest p start tokp st).2.nxt = k →
    (lexLoop (s.take k) lx (rest.take (k - p)) p start tokp st) = (.eof, lx)
  | [], _, _, _, _, _, _, h, _ => by simp [lexLoop, RTok.isLit] at h
  | c :: rest, p, start, tokp, st, hp, h1, h, hn => by
    rcases Nat.lt_or_ge p k with hlt | hge
    · have htk : (c :: rest).take (k - p) = c :: rest.take (k - (p + 1)) := by
        rw [show k - p = (k - (p + 1)) + 1 by omega, List.take_succ_cons]
      rw [htk]
      match st with
      | 0 =>
        have ih := lexLoop_lost (s := s) (k := k) lx rest (p + 1) (p + 1) (p + 1) 0 (by omega) (by decide)
        simp only [lexLoop] at h hn ⊢
        by_cases c1 : c = '{'
        · simp [c1, charFound, RTok.isLit] at h
        by_cases c2 : c = '}'
        · simp [c2, charFound, RTok.isLit] at h
        by_cases c3 : c = '['
        · simp [c3, charFound, RTok.isLit] at h
        by_cases c4 : c = ']'
        · simp [c4, charFound, RTok.isLit] at h
        by_cases c5 : c = ','
        · simp [c5, charFound, RTok.isLit] at h
        by_cases c6 : c = '"'
        · rw [if_neg c1, if_neg c2, if_neg c3, if_neg c4, if_neg c5, if_pos c6, lexLoop_string_lit] at h
          cases h
        by_cases c7 : c = ' ' ∨ c = '\t'
        · rw [if_neg c1, if_neg c2, if_neg c3, if_neg c4, if_neg c5, if_neg c6, if_pos c7] at h hn ⊢
          exact ih h hn
        by_cases c8 : isAlnum c = true
        · rw [if_neg c1, if_neg c2, if_neg c3, if_neg c4, if_neg c5, if_neg c6, if_neg c7, if_pos c8] at h hn ⊢
          exact lexLoop_lost (s := s) (k := k) lx rest (p + 1) start tokp 2 (by omega) (by decide) h hn
        · rw [if_neg c1, if_neg c2, if_neg c3, if_neg c4, if_neg c5, if_neg c6, if_neg c7, if_neg c8] at h hn ⊢
          exact ih h hn
      | 1 => exact absurd rfl h1
      | st + 2 =>
        simp only [lexLoop] at h hn ⊢
        by_cases hc : c = '}' ∨ c = ']' ∨ c = ',' ∨ c = ' ' ∨ c = '\t'
        · rw [if_pos hc] at hn
          have : (primitiveFound s p start tokp lx).2.nxt = p := rfl
          omega
        · rw [if_neg hc] at h hn ⊢
          exact lexLoop_lost (s := s) (k := k) lx rest (p + 1) start tokp (st + 2) (by omega) (by omega) h hn
    · rw [show k - p = 0 by omega, List.take_zero]; simp [lexLoop]

/-- A scalar without quotes ends before a character that is not alphanumeric. -/
theorem lexLoop_lit_next (s : Str) (lx : Lexer) : ∀ (rest : Str) (p start tokp st : Nat), s.drop p = rest → st ≠ 1 →
    (lexLoop s lx rest p start tokp st).1.isLit = true →
    ∃ c, s[(lexLoop s lx rest p start tokp st).2.nxt]? = some c ∧ isAlnum c = false
  | [], _, _, _, _, _, _, h => by simp [lexLoop, RTok.isLit] at h
  | c :: rest, p, start, tokp, st, hd, h1, h => by
    obtain ⟨hlt, hd'⟩ := drop_cons_lt hd
    have hcp : s[p]? = some c := by
      have := drop_getElem? hd 0
      simpa using this.symm
    match st with
    | 0 =>
      have ih := lexLoop_lit_next s lx rest (p + 1) (p + 1) (p + 1) 0 hd' (by decide)
      simp only [lexLoop] at h ⊢
      by_cases c1 : c = '{'
      · simp [c1, charFound, RTok.isLit] at h
      by_cases c2 : c = '}'
      · simp [c2, charFound, RTok.isLit] at h
      by_cases c3 : c = '['
      · simp [c3, charFound, RTok.isLit] at h
      by_cases c4 : c = ']'
      · simp [c4, charFound, RTok.isLit] at h
      by_cases c5 : c = ','
      · simp [c5, charFound, RTok.isLit] at h
      by_cases c6 : c = '"'
      · rw [if_neg c1, if_neg c2, if_neg c3, if_neg c4, if_neg c5, if_pos c6, lexLoop_string_lit] at h
        cases h
      by_cases c7 : c = ' ' ∨ c = '\t'
      · rw [if_neg c1, if_neg c2, if_neg c3, if_neg c4, if_neg c5, if_neg c6, if_pos c7] at h ⊢
        exact ih h
      by_cases c8 : isAlnum c = true
      · rw [if_neg c1, if_neg c2, if_neg c3, if_neg c4, if_neg c5, if_neg c6, if_neg c7, if_pos c8] at h ⊢
        exact lexLoop_lit_next s lx rest (p + 1) start tokp 2 hd' (by decide) h
      · rw [if_neg c1, if_neg c2, if_neg c3, if_neg c4, if_neg c5, if_neg c6, if_neg c7, if_neg c8] at h ⊢
        exact ih h
    | 1 => exact absurd rfl h1
    | st + 2 =>
      simp only [lexLoop] at h ⊢
      by_cases hc : c = '}' ∨ c = ']' ∨ c = ',' ∨ c = ' ' ∨ c = '\t'
      · rw [if_pos hc]
        refine ⟨c, hcp, ?_⟩
        rcases hc with rfl | rfl | rfl | rfl | rfl <;> decide
      · rw [if_neg hc] at h ⊢
        exact lexLoop_lit_next s lx rest (p + 1) start tokp (st + 2) hd' (by omega) h

/-- Between two tokens, the second of which is a closing bracket at `k`, there is no alphanumeric character. -/
theorem lexLoop_close_prev {s : Str} {k : Nat} (lx : Lexer) : ∀ (rest : Str) (p start tokp : Nat), s.drop p = rest →
    (lexLoop s lx rest p start tokp 0).1.closes = true → (lexLoop s lx rest p start tokp 0).2.nxt = k + 1 →
    ∀ i : Nat, p ≤ i → i < k → ∀ c, s[i]? = some c → isAlnum c = false
  | [], _, _, _, _, h, _ => by simp [lexLoop, RTok.closes] at h
  | c :: rest, p, start, tokp, hd, h, hn => by
    intro i hi hik ci hci
    obtain ⟨hlt, hd'⟩ := drop_cons_lt hd
    have hcp : s[p]? = some c := by
      have := drop_getElem? hd 0
      simpa using this.symm
    have inside : ∀ (p start tokp st : Nat), st ≠ 0 → (lexLoop s lx rest p start tokp st).1.closes = true → False := by
      intro p start tokp st hst hc
      rcases lexLoop_inside s lx rest p start tokp st hst with h | h | ⟨k, h⟩
      · rw [h] at hc; cases hc
      · revert h hc
        cases (lexLoop s lx rest p start tokp st).1 <;> simp [RTok.isPri, RTok.closes]
      · rw [h] at hc; cases hc
    have ih := lexLoop_close_prev (s := s) (k := k) lx rest (p + 1) (p + 1) (p + 1) hd'
    have go : isAlnum c = false → (∀ i : Nat, p + 1 ≤ i → i < k → ∀ c, s[i]? = some c → isAlnum c = false) → isAlnum ci = false := by
      intro g1 g2
      rcases Nat.eq_or_lt_of_le hi with e | e
      · subst e
        rw [hcp] at hci
        cases hci
        exact g1
      · exact g2 i e hik ci hci
    simp only [lexLoop] at h hn
    by_cases c1 : c = '{'
    · simp [c1, charFound, RTok.closes] at h
    by_cases c2 : c = '}'
    · simp [c2, charFound] at hn; omega
    by_cases c3 : c = '['
    · simp [c3, charFound, RTok.closes] at h
    by_cases c4 : c = ']'
    · simp [c4, charFound] at hn; omega
    by_cases c5 : c = ','
    · simp [c5, charFound, RTok.closes] at h
    by_cases c6 : c = '"'
    · rw [if_neg c1, if_neg c2, if_neg c3, if_neg c4, if_neg c5, if_pos c6] at h
      exact (inside _ _ _ _ (by decide) h).elim
    by_cases c7 : c = ' ' ∨ c = '\t'
    · rw [if_neg c1, if_neg c2, if_neg c3, if_neg c4, if_neg c5, if_neg c6, if_pos c7] at h hn
      exact go (by rcases c7 with rfl | rfl <;> decide) (ih h hn)
    by_cases c8 : isAlnum c = true
    · rw [if_neg c1, if_neg c2, if_neg c3, if_neg c4, if_neg c5, if_neg c6, if_neg c7, if_pos c8] at h
      exact (inside _ _ _ _ (by decide) h).elim
    · rw [if_neg c1, if_neg c2, if_neg c3, if_neg c4, if_neg c5, if_neg c6, if_neg c7, if_neg c8] at h hn
      exact go (by simpa using c8) (ih h hn)

/-- A list of tokens read one after the other, split. -/
theorem Reads.split {S : Str} : ∀ {xs ys : List Tok} {lx lx' : Lexer}, Reads S lx (xs ++ ys) lx' → ∃ l, Reads S lx xs l ∧ Reads S l ys lx'
  | [], _, lx, _, h => ⟨lx, rfl, h⟩
  | _ :: _, _, _, _, h => by
    obtain ⟨l, h1, h2⟩ := Reads.split h.2
    exact ⟨l, ⟨h.1, h1⟩, h2⟩

/-- **A scalar without quotes directly before a closing bracket is not among the tokens of the text before the bracket**; all tokens before
it are. -/
theorem lexAll_lost {T : Str} {k : Nat} {ts ys : List Tok} {x t1 : Tok} {c : Char} (h : lexAll T = (ts ++ [x]) ++ t1 :: ys)
    (ht : t1 = .rcb (k + 1) ∨ t1 = .rb (k + 1)) (hadj : NoAdj false (lexAll T)) (hx : x.isLit = true)
    (hk : 0 < k) (hc : T[k - 1]? = some c) (hal : isAlnum c = true) : lexAll (T.take k) = ts := by
  obtain ⟨lx, m, hr, h2, _⟩ := reads_of_lexFrom (S := T) h
  have hat : TokAt T t1 := lexFrom_tokAt T (T.length + 1) Lexer.init t1 (by rw [show lexFrom T (T.length + 1) Lexer.init = _ from h]; simp)
  obtain ⟨c0, hq, hbl, hco⟩ : ∃ c0, T[k]? = some c0 ∧ isBlank c0 = false ∧ c0 ≠ ':' := by
    rcases ht with rfl | rfl
    · exact ⟨'}', by simpa [TokAt] using hat, by decide, by decide⟩
    · exact ⟨']', by simpa [TokAt] using hat, by decide, by decide⟩
  have hx1 : (nextToken T lx).1.toTok (nextToken T lx).2 = some t1 := by
    cases m with
    | zero => simp [lexFrom] at h2
    | succ m =>
      simp only [lexFrom] at h2
      rcases hz : (nextToken T lx).1.toTok (nextToken T lx).2 with _ | t
      · rw [hz] at h2; cases h2
      · rw [hz] at h2
        simp only [List.cons.injEq] at h2
        rw [h2.1]
  obtain ⟨hcl, hn⟩ := nextToken_close hx1 ht
  have hle : lx.nxt ≤ k := by
    rcases nextToken_progress T lx with hp | hp
    · rw [hp.1] at hcl; cases hcl
    · omega
  obtain ⟨l, hr1, hr2⟩ := hr.split
  have e : (nextToken T l).2 = lx := hr2.2
  have hlit : (nextToken T l).1.isLit = true := by rw [← toTok_isLit hr2.1]; exact hx
  have hnk : lx.nxt = k := by
    rcases Nat.eq_or_lt_of_le hle with e1 | e1
    · exact e1
    · exfalso
      have := lexLoop_close_prev lx (T.drop lx.nxt) lx.nxt lx.cur lx.nxt rfl hcl hn (k - 1) (by omega) (by omega) c hc
      rw [this] at hal; cases hal
  have hlt : l.nxt < k := by
    rcases nextToken_progress T l with hp | hp
    · rw [hp.1] at hlit; cases hlit
    · rw [e] at hp; omega
  rw [h, List.append_assoc] at hadj
  have hrt : Reads (T.take k) Lexer.init ts l :=
    Reads.takeC hq hbl hco hr1 (by omega) hadj.left (.inr (by simp [Lexer.init])) fun t _ _ => by omega
  rw [hrt.lexAll]
  have hno : nextToken (T.take k) l = (.eof, l) := by
    have hn2 : (nextToken T l).2.nxt = k := by rw [e, hnk]
    unfold nextToken at hlit hn2 ⊢
    rw [List.drop_take]
    exact lexLoop_lost l _ _ _ _ 0 (by omega) (by decide) hlit hn2
  simp [JPS.lexFrom, hno, RTok.toTok]

/-- The text from the beginning of a unit on, split at the closing bracket. -/
theorem unit_parts {S : Str} {b e : Nat} {xs mid ys : List (Tok × Nat)} {t0 t1 : Tok}
    (h : lexPos S = xs ++ (t0, b + 1) :: (mid ++ (t1, e + 1) :: ys))
    (hs : t0.starts = true) (hprev : (∃ k, t0 = .ky k) → ∀ x, xs.getLast? = some x → x.1 = .com ∨ ∃ p, x.1 = .lcb p)
    (hbs : S[b]? ≠ some '\\') (he : t1 = .rcb (e + 1) ∨ t1 = .rb (e + 1)) (hadj : NoAdj false (lexAll S)) :
    ∃ t0' t1' ms ys', lexAll (S.drop b) = (t0' :: ms) ++ t1' :: ys' ∧ (t1' = .rcb (e - b + 1) ∨ t1' = .rb (e - b + 1)) ∧ 0 < e - b ∧
      NoAdj false (lexAll (S.drop b)) ∧ t0'.shift b = t0 ∧ ms.map (Tok.shift b) = mid.map (·.1) := by
  have h1 := lexAll_start h hs hprev hbs hadj
  rw [List.map_append, ← List.cons_append, List.map_cons] at h1
  obtain ⟨us, ws, hu, hu1, hw1⟩ := List.map_eq_append_iff.1 h1
  obtain ⟨t1', ys', rfl, ht1, hy⟩ := List.map_eq_cons_iff.1 hw1
  obtain ⟨t0', ms, rfl, ht0, hms⟩ := List.map_eq_cons_iff.1 hu1
  have hat : TokAt (S.drop b) t1' := lexFrom_tokAt _ ((S.drop b).length + 1) Lexer.init t1' (by
    rw [show lexFrom (S.drop b) ((S.drop b).length + 1) Lexer.init = _ from hu]; simp)
  have he' : (t1' = .rcb (e - b + 1) ∨ t1' = .rb (e - b + 1)) ∧ b ≤ e := by
    rcases he with rfl | rfl
    · cases t1' <;> simp [Tok.shift] at ht1
      have := hat.1
      exact ⟨.inl (by congr 1; omega), by omega⟩
    · cases t1' <;> simp [Tok.shift] at ht1
      have := hat.1
      exact ⟨.inr (by congr 1; omega), by omega⟩
  have hk : 0 < e - b := close_pos (T := S.drop b) (ts := ms) (ys := ys') hu he'.1
  have hadj' : NoAdj false (lexAll (S.drop b)) := by
    have hz : NoAdj false ((lexAll (S.drop b)).map (Tok.shift b)) := by
      have e2 : lexAll S = xs.map (·.1) ++ (lexAll (S.drop b)).map (Tok.shift b) := by
        rw [lexAll_start h hs hprev hbs hadj, ← lexPos_fst, h, List.map_append]; rfl
      rw [e2] at hadj
      exact hadj.right.elim fun _ h => h.weaken
    have : ∀ (l : List Tok) (f : Bool), NoAdj f (l.map (Tok.shift b)) → NoAdj f l := by
      intro l
      induction l with
      | nil => intro _ _; trivial
      | cons x l ih =>
        intro f hf
        have hx : (Tok.shift b x).isPri = x.isPri := by cases x <;> rfl
        exact ⟨by rw [← hx]; exact hf.1, ih _ (by rw [← hx]; exact hf.2)⟩
    exact this _ _ hz
  exact ⟨t0', t1', ms, ys', hu, he'.1, hk, hadj', ht0, hms⟩

/-- **The tokens of the text of a unit** from `b` to directly before the bracket at `e` are the tokens of the unit, unless a scalar without quotes stands
directly before the bracket. -/
theorem unit_tokens {S : Str} {b e : Nat} {xs mid ys : List (Tok × Nat)} {t0 t1 : Tok}
    (h : lexPos S = xs ++ (t0, b + 1) :: (mid ++ (t1, e + 1) :: ys))
    (hs : t0.starts = true) (hprev : (∃ k, t0 = .ky k) → ∀ x, xs.getLast? = some x → x.1 = .com ∨ ∃ p, x.1 = .lcb p)
    (hbs : S[b]? ≠ some '\\') (he : t1 = .rcb (e + 1) ∨ t1 = .rb (e + 1)) (hadj : NoAdj false (lexAll S))
    (hlit : ∀ x, mid.getLast? = some x → x.1.isLit = true → ∃ c, S[e - 1]? = some c ∧ isBlank c = true) :
    (lexAll ((S.drop b).take (e - b))).map (Tok.shift b) = t0 :: mid.map (·.1) := by
  obtain ⟨t0', t1', ms, ys', hu, he', hk, hadj', ht0, hms⟩ := unit_parts h hs hprev hbs he hadj
  rw [lexAll_before (ts := t0' :: ms) hu he' hadj' ?_]
  · rw [List.map_cons, ht0, hms]
  · intro t ht hlt
    cases hm : ms.getLast? with
    | none =>
      rw [List.getLast?_eq_none_iff] at hm
      subst hm
      have : t0' = t := by simpa using ht
      subst this
      rw [← ht0] at hs
      cases t0' <;> simp [Tok.isLit] at hlt
      cases hs
    | some y =>
      have hty : y = t := by
        rw [List.getLast?_cons, hm] at ht
        simpa using ht
      subst hty
      have h5 := congrArg List.getLast? hms
      rw [List.getLast?_map, List.getLast?_map, hm] at h5
      obtain ⟨x, hx, hx2⟩ := Option.map_eq_some_iff.1 h5.symm
      have hxl : x.1.isLit = true := by
        rw [hx2]; revert hlt; cases y <;> simp [Tok.shift, Tok.isLit]
      obtain ⟨c, h6, h7⟩ := hlit x hx hxl
      refine ⟨c, ?_, h7⟩
      rw [List.getElem?_drop, show b + (e - b - 1) = e - 1 by omega]
      exact h6

/-- **The lost token**: a scalar without quotes directly before the bracket is not among the tokens of the text of the unit; all others are. -/
theorem unit_tokens_lost {S : Str} {b e : Nat} {xs mid ys : List (Tok × Nat)} {x : Tok × Nat} {t0 t1 : Tok} {c : Char}
    (h : lexPos S = xs ++ (t0, b + 1) :: ((mid ++ [x]) ++ (t1, e + 1) :: ys))
    (hs : t0.starts = true) (hprev : (∃ k, t0 = .ky k) → ∀ x, xs.getLast? = some x → x.1 = .com ∨ ∃ p, x.1 = .lcb p)
    (hbs : S[b]? ≠ some '\\') (he : t1 = .rcb (e + 1) ∨ t1 = .rb (e + 1)) (hadj : NoAdj false (lexAll S))
    (hx : x.1.isLit = true) (hc : S[e - 1]? = some c) (hal : isAlnum c = true) :
    (lexAll ((S.drop b).take (e - b))).map (Tok.shift b) = t0 :: mid.map (·.1) := by
  obtain ⟨t0', t1', ms, ys', hu, he', hk, hadj', ht0, hms⟩ := unit_parts h hs hprev hbs he hadj
  rw [List.map_append] at hms
  obtain ⟨m1, m2, rfl, h1, h2⟩ := List.map_eq_append_iff.1 hms
  obtain ⟨y, rfl, hy⟩ : ∃ y, m2 = [y] ∧ y.shift b = x.1 := by
    cases m2 with
    | nil => simp at h2
    | cons y l =>
      cases l with
      | nil => exact ⟨y, rfl, by simpa using h2⟩
      | cons _ _ => simp at h2
  have hyl : y.isLit = true := by
    rw [← hy] at hx
    revert hx; cases y <;> simp [Tok.shift, Tok.isLit]
  rw [lexAll_lost (ts := t0' :: m1) (ys := ys') (t1 := t1') (x := y) (c := c) (by rw [hu]; simp) he' hadj' hyl hk (by
    rw [List.getElem?_drop, show b + (e - b - 1) = e - 1 by omega]; exact hc) hal]
  rw [List.map_cons, ht0, h1]

end JPS
