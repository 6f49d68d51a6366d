import Verif.LexerDoc
import Verif.PieceSim
/-!
# Tokens of a text cut at a token boundary
-/

set_option autoImplicit false

namespace JPS
open Spec

/-- Scalar tokens. -/
def Tok.isPri : Tok → Bool
  | .pri _ => true
  | _ => false

/-- Scalar tokens of the tokenizer. -/
def RTok.isPri : RTok → Bool
  | .pri _ => true
  | _ => false

/-- No two scalars directly follow each other; the flag tells whether a scalar came before. -/
def NoAdj : Bool → List Tok → Prop
  | _, [] => True
  | b, t :: ts => (b = true → t.isPri = false) ∧ NoAdj t.isPri ts

theorem backslashes_take {S : Str} {k p : Nat} (h : p ≤ k) :
    backslashes (S.take k) p = backslashes S p := by
  unfold backslashes
  rw [List.take_take, Nat.min_eq_left h]

theorem substring_take {S : Str} {k b i e : Nat} {c : Char} (hb : S[b]? = some c) (hc : c ≠ ' ')
    (hk : b < k) (he : b + e ≤ k) :
    substring ((S.take k).drop b) i e = substring (S.drop b) i e := by
  have h1 : S.drop b = c :: S.drop (b + 1) := by
    have : b < S.length := by
      rcases Nat.lt_or_ge b S.length with h | h
      · exact h
      · rw [List.getElem?_eq_none h] at hb; cases hb
    rw [List.drop_eq_getElem_cons this]
    rw [List.getElem?_eq_getElem this] at hb
    injection hb with hb; rw [hb]
  have h2 : (S.take k).drop b = (S.drop b).take (k - b) := by rw [List.drop_take]
  have hl : lead (S.drop b) = 0 := by rw [h1]; simp [lead, hc]
  have hl2 : lead ((S.drop b).take (k - b)) = 0 := by
    rw [h1, show k - b = (k - b - 1) + 1 by omega, List.take_succ_cons]; simp [lead, hc]
  unfold substring ltrim
  rw [h2, hl, hl2, List.drop_zero, List.drop_zero, List.take_take, Nat.min_eq_left (by omega)]

theorem takeWhile_take {p : Char → Bool} : ∀ (l : Str) (n : Nat) (c : Char),
    l[n]? = some c → p c = false → (l.take n).takeWhile p = l.takeWhile p ∧ (l.takeWhile p).length ≤ n
  | [], n, c, h, _ => by simp at h
  | a :: l, 0, c, h, hc => by
    have : a = c := by simpa using h
    subst this
    simp [List.takeWhile_cons, hc]
  | a :: l, n + 1, c, h, hc => by
    have := takeWhile_take l n c (by simpa using h) hc
    simp only [List.take_succ_cons, List.takeWhile_cons]
    split
    · simp [this]
    · simp

/-- The tokenizer on a prefix of the text that ends before a quote reads the tokens that end in
that prefix. -/
theorem lexLoop_take {S : Str} {k : Nat} (hq : S[k]? = some '"') (lx : Lexer) :
    ∀ (rest : Str) (p start tokp st : Nat), S.drop p = rest →
    (lexLoop S lx rest p start tokp st).1 ≠ .eof →
    (lexLoop S lx rest p start tokp st).2.nxt ≤ k →
    (st = 0 → tokp = p) → (st = 1 → S[start]? = some '"' ∧ start < p) →
    (2 ≤ st → ∃ c, S[tokp]? = some c ∧ c ≠ ' ' ∧ tokp < p) →
    (st ≠ 1 → (start ≤ tokp ∧ tokp ≤ start + 1) ∨
      (lexLoop S lx rest p start tokp st).1.isPri = false) →
    lexLoop (S.take k) lx (rest.take (k - p)) p start tokp st = lexLoop S lx rest p start tokp st := by
  intro rest
  induction rest with
  | nil => intro p start tokp st _ h; simp [lexLoop] at h
  | cons c rest ih =>
    intro p start tokp st hd hne hn h0 h1 h2 hg
    obtain ⟨hlt, hd'⟩ := drop_cons_lt hd
    have hcp : S[p]? = some c := by
      have := drop_getElem? hd 0
      simpa using this.symm
    have hpr := lexLoop_progress S lx (c :: rest) p start tokp st hd
    rcases hpr with hpr | hpr
    · exact absurd hpr.1 hne
    have hpk : p < k := by
      have hle : p ≤ k := by
        have := hpr.2.1
        split at this <;> omega
      rcases Nat.lt_or_ge p k with h | h
      · exact h
      · have : p = k := by omega
        subst this
        rw [hq] at hcp
        injection hcp with hcp
        subst hcp
        exfalso
        match st with
        | 0 => have := hpr.2.1; simp at this; omega
        | 1 => have := hpr.2.1; simp at this; omega
        | st + 2 =>
          have e : lexLoop S lx ('"' :: rest) p start tokp (st + 2) =
              lexLoop S lx rest (p + 1) start tokp (st + 2) := by simp [lexLoop]
          rw [e] at hn hne
          have := lexLoop_progress S lx rest (p + 1) start tokp (st + 2) hd'
          rcases this with this | this
          · exact hne this.1
          · have := this.2.1
            split at this <;> omega
    have htk : (c :: rest).take (k - p) = c :: rest.take (k - (p + 1)) := by
      rw [show k - p = (k - (p + 1)) + 1 by omega, List.take_succ_cons]
    rw [htk]
    match st with
    | 0 =>
      have htok := h0 rfl
      simp only [lexLoop] at hne hn hg ⊢
      repeat' split
      all_goals first
        | rfl
        | skip
      · rename_i hc1 hc2 hc3 hc4 hc5 hc6
        simp only [hc1, hc2, hc3, hc4, hc5, hc6, if_true, if_false] at hne hn
        exact ih (p + 1) p p 1 hd' hne hn (by simp) (fun _ => ⟨by rw [hcp, hc6], by omega⟩) (by simp) (by simp)
      · rename_i hc1 hc2 hc3 hc4 hc5 hc6 hc7
        simp only [hc1, hc2, hc3, hc4, hc5, hc6, hc7, if_true, if_false] at hne hn
        exact ih (p + 1) (p + 1) (p + 1) 0 hd' hne hn (by simp) (by simp) (by simp) (fun _ => .inl ⟨by omega, by omega⟩)
      · rename_i hc1 hc2 hc3 hc4 hc5 hc6 hc7 hc8
        simp only [hc1, hc2, hc3, hc4, hc5, hc6, hc7, hc8, if_true, if_false] at hne hn hg
        refine ih (p + 1) start tokp 2 hd' hne hn (by simp) (by simp) (fun _ => ⟨c, ?_, ?_, by omega⟩) ?_
        · rw [htok, hcp]
        · simp only [not_or] at hc7; exact hc7.1
        · intro _; exact hg (by simp)
      · rename_i hc1 hc2 hc3 hc4 hc5 hc6 hc7 hc8
        simp only [hc1, hc2, hc3, hc4, hc5, hc6, hc7, hc8, if_true, if_false] at hne hn
        exact ih (p + 1) (p + 1) (p + 1) 0 hd' hne hn (by simp) (by simp) (by simp) (fun _ => .inl ⟨by omega, by omega⟩)
    | 1 =>
      obtain ⟨hs1, hs2⟩ := h1 rfl
      simp only [lexLoop] at hne hn ⊢
      rw [backslashes_take (by omega)]
      by_cases hc : c = '"'
      · simp only [hc, if_true] at hne hn ⊢
        by_cases hb : backslashes S p % 2 = 1
        · simp only [hb, if_true] at hne hn ⊢
          exact ih (p + 1) start tokp 1 hd' hne hn (by simp) (fun _ => ⟨hs1, by omega⟩) (by simp) (by simp)
        · simp only [hb, if_false] at hne hn ⊢
          have hr : rest[k - (p + 1)]? = some '"' := by
            rw [drop_getElem? hd', show p + 1 + (k - (p + 1)) = k by omega]; exact hq
          obtain ⟨t1, t2⟩ := takeWhile_take (p := isBlank) rest (k - (p + 1)) '"' hr (by decide)
          have hsub := substring_take (S := S) (k := k) (i := 1) (e := p - start) hs1 (by decide) (by omega) (by omega)
          unfold stringFound
          rw [hsub, t1]
          have hget : (rest.take (k - (p + 1)))[(rest.takeWhile isBlank).length]? =
              if (rest.takeWhile isBlank).length < k - (p + 1) then rest[(rest.takeWhile isBlank).length]? else none := by
            rw [List.getElem?_take]
          simp only [hget]
          by_cases hl : (rest.takeWhile isBlank).length < k - (p + 1)
          · rw [if_pos hl]
          · rw [if_neg hl]
            have : (rest.takeWhile isBlank).length = k - (p + 1) := by omega
            rw [this, hr]
            simp
      · simp only [hc, if_false] at hne hn ⊢
        exact ih (p + 1) start tokp 1 hd' hne hn (by simp) (fun _ => ⟨hs1, by omega⟩) (by simp) (by simp)
    | st + 2 =>
      obtain ⟨c', ht1, ht2, ht3⟩ := h2 (by omega)
      simp only [lexLoop] at hne hn hg ⊢
      split
      · rename_i hc
        rw [if_pos hc] at hg
        have hg := (hg (by omega)).resolve_right (by simp [primitiveFound, RTok.isPri])
        unfold primitiveFound
        have e1 : (S.take k)[tokp + (p - start) - 1]? = S[tokp + (p - start) - 1]? := by
          rw [List.getElem?_take, if_pos (by omega)]
        have e2 := substring_take (S := S) (k := k) (i := 0) (e := p - start) ht1 ht2 (by omega) (by omega)
        have e3 := substring_take (S := S) (k := k) (i := 0) (e := p - start - 1) ht1 ht2 (by omega) (by omega)
        simp only [e1, e2, e3]
      · rename_i hc
        rw [if_neg hc] at hne hn hg
        exact ih (p + 1) start tokp (st + 2) hd' hne hn (by simp) (by simp)
          (fun _ => ⟨c', ht1, ht2, by omega⟩) (fun _ => hg (by omega))

theorem backslashes_drop {S rest : Str} {k p : Nat} (hq : S.drop k = '"' :: rest) (hp : 0 < p) :
    backslashes (S.drop k) p = backslashes S (p + k) := by
  have hk : k < S.length := (drop_cons_lt hq).1
  unfold backslashes
  rw [Nat.add_comm p k, List.take_add, hq]
  obtain ⟨q, rfl⟩ : ∃ q, p = q + 1 := ⟨p - 1, by omega⟩
  rw [List.take_succ_cons, List.reverse_append, List.reverse_cons, List.append_assoc]
  rw [List.takeWhile_append, List.takeWhile_append]
  simp

/-- The tokenizer on the rest of a text from a quote on. -/
theorem lexLoop_drop {S tail : Str} {k : Nat} (hq : S.drop k = '"' :: tail) (lx lx2 : Lexer) :
    ∀ (rest : Str) (p start start2 tokp st : Nat), 0 < p →
    (st = 0 → tokp = p) → (st = 1 → start = start2 + k) → (2 ≤ st → 0 < tokp) →
    (start = start2 + k ∨ (lexLoop S lx rest (p + k) start (tokp + k) st).1.isPri = false) →
    (lexLoop (S.drop k) lx2 rest p start2 tokp st).1 = (lexLoop S lx rest (p + k) start (tokp + k) st).1 ∧
    ((lexLoop S lx rest (p + k) start (tokp + k) st).1 ≠ .eof →
      (lexLoop S lx rest (p + k) start (tokp + k) st).2.nxt =
        (lexLoop (S.drop k) lx2 rest p start2 tokp st).2.nxt + k ∧
      ((lexLoop S lx rest (p + k) start (tokp + k) st).1.isPri = true ∨
        (lexLoop S lx rest (p + k) start (tokp + k) st).2.cur =
        (lexLoop (S.drop k) lx2 rest p start2 tokp st).2.cur + k)) := by
  intro rest
  induction rest with
  | nil => intro p start start2 tokp st _ _ _ _ _; simp [lexLoop]
  | cons c rest ih =>
    intro p start start2 tokp st hp h0 h1 h2 hg
    have hadd : p + k + 1 = p + 1 + k := by omega
    match st with
    | 0 =>
      have htok := h0 rfl
      subst htok
      have i1 := ih (tokp + 1) (tokp + k) tokp tokp 1 (by omega) (by simp) (fun _ => rfl) (by simp) (.inl rfl)
      have i2 := ih (tokp + 1) (tokp + 1 + k) (tokp + 1) (tokp + 1) 0 (by omega) (by simp) (fun _ => by simp) (by simp) (.inl rfl)
      simp only [lexLoop, hadd] at hg ⊢
      by_cases c1 : c = '{'
      · simp [c1, charFound]; omega
      by_cases c2 : c = '}'
      · simp [c2, charFound]; omega
      by_cases c3 : c = '['
      · simp [c3, charFound]; omega
      by_cases c4 : c = ']'
      · simp [c4, charFound]; omega
      by_cases c5 : c = ','
      · simp [c5, charFound]; omega
      by_cases c6 : c = '"'
      · simp only [c6, c1, c2, c3, c4, c5, if_true, if_false] at hg ⊢
        simpa using i1
      by_cases c7 : c = ' ' ∨ c = '\t'
      · simp only [c7, c6, c1, c2, c3, c4, c5, if_true, if_false] at hg ⊢
        exact i2
      by_cases c8 : isAlnum c = true
      · simp only [c8, c7, c6, c1, c2, c3, c4, c5, if_true, if_false] at hg ⊢
        exact ih (tokp + 1) start start2 tokp 2 (by omega) (by simp) (by simp) (fun _ => hp) hg
      · simp only [c8, c7, c6, c1, c2, c3, c4, c5, if_true, if_false] at hg ⊢
        exact i2
    | 1 =>
      have hst := h1 rfl
      subst hst
      have i1 := ih (p + 1) (start2 + k) start2 tokp 1 (by omega) (by simp) (fun _ => rfl) (by simp) (.inl rfl)
      simp only [lexLoop, hadd]
      rw [backslashes_drop hq hp]
      by_cases hc : c = '"'
      · simp only [hc, if_true]
        by_cases hb : backslashes S (p + k) % 2 = 1
        · simp only [hb, if_true]; exact i1
        · simp only [hb, if_false]
          unfold stringFound
          rw [List.drop_drop, show k + start2 = start2 + k by omega,
            show p + k - (start2 + k) = p - start2 by omega]
          simp only
          split
          · refine ⟨rfl, fun _ => ⟨by simp; omega, .inr (by simp; omega)⟩⟩
          · refine ⟨rfl, fun _ => ⟨by simp; omega, .inl rfl⟩⟩
      · simp only [hc, if_false]; exact i1
    | st + 2 =>
      simp only [lexLoop, hadd] at hg ⊢
      by_cases hc : c = '}' ∨ c = ']' ∨ c = ',' ∨ c = ' ' ∨ c = '\t'
      · simp only [hc, if_true] at hg ⊢
        have hst := hg.resolve_right (by simp [primitiveFound, RTok.isPri])
        subst hst
        unfold primitiveFound
        rw [show p + k - (start2 + k) = p - start2 by omega]
        simp only [List.drop_drop, List.getElem?_drop]
        refine ⟨?_, fun _ => ⟨by simp, .inl rfl⟩⟩
        have : ∀ x, x = tokp + k → k + tokp = x := by intro x; omega
        rw [this _ rfl]
        have := h2 (by omega)
        rw [show k + (tokp + (p - start2) - 1) = tokp + k + (p - start2) - 1 by omega]
      · simp only [hc, if_false] at hg ⊢
        exact ih (p + 1) start start2 tokp (st + 2) (by omega) (by simp) (by simp) h2 hg

/-! ### Token lists -/

theorem toTok_isPri {r : RTok} {lx : Lexer} {t : Tok} (h : r.toTok lx = some t) :
    t.isPri = r.isPri := by
  cases r <;> simp [RTok.toTok] at h <;> subst h <;> rfl

theorem lexLoop_good (s : Str) (lx : Lexer) : ∀ (rest : Str) (p start tokp st : Nat),
    (lexLoop s lx rest p start tokp st).1 = .eof ∨
    (lexLoop s lx rest p start tokp st).1.isPri = true ∨
    ((lexLoop s lx rest p start tokp st).2.cur ≤ (lexLoop s lx rest p start tokp st).2.nxt ∧
      (lexLoop s lx rest p start tokp st).2.nxt ≤ (lexLoop s lx rest p start tokp st).2.cur + 1) := by
  intro rest
  induction rest with
  | nil => intro p start tokp st; left; simp [lexLoop]
  | cons c rest ih =>
    intro p start tokp st
    match st with
    | 0 =>
      simp only [lexLoop]
      repeat' split
      all_goals first
        | exact ih _ _ _ _
        | (right; right; simp [charFound])
    | 1 =>
      simp only [lexLoop]
      repeat' split
      all_goals first
        | exact ih _ _ _ _
        | (unfold stringFound
           simp only
           split
           · right; right; simp
           · right; left; rfl)
    | st + 2 =>
      simp only [lexLoop]
      split
      · right; left; rfl
      · exact ih _ _ _ _

theorem Reads.nxt_le {S : Str} : ∀ {ts : List Tok} {lx lx' : Lexer}, Reads S lx ts lx' →
    lx.nxt ≤ lx'.nxt
  | [], _, _, h => by cases h; exact Nat.le_refl _
  | t :: ts, lx, lx', h => by
    have h2 := Reads.nxt_le h.2
    rcases nextToken_progress S lx with hp | hp
    · rw [hp.2] at h2; exact h2
    · omega

theorem Reads.take {S : Str} {k : Nat} (hq : S[k]? = some '"') :
    ∀ {ts : List Tok} {lx lx' : Lexer} {b : Bool}, Reads S lx ts lx' → lx'.nxt ≤ k → NoAdj b ts →
      (b = true ∨ (lx.cur ≤ lx.nxt ∧ lx.nxt ≤ lx.cur + 1)) → Reads (S.take k) lx ts lx'
  | [], _, _, _, h, _, _, _ => h
  | t :: ts, lx, lx', b, h, hk, hadj, hg => by
    have hle := Reads.nxt_le h.2
    have hpri := toTok_isPri h.1
    have hne : (nextToken S lx).1 ≠ .eof := by
      intro hc
      have := h.1
      rw [toTok_none.2 hc] at this; cases this
    have e : nextToken (S.take k) lx = nextToken S lx := by
      unfold nextToken at hne hle hpri ⊢
      have := lexLoop_take hq lx (S.drop lx.nxt) lx.nxt lx.cur lx.nxt 0 rfl hne (by omega) (by simp)
        (by simp) (by simp) (fun _ => by
          rcases hg with hg | hg
          · right; rw [← hpri]; exact hadj.1 hg
          · left; exact hg)
      rw [List.drop_take]; exact this
    refine ⟨by rw [e]; exact h.1, ?_⟩
    rw [e]
    refine Reads.take hq h.2 hk hadj.2 ?_
    rcases lexLoop_good S lx (S.drop lx.nxt) lx.nxt lx.cur lx.nxt 0 with hx | hx | hx
    · exact absurd hx hne
    · left; rw [hpri]; exact hx
    · right; exact hx

theorem lexFrom_drop {S tail : Str} {k : Nat} (hq : S.drop k = '"' :: tail) :
    ∀ (n : Nat) (lx lx2 : Lexer) (b : Bool), lx.nxt = lx2.nxt + k → 0 < lx2.nxt →
      (b = true ∨ lx.cur = lx2.cur + k) → NoAdj b (lexFrom S n lx) →
      lexFrom S n lx = (lexFrom (S.drop k) n lx2).map (Tok.shift k)
  | 0, _, _, _, _, _, _, _ => rfl
  | n + 1, lx, lx2, b, hn, h0, hb, hadj => by
    simp only [lexFrom] at hadj ⊢
    have hloop := lexLoop_drop hq lx lx2 (S.drop lx.nxt) lx2.nxt lx.cur lx2.cur lx2.nxt 0 h0
      (by simp) (by simp) (by simp)
    rw [← hn] at hloop
    have hd : (S.drop k).drop lx2.nxt = S.drop lx.nxt := by
      rw [List.drop_drop, hn, Nat.add_comm]
    have e2 : nextToken (S.drop k) lx2 = lexLoop (S.drop k) lx2 (S.drop lx.nxt) lx2.nxt lx2.cur lx2.nxt 0 := by
      unfold nextToken; rw [hd]
    have e1 : nextToken S lx = lexLoop S lx (S.drop lx.nxt) lx.nxt lx.cur lx.nxt 0 := rfl
    rw [← e1, ← e2] at hloop
    have hprog := nextToken_progress (S.drop k) lx2
    revert hloop hadj hprog
    generalize nextToken S lx = r
    generalize nextToken (S.drop k) lx2 = r2
    intro hadj hloop hprog
    obtain ⟨r, l⟩ := r
    obtain ⟨r2, l2⟩ := r2
    simp only at hloop hprog hadj ⊢
    have hcond : lx.cur = lx2.cur + k ∨ r.isPri = false := by
      rcases hb with hb | hb
      · cases ht : r.toTok l with
        | none => right; rw [toTok_none.1 ht]; rfl
        | some t =>
          rw [ht] at hadj
          right; rw [← toTok_isPri ht]; exact hadj.1 hb
      · left; exact hb
    obtain ⟨h1, h2⟩ := hloop hcond
    subst h1
    cases hr : r2.toTok l with
    | none =>
      have := toTok_none.1 hr
      subst this
      rfl
    | some t =>
      have hne : r2 ≠ .eof := by
        intro hc; rw [toTok_none.2 hc] at hr; cases hr
      obtain ⟨h3, h4⟩ := h2 hne
      rw [hr] at hadj
      have hpri := toTok_isPri hr
      have hr2 : r2.toTok l2 = some (match r2 with | .lcb => .lcb l2.nxt | .rcb => .rcb l2.nxt | .lb => .lb l2.nxt | .rb => .rb l2.nxt | .com => .com | .ky c => .ky c | .pri c => .pri c | .eof => .com) := by
        cases r2 <;> first | rfl | exact absurd rfl hne
      rw [hr2]
      simp only [hne, ne_eq, not_false_eq_true, true_and, false_and, false_or] at hprog
      have ih := lexFrom_drop hq n l l2 t.isPri h3 (by omega) (by rw [hpri]; exact h4) hadj.2
      simp only [List.map_cons, ih]
      congr 1
      cases r2 <;> simp [RTok.toTok] at hr <;> subst hr <;> simp [Tok.shift, h3]

/-- The tokenizer, reading the whole text, stands at offset `k`, before a string, at some time. -/
def CleanCut (S : Str) (k : Nat) : Prop :=
  S[k]? = some '"' ∧ ∃ ts lx w, Reads S Lexer.init ts lx ∧ At S lx w k

theorem NoAdj.left : ∀ {xs ys : List Tok} {b : Bool}, NoAdj b (xs ++ ys) → NoAdj b xs
  | [], _, _, _ => trivial
  | _ :: _, _, _, h => ⟨h.1, NoAdj.left h.2⟩

theorem NoAdj.right : ∀ {xs ys : List Tok} {b : Bool}, NoAdj b (xs ++ ys) → ∃ b', NoAdj b' ys
  | [], _, b, h => ⟨b, h⟩
  | _ :: _, _, _, h => NoAdj.right h.2

theorem NoAdj.weaken {ts : List Tok} {b : Bool} (h : NoAdj b ts) : NoAdj false ts := by
  cases ts with
  | nil => trivial
  | cons t ts => exact ⟨by simp, h.2⟩

theorem getElem?_drop_cons {S : Str} {k : Nat} {c : Char} (h : S[k]? = some c) :
    ∃ tail, S.drop k = c :: tail := by
  have hk : k < S.length := by
    rcases Nat.lt_or_ge k S.length with h' | h'
    · exact h'
    · rw [List.getElem?_eq_none h'] at h; cases h
  refine ⟨S.drop (k + 1), ?_⟩
  rw [List.drop_eq_getElem_cons hk]
  rw [List.getElem?_eq_getElem hk] at h
  injection h with h; rw [h]

theorem Reads.lexAll {S : Str} {ts : List Tok} {lx : Lexer} (h : Reads S Lexer.init ts lx) :
    JPS.lexAll S = ts ++ JPS.lexFrom S (S.length + 1) lx := by
  have h1 := Reads.lexFrom (S.length + 1) h
  unfold JPS.lexAll
  rw [← h1]
  exact lexFrom_fuel S _ _ _ (by simp [Lexer.init]) (by simp [Lexer.init]; omega)

/-- **Cutting a text at a token boundary cuts its token list.** -/
theorem lexAll_cut {S : Str} {k : Nat} (hc : CleanCut S k) (hadj : NoAdj false (lexAll S)) :
    lexAll S = lexAll (S.take k) ++ (lexAll (S.drop k)).map (Tok.shift k) := by
  obtain ⟨hq, ts, lx, w, hr, hat⟩ := hc
  obtain ⟨tail, hd⟩ := getElem?_drop_cons hq
  have hk : k < S.length := (drop_cons_lt hd).1
  have e := hr.lexAll
  rw [e] at hadj
  have hle : lx.nxt ≤ k := by have := hat.pos; omega
  have hrt := Reads.take hq hr hle hadj.left (.inr (by simp [Lexer.init]))
  have e1 : lexAll (S.take k) = ts := by
    rw [hrt.lexAll]
    have hdr : (S.take k).drop lx.nxt = w := by
      rw [List.drop_take, hat.eq, show k - lx.nxt = w.length by have := hat.pos; omega]
      simp
    have hat' : At (S.take k) lx w k := by
      refine ⟨hat.pos, hat.ws, ?_⟩
      rw [hdr]; simp
    have hn : nextToken (S.take k) lx = (.eof, lx) := by
      rw [nextToken_at hat']
      have : (S.take k).drop k = [] := by simp
      rw [this]; simp [lexLoop]
    simp [JPS.lexFrom, hn, RTok.toTok]
  rw [e, e1]
  congr 1
  -- the first token after the cut
  have hn1 : nextToken S lx = lexLoop S lx tail (1 + k) (0 + k) (0 + k) 1 := by
    rw [nextToken_at hat, hd]
    simp [lexLoop, Nat.add_comm]
  have hn2 : nextToken (S.drop k) Lexer.init = lexLoop (S.drop k) Lexer.init tail 1 0 0 1 := by
    unfold nextToken
    rw [show (S.drop k).drop Lexer.init.nxt = '"' :: tail by simp [Lexer.init, hd]]
    simp [lexLoop, Lexer.init]
  have hloop := lexLoop_drop hd lx Lexer.init tail 1 (0 + k) 0 0 1 (by omega) (by simp) (fun _ => rfl)
    (by omega) (.inl rfl)
  rw [← hn1, ← hn2] at hloop
  obtain ⟨b', hadj'⟩ := hadj.right
  have hadj' := hadj'.weaken
  simp only [JPS.lexAll, JPS.lexFrom] at hadj' ⊢
  have hprog := nextToken_progress (S.drop k) Lexer.init
  have hprog1 := nextToken_progress S lx
  revert hloop hprog hadj' hprog1
  generalize nextToken S lx = r
  generalize nextToken (S.drop k) Lexer.init = r2
  intro hloop hadj' hprog hprog1
  obtain ⟨r, l⟩ := r
  obtain ⟨r2, l2⟩ := r2
  simp only at hloop hprog hprog1 hadj' ⊢
  obtain ⟨h1, h2⟩ := hloop
  subst h1
  cases hr : r2.toTok l with
  | none =>
    have := toTok_none.1 hr
    subst this
    rfl
  | some t =>
    have hne : r2 ≠ .eof := by
      intro hc; rw [toTok_none.2 hc] at hr; cases hr
    obtain ⟨h3, h4⟩ := h2 hne
    rw [hr] at hadj'
    have hpri := toTok_isPri hr
    have hr2 : r2.toTok l2 = some (match r2 with | .lcb => .lcb l2.nxt | .rcb => .rcb l2.nxt | .lb => .lb l2.nxt | .rb => .rb l2.nxt | .com => .com | .ky c => .ky c | .pri c => .pri c | .eof => .com) := by
      cases r2 <;> first | rfl | exact absurd rfl hne
    rw [hr2]
    simp only [hne, ne_eq, not_false_eq_true, true_and, false_and, false_or] at hprog hprog1
    have ih := lexFrom_drop hd S.length l l2 t.isPri h3 (by omega) (by rw [hpri]; exact h4) hadj'.2
    have hfuel : JPS.lexFrom (S.drop k) (S.drop k).length l2 = JPS.lexFrom (S.drop k) S.length l2 :=
      lexFrom_fuel _ _ _ _ (by simp [Lexer.init] at hprog ⊢; omega) (by simp [Lexer.init] at hprog ⊢; omega)
    simp only [List.map_cons, ih, hfuel]
    congr 1
    cases r2 <;> simp [RTok.toTok] at hr <;> subst hr <;> simp [Tok.shift, h3]

theorem pieceToks_append : ∀ (ps qs : List Str) (k : Nat),
    pieceToks k (ps ++ qs) = pieceToks k ps ++ pieceToks (k + ps.flatten.length) qs
  | [], _, _ => by simp [pieceToks]
  | p :: ps, qs, k => by
    simp only [List.cons_append, pieceToks, pieceToks_append ps qs, List.append_assoc,
      List.flatten_cons, List.length_append, Nat.add_assoc]

theorem CleanCut.take {S : Str} {k m : Nat} (h : CleanCut S k) (hm : k < m) (hq : S[m]? = some '"')
    (hadj : NoAdj false (lexAll S)) : CleanCut (S.take m) k := by
  obtain ⟨hk, ts, lx, w, hr, hat⟩ := h
  refine ⟨by rw [List.getElem?_take, if_pos hm]; exact hk, ts, lx, w, ?_, ⟨hat.pos, hat.ws, ?_⟩⟩
  · rw [hr.lexAll] at hadj
    exact Reads.take hq hr (by have := hat.pos; omega) hadj.left (.inr (by simp [Lexer.init]))
  · rw [List.drop_take, List.drop_take, hat.eq, List.take_append,
      List.take_of_length_le (by have := hat.pos; omega)]
    congr 2
    have := hat.pos; omega

/-- **Cutting a text into pieces at token boundaries.** -/
theorem lexAll_pieces : ∀ (ps : List Str), [] ∉ ps →
    NoAdj false (lexAll ps.flatten) →
    (∀ xs ys, ps = xs ++ ys → xs ≠ [] → ys ≠ [] → CleanCut ps.flatten xs.flatten.length) →
    lexAll ps.flatten = pieceToks 0 ps := by
  intro ps
  induction hn : ps.length generalizing ps with
  | zero =>
    intro _ _ _
    have : ps = [] := List.length_eq_zero_iff.1 hn
    subst this
    simp [pieceToks, lexAll, lexFrom, nextToken, lexLoop, RTok.toTok]
  | succ n ih =>
    intro hne hadj hcl
    have hps : ps ≠ [] := by intro h; rw [h] at hn; simp at hn
    obtain ⟨xs, p, rfl⟩ : ∃ xs p, ps = xs ++ [p] := ⟨ps.dropLast, ps.getLast hps, (List.dropLast_concat_getLast hps).symm⟩
    by_cases hx : xs = []
    · subst hx
      have hid : ∀ l : List Tok, l.map (Tok.shift 0) = l := by
        intro l
        induction l with
        | nil => rfl
        | cons t l ih => rw [List.map_cons, ih]; cases t <;> rfl
      simp [pieceToks, hid]
    · have hc := hcl xs [p] rfl hx (by simp)
      have hcut := lexAll_cut hc hadj
      have e1 : (xs ++ [p]).flatten.take xs.flatten.length = xs.flatten := by simp
      have e2 : (xs ++ [p]).flatten.drop xs.flatten.length = p := by simp
      rw [e1, e2] at hcut
      have hadj1 : NoAdj false (lexAll xs.flatten) := by rw [hcut] at hadj; exact hadj.left
      have hl : xs.length = n := by simpa using hn
      have ih := ih xs hl (by intro h; exact hne (by simp [h])) hadj1 (by
        intro us vs huv hu hv
        have h1 := hcl us (vs ++ [p]) (by rw [huv]; simp) hu (by simp)
        have hlt : us.flatten.length < xs.flatten.length := by
          rw [huv]
          obtain ⟨v, vs', rfl⟩ := List.exists_cons_of_ne_nil hv
          have : v ≠ [] := by
            rintro rfl
            exact hne (by simp [huv])
          have : 0 < v.length := List.length_pos_iff.2 this
          simp only [List.flatten_append, List.flatten_cons, List.length_append]; omega
        have h2 := h1.take hlt hc.1 hadj
        rw [e1] at h2
        exact h2)
      rw [hcut, ih, pieceToks_append]
      simp [pieceToks]

end JPS
