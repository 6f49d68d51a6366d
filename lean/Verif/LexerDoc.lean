import Verif.LexerProofs
/-!
# The tokenizer on documents

The tokens of the rendering of a well-formed document are the expected ones (`toks`).
-/

namespace JPS
open Spec

/-- `ts` are the tokens read from `lx` on, leaving the lexer in `lx'`. -/
def Reads (s : Str) (lx : Lexer) : List Tok → Lexer → Prop
  | [], lx' => lx = lx'
  | t :: ts, lx' =>
    (nextToken s lx).1.toTok (nextToken s lx).2 = some t ∧ Reads s (nextToken s lx).2 ts lx'

theorem Reads.append {s : Str} : ∀ {xs ys : List Tok} {l1 l2 l3 : Lexer},
    Reads s l1 xs l2 → Reads s l2 ys l3 → Reads s l1 (xs ++ ys) l3
  | [], _, _, _, _, h1, h2 => by cases h1; exact h2
  | _ :: _, _, _, _, _, h1, h2 => ⟨h1.1, Reads.append h1.2 h2⟩

theorem Reads.lexFrom {s : Str} : ∀ {ts : List Tok} {l1 l2 : Lexer} (n : Nat),
    Reads s l1 ts l2 → lexFrom s (ts.length + n) l1 = ts ++ lexFrom s n l2
  | [], _, _, n, h => by cases h; simp
  | t :: ts, l1, l2, n, h => by
    have ih := Reads.lexFrom n h.2
    rw [List.length_cons, show ts.length + 1 + n = (ts.length + n) + 1 by omega]
    simp only [JPS.lexFrom, h.1, ih, List.cons_append]

/-- The lexer stands before the whitespace `w` that precedes offset `off`. -/
structure At (s : Str) (lx : Lexer) (w : Str) (off : Nat) : Prop where
  pos : lx.nxt + w.length = off
  ws : w.all isWs = true
  eq : s.drop lx.nxt = w ++ s.drop off

theorem isWs_skip {c : Char} (h : isWs c = true) :
    c ≠ '{' ∧ c ≠ '}' ∧ c ≠ '[' ∧ c ≠ ']' ∧ c ≠ ',' ∧ c ≠ '"' ∧ c ≠ ':' ∧ isAlnum c = false := by
  simp [isWs] at h
  rcases h with ((h | h) | h) | h <;> subst h <;> decide

theorem lexLoop_ws (s : Str) (lx : Lexer) (rest : Str) : ∀ (w : Str) (p start tokp : Nat),
    w.all isWs = true →
    lexLoop s lx (w ++ rest) p start tokp 0 =
      lexLoop s lx rest (p + w.length) (if w.isEmpty then start else p + w.length)
        (if w.isEmpty then tokp else p + w.length) 0
  | [], p, start, tokp, _ => by simp
  | c :: w, p, start, tokp, h => by
    simp only [List.all_cons, Bool.and_eq_true] at h
    obtain ⟨h1, h2, h3, h4, h5, h6, _, h7⟩ := isWs_skip h.1
    have ih := lexLoop_ws s lx rest w (p + 1) (p + 1) (p + 1) h.2
    have e : lexLoop s lx (c :: w ++ rest) p start tokp 0 =
        lexLoop s lx (w ++ rest) (p + 1) (p + 1) (p + 1) 0 := by
      simp [lexLoop, h1, h2, h3, h4, h5, h6, h7]
    rw [e, ih]
    cases w <;> simp <;> congr 1 <;> omega

theorem nextToken_at {s : Str} {lx : Lexer} {w : Str} {off : Nat} (h : At s lx w off) :
    nextToken s lx = lexLoop s lx (s.drop off) off (if w.isEmpty then lx.cur else off)
      off 0 := by
  unfold nextToken
  rw [h.eq, lexLoop_ws _ _ _ _ _ _ _ h.ws, h.pos]
  have := h.pos
  cases w <;> simp_all

/-- One-character tokens. -/
theorem read_lcb {s : Str} {lx : Lexer} {w : Str} {off : Nat} {tail : Str} (h : At s lx w off)
    (hs : s.drop off = '{' :: tail) :
    nextToken s lx = (.lcb, ⟨off + 1, off + 1, off + 1, lx.ub⟩) := by
  rw [nextToken_at h, hs]; simp [lexLoop, charFound]
theorem read_rcb {s : Str} {lx : Lexer} {w : Str} {off : Nat} {tail : Str} (h : At s lx w off)
    (hs : s.drop off = '}' :: tail) :
    nextToken s lx = (.rcb, ⟨off + 1, off + 1, off + 1, lx.ub⟩) := by
  rw [nextToken_at h, hs]; simp [lexLoop, charFound]
theorem read_lb {s : Str} {lx : Lexer} {w : Str} {off : Nat} {tail : Str} (h : At s lx w off)
    (hs : s.drop off = '[' :: tail) :
    nextToken s lx = (.lb, ⟨off + 1, off + 1, off + 1, lx.ub⟩) := by
  rw [nextToken_at h, hs]; simp [lexLoop, charFound]
theorem read_rb {s : Str} {lx : Lexer} {w : Str} {off : Nat} {tail : Str} (h : At s lx w off)
    (hs : s.drop off = ']' :: tail) :
    nextToken s lx = (.rb, ⟨off + 1, off + 1, off + 1, lx.ub⟩) := by
  rw [nextToken_at h, hs]; simp [lexLoop, charFound]
theorem read_com {s : Str} {lx : Lexer} {w : Str} {off : Nat} {tail : Str} (h : At s lx w off)
    (hs : s.drop off = ',' :: tail) :
    nextToken s lx = (.com, ⟨off + 1, off + 1, off + 1, lx.ub⟩) := by
  rw [nextToken_at h, hs]; simp [lexLoop, charFound]

/-! ### Strings -/

theorem backslashes_succ {s : Str} {p : Nat} {c : Char} {rest : Str} (h : s.drop p = c :: rest) :
    backslashes s (p + 1) = if c = '\\' then backslashes s p + 1 else 0 := by
  have hlt : p < s.length := by
    rcases Nat.lt_or_ge p s.length with h' | h'
    · exact h'
    · rw [List.drop_eq_nil_of_le h'] at h; cases h
  have hg : s[p] = c := by
    rw [List.drop_eq_getElem_cons hlt] at h; injection h
  unfold backslashes
  rw [List.take_succ_eq_append_getElem hlt, List.reverse_append, hg]
  by_cases hc : c = '\\' <;> simp [hc]

theorem lexLoop_string (s : Str) (lx : Lexer) (rest : Str) (start tokp : Nat) :
    ∀ (r : Str) (esc : Bool) (p : Nat), s.drop p = r ++ '"' :: rest → rawOk esc r = true →
      (esc = true ↔ backslashes s p % 2 = 1) →
      lexLoop s lx (r ++ '"' :: rest) p start tokp 1 =
        stringFound s rest (p + r.length) start lx
  | [], esc, p, _, hr, he => by
    cases esc
    · have : ¬ backslashes s p % 2 = 1 := by simpa using he
      simp [lexLoop, this]
    · simp [rawOk] at hr
  | c :: r, esc, p, hs, hr, he => by
    have hs' : s.drop (p + 1) = r ++ '"' :: rest := by
      rw [← List.drop_drop, hs]; simp
    have hb := backslashes_succ hs
    have key : ∀ esc', rawOk esc' r = true → (esc' = true ↔ backslashes s (p + 1) % 2 = 1) →
        lexLoop s lx (r ++ '"' :: rest) (p + 1) start tokp 1 =
          stringFound s rest (p + (c :: r).length) start lx := by
      intro esc' h1 h2
      rw [lexLoop_string s lx rest start tokp r esc' (p + 1) hs' h1 h2]
      congr 1; simp; omega
    rw [List.cons_append, lexLoop]
    cases esc
    · simp only [rawOk, Bool.false_eq_true, if_false] at hr
      by_cases hq : c = '"'
      · simp [hq] at hr
      · simp only [hq, if_false] at hr ⊢
        refine key _ hr ?_
        have : ¬ backslashes s p % 2 = 1 := by simpa using he
        rw [hb]
        by_cases hc : c = '\\' <;> simp [hc]; omega
    · have h1 : backslashes s p % 2 = 1 := he.1 rfl
      simp only [rawOk, if_true] at hr
      have : (false = true ↔ backslashes s (p + 1) % 2 = 1) := by
        rw [hb]; by_cases hc : c = '\\' <;> simp [hc]; omega
      have := key false hr this
      simp only [h1, if_true, this, ite_self]

theorem substring_quoted {s : Str} {p : Nat} {r rest : Str}
    (hs : s.drop p = '"' :: r ++ '"' :: rest) :
    substring (s.drop p) 1 (p + 1 + r.length - p) = r := by
  rw [hs]
  have : p + 1 + r.length - p = r.length + 1 := by omega
  rw [this]
  simp [substring, ltrim, lead]

theorem nextToken_string {s : Str} {lx : Lexer} {w r rest : Str} {off : Nat} (h : At s lx w off)
    (hs : s.drop off = '"' :: r ++ '"' :: rest) (hr : rawOk false r = true) :
    nextToken s lx = stringFound s rest (off + 1 + r.length) off lx := by
  rw [nextToken_at h, hs]
  have hs' : s.drop (off + 1) = r ++ '"' :: rest := by
    rw [← List.drop_drop, hs]; simp
  have hb : backslashes s (off + 1) = 0 := by
    rw [backslashes_succ (by simpa using hs)]; simp
  have := lexLoop_string s lx rest off off r false (off + 1) hs' hr (by simp [hb])
  simpa [lexLoop] using this

theorem read_key {s : Str} {lx : Lexer} {w k mid rest : Str} {off : Nat} (h : At s lx w off)
    (hs : s.drop off = '"' :: k ++ '"' :: (mid ++ ':' :: rest)) (hk : rawOk false k = true)
    (hm : mid.all isBlank = true) :
    ∃ lx', nextToken s lx = (.ky k, lx') ∧ lx'.cur + 1 = lx'.nxt ∧
      lx'.nxt = off + (k.length + 2) + mid.length + 1 := by
  rw [nextToken_string h hs hk]
  have ht : (mid ++ ':' :: rest).takeWhile isBlank = mid := by
    rw [List.takeWhile_append_of_pos (by simpa using hm)]
    simp [isBlank]
  have hg : (mid ++ ':' :: rest)[mid.length]? = some ':' := by simp
  unfold stringFound
  rw [substring_quoted hs]
  simp only [ht, hg]
  exact ⟨_, rfl, by simp; omega⟩

theorem takeWhile_length_le {α : Type} (p : α → Bool) (l : List α) :
    (l.takeWhile p).length ≤ l.length := by
  induction l with
  | nil => simp
  | cons a l ih => simp only [List.takeWhile_cons]; split <;> simp; omega

theorem takeWhile_append_stop {p : Char → Bool} {post : Str} {c : Char} {tail : Str}
    (hc : p c = false) :
    (post ++ c :: tail).takeWhile p = post.takeWhile p := by
  induction post with
  | nil => simp [hc]
  | cons a l ih => simp only [List.cons_append, List.takeWhile_cons, ih]

theorem getElem?_takeWhile_stop {p : Char → Bool} {c : Char} {tail : Str} :
    ∀ (post : Str), (post ++ c :: tail)[(post.takeWhile p).length]? =
      some ((post.drop (post.takeWhile p).length).head?.getD c)
  | [] => by simp
  | a :: l => by
    simp only [List.takeWhile_cons]
    split
    · simpa using getElem?_takeWhile_stop l
    · simp

theorem read_str {s : Str} {lx : Lexer} {w r post tail : Str} {off : Nat} {c : Char}
    (h : At s lx w off)
    (hs : s.drop off = '"' :: r ++ '"' :: (post ++ c :: tail)) (hr : rawOk false r = true)
    (hp : post.all isWs = true) (hc : c ≠ ':') (hb : isBlank c = false) :
    ∃ lx', nextToken s lx = (.pri ('"' :: r ++ ['"']), lx') ∧
      lx'.nxt = off + (r.length + 2) + (post.takeWhile isBlank).length := by
  rw [nextToken_string h hs hr]
  unfold stringFound
  rw [substring_quoted hs]
  simp only [takeWhile_append_stop hb, getElem?_takeWhile_stop]
  have hne : (post.drop (post.takeWhile isBlank).length).head?.getD c ≠ ':' := by
    cases hd : post.drop (post.takeWhile isBlank).length with
    | nil => simpa using hc
    | cons x l =>
      have hx : x ∈ post := List.mem_of_mem_drop (hd ▸ List.mem_cons_self)
      have := isWs_skip (List.all_eq_true.1 hp x hx)
      simpa using this.2.2.2.2.2.2.1
  split
  · rename_i h1
    injection h1 with h1
    exact absurd h1 hne
  · exact ⟨_, rfl, by simp; omega⟩

/-! ### Literals -/

/-- Ends a literal, lexing.c:160. -/
def isTerm (c : Char) : Bool := c == '}' || c == ']' || c == ',' || c == ' ' || c == '\t'

theorem lexLoop_lit (s : Str) (lx : Lexer) (e : Char) (rest : Str) (start tokp : Nat)
    (he : isTerm e = true) : ∀ (x : Str) (p : Nat), x.all (fun c => !isTerm c) = true →
      lexLoop s lx (x ++ e :: rest) p start tokp 2 = primitiveFound s (p + x.length) start tokp lx
  | [], p, _ => by
    have : e = '}' ∨ e = ']' ∨ e = ',' ∨ e = ' ' ∨ e = '\t' := by
      simpa [isTerm, or_assoc] using he
    simp [lexLoop, this]
  | c :: x, p, h => by
    simp only [List.all_cons, Bool.and_eq_true] at h
    have hc : ¬ (c = '}' ∨ c = ']' ∨ c = ',' ∨ c = ' ' ∨ c = '\t') := by
      simpa [isTerm, or_assoc, and_assoc] using h.1
    have ih := lexLoop_lit s lx e rest start tokp he x (p + 1) h.2
    rw [List.cons_append, lexLoop, if_neg hc, ih]
    congr 1; simp; omega

theorem alnum_props {c : Char} (h : isAlnum c = true) :
    c ≠ '{' ∧ c ≠ '}' ∧ c ≠ '[' ∧ c ≠ ']' ∧ c ≠ ',' ∧ c ≠ '"' ∧ c ≠ ' ' ∧ c ≠ '\t' ∧
      c ≠ '-' := by
  refine ⟨?_, ?_, ?_, ?_, ?_, ?_, ?_, ?_, ?_⟩ <;> (rintro rfl; revert h; decide)

/-- Text copied by `primitiveFound`. -/
theorem primitiveFound_eq {s : Str} {tokp start : Nat} {c e : Char} {x rest : Str} (lx : Lexer)
    (direct : Bool)
    (hst : start + (if direct then 1 else 0) = tokp)
    (hs : s.drop tokp = (c :: x) ++ e :: rest) (hc : isAlnum c = true)
    (hx : x.all (fun c => !isTerm c) = true) :
    ∃ lx', primitiveFound s (tokp + (c :: x).length) start tokp lx =
      (.pri (if direct && e != ',' then (c :: x) ++ [e] else c :: x), lx') ∧
      lx'.nxt = tokp + (c :: x).length := by
  have hl : lead ((c :: x) ++ e :: rest) = 0 := by
    simp [lead, (alnum_props hc).2.2.2.2.2.2.1]
  have hget : ∀ i, s[tokp + i]? = ((c :: x) ++ e :: rest)[i]? := by
    intro i; rw [← hs, List.getElem?_drop]
  unfold primitiveFound
  refine ⟨_, Prod.ext ?_ rfl, rfl⟩
  simp only [RTok.pri.injEq]
  cases direct with
  | false =>
    have hst : start = tokp := by simpa using hst
    subst hst
    have hlast : s[start + (start + (c :: x).length - start) - 1]? ≠ some ',' := by
      rw [show start + (start + (c :: x).length - start) - 1 = start + x.length by simp,
        hget]
      rw [List.getElem?_append_left (by simp)]
      intro h
      have hm := List.mem_of_getElem? h
      rcases List.mem_cons.1 hm with hm | hm
      · exact (alnum_props hc).2.2.2.2.1 hm.symm
      · have := List.all_eq_true.1 hx _ hm
        simp [isTerm] at this
    rw [if_neg hlast, hs, substring, ltrim, hl,
      show start + (c :: x).length - start = (c :: x).length by omega]
    simp
  | true =>
    have hst : start + 1 = tokp := by simpa using hst
    subst hst
    have hidx : start + 1 + (start + 1 + (c :: x).length - start) - 1
        = start + 1 + (c :: x).length := by simp; omega
    rw [hidx, hget, hs, substring, substring, ltrim, hl,
      show start + 1 + (c :: x).length - start = (c :: x).length + 1 by omega]
    have : ((c :: x) ++ e :: rest)[(c :: x).length]? = some e := by simp
    rw [this]
    by_cases he : e = ','
    · simp [he]
    · simp [he, List.take_append, List.take_of_length_le]

theorem ws_term {x : Char} (h : isWs x = true) : isTerm x = litBlank x := by
  simp [isWs] at h
  rcases h with ((h | h) | h) | h <;> subst h <;> decide

theorem litChar_notTerm {c : Char} (h : litChar c = true) : isTerm c = false := by
  cases ht : isTerm c with
  | false => rfl
  | true =>
    exfalso
    simp [isTerm] at ht
    rcases ht with (((ht | ht) | ht) | ht) | ht <;> subst ht <;> revert h <;> decide

/-- The whitespace after a literal splits into the part kept by the tokenizer and the
terminator. -/
theorem post_split {post tail : Str} {c : Char} (hp : post.all isWs = true)
    (hc : isTerm c = true) :
    ∃ rest, post ++ c :: tail = post.takeWhile (fun x => !litBlank x) ++
        ((post.drop (post.takeWhile (fun x => !litBlank x)).length).head?.getD c) :: rest ∧
      isTerm ((post.drop (post.takeWhile (fun x => !litBlank x)).length).head?.getD c) = true ∧
      (post.takeWhile (fun x => !litBlank x)).all (fun c => !isTerm c) = true := by
  induction post with
  | nil => exact ⟨tail, by simp, by simpa using hc, by simp⟩
  | cons a l ih =>
    simp only [List.all_cons, Bool.and_eq_true] at hp
    obtain ⟨rest, h1, h2, h3⟩ := ih hp.2
    by_cases ha : litBlank a = true
    · refine ⟨l ++ c :: tail, by simp [List.takeWhile_cons, ha], ?_, by simp [List.takeWhile_cons, ha]⟩
      simp [List.takeWhile_cons, ha, ws_term hp.1]
    · refine ⟨rest, ?_, ?_, ?_⟩
      · simp [List.takeWhile_cons, ha]; simpa using h1
      · simp [List.takeWhile_cons, ha]; simpa using h2
      · have : isTerm a = false := by rw [ws_term hp.1]; simpa using ha
        simp [List.takeWhile_cons, ha, this]; simpa using h3

theorem lexLoop_alnum {s : Str} {lx : Lexer} {c : Char} {rest : Str} {p start tokp : Nat}
    (hc : isAlnum c = true) :
    lexLoop s lx (c :: rest) p start tokp 0 = lexLoop s lx rest (p + 1) start tokp 2 := by
  obtain ⟨h1, h2, h3, h4, h5, h6, h7, h8, _⟩ := alnum_props hc
  simp [lexLoop, h1, h2, h3, h4, h5, h6, h7, h8, hc]

theorem lexLoop_minus {s : Str} {lx : Lexer} {rest : Str} {p start tokp : Nat} :
    lexLoop s lx ('-' :: rest) p start tokp 0 = lexLoop s lx rest (p + 1) (p + 1) (p + 1) 0 := by
  simp [lexLoop, show isAlnum '-' = false by decide]

theorem lit_core {s : Str} {lx : Lexer} {t post tail : Str} {off start : Nat} {c a : Char}
    (direct : Bool) (hst : start + (if direct then 1 else 0) = off)
    (hs : s.drop off = (a :: t) ++ (post ++ c :: tail)) (ha : isAlnum a = true)
    (ht : t.all litChar = true) (hp : post.all isWs = true) (hc : isTerm c = true) :
    let nb := post.takeWhile (fun x => !litBlank x)
    let e := (post.drop nb.length).head?.getD c
    ∃ lx', lexLoop s lx (s.drop off) off start off 0 =
        (.pri (if direct && e != ',' then a :: t ++ nb ++ [e] else a :: t ++ nb), lx') ∧
      lx'.nxt = off + (a :: t).length + nb.length := by
  intro nb e
  obtain ⟨rest, h1, h2, h3⟩ := post_split (tail := tail) hp hc
  have hx : (t ++ nb).all (fun c => !isTerm c) = true := by
    rw [List.all_append, Bool.and_eq_true]
    refine ⟨?_, h3⟩
    rw [List.all_eq_true] at ht ⊢
    intro x hx; simp [litChar_notTerm (ht x hx)]
  have hs' : s.drop off = (a :: (t ++ nb)) ++ e :: rest := by
    rw [hs, h1]; simp [nb, e]
  obtain ⟨lx', h4, h5⟩ := primitiveFound_eq (rest := rest) lx direct hst hs' ha hx
  refine ⟨lx', ?_, by rw [h5]; simp; omega⟩
  rw [hs', List.cons_append, lexLoop_alnum ha, lexLoop_lit s lx e rest start off h2 _ _ hx]
  rw [show off + 1 + (t ++ nb).length = off + (a :: (t ++ nb)).length by simp; omega, h4]
  simp

theorem litOk_cases {t : Str} (h : litOk t = true) :
    (∃ a t', t = '-' :: a :: t' ∧ isAlnum a = true ∧ t'.all litChar = true) ∨
    (∃ a t', t = a :: t' ∧ isAlnum a = true ∧ t'.all litChar = true) := by
  unfold litOk at h
  split at h
  · rename_i c t
    simp only [Bool.and_eq_true] at h
    exact Or.inl ⟨c, t, rfl, h.1, h.2⟩
  · rename_i c t _
    simp only [Bool.and_eq_true] at h
    exact Or.inr ⟨c, t, rfl, h.1, h.2⟩
  · cases h

theorem read_lit {s : Str} {lx : Lexer} {w t post tail : Str} {off : Nat} {c : Char}
    (direct : Bool) (hat : At s lx w off) (hcur : lx.cur + (if direct then 1 else 0) = lx.nxt)
    (hs : s.drop off = t ++ (post ++ c :: tail)) (ht : litOk t = true)
    (hp : post.all isWs = true) (hc : isTerm c = true) :
    ∃ lx', nextToken s lx = (.pri (litObs (direct && w.isEmpty) post c t), lx') ∧
      lx'.nxt = off + t.length + (post.takeWhile (fun x => !litBlank x)).length := by
  rw [nextToken_at hat]
  rcases litOk_cases ht with ⟨a, t', rfl, ha, ht'⟩ | ⟨a, t', rfl, ha, ht'⟩
  · have hs' : s.drop (off + 1) = (a :: t') ++ (post ++ c :: tail) := by
      rw [← List.drop_drop, hs]; simp
    obtain ⟨lx', h1, h2⟩ := lit_core (lx := lx) (start := off + 1) false (by simp) hs' ha ht' hp hc
    refine ⟨lx', ?_, by rw [h2]; simp; omega⟩
    rw [hs, List.cons_append, lexLoop_minus, ← hs', h1]
    simp [litObs]
  · have hst : (if w.isEmpty then lx.cur else off) + (if (direct && w.isEmpty) then 1 else 0) = off := by
      have := hat.pos
      cases w with
      | nil => simp at this ⊢; omega
      | cons => simp
    obtain ⟨lx', h1, h2⟩ := lit_core (lx := lx) (direct && w.isEmpty) hst hs ha ht' hp hc
    refine ⟨lx', ?_, h2⟩
    rw [h1]
    have hm : a ≠ '-' := (alnum_props ha).2.2.2.2.2.2.2.2
    have : litObs (direct && w.isEmpty) post c (a :: t') =
        (if (direct && w.isEmpty) &&
          ((post.drop (post.takeWhile (fun x => !litBlank x)).length).head?.getD c) != ',' then
          a :: t' ++ post.takeWhile (fun x => !litBlank x) ++
            [(post.drop (post.takeWhile (fun x => !litBlank x)).length).head?.getD c]
         else a :: t' ++ post.takeWhile (fun x => !litBlank x)) := by
      unfold litObs
      split
      · rename_i h; injection h with h _; exact absurd h hm
      · rfl
    rw [this]

/-! ### Documents -/

theorem At.more {s : Str} {lx : Lexer} {w pre r : Str} {off : Nat} (h : At s lx w off)
    (hs : s.drop off = pre ++ r) (hp : pre.all isWs = true) :
    At s lx (w ++ pre) (off + pre.length) where
  pos := by have := h.pos; simp; omega
  ws := by simp [List.all_append, h.ws, hp]
  eq := by
    rw [h.eq, hs, ← List.drop_drop, hs, List.drop_left]; simp

theorem At.post {s : Str} {lx : Lexer} {post r : Str} {q j : Nat} (hn : lx.nxt = q + j)
    (hj : j ≤ post.length) (hs : s.drop q = post ++ r) (hp : post.all isWs = true) :
    At s lx (post.drop j) (q + post.length) where
  pos := by rw [hn, List.length_drop]; omega
  ws := by
    rw [List.all_eq_true] at hp ⊢
    exact fun x hx => hp x (List.mem_of_mem_drop hx)
  eq := by
    rw [hn, ← List.drop_drop, ← List.drop_drop, hs, List.drop_left, List.drop_append_of_le_length hj]

theorem At.here {s : Str} {lx : Lexer} {q : Nat} (hn : lx.nxt = q) : At s lx [] q where
  pos := by simpa using hn
  ws := rfl
  eq := by rw [hn]; rfl

theorem drop_append_eq {s x r : Str} {off : Nat} (h : s.drop off = x ++ r) :
    s.drop (off + x.length) = r := by
  rw [← List.drop_drop, h, List.drop_left]

/-- `,`, `]` or `}`. -/
def isCloser (c : Char) : Bool := c == ',' || c == ']' || c == '}'

theorem closer_props {c : Char} (h : isCloser c = true) :
    isTerm c = true ∧ isBlank c = false ∧ c ≠ ':' := by
  simp [isCloser] at h
  rcases h with (h | h) | h <;> subst h <;> decide

theorem reads_scalar {s : Str} (v : J) (hv : v.isContainer = false) {lx : Lexer} {w : Str}
    {off : Nat} (direct : Bool) {post tail : Str} {c : Char} (hwf : v.wf = true)
    (hat : At s lx w off) (hcur : lx.cur + (if direct then 1 else 0) = lx.nxt)
    (hs : s.drop off = v.render ++ (post ++ c :: tail)) (hp : post.all isWs = true)
    (hc : isCloser c = true) :
    ∃ lx' w', Reads s lx (toks (litObs (direct && w.isEmpty) post c) off v) lx' ∧
      At s lx' w' (off + v.render.length + post.length) := by
  obtain ⟨h1, h2, h3⟩ := closer_props hc
  match v, hv with
  | .lit t, _ =>
    obtain ⟨lx', hn, hp'⟩ := read_lit direct hat hcur hs hwf hp h1
    refine ⟨lx', _, ?_, At.post hp' (takeWhile_length_le _ _) (drop_append_eq hs) hp⟩
    simp only [toks, Reads, hn, RTok.toTok, and_true, J.render]
  | .str r, _ =>
    have hs' : s.drop off = '"' :: r ++ '"' :: (post ++ c :: tail) := by
      rw [hs]; simp [J.render]
    obtain ⟨lx', hn, hp'⟩ := read_str hat hs' hwf hp h3 h2
    have hr : (J.str r).render.length = r.length + 2 := by simp [J.render]
    refine ⟨lx', _, ?_, At.post (by rw [hr, hp']) (takeWhile_length_le _ _) (drop_append_eq hs) hp⟩
    simp only [toks, Reads, hn, RTok.toTok, and_true]

mutual
theorem reads_container (s : Str) : ∀ (v : J) (obs : Str → Str) (lx : Lexer) (w : Str) (off : Nat)
    (tail : Str), v.isContainer = true → v.wf = true → v.keysTight = true → At s lx w off →
    s.drop off = v.render ++ tail →
    ∃ lx', Reads s lx (toks obs off v) lx' ∧ lx'.nxt = off + v.render.length
  | .lit _, _, _, _, _, _, h, _, _, _, _ => by cases h
  | .str _, _, _, _, _, _, h, _, _, _, _ => by cases h
  | .arr w0 es, obs, lx, w, off, tail, _, hwf, hkt, hat, hs => by
    simp only [J.wf, Bool.and_eq_true] at hwf
    have hs1 : s.drop off = '[' :: (w0 ++ es.render ++ ']' :: tail) := by
      rw [hs]; simp [J.render]
    have hs2 : s.drop (off + 1) = w0 ++ (es.render ++ ']' :: tail) := by
      rw [← List.drop_drop, hs1]; simp
    have hs3 := drop_append_eq hs2
    have hn := read_lb hat hs1
    obtain ⟨lx', w', hr, hat'⟩ := reads_elems s es ⟨off + 1, off + 1, off + 1, lx.ub⟩
      ([] ++ w0) (off + 1 + w0.length) tail hwf.2 hkt
      (At.more (At.here rfl) hs2 hwf.1) rfl hs3
    have hn' := read_rb hat' (drop_append_eq hs3)
    have hlen : off + (J.arr w0 es).render.length = off + 1 + w0.length + es.render.length + 1 := by
      simp [J.render]; omega
    refine ⟨(nextToken s lx').2, ?_, by rw [hlen, hn']⟩
    rw [toks, List.cons_append]
    refine ⟨by rw [hn]; rfl, ?_⟩
    rw [hn]
    refine hr.append ⟨?_, ?_⟩
    · rw [hn', hlen]; rfl
    · rfl
  | .obj w0 ms, obs, lx, w, off, tail, _, hwf, hkt, hat, hs => by
    simp only [J.wf, Bool.and_eq_true] at hwf
    have hs1 : s.drop off = '{' :: (w0 ++ ms.render ++ '}' :: tail) := by
      rw [hs]; simp [J.render]
    have hs2 : s.drop (off + 1) = w0 ++ (ms.render ++ '}' :: tail) := by
      rw [← List.drop_drop, hs1]; simp
    have hs3 := drop_append_eq hs2
    have hn := read_lcb hat hs1
    obtain ⟨lx', w', hr, hat'⟩ := reads_members s ms ⟨off + 1, off + 1, off + 1, lx.ub⟩
      ([] ++ w0) (off + 1 + w0.length) tail hwf.2 hkt
      (At.more (At.here rfl) hs2 hwf.1) hs3
    have hn' := read_rcb hat' (drop_append_eq hs3)
    have hlen : off + (J.obj w0 ms).render.length = off + 1 + w0.length + ms.render.length + 1 := by
      simp [J.render]; omega
    refine ⟨(nextToken s lx').2, ?_, by rw [hlen, hn']⟩
    rw [toks, List.cons_append]
    refine ⟨by rw [hn]; rfl, ?_⟩
    rw [hn]
    refine hr.append ⟨?_, ?_⟩
    · rw [hn', hlen]; rfl
    · rfl
theorem reads_elems (s : Str) : ∀ (es : Elems) (lx : Lexer) (w : Str) (off : Nat) (tail : Str),
    es.wf = true → es.keysTight = true → At s lx w off → lx.cur = lx.nxt →
    s.drop off = es.render ++ ']' :: tail →
    ∃ lx' w', Reads s lx (toksE off es) lx' ∧ At s lx' w' (off + es.render.length)
  | .nil, lx, w, off, tail, _, _, hat, _, _ => ⟨lx, w, by simp [toksE, Reads], hat⟩
  | .cons pre v post rest, lx, w, off, tail, hwf, hkt, hat, hcur, hs => by
    simp only [Elems.wf, Bool.and_eq_true] at hwf
    simp only [Elems.keysTight, Bool.and_eq_true] at hkt
    obtain ⟨⟨⟨hw1, hw2⟩, hw3⟩, hw4⟩ := hwf
    obtain ⟨tl, hc, hs1, htl⟩ : ∃ tl, isCloser (nextE rest) = true ∧
        s.drop off = pre ++ (v.render ++ (post ++ nextE rest :: tl)) ∧
        (∀ a b c d, rest = .cons a b c d → tl = rest.render ++ ']' :: tail) := by
      cases rest with
      | nil => exact ⟨tail, rfl, by rw [hs]; simp [Elems.render, Elems.sep, nextE], by simp⟩
      | cons a b c d =>
        refine ⟨(Elems.cons a b c d).render ++ ']' :: tail, rfl, ?_, by simp⟩
        rw [hs, Elems.render]; simp [Elems.sep, nextE]
    have hat1 := hat.more hs1 hw1
    have hs2 := drop_append_eq hs1
    have hs3 := drop_append_eq hs2
    have hs4 := drop_append_eq hs3
    obtain ⟨lx1, w1, hr1, hat2⟩ : ∃ lx1 w1,
        Reads s lx (toks (litObs false post (nextE rest)) (off + pre.length) v) lx1 ∧
        At s lx1 w1 (off + pre.length + v.render.length + post.length) := by
      cases hv : v.isContainer with
      | false =>
        obtain ⟨lx1, w1, h1, h2⟩ := reads_scalar v hv false hw2 hat1 (by simpa using hcur) hs2 hw3 hc
        exact ⟨lx1, w1, by simpa using h1, h2⟩
      | true =>
        obtain ⟨lx1, h1, h2⟩ := reads_container s v (litObs false post (nextE rest)) lx _ _ _ hv hw2
          hkt.1 hat1 hs2
        exact ⟨lx1, _, h1, At.more (At.here h2) hs3 hw3⟩
    match rest, hw4, hkt, hs4, htl, hr1 with
    | .nil, _, _, _, _, hr1 =>
      refine ⟨lx1, w1, by simpa [toksE, Elems.sep] using hr1, ?_⟩
      rw [Elems.render, Elems.sep]
      simpa [Nat.add_assoc] using hat2
    | .cons a b c d, hw4, hkt, hs4, htl, hr1 =>
      have hn := read_com hat2 hs4
      have htl := htl a b c d rfl
      have hs5 : s.drop (off + pre.length + v.render.length + post.length + 1) =
          (Elems.cons a b c d).render ++ ']' :: tail := by
        rw [← List.drop_drop, hs4, ← htl]; simp
      obtain ⟨lx2, w2, hr2, hat3⟩ := reads_elems s (.cons a b c d)
        ⟨off + pre.length + v.render.length + post.length + 1,
         off + pre.length + v.render.length + post.length + 1,
         off + pre.length + v.render.length + post.length + 1, lx1.ub⟩ [] _ tail hw4 hkt.2
        (At.here rfl) rfl hs5
      refine ⟨lx2, w2, ?_, ?_⟩
      · rw [toksE]
        refine hr1.append ?_
        rw [Elems.sep]
        refine ⟨by rw [hn]; rfl, ?_⟩
        rw [hn]; exact hr2
      · rw [Elems.render, Elems.sep]
        have e : off + (pre ++ v.render ++ post ++ ',' :: (Elems.cons a b c d).render).length =
            off + pre.length + v.render.length + post.length + 1 + (Elems.cons a b c d).render.length := by
          simp; omega
        rw [e]; exact hat3
theorem reads_members (s : Str) : ∀ (ms : Members) (lx : Lexer) (w : Str) (off : Nat) (tail : Str),
    ms.wf = true → ms.keysTight = true → At s lx w off →
    s.drop off = ms.render ++ '}' :: tail →
    ∃ lx' w', Reads s lx (toksM off ms) lx' ∧ At s lx' w' (off + ms.render.length)
  | .nil, lx, w, off, tail, _, _, hat, _ => ⟨lx, w, by simp [toksM, Reads], hat⟩
  | .cons pre k mid pre2 v post rest, lx, w, off, tail, hwf, hkt, hat, hs => by
    simp only [Members.wf, Bool.and_eq_true] at hwf
    simp only [Members.keysTight, Bool.and_eq_true] at hkt
    obtain ⟨⟨⟨⟨⟨⟨hw1, hwk⟩, _⟩, hwp2⟩, hw2⟩, hw3⟩, hw4⟩ := hwf
    obtain ⟨⟨hkm, hkv⟩, hkr⟩ := hkt
    obtain ⟨tl, hc, hs1, htl⟩ : ∃ tl, isCloser (nextM rest) = true ∧
        s.drop off = pre ++ ('"' :: k ++ '"' :: (mid ++ ':' :: (pre2 ++ (v.render ++
          (post ++ nextM rest :: tl))))) ∧
        (∀ a b c d e f g, rest = .cons a b c d e f g → tl = rest.render ++ '}' :: tail) := by
      cases rest with
      | nil => exact ⟨tail, rfl, by rw [hs]; simp [Members.render, Members.sep, nextM], by simp⟩
      | cons a b c d e f g =>
        refine ⟨(Members.cons a b c d e f g).render ++ '}' :: tail, rfl, ?_, by simp⟩
        rw [hs, Members.render]; simp [Members.sep, nextM]
    have hat0 := hat.more hs1 hw1
    have hs1' := drop_append_eq hs1
    obtain ⟨lx0, hn0, hcur, hpos⟩ := read_key hat0 hs1' hwk hkm
    have hs1'' : s.drop (off + pre.length + (k.length + 2) + mid.length + 1) =
        pre2 ++ (v.render ++ (post ++ nextM rest :: tl)) := by
      have h : s.drop (off + pre.length) = ('"' :: k ++ '"' :: (mid ++ [':'])) ++ (pre2 ++ (v.render ++
          (post ++ nextM rest :: tl))) := by rw [hs1']; simp
      have := drop_append_eq h
      rw [← this]; congr 1; simp; omega
    have hat1 := (At.here (s := s) hpos).more hs1'' hwp2
    rw [List.nil_append] at hat1
    have hs2 := drop_append_eq hs1''
    have hs3 := drop_append_eq hs2
    have hs4 := drop_append_eq hs3
    obtain ⟨lx1, w1, hr1, hat2⟩ : ∃ lx1 w1,
        Reads s lx0 (toks (litObs pre2.isEmpty post (nextM rest))
          (off + pre.length + (k.length + 2) + mid.length + 1 + pre2.length) v) lx1 ∧
        At s lx1 w1 (off + pre.length + (k.length + 2) + mid.length + 1 + pre2.length +
          v.render.length + post.length) := by
      cases hv : v.isContainer with
      | false =>
        obtain ⟨lx1, w1, h1, h2⟩ := reads_scalar v hv true hw2 hat1 (by simpa using hcur) hs2 hw3 hc
        exact ⟨lx1, w1, by simpa using h1, h2⟩
      | true =>
        obtain ⟨lx1, h1, h2⟩ := reads_container s v (litObs pre2.isEmpty post (nextM rest)) lx0 _ _ _
          hv hw2 hkv hat1 hs2
        exact ⟨lx1, _, h1, At.more (At.here h2) hs3 hw3⟩
    have hk : Reads s lx [.ky k] lx0 := ⟨by rw [hn0]; rfl, by rw [hn0]; rfl⟩
    match rest, hw4, hkr, hs4, htl, hr1 with
    | .nil, _, _, _, _, hr1 =>
      refine ⟨lx1, w1, by simpa [toksM, Members.sep] using hk.append hr1, ?_⟩
      have e : off + (Members.cons pre k mid pre2 v post .nil).render.length =
          off + pre.length + (k.length + 2) + mid.length + 1 + pre2.length +
          v.render.length + post.length := by
        rw [Members.render, Members.sep]; simp; omega
      rw [e]; exact hat2
    | .cons a b c d e f g, hw4, hkr, hs4, htl, hr1 =>
      have hn := read_com hat2 hs4
      have htl := htl a b c d e f g rfl
      have hs5 : s.drop (off + pre.length + (k.length + 2) + mid.length + 1 + pre2.length +
          v.render.length + post.length + 1) =
          (Members.cons a b c d e f g).render ++ '}' :: tail := by
        rw [← List.drop_drop, hs4, ← htl]; simp
      obtain ⟨lx2, w2, hr2, hat3⟩ := reads_members s (.cons a b c d e f g)
        ⟨off + pre.length + (k.length + 2) + mid.length + 1 + pre2.length +
          v.render.length + post.length + 1,
         off + pre.length + (k.length + 2) + mid.length + 1 + pre2.length +
          v.render.length + post.length + 1,
         off + pre.length + (k.length + 2) + mid.length + 1 + pre2.length +
          v.render.length + post.length + 1, lx1.ub⟩ [] _ tail hw4 hkr
        (At.here rfl) hs5
      refine ⟨lx2, w2, ?_, ?_⟩
      · rw [toksM, Members.sep]
        refine (hk.append hr1).append (xs := [.ky k] ++ _) ?_
        refine ⟨by rw [hn]; rfl, ?_⟩
        rw [hn]; exact hr2
      · have e : off + (Members.cons pre k mid pre2 v post (.cons a b c d e f g)).render.length =
            off + pre.length + (k.length + 2) + mid.length + 1 + pre2.length +
          v.render.length + post.length + 1 + (Members.cons a b c d e f g).render.length := by
          rw [Members.render, Members.sep]; simp; omega
        rw [e]; exact hat3
end

/-- The tokens of a document with any surrounding whitespace. -/
theorem lexAll_doc (lead trail : Str) (v : J) (obs : Str → Str) (hl : lead.all isWs = true)
    (ht : trail.all isWs = true) (hc : v.isContainer = true) (hwf : v.wf = true)
    (hk : v.keysTight = true) :
    lexAll (lead ++ v.render ++ trail) = toks obs lead.length v := by
  have hs : (lead ++ v.render ++ trail).drop 0 = lead ++ (v.render ++ trail) := by simp
  have hat := (At.here (s := lead ++ v.render ++ trail) (lx := Lexer.init) rfl).more hs hl
  have hs1 := drop_append_eq hs
  simp only [Lexer.init, Nat.zero_add] at hs1 hat
  generalize lead ++ v.render ++ trail = s at *
  obtain ⟨lx', hr, hn⟩ := reads_container s v obs _ _ _ _ hc hwf hk hat hs1
  have hs2 := drop_append_eq hs1
  have heof : (nextToken s lx').1 = .eof := by
    unfold nextToken
    have := lexLoop_ws s lx' [] trail lx'.nxt lx'.cur lx'.nxt ht
    rw [List.append_nil] at this
    rw [hn, hs2, ← hn, this]; rfl
  have hend : ∀ n, lexFrom s n lx' = [] := by
    intro n
    cases n with
    | zero => rfl
    | succ n => simp only [lexFrom, heof, RTok.toTok]
  unfold lexAll
  rw [lexFrom_fuel s (s.length + 1) ((toks obs lead.length v).length + (s.length + 1)) Lexer.init
    (by simp [Lexer.init]) (by simp [Lexer.init]; omega)]
  have := hr.lexFrom (s.length + 1)
  rw [hend, List.append_nil] at this
  exact this

/-! ### Overrun of the token buffer -/

/-- The token does not fit into `lexer->content`. -/
def tokUb : Tok → Bool
  | .ky k => decide (k.length + 2 > MAX_SIZE_PRIMITIVE)
  | .pri t => decide (t.length + 2 > MAX_SIZE_PRIMITIVE)
  | _ => false

theorem stringFound_ub (s rest : Str) (p start : Nat) (lx : Lexer) : ∀ t,
    (stringFound s rest p start lx).1.toTok (stringFound s rest p start lx).2 = some t →
    (stringFound s rest p start lx).2.ub = (lx.ub || tokUb t) := by
  intro t
  unfold stringFound
  simp only
  split
  · intro h; simp only [RTok.toTok, Option.some.injEq] at h; subst h; rfl
  · intro h
    simp only [RTok.toTok, Option.some.injEq] at h; subst h
    simp [tokUb]

theorem lexLoop_ub (s : Str) (lx : Lexer) : ∀ (rest : Str) (p start tokp st : Nat) (t : Tok),
    (lexLoop s lx rest p start tokp st).1.toTok (lexLoop s lx rest p start tokp st).2 = some t →
    (lexLoop s lx rest p start tokp st).2.ub = (lx.ub || tokUb t) := by
  intro rest
  induction rest with
  | nil => intro p start tokp st t h; simp [lexLoop, RTok.toTok] at h
  | cons c rest ih =>
    intro p start tokp st t
    match st with
    | 0 =>
      simp only [lexLoop]
      repeat' split
      all_goals first
        | exact ih _ _ _ _ t
        | (intro h; simp only [charFound, RTok.toTok, Option.some.injEq] at h; subst h; simp [charFound, tokUb])
    | 1 =>
      simp only [lexLoop]
      repeat' split
      all_goals first
        | exact ih _ _ _ _ t
        | exact stringFound_ub _ _ _ _ _ t
    | st + 2 =>
      simp only [lexLoop]
      split
      · intro h
        simp only [primitiveFound, RTok.toTok, Option.some.injEq] at h
        subst h; rfl
      · exact ih _ _ _ _ t

/-- The lexer's overrun flag is raised exactly by tokens that do not fit. -/
theorem lexUb_eq (s : Str) : ∀ (n : Nat) (lx : Lexer),
    lexUb s (n + 1) lx = (lx.ub || (lexFrom s (n + 1) lx).any tokUb) := by
  intro n
  induction n with
  | zero =>
    intro lx
    simp only [lexUb, lexFrom]
    rcases ht : (nextToken s lx).1.toTok (nextToken s lx).2 with _ | t
    · have := nextToken_progress s lx
      simp [toTok_none.1 ht] at this
      simp [this]
    · have := lexLoop_ub s lx _ _ _ _ _ t ht
      simp [nextToken, this]
  | succ n ih =>
    intro lx
    have e1 : lexUb s (n + 1 + 1) lx = ((nextToken s lx).2.ub ||
      (match (nextToken s lx).1.toTok (nextToken s lx).2 with
       | none => false
       | some _ => lexUb s (n + 1) (nextToken s lx).2)) := rfl
    have e2 : lexFrom s (n + 1 + 1) lx =
      (match (nextToken s lx).1.toTok (nextToken s lx).2 with
       | none => []
       | some t => t :: lexFrom s (n + 1) (nextToken s lx).2) := rfl
    rw [e1, e2]
    rcases ht : (nextToken s lx).1.toTok (nextToken s lx).2 with _ | t
    · have := nextToken_progress s lx
      simp [toTok_none.1 ht] at this
      simp [this]
    · have h : (nextToken s lx).2.ub = (lx.ub || tokUb t) := lexLoop_ub s lx _ _ _ _ _ t ht
      simp only [ih, List.any_cons]
      rw [h]; cases lx.ub <;> simp

/-- `executeAutomaton` on any stream: the transition rules folded over the tokens. -/
theorem execAutomaton_eq (d : QDfa) (s : Str) (a : SA) :
    execAutomaton d s a = (runToks d s a (lexAll s)).orUb ((lexAll s).any tokUb) := by
  unfold execAutomaton lexAll
  rw [execLoop_eq, lexUb_eq]; rfl

/-- `executeAutomaton` on a document. -/
theorem execAutomaton_doc (d : QDfa) (pre trail : Str) (v : J) (obs : Str → Str) (a : SA)
    (hpre : pre.all isWs = true) (htr : trail.all isWs = true) (hsp : pre.head? ≠ some ' ')
    (hc : v.isContainer = true) (hwf : v.wf = true) (hk : v.keysTight = true)
    (h : a.ss = []) (hd : v.depth ≤ MAX_STACK) (hdq : a.qs.length + v.depth ≤ MAX_STACK) :
    ∃ ms', execAutomaton d (pre ++ v.render ++ trail) a =
      ((a.emitAll (emit d obs false a.elt.st a.elt.count v)).ctl { a.elt with ms := ms' } []
        a.qs).orUb ((toks obs pre.length v).any tokUb) := by
  have hlead : lead (pre ++ v.render ++ trail) = 0 := by
    cases pre with
    | nil => match v, hc with
      | .arr _ _, _ => rfl
      | .obj _ _, _ => rfl
    | cons c p =>
      have : c ≠ ' ' := by simpa using hsp
      simp [lead, this]
  have hs : (pre ++ v.render ++ trail).drop pre.length = v.render ++ trail := by simp
  obtain ⟨ms', hrun⟩ := run_root d _ hlead v obs pre.length trail hs hc a h hd hdq
  refine ⟨ms', ?_⟩
  rw [execAutomaton_eq, lexAll_doc pre trail v obs hpre htr hc hwf hk, hrun]

theorem emitAll_tl (a : SA) (ts : List Tuple) : (a.emitAll ts).tl = a.tl ++ ts := by
  induction ts generalizing a with
  | nil => simp
  | cons t ts ih => simp [ih, SA.addTuple]

theorem emitAll_ub (a : SA) (ts : List Tuple) :
    (a.emitAll ts).ub = true ↔ a.ub = true ∨ (∃ t ∈ ts, t.text.length + 2 > MAX_TEXT) ∨
      (ts ≠ [] ∧ a.tl.length + ts.length > MAX_TUPLE_LIST) := by
  induction ts generalizing a with
  | nil => simp
  | cons t ts ih =>
    simp only [emitAll_cons, ih, SA.addTuple, strcopyBytes, Bool.or_eq_true, decide_eq_true_eq,
      List.mem_cons, exists_eq_or_imp, List.length_append, List.length_cons, List.length_nil,
      ne_eq, reduceCtorEq, not_false_eq_true, true_and]
    constructor
    · rintro (((h | h) | h) | h | ⟨h, h'⟩)
      · exact .inl h
      · exact .inr (.inl (.inl (by simpa using h)))
      · exact .inr (.inr (by omega))
      · exact .inr (.inl (.inr h))
      · exact .inr (.inr (by omega))
    · rintro (h | (h | h) | h)
      · exact .inl (.inl (.inl h))
      · exact .inl (.inl (.inr (by simpa using h)))
      · exact .inr (.inl h)
      · cases ts with
        | nil => exact .inl (.inr (by simp at h; omega))
        | cons => exact .inr (.inr ⟨by simp, by omega⟩)

end JPS
