import Verif.TokenSpec
/-!
# Properties of the tokenizer: C11, C12, C13, C14
-/
set_option autoImplicit false

namespace JPS
open Spec

/-! ## C11: the tokenizer recovers the token sequence -/

/-- C11 in full: for every document the tokens read are its tokens, with scalars and keys
unchanged. -/
def C11Full : Prop :=
  ∀ (pre trail : Str) (v : J), pre.all isWs = true → trail.all isWs = true → v.wf = true →
    All2 (TokIs Exact) v.tokens (lexAll (pre ++ v.render ++ trail))

/-- C11 for documents without line break between a key and its colon, with a tidy layout of
literals.  Missing: other layouts, see `c11_false` and `c11_false_key`. -/
theorem c11_tokens_partial (pre trail : Str) (v : J) (hp : pre.all isWs = true)
    (ht : trail.all isWs = true) (hc : v.isContainer = true) (hw : v.wf = true)
    (hk : v.keysTight = true) (htidy : v.tidy = true) :
    All2 (TokIs Exact) v.tokens (lexAll (pre ++ v.render ++ trail)) := by
  rw [lexAll_doc pre trail v id hp ht hc hw hk]
  refine toks_exact id _ v htidy ?_
  cases v with
  | lit => cases hc
  | str => cases hc
  | arr => rfl
  | obj => rfl

/-- C11 for every layout of literals: brackets, commas, keys and strings are exact, a literal
is reported up to its sign and following characters. -/
theorem c11_tokens_shows_partial (pre trail : Str) (v : J) (hp : pre.all isWs = true)
    (ht : trail.all isWs = true) (hc : v.isContainer = true) (hw : v.wf = true)
    (hk : v.keysTight = true) :
    All2 (TokIs Shows) v.tokens (lexAll (pre ++ v.render ++ trail)) := by
  rw [lexAll_doc pre trail v id hp ht hc hw hk]
  refine toks_shows id _ v hw ?_
  cases v with
  | lit => cases hc
  | str => cases hc
  | arr => rfl
  | obj => rfl

/-- In every input, well-formed or not, a bracket token carries the position directly after a
bracket of its kind. -/
theorem c11_positions (s : Str) : ∀ t ∈ lexAll s, TokAt s t := lexFrom_tokAt s _ _

/-- `{"a\"}": [ "x,", -1.5e3 , true ] , "b": {}}` in a tidy layout, without the minus. -/
def exToks : J :=
  .obj [] (.cons [] "a\\\"}".toList [] [' ']
      (.arr [' '] (.cons [] (.str "x,".toList) [] (.cons [' '] (.lit "1.5e3".toList) [' ']
        (.cons ['\n'] (.lit "true".toList) [' '] .nil)))) [' ']
    (.cons [' '] ['b'] [' '] [] (.obj [] .nil) [] .nil))

example : exToks.isContainer = true ∧ exToks.wf = true ∧ exToks.keysTight = true ∧
    exToks.tidy = true ∧ exToks.tokens.length = 14 := by decide

/-- The literal of `{"a":1}` is read as `1}`. -/
theorem c11_false : ¬ C11Full := by
  intro h
  have := h [] [] (.obj [] (.cons [] ['a'] [] [] (.lit ['1']) [] .nil)) rfl rfl (by decide)
  have e : lexAll ([] ++ (J.obj [] (.cons [] ['a'] [] [] (.lit ['1']) [] .nil)).render ++ []) =
    [.lcb 1, .ky ['a'], .pri ['1', '}'], .rcb 7] := by decide
  rw [e] at this
  simp only [J.tokens, Members.tokens, Members.sep] at this
  cases this with
  | cons _ h => cases h with
    | cons _ h => cases h with
      | cons h _ => simp [TokIs, Exact, J.render] at h

/-- A key followed by a line break is read as a string value. -/
theorem c11_false_key : ∃ v : J, v.isContainer = true ∧ v.wf = true ∧ v.tidy = true ∧
    ¬ All2 (TokIs Shows) v.tokens (lexAll v.render) := by
  refine ⟨.obj [] (.cons [] ['a'] ['\n'] [] (.str ['b']) [] .nil), rfl, by decide, by decide, ?_⟩
  intro h
  have e : lexAll (J.obj [] (.cons [] ['a'] ['\n'] [] (.str ['b']) [] .nil)).render =
    [.lcb 1, .pri ['"', 'a', '"'], .pri ['"', 'b', '"'], .rcb 10] := by decide
  rw [e] at h
  simp only [J.tokens, Members.tokens, Members.sep] at h
  cases h with
  | cons _ h => cases h with
    | cons h _ => exact h

/-- A document that is just a literal yields no token. -/
theorem c11_false_top : ∃ v : J, v.wf = true ∧ lexAll v.render = [] ∧ v.tokens ≠ [] :=
  ⟨.lit ['4', '2'], by decide, by decide, by simp [J.tokens]⟩

/-! ## C12: structural characters and escaped quotes inside strings are inert -/

/-- A string token ends at the first quote preceded by an even number of backslashes, whatever
stands before and after.  `before` is the text already read, `w` white space, `body` the text
after the opening quote.  The token is a key exactly when the next character after blanks is a
colon; its content is the raw text; the read position moves behind the closing quote. -/
theorem c12_string_token (before w body : Str) (lx : Lexer) (i : Nat)
    (hn : lx.nxt = before.length) (hw : w.all isWs = true) (hi : endsAt body i) :
    let after := body.drop (i + 1)
    let blanks := after.takeWhile (fun c => c == ' ' || c == '\t')
    let stop := before.length + w.length + 1 + i + 1 + blanks.length
    ((nextToken (before ++ w ++ '"' :: body) lx).1 =
        if after[blanks.length]? = some ':' then .ky (body.take i)
        else .pri ('"' :: body.take i ++ ['"'])) ∧
      (nextToken (before ++ w ++ '"' :: body) lx).2.nxt =
        if after[blanks.length]? = some ':' then stop + 1 else stop := by
  intro after blanks stop
  generalize hs : before ++ w ++ '"' :: body = s
  have hd : s.drop (before.length + w.length) = '"' :: body := by
    rw [← hs, ← List.length_append, List.drop_left]
  have hat : At s lx w (before.length + w.length) := by
    refine ⟨by omega, hw, ?_⟩
    rw [hd, hn, ← hs]; simp
  have hel : i < body.length := by
    rcases Nat.lt_or_ge i body.length with h | h
    · exact h
    · have := hi.1.1; rw [List.getElem?_eq_none h] at this; cases this
  have hrun : nextToken s lx = stringFound s (body.drop (i + 1))
      (before.length + w.length + 1 + i) (before.length + w.length) lx := by
    rw [nextToken_at hat, hd]
    have := lexLoop_ends lx (before.length + w.length) (before.length + w.length) hd hi.1 body 0 rfl
      (by omega) (fun j _ hj => hi.2 j hj)
    simpa [lexLoop] using this
  have hbody : body = body.take i ++ '"' :: body.drop (i + 1) := by
    have h1 := hi.1.1
    rw [List.getElem?_eq_getElem hel] at h1
    have h1 : body[i] = '"' := by simpa using h1
    conv => lhs; rw [← List.take_append_drop i body, List.drop_eq_getElem_cons hel, h1]
  have hsub : substring (s.drop (before.length + w.length)) 1
      (before.length + w.length + 1 + i - (before.length + w.length)) = body.take i := by
    have := substring_quoted (s := s) (p := before.length + w.length) (r := body.take i)
      (rest := body.drop (i + 1)) (by rw [hd]; exact congrArg _ hbody)
    rw [List.length_take, Nat.min_eq_left (by omega)] at this
    exact this
  rw [hrun]
  unfold stringFound
  rw [hsub]
  change (match after[blanks.length]? with | some ':' => _ | _ => _ : RTok × Lexer).1 = _ ∧
    (match after[blanks.length]? with | some ':' => _ | _ => _ : RTok × Lexer).2.nxt = _
  have hb : (body.drop (i + 1)).takeWhile isBlank = blanks := rfl
  by_cases hcol : after[blanks.length]? = some ':'
  · rw [if_pos hcol, if_pos hcol, hcol]
    refine ⟨rfl, ?_⟩
    simp only [hb, stop]; omega
  · rw [if_neg hcol, if_neg hcol]
    split
    · rename_i h; exact absurd h hcol
    · refine ⟨rfl, ?_⟩
      simp only [hb, stop]; omega

/-- If there is no such quote, no token at all is read from there on. -/
theorem c12_unterminated (before w body : Str) (lx : Lexer) (hn : lx.nxt = before.length)
    (hw : w.all isWs = true) (hi : ∀ i, ¬ closing body i) :
    nextToken (before ++ w ++ '"' :: body) lx = (.eof, lx) := by
  generalize hs : before ++ w ++ '"' :: body = s
  have hd : s.drop (before.length + w.length) = '"' :: body := by
    rw [← hs, ← List.length_append, List.drop_left]
  have hat : At s lx w (before.length + w.length) := by
    refine ⟨by omega, hw, ?_⟩
    rw [hd, hn, ← hs]; simp
  rw [nextToken_at hat, hd]
  have := lexLoop_body lx (before.length + w.length) (before.length + w.length) hd body 0 rfl
    (fun j _ => hi j)
  simpa [lexLoop] using this

/-- Any raw text in which every quote is escaped ends at the quote after it, so structural
characters and escaped quotes are inert. -/
theorem c12_raw_ends (r rest : Str) (h : rawOk false r = true) :
    endsAt (r ++ '"' :: rest) r.length := by
  have := rawOk_ends r [] rest false h (by simp [trailing]) (by simp)
  simpa using this

example : endsAt "a\\\"}],:{[\\\\\" : 1".toList 11 := by
  have := c12_raw_ends "a\\\"}],:{[\\\\".toList " : 1".toList (by decide)
  exact this

example : (nextToken "{\"a\\\"}],:{[\\\\\" : 1}".toList ⟨1, 1, 1, false⟩).1 =
    .ky "a\\\"}],:{[\\\\".toList := by decide

example : ∀ i, ¬ closing "abc\\\"".toList i := by
  intro i
  rintro ⟨h1, h2⟩
  match i with
  | 0 | 1 | 2 | 3 => simp at h1
  | 4 => revert h2; decide
  | n + 5 => simp at h1

/-! ## C13: termination, progress, staying inside the input -/

/-- The lexer after `n` calls of `nextToken`. -/
def calls (s : Str) : Nat → Lexer
  | 0 => Lexer.init
  | n + 1 => (nextToken s (calls s n)).2

/-- Every call that returns a token moves the read position strictly forward and not beyond
the end of the input; a call that returns `END` changes nothing. -/
theorem c13_progress (s : Str) (n : Nat) :
    ((nextToken s (calls s n)).1 = .eof ∧ calls s (n + 1) = calls s n) ∨
    ((nextToken s (calls s n)).1 ≠ .eof ∧ (calls s n).nxt < (calls s (n + 1)).nxt ∧
      (calls s (n + 1)).nxt ≤ s.length) :=
  nextToken_progress s (calls s n)

theorem calls_nxt (s : Str) (n : Nat) :
    (∃ m < n, (nextToken s (calls s m)).1 = .eof) ∨
      (n ≤ (calls s n).nxt ∧ (calls s n).nxt ≤ s.length) := by
  induction n with
  | zero => right; simp [calls, Lexer.init]
  | succ n ih =>
    rcases ih with ⟨m, hm, he⟩ | ⟨h1, h2⟩
    · exact Or.inl ⟨m, by omega, he⟩
    · rcases c13_progress s n with ⟨he, _⟩ | ⟨_, h3, h4⟩
      · exact Or.inl ⟨n, by omega, he⟩
      · right; omega

/-- The read position is always inside the input (or at its end). -/
theorem c13_inside (s : Str) (n : Nat) : (calls s n).nxt ≤ s.length := by
  induction n with
  | zero => simp [calls, Lexer.init]
  | succ n ih =>
    rcases c13_progress s n with ⟨_, he⟩ | ⟨_, _, h⟩
    · rw [he]; exact ih
    · exact h

/-- `END` is reached after at most as many calls as the input has characters, and is returned
forever after. -/
theorem c13_terminates (s : Str) : ∃ n ≤ s.length, (∀ m < n, (nextToken s (calls s m)).1 ≠ .eof) ∧
    ∀ m ≥ n, nextToken s (calls s m) = (.eof, calls s n) := by
  have hex : ∃ n ≤ s.length, (nextToken s (calls s n)).1 = .eof := by
    rcases calls_nxt s (s.length + 1) with ⟨m, hm, he⟩ | ⟨h1, h2⟩
    · exact ⟨m, by omega, he⟩
    · omega
  have hmin : ∀ k, k ≤ s.length → (nextToken s (calls s k)).1 = .eof →
      ∃ n ≤ s.length, (nextToken s (calls s n)).1 = .eof ∧
        ∀ m < n, (nextToken s (calls s m)).1 ≠ .eof := by
    intro k
    induction k using Nat.strongRecOn with
    | _ k ih =>
      intro hk he
      by_cases hall : ∀ m < k, (nextToken s (calls s m)).1 ≠ .eof
      · exact ⟨k, hk, he, hall⟩
      · obtain ⟨m, hm⟩ := Classical.not_forall.1 hall
        obtain ⟨hm1, hm2⟩ := Classical.not_imp.1 hm
        exact ih m hm1 (by omega) (Classical.not_not.1 hm2)
  obtain ⟨k, hk, he⟩ := hex
  obtain ⟨n, hn, hne, hnm⟩ := hmin k hk he
  refine ⟨n, hn, hnm, ?_⟩
  have hst : ∀ d, calls s (n + d) = calls s n := by
    intro d
    induction d with
    | zero => rfl
    | succ d ih =>
      rcases c13_progress s (n + d) with ⟨_, h⟩ | ⟨h, _⟩
      · rw [← ih]; exact h
      · rw [ih] at h; exact absurd hne h
  intro m hm
  have hm' : m = n + (m - n) := by omega
  rw [hm', hst]
  rcases nextToken_progress s (calls s n) with ⟨h1, h2⟩ | ⟨h1, _⟩
  · exact Prod.ext h1 h2
  · exact absurd hne h1

/-- A malformed input: six tokens, then `END`. -/
example : (nextToken "]{\"x\"::}tru,".toList (calls "]{\"x\"::}tru,".toList 6)).1 = .eof ∧
    (nextToken "]{\"x\"::}tru,".toList (calls "]{\"x\"::}tru,".toList 5)).1 = .com := by decide

/-! ## C14: scalar results keep their exact source text -/

/-- The texts of the scalar tokens. -/
def scalarTexts (ts : List Tok) : List Str :=
  ts.filterMap (fun | .pri t => some t | _ => none)

/-- C14 in full: in every document the scalar tokens carry exactly the source texts. -/
def C14Full : Prop :=
  ∀ v : J, v.isContainer = true → v.wf = true → v.keysTight = true →
    scalarTexts (lexAll v.render) = v.scalars.map J.render

theorem scalarTexts_append (a b : List Tok) :
    scalarTexts (a ++ b) = scalarTexts a ++ scalarTexts b := by simp [scalarTexts]

mutual
theorem tokens_scalars : ∀ v : J,
    v.tokens.filterMap (fun | .scalar x => some x | _ => none) = v.scalars
  | .lit _ => rfl
  | .str _ => rfl
  | .arr _ es => by simp [J.tokens, J.scalars, tokensE_scalars es]
  | .obj _ ms => by simp [J.tokens, J.scalars, tokensM_scalars ms]
theorem tokensE_scalars : ∀ es : Elems,
    es.tokens.filterMap (fun | .scalar x => some x | _ => none) = es.scalars
  | .nil => rfl
  | .cons _ v _ .nil => by simp [Elems.tokens, Elems.scalars, Elems.sep, tokens_scalars v]
  | .cons _ v _ (.cons p w q r) => by
    have := tokensE_scalars (.cons p w q r)
    simp [Elems.tokens, Elems.scalars, Elems.sep, tokens_scalars v] at this ⊢
    exact this
theorem tokensM_scalars : ∀ ms : Members,
    ms.tokens.filterMap (fun | .scalar x => some x | _ => none) = ms.scalars
  | .nil => rfl
  | .cons _ k _ _ v _ .nil => by
    simp [Members.tokens, Members.scalars, Members.sep, tokens_scalars v]
  | .cons _ k _ _ v _ (.cons a b c d e f g) => by
    have := tokensM_scalars (.cons a b c d e f g)
    simp [Members.tokens, Members.scalars, Members.sep, tokens_scalars v] at this ⊢
    exact this
end

theorem all2_scalars {R : J → Str → Prop} : ∀ {xs : List T} {ts : List Tok},
    All2 (TokIs R) xs ts →
    All2 R (xs.filterMap (fun | .scalar x => some x | _ => none)) (scalarTexts ts)
  | [], [], .nil => .nil
  | x :: xs, t :: ts, .cons h hs => by
    have ih := all2_scalars hs
    cases x <;> cases t <;> first
      | exact False.elim h
      | exact ih
      | exact .cons h ih

/-- C14 for every document: strings are exact; a literal keeps all characters but a sign, and
may be followed by white space and one more character.  Missing: exactness in every layout,
see `c14_false`. -/
theorem c14_scalars_shows_partial (pre trail : Str) (v : J) (hp : pre.all isWs = true)
    (ht : trail.all isWs = true) (hc : v.isContainer = true) (hw : v.wf = true)
    (hk : v.keysTight = true) :
    All2 Shows v.scalars (scalarTexts (lexAll (pre ++ v.render ++ trail))) := by
  rw [← tokens_scalars]
  exact all2_scalars (c11_tokens_shows_partial pre trail v hp ht hc hw hk)

/-- C14 in full for tidy layouts. -/
theorem c14_scalars_exact_partial (pre trail : Str) (v : J) (hp : pre.all isWs = true)
    (ht : trail.all isWs = true) (hc : v.isContainer = true) (hw : v.wf = true)
    (hk : v.keysTight = true) (htidy : v.tidy = true) :
    scalarTexts (lexAll (pre ++ v.render ++ trail)) = v.scalars.map J.render := by
  have := all2_scalars (c11_tokens_partial pre trail v hp ht hc hw hk htidy)
  rw [tokens_scalars] at this
  exact this.eq_map

theorem c14_false : ¬ C14Full := by
  intro h
  have := h (.arr [] (.cons [] (.lit ['-', '1']) [] .nil)) rfl (by decide) (by decide)
  revert this
  decide

/-- The three ways a literal is changed: sign lost, closing bracket added after a colon, line
break added. -/
theorem c14_false_all :
    scalarTexts (lexAll "[-1]".toList) = ["1".toList] ∧
    scalarTexts (lexAll "{\"a\":1}".toList) = ["1}".toList] ∧
    scalarTexts (lexAll "[1\n]".toList) = ["1\n".toList] := by decide

example : exToks.scalars.map J.render = ["\"x,\"".toList, "1.5e3".toList, "true".toList] := by
  decide

end JPS
