import Verif.LexerCut
import Verif.Spec.Strings
/-!
# Cutting documents

The strings of a document start at token boundaries; every quote of a document starts a string,
ends one, or follows a backslash.
-/

set_option autoImplicit false

namespace JPS
open Spec

/-- The tokenizer comes to stand at offset `k`. -/
def Stands (s : Str) (lx : Lexer) (k : Nat) : Prop :=
  ∃ ts lx' w', Reads s lx ts lx' ∧ At s lx' w' k

theorem Stands.after {s : Str} {lx lx1 : Lexer} {ts : List Tok} {k : Nat} (hr : Reads s lx ts lx1)
    (h : Stands s lx1 k) : Stands s lx k := by
  obtain ⟨us, lx', w', h1, h2⟩ := h
  exact ⟨ts ++ us, lx', w', hr.append h1, h2⟩

mutual
theorem stands_value (s : Str) : ∀ (v : J) (lx : Lexer) (w : Str) (off : Nat)
    (tail : Str), v.wf = true → v.keysTight = true → At s lx w off →
    s.drop off = v.render ++ tail → ∀ x ∈ v.strings off, Stands s lx x.1
  | .lit _, _, _, _, _, _, _, _, _, x, hx => by simp [J.strings] at hx
  | .str r, lx, w, off, _, _, _, hat, _, x, hx => by
    simp only [J.strings, List.mem_singleton] at hx
    subst hx
    exact ⟨[], lx, w, rfl, hat⟩
  | .arr w0 es, lx, w, off, tail, hwf, hkt, hat, hs, x, hx => by
    simp only [J.wf, Bool.and_eq_true] at hwf
    have hs1 : s.drop off = '[' :: (w0 ++ es.render ++ ']' :: tail) := by
      rw [hs]; simp [J.render]
    have hs2 : s.drop (off + 1) = w0 ++ (es.render ++ ']' :: tail) := by
      rw [← List.drop_drop, hs1]; simp
    have hs3 := drop_append_eq hs2
    have hn := read_lb hat hs1
    have := stands_elems s es ⟨off + 1, off + 1, off + 1, lx.ub⟩
      ([] ++ w0) (off + 1 + w0.length) tail hwf.2 hkt
      (At.more (At.here rfl) hs2 hwf.1) rfl hs3 x hx
    exact Stands.after (ts := [.lb (off + 1)]) ⟨by rw [hn]; rfl, by rw [hn]; rfl⟩ this
  | .obj w0 ms, lx, w, off, tail, hwf, hkt, hat, hs, x, hx => by
    simp only [J.wf, Bool.and_eq_true] at hwf
    have hs1 : s.drop off = '{' :: (w0 ++ ms.render ++ '}' :: tail) := by
      rw [hs]; simp [J.render]
    have hs2 : s.drop (off + 1) = w0 ++ (ms.render ++ '}' :: tail) := by
      rw [← List.drop_drop, hs1]; simp
    have hs3 := drop_append_eq hs2
    have hn := read_lcb hat hs1
    have := stands_members s ms ⟨off + 1, off + 1, off + 1, lx.ub⟩
      ([] ++ w0) (off + 1 + w0.length) tail hwf.2 hkt
      (At.more (At.here rfl) hs2 hwf.1) hs3 x hx
    exact Stands.after (ts := [.lcb (off + 1)]) ⟨by rw [hn]; rfl, by rw [hn]; rfl⟩ this
theorem stands_elems (s : Str) : ∀ (es : Elems) (lx : Lexer) (w : Str) (off : Nat) (tail : Str),
    es.wf = true → es.keysTight = true → At s lx w off → lx.cur = lx.nxt →
    s.drop off = es.render ++ ']' :: tail → ∀ x ∈ es.strings off, Stands s lx x.1
  | .nil, _, _, _, _, _, _, _, _, _, x, hx => by simp [Elems.strings] at hx
  | .cons pre v post rest, lx, w, off, tail, hwf, hkt, hat, hcur, hs, x, hx => by
    simp only [Elems.wf, Bool.and_eq_true] at hwf
    simp only [Elems.keysTight, Bool.and_eq_true] at hkt
    obtain ⟨⟨⟨hw1, hw2⟩, hw3⟩, hw4⟩ := hwf
    obtain ⟨tl, hc, hs1, htl⟩ : ∃ tl, isCloser (nextE rest) = true ∧
        s.drop off = pre ++ (v.render ++ (post ++ nextE rest :: tl)) ∧
        (∀ a b c d, rest = .cons a b c d → tl = rest.render ++ ']' :: tail) := by
      cases rest with
      | nil => exact ⟨tail, rfl, by rw [hs]; simp [Elems.render, Elems.sep, nextE], by simp⟩
      | cons a b c d =>
        refine ⟨(Elems.cons a b c d).render ++ ']' :: tail, rfl, ?_, by simp⟩
        rw [hs, Elems.render]; simp [Elems.sep, nextE]
    have hat1 := hat.more hs1 hw1
    have hs2 := drop_append_eq hs1
    have hs3 := drop_append_eq hs2
    have hs4 := drop_append_eq hs3
    rw [Elems.strings, List.mem_append] at hx
    rcases hx with hx | hx
    · exact stands_value s v lx _ _ _ hw2 hkt.1 hat1 hs2 x hx
    · obtain ⟨lx1, w1, hr1, hat2⟩ : ∃ lx1 w1,
          Reads s lx (toks (litObs false post (nextE rest)) (off + pre.length) v) lx1 ∧
          At s lx1 w1 (off + pre.length + v.render.length + post.length) := by
        cases hv : v.isContainer with
        | false =>
          obtain ⟨lx1, w1, h1, h2⟩ := reads_scalar v hv false hw2 hat1 (by simpa using hcur) hs2 hw3 hc
          exact ⟨lx1, w1, by simpa using h1, h2⟩
        | true =>
          obtain ⟨lx1, h1, h2⟩ := reads_container s v (litObs false post (nextE rest)) lx _ _ _ hv hw2
            hkt.1 hat1 hs2
          exact ⟨lx1, _, h1, At.more (At.here h2) hs3 hw3⟩
      match rest, hw4, hkt, hs4, htl, hr1, hx with
      | .nil, _, _, _, _, _, hx => simp [Elems.strings] at hx
      | .cons a b c d, hw4, hkt, hs4, htl, hr1, hx =>
        have hn := read_com hat2 hs4
        have htl := htl a b c d rfl
        have hs5 : s.drop (off + pre.length + v.render.length + post.length + 1) =
            (Elems.cons a b c d).render ++ ']' :: tail := by
          rw [← List.drop_drop, hs4, ← htl]; simp
        have := stands_elems s (.cons a b c d)
          ⟨off + pre.length + v.render.length + post.length + 1,
           off + pre.length + v.render.length + post.length + 1,
           off + pre.length + v.render.length + post.length + 1, lx1.ub⟩ [] _ tail hw4 hkt.2
          (At.here rfl) rfl hs5 x hx
        refine Stands.after (hr1.append (ys := [.com]) ⟨by rw [hn]; rfl, by rw [hn]; rfl⟩) this
theorem stands_members (s : Str) : ∀ (ms : Members) (lx : Lexer) (w : Str) (off : Nat) (tail : Str),
    ms.wf = true → ms.keysTight = true → At s lx w off →
    s.drop off = ms.render ++ '}' :: tail → ∀ x ∈ ms.strings off, Stands s lx x.1
  | .nil, _, _, _, _, _, _, _, _, x, hx => by simp [Members.strings] at hx
  | .cons pre k mid pre2 v post rest, lx, w, off, tail, hwf, hkt, hat, hs, x, hx => by
    simp only [Members.wf, Bool.and_eq_true] at hwf
    simp only [Members.keysTight, Bool.and_eq_true] at hkt
    obtain ⟨⟨⟨⟨⟨⟨hw1, hwk⟩, _⟩, hwp2⟩, hw2⟩, hw3⟩, hw4⟩ := hwf
    obtain ⟨⟨hkm, hkv⟩, hkr⟩ := hkt
    obtain ⟨tl, hc, hs1, htl⟩ : ∃ tl, isCloser (nextM rest) = true ∧
        s.drop off = pre ++ ('"' :: k ++ '"' :: (mid ++ ':' :: (pre2 ++ (v.render ++
          (post ++ nextM rest :: tl))))) ∧
        (∀ a b c d e f g, rest = .cons a b c d e f g → tl = rest.render ++ '}' :: tail) := by
      cases rest with
      | nil => exact ⟨tail, rfl, by rw [hs]; simp [Members.render, Members.sep, nextM], by simp⟩
      | cons a b c d e f g =>
        refine ⟨(Members.cons a b c d e f g).render ++ '}' :: tail, rfl, ?_, by simp⟩
        rw [hs, Members.render]; simp [Members.sep, nextM]
    have hat0 := hat.more hs1 hw1
    have hs1' := drop_append_eq hs1
    obtain ⟨lx0, hn0, hcur, hpos⟩ := read_key hat0 hs1' hwk hkm
    have hs1'' : s.drop (off + pre.length + (k.length + 2) + mid.length + 1) =
        pre2 ++ (v.render ++ (post ++ nextM rest :: tl)) := by
      have h : s.drop (off + pre.length) = ('"' :: k ++ '"' :: (mid ++ [':'])) ++ (pre2 ++ (v.render ++
          (post ++ nextM rest :: tl))) := by rw [hs1']; simp
      have := drop_append_eq h
      rw [← this]; congr 1; simp; omega
    have hat1 := (At.here (s := s) hpos).more hs1'' hwp2
    rw [List.nil_append] at hat1
    have hs2 := drop_append_eq hs1''
    have hs3 := drop_append_eq hs2
    have hs4 := drop_append_eq hs3
    have hk : Reads s lx [.ky k] lx0 := ⟨by rw [hn0]; rfl, by rw [hn0]; rfl⟩
    rw [Members.strings, List.cons_append, List.mem_cons, List.mem_append] at hx
    rcases hx with hx | hx | hx
    · subst hx
      exact ⟨[], lx, _, rfl, hat0⟩
    · exact Stands.after hk (stands_value s v lx0 _ _ _ hw2 hkv hat1 hs2 x hx)
    · obtain ⟨lx1, w1, hr1, hat2⟩ : ∃ lx1 w1,
          Reads s lx0 (toks (litObs pre2.isEmpty post (nextM rest))
            (off + pre.length + (k.length + 2) + mid.length + 1 + pre2.length) v) lx1 ∧
          At s lx1 w1 (off + pre.length + (k.length + 2) + mid.length + 1 + pre2.length +
            v.render.length + post.length) := by
        cases hv : v.isContainer with
        | false =>
          obtain ⟨lx1, w1, h1, h2⟩ := reads_scalar v hv true hw2 hat1 (by simpa using hcur) hs2 hw3 hc
          exact ⟨lx1, w1, by simpa using h1, h2⟩
        | true =>
          obtain ⟨lx1, h1, h2⟩ := reads_container s v (litObs pre2.isEmpty post (nextM rest)) lx0 _ _ _
            hv hw2 hkv hat1 hs2
          exact ⟨lx1, _, h1, At.more (At.here h2) hs3 hw3⟩
      match rest, hw4, hkr, hs4, htl, hr1, hx with
      | .nil, _, _, _, _, _, hx => simp [Members.strings] at hx
      | .cons a b c d e f g, hw4, hkr, hs4, htl, hr1, hx =>
        have hn := read_com hat2 hs4
        have htl := htl a b c d e f g rfl
        have hs5 : s.drop (off + pre.length + (k.length + 2) + mid.length + 1 + pre2.length +
            v.render.length + post.length + 1) =
            (Members.cons a b c d e f g).render ++ '}' :: tail := by
          rw [← List.drop_drop, hs4, ← htl]; simp
        have := stands_members s (.cons a b c d e f g)
          ⟨off + pre.length + (k.length + 2) + mid.length + 1 + pre2.length +
            v.render.length + post.length + 1,
           off + pre.length + (k.length + 2) + mid.length + 1 + pre2.length +
            v.render.length + post.length + 1,
           off + pre.length + (k.length + 2) + mid.length + 1 + pre2.length +
            v.render.length + post.length + 1, lx1.ub⟩ [] _ tail hw4 hkr
          (At.here rfl) hs5 x hx
        exact Stands.after ((hk.append hr1).append (ys := [.com]) ⟨by rw [hn]; rfl, by rw [hn]; rfl⟩) this
end

/-! ### Quotes -/

/-- What a quote at offset `k` of a text can be: the opening or closing quote of a listed string,
or an escaped quote. -/
def QuoteAt (s : Str) (strs : List (Nat × Str)) (k : Nat) : Prop :=
  (∃ r, (k, r) ∈ strs) ∨
  (∃ b r tail, (b, r) ∈ strs ∧ k = b + 1 + r.length ∧ s.drop b = '"' :: r ++ '"' :: tail) ∨
  (0 < k ∧ s[k - 1]? = some '\\')

theorem QuoteAt.mono {s : Str} {xs ys : List (Nat × Str)} {k : Nat} (h : QuoteAt s xs k)
    (hsub : ∀ x ∈ xs, x ∈ ys) : QuoteAt s ys k := by
  rcases h with ⟨r, h⟩ | ⟨b, r, tail, h1, h2⟩ | h
  · exact .inl ⟨r, hsub _ h⟩
  · exact .inr (.inl ⟨b, r, tail, hsub _ h1, h2⟩)
  · exact .inr (.inr h)

theorem getElem?_of_drop {s x r : Str} {off k : Nat} (h : s.drop off = x ++ r) (h1 : off ≤ k)
    (h2 : k < off + x.length) : s[k]? = x[k - off]? := by
  have := drop_getElem? h (k - off)
  rw [List.getElem?_append_left (by omega)] at this
  rw [this]; congr 1; omega

theorem ws_noquote {w : Str} (h : w.all isWs = true) (i : Nat) : w[i]? ≠ some '"' := by
  intro hi
  have := List.all_eq_true.1 h _ (List.mem_of_getElem? hi)
  revert this; decide

theorem rawOk_quote : ∀ (r : Str) (esc : Bool) (i : Nat), rawOk esc r = true → r[i]? = some '"' →
    (i = 0 ∧ esc = true) ∨ (0 < i ∧ r[i - 1]? = some '\\')
  | [], _, i, _, h => by simp at h
  | c :: r, esc, 0, hr, h => by
    have : c = '"' := by simpa using h
    subst this
    cases esc with
    | true => exact .inl ⟨rfl, rfl⟩
    | false => simp [rawOk] at hr
  | c :: r, esc, i + 1, hr, h => by
    right
    refine ⟨by omega, ?_⟩
    have h' : r[i]? = some '"' := by simpa using h
    have key : ∀ e, rawOk e r = true → (e = true → c = '\\') → (c :: r)[i + 1 - 1]? = some '\\' := by
      intro e he hc
      rcases rawOk_quote r e i he h' with ⟨h1, h2⟩ | ⟨h1, h2⟩
      · subst h1; simp [hc h2]
      · obtain ⟨j, rfl⟩ : ∃ j, i = j + 1 := ⟨i - 1, by omega⟩
        simpa using h2
    unfold rawOk at hr
    split at hr
    · exact key false hr (by simp)
    · split at hr
      · cases hr
      · exact key _ hr (by simp)

theorem lit_noquote {t : Str} (h : litOk t = true) (i : Nat) : t[i]? ≠ some '"' := by
  intro hi
  have hm := List.mem_of_getElem? hi
  rcases litOk_cases h with ⟨a, t', rfl, h1, h2⟩ | ⟨a, t', rfl, h1, h2⟩
  · simp only [List.mem_cons] at hm
    rcases hm with hm | hm | hm
    · revert hm; decide
    · subst hm; revert h1; decide
    · have := List.all_eq_true.1 h2 _ hm
      revert this; decide
  · simp only [List.mem_cons] at hm
    rcases hm with hm | hm
    · subst hm; revert h1; decide
    · have := List.all_eq_true.1 h2 _ hm
      revert this; decide

theorem quote_string {s r tail : Str} {off k : Nat} (hr : rawOk false r = true)
    (hs : s.drop off = '"' :: r ++ '"' :: tail) (h1 : off ≤ k) (h2 : k < off + (r.length + 2))
    (hq : s[k]? = some '"') : QuoteAt s [(off, r)] k := by
  by_cases ha : k = off
  · exact .inl ⟨r, by simp [ha]⟩
  by_cases hb : k = off + 1 + r.length
  · exact .inr (.inl ⟨off, r, tail, by simp, hb, hs⟩)
  · right; right
    have hs' : s.drop (off + 1) = r ++ '"' :: tail := by rw [← List.drop_drop, hs]; simp
    have hg := getElem?_of_drop hs' (k := k) (by omega) (by omega)
    rw [hq] at hg
    rcases rawOk_quote r false _ hr hg.symm with ⟨_, h⟩ | ⟨h3, h4⟩
    · cases h
    · refine ⟨by omega, ?_⟩
      rw [getElem?_of_drop hs' (k := k - 1) (by omega) (by omega), ← h4]
      congr 1; omega

mutual
theorem quote_value (s : Str) : ∀ (v : J) (off : Nat) (tail : Str), v.wf = true →
    s.drop off = v.render ++ tail → ∀ k, off ≤ k → k < off + v.render.length → s[k]? = some '"' →
    QuoteAt s (v.strings off) k
  | .lit t, off, tail, hwf, hs, k, h1, h2, hq => by
    rw [J.render] at hs h2
    rw [getElem?_of_drop hs h1 h2] at hq
    exact absurd hq (lit_noquote hwf _)
  | .str r, off, tail, hwf, hs, k, h1, h2, hq => by
    rw [J.render] at hs h2
    simp only [J.strings]
    exact quote_string (tail := tail) hwf (by rw [hs]; simp) h1 (by simpa using h2) hq
  | .arr w es, off, tail, hwf, hs, k, h1, h2, hq => by
    simp only [J.wf, Bool.and_eq_true] at hwf
    have hs1 : s.drop off = ['['] ++ (w ++ es.render ++ ']' :: tail) := by rw [hs]; simp [J.render]
    have hs2 : s.drop (off + 1) = w ++ (es.render ++ ']' :: tail) := by
      rw [← List.drop_drop, hs1]; simp
    have hs3 := drop_append_eq hs2
    have hs4 : s.drop (off + 1 + w.length + es.render.length) = [']'] ++ tail := by
      rw [drop_append_eq hs3]; rfl
    have hlen : (J.arr w es).render.length = 1 + w.length + es.render.length + 1 := by
      simp [J.render]; omega
    rw [hlen] at h2
    by_cases c1 : k < off + 1
    · rw [getElem?_of_drop hs1 h1 (by simpa using c1)] at hq
      rw [show k - off = 0 by omega] at hq
      revert hq; simp
    by_cases c2 : k < off + 1 + w.length
    · rw [getElem?_of_drop hs2 (by omega) c2] at hq
      exact absurd hq (ws_noquote hwf.1 _)
    by_cases c3 : k < off + 1 + w.length + es.render.length
    · exact quote_elems s es _ _ hwf.2 hs3 k (by omega) c3 hq
    · rw [getElem?_of_drop hs4 (by omega) (by simp; omega)] at hq
      rw [show k - (off + 1 + w.length + es.render.length) = 0 by omega] at hq
      revert hq; simp
  | .obj w ms, off, tail, hwf, hs, k, h1, h2, hq => by
    simp only [J.wf, Bool.and_eq_true] at hwf
    have hs1 : s.drop off = ['{'] ++ (w ++ ms.render ++ '}' :: tail) := by rw [hs]; simp [J.render]
    have hs2 : s.drop (off + 1) = w ++ (ms.render ++ '}' :: tail) := by
      rw [← List.drop_drop, hs1]; simp
    have hs3 := drop_append_eq hs2
    have hs4 : s.drop (off + 1 + w.length + ms.render.length) = ['}'] ++ tail := by
      rw [drop_append_eq hs3]; rfl
    have hlen : (J.obj w ms).render.length = 1 + w.length + ms.render.length + 1 := by
      simp [J.render]; omega
    rw [hlen] at h2
    by_cases c1 : k < off + 1
    · rw [getElem?_of_drop hs1 h1 (by simpa using c1)] at hq
      rw [show k - off = 0 by omega] at hq
      revert hq; simp
    by_cases c2 : k < off + 1 + w.length
    · rw [getElem?_of_drop hs2 (by omega) c2] at hq
      exact absurd hq (ws_noquote hwf.1 _)
    by_cases c3 : k < off + 1 + w.length + ms.render.length
    · exact quote_members s ms _ _ hwf.2 hs3 k (by omega) c3 hq
    · rw [getElem?_of_drop hs4 (by omega) (by simp; omega)] at hq
      rw [show k - (off + 1 + w.length + ms.render.length) = 0 by omega] at hq
      revert hq; simp
theorem quote_elems (s : Str) : ∀ (es : Elems) (off : Nat) (tail : Str), es.wf = true →
    s.drop off = es.render ++ tail → ∀ k, off ≤ k → k < off + es.render.length → s[k]? = some '"' →
    QuoteAt s (es.strings off) k
  | .nil, off, tail, _, _, k, h1, h2, _ => by simp [Elems.render] at h2; omega
  | .cons pre v post rest, off, tail, hwf, hs, k, h1, h2, hq => by
    simp only [Elems.wf, Bool.and_eq_true] at hwf
    obtain ⟨⟨⟨hw1, hw2⟩, hw3⟩, hw4⟩ := hwf
    have hs1 : s.drop off = pre ++ (v.render ++ (post ++ (rest.sep ',' rest.render ++ tail))) := by
      rw [hs]; simp [Elems.render]
    have hs2 := drop_append_eq hs1
    have hs3 := drop_append_eq hs2
    have hs4 := drop_append_eq hs3
    have hlen : (Elems.cons pre v post rest).render.length = pre.length + v.render.length +
        post.length + (rest.sep ',' rest.render).length := by
      simp [Elems.render]; omega
    rw [hlen] at h2
    rw [Elems.strings]
    by_cases c1 : k < off + pre.length
    · rw [getElem?_of_drop hs1 h1 c1] at hq
      exact absurd hq (ws_noquote hw1 _)
    by_cases c2 : k < off + pre.length + v.render.length
    · exact (quote_value s v _ _ hw2 hs2 k (by omega) c2 hq).mono (fun x hx => List.mem_append_left _ hx)
    by_cases c3 : k < off + pre.length + v.render.length + post.length
    · rw [getElem?_of_drop hs3 (by omega) c3] at hq
      exact absurd hq (ws_noquote hw3 _)
    · match rest, hw4, hs4, h2 with
      | .nil, _, _, h2 => simp [Elems.sep] at h2; omega
      | .cons a b c d, hw4, hs4, h2 =>
        simp only [Elems.sep, List.length_cons] at h2 hs4
        by_cases c4 : k = off + pre.length + v.render.length + post.length
        · have := drop_getElem? hs4 0
          rw [Nat.add_zero, ← c4, hq] at this
          simp at this
        · have hs5 : s.drop (off + pre.length + v.render.length + post.length + 1) =
              (Elems.cons a b c d).render ++ tail := by
            rw [← List.drop_drop, hs4]; simp
          exact (quote_elems s (.cons a b c d) _ _ hw4 hs5 k (by omega) (by omega) hq).mono
            (fun x hx => List.mem_append_right _ hx)
theorem quote_members (s : Str) : ∀ (ms : Members) (off : Nat) (tail : Str), ms.wf = true →
    s.drop off = ms.render ++ tail → ∀ k, off ≤ k → k < off + ms.render.length → s[k]? = some '"' →
    QuoteAt s (ms.strings off) k
  | .nil, off, tail, _, _, k, h1, h2, _ => by simp [Members.render] at h2; omega
  | .cons pre key mid pre2 v post rest, off, tail, hwf, hs, k, h1, h2, hq => by
    simp only [Members.wf, Bool.and_eq_true] at hwf
    obtain ⟨⟨⟨⟨⟨⟨hw1, hwk⟩, hwm⟩, hwp2⟩, hw2⟩, hw3⟩, hw4⟩ := hwf
    have hs1 : s.drop off = pre ++ ('"' :: key ++ '"' :: (mid ++ ':' :: (pre2 ++ (v.render ++ (post ++
        (rest.sep ',' rest.render ++ tail)))))) := by
      rw [hs]; simp [Members.render]
    have hs1' := drop_append_eq hs1
    have hsm : s.drop (off + pre.length + (key.length + 2)) = mid ++ (':' :: (pre2 ++ (v.render ++ (post ++
        (rest.sep ',' rest.render ++ tail))))) := by
      have h : s.drop (off + pre.length) = ('"' :: key ++ ['"']) ++ (mid ++ (':' :: (pre2 ++ (v.render ++ (post ++
        (rest.sep ',' rest.render ++ tail)))))) := by rw [hs1']; simp
      have := drop_append_eq h
      rw [← this]; congr 1; simp
    have hsc := drop_append_eq hsm
    have hsp : s.drop (off + pre.length + (key.length + 2) + mid.length + 1) = pre2 ++ (v.render ++ (post ++
        (rest.sep ',' rest.render ++ tail))) := by
      rw [← List.drop_drop, hsc]; simp
    have hs2 := drop_append_eq hsp
    have hs3 := drop_append_eq hs2
    have hs4 := drop_append_eq hs3
    have hlen : (Members.cons pre key mid pre2 v post rest).render.length = pre.length + (key.length + 2) +
        mid.length + 1 + pre2.length + v.render.length +
        post.length + (rest.sep ',' rest.render).length := by
      simp [Members.render]; omega
    rw [hlen] at h2
    rw [Members.strings]
    by_cases c1 : k < off + pre.length
    · rw [getElem?_of_drop hs1 h1 c1] at hq
      exact absurd hq (ws_noquote hw1 _)
    by_cases d1 : k < off + pre.length + (key.length + 2)
    · exact (quote_string hwk hs1' (by omega) d1 hq).mono (fun x hx => by
        rw [List.mem_singleton] at hx; subst hx; simp)
    by_cases d2 : k < off + pre.length + (key.length + 2) + mid.length
    · rw [getElem?_of_drop hsm (by omega) d2] at hq
      exact absurd hq (ws_noquote hwm _)
    by_cases d3 : k = off + pre.length + (key.length + 2) + mid.length
    · have := drop_getElem? hsc 0
      rw [Nat.add_zero, ← d3, hq] at this
      simp at this
    by_cases d4 : k < off + pre.length + (key.length + 2) + mid.length + 1 + pre2.length
    · rw [getElem?_of_drop hsp (by omega) d4] at hq
      exact absurd hq (ws_noquote hwp2 _)
    by_cases c2 : k < off + pre.length + (key.length + 2) + mid.length + 1 + pre2.length + v.render.length
    · exact (quote_value s v _ _ hw2 hs2 k (by omega) c2 hq).mono (fun x hx => by simp [hx])
    by_cases c3 : k < off + pre.length + (key.length + 2) + mid.length + 1 + pre2.length + v.render.length + post.length
    · rw [getElem?_of_drop hs3 (by omega) c3] at hq
      exact absurd hq (ws_noquote hw3 _)
    · match rest, hw4, hs4, h2 with
      | .nil, _, _, h2 => simp [Members.sep] at h2; omega
      | .cons a b c d e f g, hw4, hs4, h2 =>
        simp only [Members.sep, List.length_cons] at h2 hs4
        by_cases c4 : k = off + pre.length + (key.length + 2) + mid.length + 1 + pre2.length + v.render.length + post.length
        · have := drop_getElem? hs4 0
          rw [Nat.add_zero, ← c4, hq] at this
          simp at this
        · have hs5 : s.drop (off + pre.length + (key.length + 2) + mid.length + 1 + pre2.length + v.render.length + post.length + 1) =
              (Members.cons a b c d e f g).render ++ tail := by
            rw [← List.drop_drop, hs4]; simp
          exact (quote_members s (.cons a b c d e f g) _ _ hw4 hs5 k (by omega) (by omega) hq).mono
            (fun x hx => by
              rw [List.cons_append]
              exact List.mem_cons_of_mem _ (List.mem_append_right _ hx))
end

/-! ### The syntax stack along a document -/

/-- The syntax stack after a value. -/
def afterV (ss : List Sym) : List Sym := if top ss = some .ky then pop ss else ss

/-- A value can stand here: at the top level, after a key, or in an array. -/
def atValue (ss : List Sym) : Prop := ss = [] ∨ top ss = some .ky ∨ top ss = some .lb

theorem close_ss {ss : List Sym} (y : Sym) (h : atValue ss) (hy : y = .lcb ∨ y = .lb) :
    (if (y :: ss).length = 1 then pop (y :: ss)
      else if secondTop (y :: ss) = some .ky then pop (pop (y :: ss))
      else if secondTop (y :: ss) = some .lb then pop (y :: ss)
      else (y :: ss)) = afterV ss := by
  rcases h with rfl | h | h
  · simp [afterV, pop, top]
  · cases ss with
    | nil => simp [top] at h
    | cons x ss => simp only [top, List.head?_cons, Option.some.injEq] at h; subst h; simp [secondTop, pop, afterV, top]
  · cases ss with
    | nil => simp [top] at h
    | cons x ss => simp only [top, List.head?_cons, Option.some.injEq] at h; subst h; simp [secondTop, pop, afterV, top]

mutual
theorem ok_value : ∀ (v : J) (obs : Str → Str) (off : Nat) (ss : List Sym), atValue ss →
    ss.length + v.depth ≤ MAX_STACK →
    okRun ss (toks obs off v) ∧ (toks obs off v).foldl ssStep ss = afterV ss
  | .lit t, obs, off, ss, _, _ => by simp [toks, okRun, okTok, ssStep, afterV]
  | .str t, obs, off, ss, _, _ => by simp [toks, okRun, okTok, ssStep, afterV]
  | .arr w es, obs, off, ss, h, hd => by
    rw [J.depth] at hd
    have hp : push ss Sym.lb = .lb :: ss := by unfold push; rw [if_pos (by omega)]
    obtain ⟨h1, h2⟩ := ok_elems es (off + 1 + w.length) ss (by omega)
    simp only [toks, List.cons_append, okRun, List.foldl_cons, ssStep, hp, okRun_append,
      List.foldl_append, h2, List.foldl_nil]
    refine ⟨⟨trivial, h1, trivial, trivial⟩, close_ss .lb h (.inr rfl)⟩
  | .obj w ms, obs, off, ss, h, hd => by
    rw [J.depth] at hd
    have hp : push ss Sym.lcb = .lcb :: ss := by unfold push; rw [if_pos (by omega)]
    obtain ⟨h1, h2⟩ := ok_members ms (off + 1 + w.length) ss (by omega)
    simp only [toks, List.cons_append, okRun, List.foldl_cons, ssStep, hp, okRun_append,
      List.foldl_append, h2, List.foldl_nil]
    refine ⟨⟨trivial, h1, rfl, trivial⟩, close_ss .lcb h (.inl rfl)⟩
theorem ok_elems : ∀ (es : Elems) (off : Nat) (ss : List Sym),
    ss.length + 1 + es.depth ≤ MAX_STACK →
    okRun (.lb :: ss) (toksE off es) ∧ (toksE off es).foldl ssStep (.lb :: ss) = .lb :: ss
  | .nil, _, _, _ => by simp [toksE, okRun]
  | .cons pre v post rest, off, ss, hd => by
    rw [Elems.depth] at hd
    obtain ⟨h1, h2⟩ := ok_value v (litObs false post (nextE rest)) (off + pre.length) (.lb :: ss)
      (.inr (.inr rfl)) (by simp; omega)
    rw [show afterV (Sym.lb :: ss) = .lb :: ss by simp [afterV, top]] at h2
    simp only [toksE, okRun_append, List.foldl_append, h2, h1, true_and]
    match rest, hd with
    | .nil, _ => simp [Elems.sep, okRun]
    | .cons a b c d, hd =>
      have := ok_elems (.cons a b c d) (off + pre.length + v.render.length + post.length + 1) ss (by omega)
      simp only [Elems.sep, okRun, okTok, List.foldl_cons, ssStep, true_and]
      exact this
theorem ok_members : ∀ (ms : Members) (off : Nat) (ss : List Sym),
    ss.length + 1 + ms.depth ≤ MAX_STACK →
    okRun (.lcb :: ss) (toksM off ms) ∧ (toksM off ms).foldl ssStep (.lcb :: ss) = .lcb :: ss
  | .nil, _, _, _ => by simp [toksM, okRun]
  | .cons pre k mid pre2 v post rest, off, ss, hd => by
    rw [Members.depth] at hd
    have hp : push (Sym.lcb :: ss) Sym.ky = .ky :: .lcb :: ss := by
      unfold push; rw [if_pos (by simp; omega)]
    obtain ⟨h1, h2⟩ := ok_value v (litObs pre2.isEmpty post (nextM rest))
      (off + pre.length + (k.length + 2) + mid.length + 1 + pre2.length) (.ky :: .lcb :: ss)
      (.inr (.inl rfl)) (by simp; omega)
    rw [show afterV (Sym.ky :: .lcb :: ss) = .lcb :: ss by simp [afterV, top, pop]] at h2
    simp only [toksM, List.cons_append, okRun, List.foldl_cons, ssStep, hp, okRun_append,
      List.foldl_append, h2, h1, okTok, true_and]
    match rest, hd with
    | .nil, _ => simp [Members.sep, okRun, top]
    | .cons a b c d e f g, hd =>
      have := ok_members (.cons a b c d e f g)
        (off + pre.length + (k.length + 2) + mid.length + 1 + pre2.length + v.render.length + post.length + 1)
        ss (by omega)
      simp only [Members.sep, okRun, okTok, List.foldl_cons, ssStep, true_and]
      exact ⟨⟨rfl, this.1⟩, this.2⟩
end

/-! ### No two scalars are neighbours -/

/-- Whether the last token is a scalar. -/
def lastPri (b : Bool) (ts : List Tok) : Bool := match ts.getLast? with
  | some t => t.isPri
  | none => b

theorem NoAdj_append : ∀ (xs ys : List Tok) (b : Bool),
    NoAdj b (xs ++ ys) ↔ NoAdj b xs ∧ NoAdj (lastPri b xs) ys
  | [], ys, b => by simp [NoAdj, lastPri]
  | x :: xs, ys, b => by
    simp only [List.cons_append, NoAdj, NoAdj_append xs ys, and_assoc]
    have : lastPri x.isPri xs = lastPri b (x :: xs) := by
      cases xs with
      | nil => simp [lastPri]
      | cons y xs => simp [lastPri, List.getLast?_cons]
    rw [this]

theorem NoAdj.mono {ts : List Tok} {b : Bool} (h : NoAdj true ts) : NoAdj b ts := by
  cases ts with
  | nil => trivial
  | cons t ts => exact ⟨fun _ => h.1 rfl, h.2⟩

theorem noadj_sepE (rest : Elems) (ts : List Tok) (b : Bool) (h : NoAdj false ts) :
    NoAdj b (rest.sep .com ts) := by
  cases rest with
  | nil => trivial
  | cons => exact ⟨fun _ => rfl, h⟩

theorem noadj_sepM (rest : Members) (ts : List Tok) (b : Bool) (h : NoAdj false ts) :
    NoAdj b (rest.sep .com ts) := by
  cases rest with
  | nil => trivial
  | cons => exact ⟨fun _ => rfl, h⟩

mutual
theorem noadj_value : ∀ (v : J) (obs : Str → Str) (off : Nat), NoAdj false (toks obs off v)
  | .lit _, _, _ => by simp [toks, NoAdj]
  | .str _, _, _ => by simp [toks, NoAdj]
  | .arr w es, obs, off => by
    simp only [toks, List.cons_append, NoAdj, NoAdj_append]
    exact ⟨by simp, noadj_elems es _, fun _ => rfl, trivial⟩
  | .obj w ms, obs, off => by
    simp only [toks, List.cons_append, NoAdj, NoAdj_append]
    exact ⟨by simp, noadj_members ms _, fun _ => rfl, trivial⟩
theorem noadj_elems : ∀ (es : Elems) (off : Nat), NoAdj false (toksE off es)
  | .nil, _ => trivial
  | .cons pre v post rest, off => by
    simp only [toksE, NoAdj_append]
    exact ⟨noadj_value v _ _, noadj_sepE _ _ _ (noadj_elems rest _)⟩
theorem noadj_members : ∀ (ms : Members) (off : Nat), NoAdj false (toksM off ms)
  | .nil, _ => trivial
  | .cons pre k mid pre2 v post rest, off => by
    simp only [toksM, List.cons_append, NoAdj, NoAdj_append]
    exact ⟨by simp, noadj_value v _ _, noadj_sepM _ _ _ (noadj_members rest _)⟩
end

mutual
theorem string_quote (s : Str) : ∀ (v : J) (off : Nat) (tail : Str), s.drop off = v.render ++ tail →
    ∀ x ∈ v.strings off, s[x.1]? = some '"'
  | .lit _, _, _, _, x, hx => by simp [J.strings] at hx
  | .str r, off, tail, hs, x, hx => by
    simp only [J.strings, List.mem_singleton] at hx
    subst hx
    have := drop_getElem? hs 0
    simpa [J.render] using this.symm
  | .arr w es, off, tail, hs, x, hx => by
    have hs2 : s.drop (off + 1 + w.length) = es.render ++ (']' :: tail) := by
      have h : s.drop off = ('[' :: w) ++ (es.render ++ (']' :: tail)) := by rw [hs]; simp [J.render]
      rw [← drop_append_eq h]; congr 1; simp; omega
    exact string_quoteE s es _ _ hs2 x hx
  | .obj w ms, off, tail, hs, x, hx => by
    have hs2 : s.drop (off + 1 + w.length) = ms.render ++ ('}' :: tail) := by
      have h : s.drop off = ('{' :: w) ++ (ms.render ++ ('}' :: tail)) := by rw [hs]; simp [J.render]
      rw [← drop_append_eq h]; congr 1; simp; omega
    exact string_quoteM s ms _ _ hs2 x hx
theorem string_quoteE (s : Str) : ∀ (es : Elems) (off : Nat) (tail : Str), s.drop off = es.render ++ tail →
    ∀ x ∈ es.strings off, s[x.1]? = some '"'
  | .nil, _, _, _, x, hx => by simp [Elems.strings] at hx
  | .cons pre v post rest, off, tail, hs, x, hx => by
    have hs1 : s.drop off = pre ++ (v.render ++ (post ++ (rest.sep ',' rest.render ++ tail))) := by
      rw [hs]; simp [Elems.render]
    have hs2 := drop_append_eq hs1
    have hs4 := drop_append_eq (drop_append_eq hs2)
    rw [Elems.strings, List.mem_append] at hx
    rcases hx with hx | hx
    · exact string_quote s v _ _ hs2 x hx
    · match rest, hs4, hx with
      | .nil, _, hx => simp [Elems.strings] at hx
      | .cons a b c d, hs4, hx =>
        simp only [Elems.sep] at hs4
        have hs5 : s.drop (off + pre.length + v.render.length + post.length + 1) =
            (Elems.cons a b c d).render ++ tail := by
          rw [← List.drop_drop, hs4]; simp
        exact string_quoteE s (.cons a b c d) _ _ hs5 x hx
theorem string_quoteM (s : Str) : ∀ (ms : Members) (off : Nat) (tail : Str), s.drop off = ms.render ++ tail →
    ∀ x ∈ ms.strings off, s[x.1]? = some '"'
  | .nil, _, _, _, x, hx => by simp [Members.strings] at hx
  | .cons pre key mid pre2 v post rest, off, tail, hs, x, hx => by
    have hs0 : s.drop off = pre ++ ('"' :: key ++ '"' :: mid ++ ':' :: pre2 ++ (v.render ++ (post ++
        (rest.sep ',' rest.render ++ tail)))) := by
      rw [hs]; simp [Members.render]
    have hsk := drop_append_eq hs0
    have hs2 := drop_append_eq hsk
    have hs4 := drop_append_eq (drop_append_eq hs2)
    have e : off + pre.length + ('"' :: key ++ '"' :: mid ++ ':' :: pre2).length =
        off + pre.length + (key.length + 2) + mid.length + 1 + pre2.length := by simp; omega
    rw [e] at hs2 hs4
    rw [Members.strings, List.cons_append, List.mem_cons, List.mem_append] at hx
    rcases hx with hx | hx | hx
    · subst hx
      have := drop_getElem? hsk 0
      simpa using this.symm
    · exact string_quote s v _ _ hs2 x hx
    · match rest, hs4, hx with
      | .nil, _, hx => simp [Members.strings] at hx
      | .cons a b c d e f g, hs4, hx =>
        simp only [Members.sep] at hs4
        have hs5 : s.drop (off + pre.length + (key.length + 2) + mid.length + 1 + pre2.length + v.render.length + post.length + 1) =
            (Members.cons a b c d e f g).render ++ tail := by
          rw [← List.drop_drop, hs4]; simp
        exact string_quoteM s (.cons a b c d e f g) _ _ hs5 x hx
end

/-- Strings of a document start where the tokenizer can be restarted. -/
theorem cleanCut_doc (pre trail : Str) (v : J) (hp : pre.all isWs = true) (hwf : v.wf = true)
    (hk : v.keysTight = true) : ∀ x ∈ v.strings pre.length, CleanCut (pre ++ v.render ++ trail) x.1 := by
  intro x hx
  have hs : (pre ++ v.render ++ trail).drop 0 = pre ++ (v.render ++ trail) := by simp
  have hat := (At.here (s := pre ++ v.render ++ trail) (lx := Lexer.init) rfl).more hs hp
  have hs1 := drop_append_eq hs
  simp only [Lexer.init, Nat.zero_add] at hs1 hat
  obtain ⟨ts, lx, w, h1, h2⟩ := stands_value _ v _ _ _ _ hwf hk hat hs1 x hx
  exact ⟨string_quote _ v _ _ hs1 x hx, ts, lx, w, h1, h2⟩

end JPS
