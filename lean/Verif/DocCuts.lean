import Verif.DocSplit
import Verif.ParChunk
import Verif.PieceDoc
import Verif.TokenSpec
import Verif.Props.Query
/-!
# Documents cut into chunks

From conditions on the document to the assumptions of the parallel run (`ChunksOK`) and of runs over pieces
(`CleanCuts`).
-/

set_option autoImplicit false

namespace JPS
open Spec

/-! ### Documents have well-formed token sequences -/

theorem modeAfter_append (m : Mode) (a b : List Tok) : modeAfter m (a ++ b) = modeAfter (modeAfter m a) b := by
  simp [modeAfter]

mutual
theorem fits_value : ∀ (v : J) (obs : Str → Str) (off : Nat) (ss : List Sym) (m : Mode), atValue ss → valueAt ss m →
    (v.isContainer = false → ss ≠ []) → ss.length + v.depth ≤ MAX_STACK →
    fitsAll ss m (toks obs off v) ∧ modeAfter m (toks obs off v) = .post
  | .lit t, obs, off, ss, m, _, hv, hn, _ => by
    simp only [toks, fitsAll, fits]
    exact ⟨⟨⟨hv, hn rfl⟩, trivial⟩, rfl⟩
  | .str t, obs, off, ss, m, _, hv, hn, _ => by
    simp only [toks, fitsAll, fits]
    exact ⟨⟨⟨hv, hn rfl⟩, trivial⟩, rfl⟩
  | .arr w es, obs, off, ss, m, ha, hv, _, hd => by
    rw [J.depth] at hd
    have hp : push ss Sym.lb = .lb :: ss := push_lt (by omega)
    obtain ⟨h1, h2⟩ := fits_elems es (off + 1 + w.length) ss .fst (.inl rfl) (by omega)
    have h3 := (ok_elems es (off + 1 + w.length) ss (by omega)).2
    simp only [toks, List.cons_append, fitsAll, fits, fitsAll_append, ssStep, hp, h3]
    refine ⟨⟨⟨hv, by omega⟩, h1, ⟨rfl, ?_⟩, trivial⟩, ?_⟩
    · exact h2
    · rw [← List.cons_append, modeAfter_append]; rfl
  | .obj w ms, obs, off, ss, m, ha, hv, _, hd => by
    rw [J.depth] at hd
    have hp : push ss Sym.lcb = .lcb :: ss := push_lt (by omega)
    obtain ⟨h1, h2⟩ := fits_members ms (off + 1 + w.length) ss .fst (.inl rfl) (by omega)
    have h3 := (ok_members ms (off + 1 + w.length) ss (by omega)).2
    simp only [toks, List.cons_append, fitsAll, fits, fitsAll_append, ssStep, hp, h3]
    refine ⟨⟨⟨hv, by omega⟩, h1, ⟨rfl, ?_⟩, trivial⟩, ?_⟩
    · exact h2
    · rw [← List.cons_append, modeAfter_append]; rfl
theorem fits_elems : ∀ (es : Elems) (off : Nat) (ss : List Sym) (m : Mode), (m = .fst ∨ m = .com) →
    ss.length + 1 + es.depth ≤ MAX_STACK →
    fitsAll (.lb :: ss) m (toksE off es) ∧ (modeAfter m (toksE off es) = m ∨ modeAfter m (toksE off es) = .post)
  | .nil, off, ss, m, h, _ => by
    simp only [toksE, fitsAll]
    exact ⟨trivial, .inl rfl⟩
  | .cons pre v post rest, off, ss, m, h, hd => by
    rw [Elems.depth] at hd
    obtain ⟨h1, h2⟩ := fits_value v (litObs false post (nextE rest)) (off + pre.length) (.lb :: ss) m
      (.inr (.inr rfl)) (.inr ⟨rfl, h⟩) (fun _ => by simp) (by simp; omega)
    have h3 := (ok_value v (litObs false post (nextE rest)) (off + pre.length) (.lb :: ss)
      (.inr (.inr rfl)) (by simp; omega)).2
    rw [show afterV (Sym.lb :: ss) = .lb :: ss by simp [afterV, top]] at h3
    simp only [toksE, fitsAll_append, modeAfter_append, h1, h2, h3, true_and]
    match rest, hd with
    | .nil, _ => exact ⟨trivial, .inr rfl⟩
    | .cons a b c d, hd =>
      obtain ⟨i1, i2⟩ := fits_elems (.cons a b c d) (off + pre.length + v.render.length + post.length + 1) ss .com (.inr rfl) (by omega)
      refine ⟨⟨⟨rfl, by simp⟩, i1⟩, .inr ?_⟩
      rcases i2 with i2 | i2
      · exfalso
        have hp := (fits_value b (litObs false c (nextE d)) (off + pre.length + v.render.length + post.length + 1 + a.length)
          (.lb :: ss) .com (.inr (.inr rfl)) (.inr ⟨rfl, .inr rfl⟩) (fun _ => by simp) (by
            simp only [List.length_cons]; rw [Elems.depth] at hd; omega)).2
        rw [toksE, modeAfter_append, hp] at i2
        cases d with
        | nil => simp [Elems.sep, modeAfter] at i2
        | cons a' b' c' d' =>
          obtain ⟨_, j2⟩ := fits_elems (.cons a b c (.cons a' b' c' d'))
            (off + pre.length + v.render.length + post.length + 1) ss .fst (.inl rfl) (by omega)
          rw [toksE, modeAfter_append] at j2
          have hp2 := (fits_value b (litObs false c (nextE (.cons a' b' c' d'))) (off + pre.length + v.render.length + post.length + 1 + a.length)
            (.lb :: ss) .fst (.inr (.inr rfl)) (.inr ⟨rfl, .inl rfl⟩) (fun _ => by simp) (by
              simp only [List.length_cons]; rw [Elems.depth] at hd; omega)).2
          rw [hp2, i2] at j2
          rcases j2 with j2 | j2 <;> cases j2
      · exact i2
theorem fits_members : ∀ (ms : Members) (off : Nat) (ss : List Sym) (m : Mode), (m = .fst ∨ m = .com) →
    ss.length + 1 + ms.depth ≤ MAX_STACK →
    fitsAll (.lcb :: ss) m (toksM off ms) ∧ (modeAfter m (toksM off ms) = m ∨ modeAfter m (toksM off ms) = .post)
  | .nil, off, ss, m, h, _ => by
    simp only [toksM, fitsAll]
    exact ⟨trivial, .inl rfl⟩
  | .cons pre k mid pre2 v post rest, off, ss, m, h, hd => by
    rw [Members.depth] at hd
    have hp : push (Sym.lcb :: ss) Sym.ky = .ky :: .lcb :: ss := push_lt (by simp; omega)
    obtain ⟨h1, h2⟩ := fits_value v (litObs pre2.isEmpty post (nextM rest))
      (off + pre.length + (k.length + 2) + mid.length + 1 + pre2.length) (.ky :: .lcb :: ss) .val
      (.inr (.inl rfl)) (.inl rfl) (fun _ => by simp) (by simp; omega)
    have h3 := (ok_value v (litObs pre2.isEmpty post (nextM rest))
      (off + pre.length + (k.length + 2) + mid.length + 1 + pre2.length) (.ky :: .lcb :: ss)
      (.inr (.inl rfl)) (by simp; omega)).2
    rw [show afterV (Sym.ky :: .lcb :: ss) = .lcb :: ss by simp [afterV, top, pop]] at h3
    have hm : ∀ ts, modeAfter m (Tok.ky k :: ts) = modeAfter .val ts := fun _ => rfl
    have hlt : ss.length + 1 < MAX_STACK := by omega
    simp only [toksM, List.cons_append, fitsAll, fits, ssStep, hp, Tok.mode, hm, fitsAll_append, modeAfter_append, h1, h2, h3, true_and,
      List.length_cons, hlt, and_true]
    match rest, hd with
    | .nil, _ => exact ⟨⟨⟨rfl, h⟩, trivial⟩, .inr rfl⟩
    | .cons a b c e f g i, hd =>
      obtain ⟨i1, i2⟩ := fits_members (.cons a b c e f g i)
        (off + pre.length + (k.length + 2) + mid.length + 1 + pre2.length + v.render.length + post.length + 1)
        ss .fst (.inl rfl) (by omega)
      obtain ⟨j1, j2⟩ := fits_members (.cons a b c e f g i)
        (off + pre.length + (k.length + 2) + mid.length + 1 + pre2.length + v.render.length + post.length + 1)
        ss .com (.inr rfl) (by omega)
      refine ⟨⟨⟨rfl, h⟩, ⟨rfl, by simp⟩, j1⟩, .inr ?_⟩
      have e1 : ∀ (x : Mode) (o : Nat), modeAfter x (toksM o (.cons a b c e f g i)) = modeAfter .val (toksM o (.cons a b c e f g i)) := by
        intro x o; simp only [toksM, List.cons_append]; rfl
      show modeAfter .com _ = _
      rw [e1] at i2 j2 ⊢
      rcases j2 with j2 | j2
      · rcases i2 with i2 | i2
        · rw [j2] at i2; cases i2
        · exact i2
      · exact j2
end

/-! ### Positions of brackets -/

/-- The position carried by a bracket token. -/
def Tok.bracket : Tok → Option Nat
  | .lcb p => some p
  | .rcb p => some p
  | .lb p => some p
  | .rb p => some p
  | _ => none

theorem lexAll_bracket {s : Str} {t : Tok} (ht : t ∈ lexAll s) {p : Nat} (hp : t.bracket = some p) : 0 < p ∧ p ≤ s.length := by
  have h := lexFrom_tokAt s _ _ t ht
  have key : ∀ c, 0 < p ∧ s[p - 1]? = some c → 0 < p ∧ p ≤ s.length := by
    intro c hc
    refine ⟨hc.1, ?_⟩
    rcases Nat.lt_or_ge (p - 1) s.length with h' | h'
    · omega
    · rw [List.getElem?_eq_none h'] at hc; cases hc.2
  cases t <;> simp only [Tok.bracket, Option.some.injEq, reduceCtorEq] at hp <;> subst hp <;> exact key _ h

theorem bracket_shift (t : Tok) (k : Nat) : (t.shift k).bracket = t.bracket.map (· + k) := by cases t <;> rfl

theorem pieceToks_pos : ∀ (xs : List Str) (k : Nat) {t : Tok}, t ∈ pieceToks k xs → ∀ {p : Nat}, t.bracket = some p →
    k < p ∧ p ≤ k + xs.flatten.length
  | [], _, t, h, _, _ => by cases h
  | x :: xs, k, t, h, p, hp => by
    rw [pieceToks] at h
    rw [List.flatten_cons, List.length_append]
    rcases List.mem_append.1 h with h | h
    · obtain ⟨u, hu, rfl⟩ := List.mem_map.1 h
      rw [bracket_shift] at hp
      obtain ⟨q, hq, rfl⟩ := Option.map_eq_some_iff.1 hp
      have := lexAll_bracket hu hq
      omega
    · have := pieceToks_pos xs (k + x.length) h hp
      omega

theorem openTok_bracket (v : J) (b : Nat) : (openTok v b).bracket = some (b + 1) := by cases v <;> rfl
theorem closeTok_bracket (v : J) (b : Nat) : (closeTok v b).bracket = some (b + v.render.length) := by cases v <;> rfl

/-! ### What precedes a cut -/

theorem lexLoop_ky {s : Str} (lx : Lexer) : ∀ (rest : Str) (p start tokp st : Nat) (k : Str), s.drop p = rest →
    (lexLoop s lx rest p start tokp st).1 = .ky k →
    ∃ q, (lexLoop s lx rest p start tokp st).2.nxt = q + 1 ∧ s[q]? = some ':' := by
  intro rest
  induction rest with
  | nil => intro p start tokp st k _ h; simp [lexLoop] at h
  | cons c rest ih =>
    intro p start tokp st k hs
    obtain ⟨_, hd⟩ := drop_cons_lt hs
    match st with
    | 0 =>
      simp only [lexLoop]
      repeat' split
      all_goals first
        | exact ih _ _ _ _ k hd
        | (intro h; simp [charFound] at h)
    | 1 =>
      simp only [lexLoop]
      repeat' split
      all_goals first
        | exact ih _ _ _ _ k hd
        | skip
      intro h
      unfold stringFound at h ⊢
      simp only at h ⊢
      split at h
      · next hc =>
        refine ⟨_, rfl, ?_⟩
        rw [drop_getElem? hd] at hc
        rw [← hc]; congr 1; omega
      · cases h
    | st + 2 =>
      simp only [lexLoop]
      split
      · intro h; simp [primitiveFound] at h
      · exact ih _ _ _ _ k hd

theorem Reads.last {s : Str} : ∀ {xs : List Tok} {t : Tok} {l1 l2 : Lexer}, Reads s l1 (xs ++ [t]) l2 →
    ∃ l, (nextToken s l).1.toTok (nextToken s l).2 = some t ∧ l2 = (nextToken s l).2
  | [], _, l1, _, h => ⟨l1, h.1, h.2.symm⟩
  | _ :: _, _, _, _, h => Reads.last h.2

theorem CleanCut.toks {S : Str} {k : Nat} (hq : S[k]? = some '"') {ts : List Tok} {lx : Lexer} {w : Str} (hr : Reads S Lexer.init ts lx)
    (hat : At S lx w k) (hadj : NoAdj false (lexAll S)) : lexAll (S.take k) = ts := by
  rw [hr.lexAll] at hadj
  have hle : lx.nxt ≤ k := by have := hat.pos; omega
  have hrt := Reads.take hq hr hle hadj.left (.inr (by simp [Lexer.init]))
  rw [hrt.lexAll]
  have hdr : (S.take k).drop lx.nxt = w := by
    rw [List.drop_take, hat.eq, show k - lx.nxt = w.length by have := hat.pos; omega]
    simp
  have hat' : At (S.take k) lx w k := by
    refine ⟨hat.pos, hat.ws, ?_⟩
    rw [hdr]; simp
  have hn : nextToken (S.take k) lx = (.eof, lx) := by
    rw [nextToken_at hat']
    have : (S.take k).drop k = [] := by simp
    rw [this]; simp [lexLoop]
  simp [JPS.lexFrom, hn, RTok.toTok]

theorem ws_prefix {w w' u : Str} {c : Char} {x : Str} (hw : w.all isSkip = true) (hw' : w'.all isSkip = true)
    (h : w ++ c :: u = w' ++ x) (hc : isSkip c = false) : ∃ y, x = y ++ c :: u ∧ y.all isSkip = true := by
  rcases List.append_eq_append_iff.1 h with ⟨y, h1, h2⟩ | ⟨y, h1, h2⟩
  · cases y with
    | nil =>
      refine ⟨[], ?_, rfl⟩
      simpa using h2.symm
    | cons z y =>
      simp only [List.cons_append, List.cons.injEq] at h2
      rw [h1, ← h2.1] at hw'
      simp [hc] at hw'
  · refine ⟨y, h2, ?_⟩
    rw [h1] at hw
    rw [List.all_append, Bool.and_eq_true] at hw
    exact hw.2

/-- The last token before a cut is not a key. -/
theorem cut_notKey {S : Str} {k : Nat} (hc : CleanCut S k) (hadj : NoAdj false (lexAll S)) {u w : Str} {c : Char}
    (hb : (S.take k).reverse = w ++ c :: u) (hw : w.all isSkip = true) (hcc : c = ',' ∨ c = '{' ∨ c = '[') :
    lexAll (S.take k) ≠ [] ∧ ∀ x key, lexAll (S.take k) ≠ x ++ [.ky key] := by
  obtain ⟨hq, ts, lx, w', hr, hat⟩ := hc
  rw [CleanCut.toks hq hr hat hadj]
  have hws : ∀ l : Str, l.all isWs = true → l.reverse.all isSkip = true := by
    intro l hl
    have : isSkip = isWs := by funext c; simp [isSkip, isWs]
    rw [this]; simpa using hl
  refine ⟨?_, ?_⟩
  · rintro rfl
    cases hr
    have e1 : S.take k = w' := by
      have h := hat.eq
      have hp := hat.pos
      simp only [Lexer.init, List.drop_zero, Nat.zero_add] at h hp
      rw [h, ← hp]; simp
    have := hws w' hat.ws
    rw [← e1, hb] at this
    simp only [List.all_append, List.all_cons, Bool.and_eq_true] at this
    have h2 := this.2.1
    rcases hcc with rfl | rfl | rfl <;> exact absurd h2 (by decide)
  rintro x key rfl
  obtain ⟨l, h1, rfl⟩ := hr.last
  have h2 : (nextToken S l).1 = .ky key := by
    revert h1
    generalize nextToken S l = z
    obtain ⟨z1, z2⟩ := z
    intro h1
    cases z1 <;> simp [RTok.toTok] at h1
    · rw [h1]
  obtain ⟨q, h3, h4⟩ := lexLoop_ky (s := S) l _ _ _ _ _ key rfl h2
  change (nextToken S l).2.nxt = q + 1 at h3
  have hpos := hat.pos
  have hlen : k ≤ S.length := by
    rcases Nat.lt_or_ge k S.length with h' | h'
    · omega
    · rw [List.getElem?_eq_none h'] at hq; cases hq
  have e1 : S.take k = S.take q ++ ':' :: w' := by
    have e2 : S.take k = S.take (q + 1) ++ w' := by
      rw [show k = (q + 1) + w'.length by omega, List.take_add, ← h3, hat.eq]
      simp
    rw [e2, List.take_add_one, h4]; simp
  rw [e1] at hb
  simp only [List.reverse_append, List.reverse_cons, List.append_assoc, List.cons_append, List.nil_append] at hb
  have hsk : isSkip c = false := by rcases hcc with rfl | rfl | rfl <;> decide
  obtain ⟨y, h5, h6⟩ := ws_prefix hw (hws w' hat.ws) hb.symm hsk
  cases y with
  | nil =>
    simp only [List.nil_append, List.cons.injEq] at h5
    rw [← h5.1] at hcc; revert hcc; decide
  | cons z y =>
    simp only [List.cons_append, List.cons.injEq] at h5
    rw [← h5.1] at h6; simp [isSkip] at h6

/-- The first token of a text that begins with a quote is a key or a scalar. -/
theorem lexLoop_string_tok {s : Str} (lx : Lexer) : ∀ (rest : Str) (p start tokp : Nat),
    (lexLoop s lx rest p start tokp 1).1 = .eof ∨ (∃ k, (lexLoop s lx rest p start tokp 1).1 = .ky k) ∨
    ∃ x, (lexLoop s lx rest p start tokp 1).1 = .pri x := by
  intro rest
  induction rest with
  | nil => intro p start tokp; left; simp [lexLoop]
  | cons c rest ih =>
    intro p start tokp
    simp only [lexLoop]
    repeat' split
    · exact ih _ _ _
    · unfold stringFound
      simp only
      split
      · exact .inr (.inl ⟨_, rfl⟩)
      · exact .inr (.inr ⟨_, rfl⟩)
    · exact ih _ _ _

theorem lexAll_quote {s : Str} (hq : s.head? = some '"') :
    lexAll s = [] ∨ (∃ k ts, lexAll s = .ky k :: ts) ∨ ∃ x ts, lexAll s = .pri x :: ts := by
  obtain ⟨tail, rfl⟩ : ∃ t, s = '"' :: t := by
    cases s with
    | nil => cases hq
    | cons c t => exact ⟨t, by simpa using hq⟩
  have hn : nextToken ('"' :: tail) Lexer.init = lexLoop ('"' :: tail) Lexer.init tail 1 0 0 1 := by
    simp [nextToken, Lexer.init, lexLoop]
  have h := lexLoop_string_tok (s := '"' :: tail) Lexer.init tail 1 0 0
  rw [← hn] at h
  unfold lexAll
  simp only [lexFrom]
  revert h
  generalize nextToken ('"' :: tail) Lexer.init = z
  obtain ⟨z1, z2⟩ := z
  rintro (h | ⟨k, h⟩ | ⟨x, h⟩) <;> simp only at h <;> subst h
  · exact .inl rfl
  · exact .inr (.inl ⟨_, _, rfl⟩)
  · exact .inr (.inr ⟨_, _, rfl⟩)

/-! ### Scalars of arrays opened before a chunk -/

/-- The lowest `lo` entries of both stacks agree. -/
def LowEq (lo : Nat) (g0 g : List Nat) : Prop := ∃ B, B <:+ g0 ∧ B <:+ g ∧ B.length = lo

theorem LowEq.step {lo : Nat} {g0 g g' : List Nat} {p : Nat} (h : LowEq lo g0 g) (hg : g' <:+ p :: g) :
    LowEq (min lo g'.length) g0 g' := by
  obtain ⟨B, h1, h2, h3⟩ := h
  refine ⟨B.drop (lo - min lo g'.length), (List.drop_suffix _ _).trans h1, ?_, by simp [h3]; omega⟩
  refine List.suffix_of_suffix_length_le (((List.drop_suffix _ _).trans h2).trans (List.suffix_cons _ _)) hg ?_
  simp [h3]; omega

theorem pop_suffix {α : Type} (l : List α) : pop l <:+ l := by
  cases l with
  | nil => exact List.suffix_refl _
  | cons x l => exact List.suffix_cons _ _

theorem pop_length {α : Type} (l : List α) : (pop l).length = l.length - 1 := by cases l <;> simp [pop]

theorem ctlStep_g (d : QDfa) (C : Ctl) (t : Tok) (hl : C.ss.length = C.g.length) :
    (∃ p, (ctlStep d C t).g <:+ p :: C.g) ∧ (ctlStep d C t).ss.length = (ctlStep d C t).g.length := by
  have hpush : ∀ p : Nat, push C.g p <:+ p :: C.g := by
    intro p
    unfold push
    split
    · exact List.suffix_refl _
    · exact List.suffix_cons _ _
  have hpl : ∀ (x : Sym) (p : Nat), (push C.ss x).length = (push C.g p).length := by
    intro x p
    unfold push
    rw [hl]
    split
    · simp [hl]
    · exact hl
  have hpop : ∀ p : Nat, pop C.g <:+ p :: C.g := fun p => (pop_suffix _).trans (List.suffix_cons _ _)
  have hpop2 : ∀ p : Nat, pop (pop C.g) <:+ p :: C.g := fun p => (pop_suffix _).trans (hpop p)
  have hsame : ∃ p, C.g <:+ p :: C.g := ⟨0, List.suffix_cons _ _⟩
  cases t with
  | lcb p => exact ⟨⟨p, hpush p⟩, hpl _ _⟩
  | lb p => exact ⟨⟨p, hpush p⟩, hpl _ _⟩
  | ky k => exact ⟨⟨0, hpush 0⟩, hpl _ _⟩
  | com => exact ⟨hsame, hl⟩
  | pri x =>
    simp only [ctlStep]
    split
    · exact ⟨⟨0, hpop 0⟩, by simp only [pop_length, hl]⟩
    · split
      · exact ⟨hsame, hl⟩
      · exact ⟨hsame, hl⟩
  | rcb p =>
    simp only [ctlStep]
    split
    · exact ⟨⟨0, hpop 0⟩, by simp only [pop_length, hl]⟩
    · split
      · exact ⟨⟨0, hpop2 0⟩, by simp only [pop_length, hl]⟩
      · split
        · exact ⟨⟨0, hpop 0⟩, by simp only [pop_length, hl]⟩
        · exact ⟨hsame, hl⟩
  | rb p =>
    simp only [ctlStep]
    split
    · exact ⟨⟨0, hpop 0⟩, by simp only [pop_length, hl]⟩
    · split
      · exact ⟨⟨0, hpop2 0⟩, by simp only [pop_length, hl]⟩
      · split
        · exact ⟨⟨0, hpop 0⟩, by simp only [pop_length, hl]⟩
        · exact ⟨hsame, hl⟩

theorem LowEq.le {lo : Nat} {g0 g : List Nat} (h : LowEq lo g0 g) : lo ≤ g.length := by
  obtain ⟨B, _, h2, rfl⟩ := h
  exact h2.length_le

/-- If no scalar of an array opened before the chunk is reported, no text is lost. -/
theorem noClob_of {d : QDfa} {s : Str} {k : Nat} : ∀ (ts : List Tok) {lo : Nat} {a : SA} {C : Ctl} {g0 : List Nat} {m : Mode},
    a.Is C → fitsAll a.ss m ts → wfStack a.ss → modeOK a.ss m → C.ss.length = C.g.length → LowEq lo g0 C.g →
    (top a.ss = some .ky → lo < a.ss.length) →
    (∀ u1 x u2, ts = u1 ++ .pri x :: u2 → top (ctlRun d C (u1.map (Tok.shift k))).ss = some .lb →
      ∀ b ∈ g0, (ctlRun d C (u1.map (Tok.shift k))).g.head? = some b →
      d.matchedType (ctlRun d C (u1.map (Tok.shift k))).e.1 (ctlRun d C (u1.map (Tok.shift k))).e.2 ≠ .output ∧
      d.matchedType (ctlRun d C (u1.map (Tok.shift k))).e.1 (ctlRun d C (u1.map (Tok.shift k))).e.2 ≠ .condition) →
    noClob d s lo a ts
  | [], _, _, _, _, _, _, _, _, _, _, _, _, _ => trivial
  | t :: ts, lo, a, C, g0, m, hI, hf, hw, hm, hl, hlo, hk, hH => by
    refine ⟨?_, ?_⟩
    · rintro x rfl hle hmt
      exfalso
      have hlb : top a.ss = some .lb := by
        rcases hf.1.1 with hv | hv
        · rcases hm.1 hv with h | h
          · exact absurd h hf.1.2
          · have := hk h; omega
        · exact hv.1
      obtain ⟨B, b1, b2, b3⟩ := hlo
      have hB : B = C.g := by
        refine b2.eq_of_length_le ?_
        rw [b3, ← hl, hI.ss]; exact hle
      have hne : C.g ≠ [] := by
        intro h
        rw [h] at hl
        have : a.ss = [] := List.length_eq_zero_iff.1 (by rw [← hI.ss]; exact hl)
        exact hf.1.2 this
      obtain ⟨b, gs, hg⟩ := List.exists_cons_of_ne_nil hne
      have := hH [] x ts rfl (by show top C.ss = _; rw [hI.ss]; exact hlb) b (b1.subset (by rw [hB, hg]; exact List.mem_cons_self))
        (by show C.g.head? = _; rw [hg]; rfl)
      change d.matchedType C.e.1 C.e.2 ≠ _ ∧ d.matchedType C.e.1 C.e.2 ≠ _ at this
      rw [hI.e] at this
      rcases hmt with h | h
      · exact this.1 h
      · exact this.2 h
    · have hI' := hI.step d s k t
      obtain ⟨⟨p, g1⟩, g2⟩ := ctlStep_g d C (t.shift k) hl
      have hlow := hlo.step g1
      rw [← g2, hI'.ss] at hlow
      obtain ⟨w1, w2⟩ := wf_step hw hm hf.1
      rw [← step_ss d s] at w1 w2
      have hf2 := hf.2
      rw [← step_ss d s] at hf2
      refine noClob_of (k := k) ts hI' hf2 w1 w2 g2 hlow ?_ ?_
      · intro htop
        have hmode := w2.2 htop
        have hlt := hlo.le
        rw [← hl, hI.ss] at hlt
        cases t with
        | ky key =>
          rw [step_ss] at htop ⊢
          have hfull := hf.1.2.2
          simp only [ssStep, push_lt hfull, List.length_cons]
          omega
        | _ => simp [Tok.mode] at hmode
      · intro u1 x u2 h
        exact hH (t :: u1) x u2 (by rw [h]; rfl)

theorem ctlRun_g (d : QDfa) : ∀ (ts : List Tok) (k : Nat) (C : Ctl), C.ss.length = C.g.length → (∀ b ∈ C.g, b ≤ k) →
    (∀ t ∈ ts, ∀ p, t.bracket = some p → p ≤ k) →
    (ctlRun d C ts).ss.length = (ctlRun d C ts).g.length ∧ ∀ b ∈ (ctlRun d C ts).g, b ≤ k
  | [], _, _, h1, h2, _ => ⟨h1, h2⟩
  | t :: ts, k, C, h1, h2, h3 => by
    obtain ⟨⟨p, g1⟩, g2⟩ := ctlStep_g d C t h1
    refine ctlRun_g d ts k (ctlStep d C t) g2 ?_ (fun u hu => h3 u (List.mem_cons_of_mem _ hu))
    have hsub : ∀ {l : List Nat}, l <:+ C.g → ∀ b ∈ l, b ≤ k := fun hl b hb => h2 b (hl.subset hb)
    have hpush : ∀ p, p ≤ k → ∀ b ∈ push C.g p, b ≤ k := by
      intro p hp b hb
      unfold push at hb
      split at hb
      · rcases List.mem_cons.1 hb with rfl | hb
        · exact hp
        · exact h2 b hb
      · exact h2 b hb
    have h4 := h3 t List.mem_cons_self
    cases t with
    | lcb p => exact hpush p (h4 p rfl)
    | lb p => exact hpush p (h4 p rfl)
    | ky key => exact hpush 0 (Nat.zero_le _)
    | com => exact h2
    | pri x =>
      simp only [ctlStep]
      split
      · exact hsub (pop_suffix _)
      · split <;> exact h2
    | rcb p =>
      simp only [ctlStep]
      split
      · exact hsub (pop_suffix _)
      · split
        · exact hsub ((pop_suffix _).trans (pop_suffix _))
        · split
          · exact hsub (pop_suffix _)
          · exact h2
    | rb p =>
      simp only [ctlStep]
      split
      · exact hsub (pop_suffix _)
      · split
        · exact hsub ((pop_suffix _).trans (pop_suffix _))
        · split
          · exact hsub (pop_suffix _)
          · exact h2

/-! ### A document in chunks -/

/-- Every piece but the first starts at a string. -/
def CutsAtStrings (pre : Str) (v : J) (ps : List Str) : Prop :=
  ∀ xs ys, ps = xs ++ ys → xs ≠ [] → ys ≠ [] → ∃ r, (xs.flatten.length, r) ∈ v.strings pre.length

/-- The control before a document. -/
def Ctl.init : Ctl := ⟨(1, 0), [], [], []⟩

theorem Is.init : SA.init.Is Ctl.init := ⟨rfl, rfl, rfl⟩

/-- All parts of a document with their offsets, and the document itself. -/
def allSpans (pre : Str) (v : J) : List (Loc × J × Nat) := ([], v, pre.length) :: v.spans [] pre.length

section
variable {pre trail : Str} {v : J} {ps : List Str}

theorem doc_pieceToks (h : DocOK pre trail v) (hps : ps.flatten = pre ++ v.render ++ trail) (hne : [] ∉ ps)
    (hcut : CutsAtStrings pre v ps) :
    lexAll (pre ++ v.render ++ trail) = toks id pre.length v ∧ pieceToks 0 ps = toks id pre.length v ∧
    NoAdj false (lexAll (pre ++ v.render ++ trail)) := by
  have hlex := lexAll_doc pre trail v id h.preWs h.trailWs h.container h.wf h.tight
  have hadj := noadj_value v id pre.length
  have hcl := cleanCut_doc pre trail v h.preWs h.wf h.tight
  refine ⟨hlex, ?_, by rw [hlex]; exact hadj⟩
  rw [← hlex] at hadj ⊢
  rw [← hps] at hadj hcl ⊢
  refine (lexAll_pieces ps hne hadj ?_).symm
  intro xs ys e hx hy
  obtain ⟨r, hr⟩ := hcut xs ys e hx hy
  exact hcl _ hr

/-- The tokens of the pieces before a cut are those of the text before it. -/
theorem doc_cut (h : DocOK pre trail v) (hps : ps.flatten = pre ++ v.render ++ trail) (hne : [] ∉ ps)
    (hcut : CutsAtStrings pre v ps) {xs ys : List Str} (e : ps = xs ++ ys) (hx : xs ≠ []) (hy : ys ≠ []) :
    CleanCut (pre ++ v.render ++ trail) xs.flatten.length ∧
    lexAll ((pre ++ v.render ++ trail).take xs.flatten.length) = pieceToks 0 xs ∧
    (lexAll ((pre ++ v.render ++ trail).drop xs.flatten.length)).map (Tok.shift xs.flatten.length) =
      pieceToks xs.flatten.length ys ∧ xs.flatten.length < pre.length + v.render.length := by
  obtain ⟨h1, h2, hadj⟩ := doc_pieceToks h hps hne hcut
  have hcl := cleanCut_doc pre trail v h.preWs h.wf h.tight
  obtain ⟨r, hr⟩ := hcut xs ys e hx hy
  have hc := hcl _ hr
  have hlt : xs.flatten.length < pre.length + v.render.length := by
    rcases Nat.lt_or_ge xs.flatten.length (pre.length + v.render.length) with h' | h'
    · exact h'
    · have hq := hc.1
      simp only at hq
      rw [List.getElem?_append_right (by simpa using h')] at hq
      exact absurd hq (ws_noquote h.trailWs _)
  have ht : (pre ++ v.render ++ trail).take xs.flatten.length = xs.flatten := by
    rw [← hps, e]; simp
  have hpre : lexAll ((pre ++ v.render ++ trail).take xs.flatten.length) = pieceToks 0 xs := by
    have hcut1 := lexAll_cut hc hadj
    simp only at hcut1
    rw [ht] at hcut1 ⊢
    have hadj1 : NoAdj false (lexAll xs.flatten) := by rw [hcut1] at hadj; exact hadj.left
    refine lexAll_pieces xs (fun hm => hne (by rw [e]; simp [hm])) hadj1 ?_
    intro x1 x2 ex hx1 hx2
    obtain ⟨r', hr'⟩ := hcut x1 (x2 ++ ys) (by rw [e, ex, List.append_assoc]) hx1 (by simp [hx2])
    have hc' := hcl _ hr'
    have hlen : x1.flatten.length < xs.flatten.length := by
      have : x2.flatten ≠ [] := by
        obtain ⟨z, x2, rfl⟩ := List.exists_cons_of_ne_nil hx2
        intro hz
        rw [List.flatten_cons] at hz
        have hz := (List.append_eq_nil_iff.1 hz).1
        subst hz
        exact hne (by rw [e, ex]; simp)
      have := List.length_pos_iff.2 this
      rw [ex, List.flatten_append, List.length_append]; omega
    have := hc'.take hlen hc.1 hadj
    simp only at this
    rwa [ht] at this
  refine ⟨hc, hpre, ?_, hlt⟩
  have hcut1 := lexAll_cut hc hadj
  simp only at hcut1
  rw [hpre, h1, ← h2, e, pieceToks_append, Nat.zero_add] at hcut1
  exact (List.append_cancel_left hcut1).symm

/-- The mode at a cut the partition makes. -/
theorem doc_mode (h : DocOK pre trail v) (hps : ps.flatten = pre ++ v.render ++ trail) (hne : [] ∉ ps)
    (hcut : CutsAtStrings pre v ps) {xs ys : List Str} (e : ps = xs ++ ys) (hx : xs ≠ []) (hy : ys ≠ [])
    {u w : Str} {c : Char} (hb : ((pre ++ v.render ++ trail).take xs.flatten.length).reverse = w ++ c :: u)
    (hw : w.all isSkip = true) (hcc : c = ',' ∨ c = '{' ∨ c = '[') :
    modeAfter .val (pieceToks 0 xs) = .fst ∨ modeAfter .val (pieceToks 0 xs) = .com := by
  obtain ⟨h1, h2, hadj⟩ := doc_pieceToks h hps hne hcut
  obtain ⟨c1, c2, c3, c4⟩ := doc_cut h hps hne hcut e hx hy
  obtain ⟨k1, k2⟩ := cut_notKey c1 hadj hb hw hcc
  rw [c2] at k1 k2
  have hfit := (fits_value v id pre.length [] .val (.inl rfl) (.inl rfl) (fun hc => by rw [h.container] at hc; cases hc)
    (by simpa using h.depth)).1
  rw [← h2, e, pieceToks_append, Nat.zero_add, fitsAll_append] at hfit
  have hfit := hfit.2
  rw [← c3] at hfit
  obtain ⟨x, t, hxt⟩ : ∃ x t, pieceToks 0 xs = x ++ [t] := ⟨_, _, (List.dropLast_concat_getLast k1).symm⟩
  have hnv : modeAfter .val (pieceToks 0 xs) ≠ .val := by
    rw [hxt]
    have : modeAfter .val (x ++ [t]) = t.mode := by rw [modeAfter_append]; rfl
    rw [this]
    cases t with
    | ky key => exact absurd hxt (k2 x key)
    | _ => simp [Tok.mode]
  rcases lexAll_quote (s := (pre ++ v.render ++ trail).drop xs.flatten.length) (by rw [List.head?_drop]; exact c1.1) with hz | ⟨key, ts, hz⟩ | ⟨y, ts, hz⟩
  · exfalso
    rw [hz, List.map_nil] at c3
    have hall : pieceToks 0 xs = toks id pre.length v := by
      rw [← h2, e, pieceToks_append, Nat.zero_add, ← c3, List.append_nil]
    have hm : closeTok v pre.length ∈ pieceToks 0 xs := by
      rw [hall]
      have hcn := h.container
      cases v with
      | lit _ => cases hcn
      | str _ => cases hcn
      | arr w es => rw [toks]; exact List.mem_append_right _ (List.mem_singleton.2 rfl)
      | obj w es => rw [toks]; exact List.mem_append_right _ (List.mem_singleton.2 rfl)
    have := pieceToks_pos xs 0 hm (closeTok_bracket v pre.length)
    omega
  · rw [hz] at hfit
    exact hfit.1.2.1
  · rw [hz] at hfit
    rcases hfit.1.1 with hv | hv
    · exact absurd hv hnv
    · exact hv.2

/-- The tokens after a cut. -/
theorem doc_rest (h : DocOK pre trail v) (hps : ps.flatten = pre ++ v.render ++ trail) (hne : [] ∉ ps)
    (hcut : CutsAtStrings pre v ps) {xs ys : List Str} (e : ps = xs ++ ys) (hx : xs ≠ []) (hy : ys ≠ []) :
    pieceToks xs.flatten.length ys ≠ [] := by
  obtain ⟨h1, h2, hadj⟩ := doc_pieceToks h hps hne hcut
  obtain ⟨c1, c2, c3, c4⟩ := doc_cut h hps hne hcut e hx hy
  intro hz
  have hall : pieceToks 0 xs = toks id pre.length v := by
    rw [← h2, e, pieceToks_append, Nat.zero_add, hz, List.append_nil]
  have hm : closeTok v pre.length ∈ pieceToks 0 xs := by
    rw [hall]
    have hcn := h.container
    cases v with
    | lit _ => cases hcn
    | str _ => cases hcn
    | arr w es => rw [toks]; exact List.mem_append_right _ (List.mem_singleton.2 rfl)
    | obj w es => rw [toks]; exact List.mem_append_right _ (List.mem_singleton.2 rfl)
  have := pieceToks_pos xs 0 hm (closeTok_bracket v pre.length)
  omega

/-- The state at a cut, if no container that is to be reported lies across it. -/
theorem doc_state (d : QDfa) (h : DocOK pre trail v) (hps : ps.flatten = pre ++ v.render ++ trail) (hne : [] ∉ ps)
    (hcut : CutsAtStrings pre v ps) {xs ys : List Str} (e : ps = xs ++ ys) (hx : xs ≠ []) (hy : ys ≠ [])
    (hopen : ∀ y ∈ allSpans pre v, y.2.1.isContainer = true → across y xs.flatten.length →
      d.matchedType (locState d 1 0 y.1).1 (locState d 1 0 y.1).2 ≠ .output) :
    (∀ q ∈ (ctlRun d Ctl.init (pieceToks 0 xs)).q, d.matchedType q.1 q.2 ≠ .output) ∧
    (top (ctlRun d Ctl.init (pieceToks 0 xs)).ss = some .lcb →
      d.matchedType (ctlRun d Ctl.init (pieceToks 0 xs)).e.1 (ctlRun d Ctl.init (pieceToks 0 xs)).e.2 ≠ .output) := by
  obtain ⟨h1, h2, hadj⟩ := doc_pieceToks h hps hne hcut
  have hspl : toks id pre.length v = pieceToks 0 xs ++ pieceToks xs.flatten.length ys := by
    rw [← h2, e, pieceToks_append, Nat.zero_add]
  obtain ⟨m1, m2⟩ := split_value d (locState d 1 0) (tracked_locState d 1 0)
    (fun q => d.matchedType q.1 q.2 ≠ .output) (fun _ _ => True) v id pre.length [] Ctl.init
    (pieceToks 0 xs) (pieceToks xs.flatten.length ys) (.inl rfl) rfl (fun _ _ _ _ => trivial)
    (by simpa [Ctl.init] using h.depth) (by simpa [Ctl.init] using h.depth) (by simpa [Ctl.init] using h.depth) hspl
    (by
      intro y hy' hc ho hcl
      have p1 := pieceToks_pos xs 0 ho (openTok_bracket _ _)
      have p2 := pieceToks_pos ys _ hcl (closeTok_bracket _ _)
      exact hopen y hy' hc ⟨by omega, by omega⟩)
    (fun _ _ _ _ _ _ _ _ _ _ _ => trivial)
  refine ⟨fun q hq => ?_, fun ht => ?_⟩
  · rcases m1.q q hq with hq | hq
    · cases hq
    · exact hq
  · rcases m2 ht with hq | hq
    · exact hq
    · exact absurd hq (doc_rest h hps hne hcut e hx hy)

/-- No entry of the stacks at a cut has a slice, if no array whose elements are chosen by a slice lies across the cut. -/
theorem doc_idx (d : QDfa) (h : DocOK pre trail v) (hps : ps.flatten = pre ++ v.render ++ trail) (hne : [] ∉ ps)
    (hcut : CutsAtStrings pre v ps) {xs ys : List Str} (e : ps = xs ++ ys) (hx : xs ≠ []) (hy : ys ≠ [])
    (hmode : modeAfter .val (pieceToks 0 xs) = .fst ∨ modeAfter .val (pieceToks 0 xs) = .com)
    (hopen : ∀ y ∈ allSpans pre v, y.2.1.isContainer = true → across y xs.flatten.length → NoIdx d (locState d 1 0 y.1).1)
    (hscl : ∀ y ∈ allSpans pre v, ∀ w es, y.2.1 = .arr w es → across y xs.flatten.length →
      ∀ j x, es.values[j]? = some x → x.isContainer = false → NoIdx d (locState d 1 0 (y.1 ++ [.elem j])).1) :
    (∀ q ∈ (ctlRun d Ctl.init (pieceToks 0 xs)).q, NoIdx d q.1) ∧ NoIdx d (ctlRun d Ctl.init (pieceToks 0 xs)).e.1 := by
  obtain ⟨h1, h2, hadj⟩ := doc_pieceToks h hps hne hcut
  obtain ⟨c1, c2, c3, c4⟩ := doc_cut h hps hne hcut e hx hy
  have hrest := doc_rest h hps hne hcut e hx hy
  have hspl : toks id pre.length v = pieceToks 0 xs ++ pieceToks xs.flatten.length ys := by
    rw [← h2, e, pieceToks_append, Nat.zero_add]
  have hacr : ∀ y : Loc × J × Nat, openTok y.2.1 y.2.2 ∈ pieceToks 0 xs → closeTok y.2.1 y.2.2 ∈ pieceToks xs.flatten.length ys →
      across y xs.flatten.length := by
    intro y ho hcl
    have p1 := pieceToks_pos xs 0 ho (openTok_bracket _ _)
    have p2 := pieceToks_pos ys _ hcl (closeTok_bracket _ _)
    exact ⟨by omega, by omega⟩
  obtain ⟨m1, m2⟩ := split_value d (locState d 1 0) (tracked_locState d 1 0)
    (fun q => NoIdx d q.1) (fun q _ => NoIdx d q.1) v id pre.length [] Ctl.init
    (pieceToks 0 xs) (pieceToks xs.flatten.length ys) (.inl rfl) rfl
    (fun hz => by obtain ⟨_, hz⟩ := hz; simp [Ctl.init] at hz)
    (by simpa [Ctl.init] using h.depth) (by simpa [Ctl.init] using h.depth) (by simpa [Ctl.init] using h.depth) hspl
    (fun y hy' hc ho hcl => hopen y hy' hc (hacr y ho hcl))
    (fun y hy' w es hc ho hcl j x hj hx => hscl y hy' w es hc (hacr y ho hcl) j x hj hx)
  refine ⟨fun q hq => (m1.q q hq).resolve_left (by simp [Ctl.init]), ?_⟩
  have hfit := (fits_value v id pre.length [] .val (.inl rfl) (.inl rfl) (fun hc => by rw [h.container] at hc; cases hc)
    (by simpa using h.depth)).1
  rw [hspl, fitsAll_append] at hfit
  have hfit := hfit.2
  have hss : (ctlRun d Ctl.init (pieceToks 0 xs)).ss = (pieceToks 0 xs).foldl ssStep [] := by rw [ctlRun_ss]; rfl
  rw [← hss] at hfit
  rcases lexAll_quote (s := (pre ++ v.render ++ trail).drop xs.flatten.length) (by rw [List.head?_drop]; exact c1.1) with hz | ⟨key, ts, hz⟩ | ⟨y, ts, hz⟩
  · rw [hz, List.map_nil] at c3
    exact absurd c3.symm hrest
  · rw [← c3, hz] at hfit
    exact (m2 hfit.1.1).resolve_right hrest
  · rw [hz] at c3
    rw [← c3] at hfit
    have htop : top (ctlRun d Ctl.init (pieceToks 0 xs)).ss = some .lb := by
      rcases hfit.1.1 with hv | hv
      · rcases hmode with h5 | h5 <;> (rw [hv] at h5; cases h5)
      · exact hv.1
    obtain ⟨g1, _⟩ := ctlRun_g d (pieceToks 0 xs) xs.flatten.length Ctl.init rfl (by simp [Ctl.init])
      (fun t ht p hp => by have := pieceToks_pos xs 0 ht hp; omega)
    obtain ⟨b, hb⟩ : ∃ b, (ctlRun d Ctl.init (pieceToks 0 xs)).g.head? = some b := by
      cases hg : (ctlRun d Ctl.init (pieceToks 0 xs)).g with
      | nil =>
        rw [hg] at g1
        rw [List.length_eq_zero_iff.1 g1] at htop
        cases htop
      | cons b g => exact ⟨b, rfl⟩
    exact m1.pri y _ c3.symm htop b hb

/-- No stretch of the run loses the text of a scalar, if no scalar that is to be reported is an element of an array that lies
across the cut at the start of the chunk. -/
theorem doc_noClob (d : QDfa) (h : DocOK pre trail v) (hps : ps.flatten = pre ++ v.render ++ trail) (hne : [] ∉ ps)
    (hcut : CutsAtStrings pre v ps) {xs cs : List Str} {c : Str} (e : ps = xs ++ c :: cs) {a : SA}
    (ha : a.Is (ctlRun d Ctl.init (pieceToks 0 xs))) (hky : top a.ss ≠ some .ky)
    (hw : wfStack a.ss) (hm : modeOK a.ss (modeAfter .val (pieceToks 0 xs)))
    (hfit : fitsAll a.ss (modeAfter .val (pieceToks 0 xs)) (lexAll c))
    (hscl : xs ≠ [] → ∀ y ∈ allSpans pre v, ∀ w es, y.2.1 = .arr w es → across y xs.flatten.length →
      ∀ j x, es.values[j]? = some x → x.isContainer = false →
      d.matchedType (locState d 1 0 (y.1 ++ [.elem j])).1 (locState d 1 0 (y.1 ++ [.elem j])).2 ≠ .output ∧
      d.matchedType (locState d 1 0 (y.1 ++ [.elem j])).1 (locState d 1 0 (y.1 ++ [.elem j])).2 ≠ .condition) :
    noClob d c a.ss.length { a with tl := [] } (lexAll c) := by
  obtain ⟨h1, h2, hadj⟩ := doc_pieceToks h hps hne hcut
  obtain ⟨g1, g2⟩ := ctlRun_g d (pieceToks 0 xs) xs.flatten.length Ctl.init rfl (by simp [Ctl.init])
    (fun t ht p hp => by have := pieceToks_pos xs 0 ht hp; omega)
  have ha' : ({ a with tl := [] } : SA).Is (ctlRun d Ctl.init (pieceToks 0 xs)) := ⟨ha.e, ha.ss, ha.q⟩
  refine noClob_of (k := xs.flatten.length) (lexAll c) (g0 := (ctlRun d Ctl.init (pieceToks 0 xs)).g) ha' hfit hw hm g1
    ⟨_, List.suffix_refl _, List.suffix_refl _, by rw [← g1, ha.ss]⟩ (fun hk => absurd hk hky) ?_
  intro u1 x u2 hu htop b hb hhead
  have hx : xs ≠ [] := by
    rintro rfl
    simp [pieceToks, ctlRun, Ctl.init] at hb
  have hb' := g2 b hb
  have hspl : toks id pre.length v = (pieceToks 0 xs ++ u1.map (Tok.shift xs.flatten.length)) ++
      (.pri x :: (u2.map (Tok.shift xs.flatten.length) ++ pieceToks (xs.flatten.length + c.length) cs)) := by
    rw [← h2, e, pieceToks_append, Nat.zero_add, pieceToks, hu]
    simp [Tok.shift]
  rw [← ctlRun_append] at htop hhead ⊢
  have key := split_value d (locState d 1 0) (tracked_locState d 1 0) (fun _ => True)
    (fun q b => b ≤ xs.flatten.length → d.matchedType q.1 q.2 ≠ .output ∧ d.matchedType q.1 q.2 ≠ .condition)
    v id pre.length [] Ctl.init _ _ (.inl rfl) rfl
    (fun hz => by obtain ⟨_, hz⟩ := hz; simp [Ctl.init] at hz)
    (by simpa [Ctl.init] using h.depth) (by simpa [Ctl.init] using h.depth) (by simpa [Ctl.init] using h.depth) hspl
    (fun _ _ _ _ _ => trivial)
    (by
      intro y hy' w es hc ho hcl j z hj hz hle
      have p2 : xs.flatten.length < y.2.2 + y.2.1.render.length := by
        have hmem : closeTok y.2.1 y.2.2 ∈ pieceToks xs.flatten.length (c :: cs) := by
          rw [pieceToks, hu]
          rcases List.mem_cons.1 hcl with hcl | hcl
          · rw [hc] at hcl; cases hcl
          · rcases List.mem_append.1 hcl with hcl | hcl
            · refine List.mem_append_left _ ?_
              rw [List.map_append, List.map_cons]
              exact List.mem_append_right _ (List.mem_cons_of_mem _ hcl)
            · exact List.mem_append_right _ hcl
        exact (pieceToks_pos _ _ hmem (closeTok_bracket _ _)).1
      exact hscl hx y hy' w es hc ⟨by omega, p2⟩ j z hj hz)
  exact key.1.pri x _ rfl htop b hhead hb'

theorem fits_wf : ∀ (ts : List Tok) {ss : List Sym} {m : Mode}, wfStack ss → modeOK ss m → fitsAll ss m ts →
    wfStack (ts.foldl ssStep ss) ∧ modeOK (ts.foldl ssStep ss) (modeAfter m ts)
  | [], _, _, hw, hm, _ => ⟨hw, hm⟩
  | _ :: ts, _, _, hw, hm, hf => by
    obtain ⟨w1, w2⟩ := wf_step hw hm hf.1
    exact fits_wf ts w1 w2 hf.2

theorem fitsAll_shift (k : Nat) : ∀ (ts : List Tok) (ss : List Sym) (m : Mode),
    fitsAll ss m (ts.map (Tok.shift k)) ↔ fitsAll ss m ts
  | [], _, _ => Iff.rfl
  | t :: ts, ss, m => by
    rw [List.map_cons]
    simp only [fitsAll, ssStep_shift]
    have h1 : fits ss m (t.shift k) ↔ fits ss m t := by cases t <;> exact Iff.rfl
    have h2 : (t.shift k).mode = t.mode := by cases t <;> rfl
    rw [h1, h2, fitsAll_shift k ts]

theorem modeAfter_shift (k : Nat) : ∀ (ts : List Tok) (m : Mode), modeAfter m (ts.map (Tok.shift k)) = modeAfter m ts
  | [], _ => rfl
  | t :: ts, m => by
    have h2 : (t.shift k).mode = t.mode := by cases t <;> rfl
    show modeAfter (t.shift k).mode (ts.map (Tok.shift k)) = modeAfter t.mode ts
    rw [h2, modeAfter_shift k ts]

/-- What is asked of the cuts of a document for a parallel run: the cut is one the partition makes, no container that is to be
reported lies across it, no scalar that is to be reported is an element of an array that lies across it, and the elements of no
array that lies across it are counted for a slice. -/
structure CutsOK (d : QDfa) (pre trail : Str) (v : J) (k : Nat) : Prop where
  before : ∃ u w c, ((pre ++ v.render ++ trail).take k).reverse = w ++ c :: u ∧ w.all isSkip = true ∧ (c = ',' ∨ c = '{' ∨ c = '[')
  opn : ∀ y ∈ allSpans pre v, y.2.1.isContainer = true → across y k →
      d.matchedType (locState d 1 0 y.1).1 (locState d 1 0 y.1).2 ≠ .output
  scl : ∀ y ∈ allSpans pre v, ∀ w es, y.2.1 = .arr w es → across y k →
      ∀ j x, es.values[j]? = some x → x.isContainer = false →
      d.matchedType (locState d 1 0 (y.1 ++ [.elem j])).1 (locState d 1 0 (y.1 ++ [.elem j])).2 ≠ .output ∧
      d.matchedType (locState d 1 0 (y.1 ++ [.elem j])).1 (locState d 1 0 (y.1 ++ [.elem j])).2 ≠ .condition
  idxC : ∀ y ∈ allSpans pre v, y.2.1.isContainer = true → across y k → NoIdx d (locState d 1 0 y.1).1
  idxE : ∀ y ∈ allSpans pre v, ∀ w es, y.2.1 = .arr w es → across y k →
      ∀ j x, es.values[j]? = some x → x.isContainer = false → NoIdx d (locState d 1 0 (y.1 ++ [.elem j])).1

/-- The chunks of a document meet the assumptions of the parallel run. -/
theorem doc_chunksOK (d : QDfa) (h : DocOK pre trail v) (hps : ps.flatten = pre ++ v.render ++ trail)
    (hne : [] ∉ ps) (hcut : CutsAtStrings pre v ps)
    (hok : ∀ xs ys, ps = xs ++ ys → xs ≠ [] → ys ≠ [] → CutsOK d pre trail v xs.flatten.length) :
    ∀ (cs xs : List Str) (a : SA), ps = xs ++ cs → a.Is (ctlRun d Ctl.init (pieceToks 0 xs)) →
      ChunksOK d a (modeAfter .val (pieceToks 0 xs)) cs
  | [], _, _, _, _ => trivial
  | c :: cs, xs, a, e, ha => by
    obtain ⟨h1, h2, hadj⟩ := doc_pieceToks h hps hne hcut
    have hfit := (fits_value v id pre.length [] .val (.inl rfl) (.inl rfl) (fun hc => by rw [h.container] at hc; cases hc)
      (by simpa using h.depth)).1
    have hend := (ok_value v id pre.length [] (.inl rfl) (by simpa using h.depth)).2
    rw [← h2, e, pieceToks_append, Nat.zero_add, fitsAll_append, pieceToks, fitsAll_append, fitsAll_shift, modeAfter_shift,
      ssRun_shift] at hfit
    obtain ⟨f1, f2, f3⟩ := hfit
    have hass : a.ss = (pieceToks 0 xs).foldl ssStep [] := by rw [← ha.ss, ctlRun_ss]; rfl
    obtain ⟨w1, w2⟩ := fits_wf (pieceToks 0 xs) (ss := []) (m := .val) trivial ⟨fun _ => .inl rfl, fun hz => by simp [top] at hz⟩ f1
    have hxc : pieceToks 0 (xs ++ [c]) = pieceToks 0 xs ++ (lexAll c).map (Tok.shift xs.flatten.length) := by
      rw [pieceToks_append]; simp [pieceToks]
    have hmc : modeAfter .val (pieceToks 0 (xs ++ [c])) = modeAfter (modeAfter .val (pieceToks 0 xs)) (lexAll c) := by
      rw [hxc, modeAfter_append, modeAfter_shift]
    have hcm : ∀ xs' ys', ps = xs' ++ ys' → xs' ≠ [] → ys' ≠ [] →
        modeAfter .val (pieceToks 0 xs') = .fst ∨ modeAfter .val (pieceToks 0 xs') = .com := by
      intro xs' ys' e' hx' hy'
      obtain ⟨u, w, b, b1, b2, b3⟩ := (hok xs' ys' e' hx' hy').before
      exact doc_mode h hps hne hcut e' hx' hy' b1 b2 b3
    have hky : top a.ss ≠ some .ky := by
      by_cases hx : xs = []
      · subst hx; rw [hass]; simp [pieceToks, top]
      · intro hk
        rw [hass] at hk
        have := w2.2 hk
        rcases hcm xs (c :: cs) e hx (by simp) with h5 | h5 <;> (rw [this] at h5; cases h5)
    rw [← hass] at f2 w1 w2
    have ha' : ({ a with tl := [] } : SA).Is (ctlRun d Ctl.init (pieceToks 0 xs)) := ⟨ha.e, ha.ss, ha.q⟩
    have hb := ha'.exec (d := d) (s := c) xs.flatten.length
    rw [← ctlRun_append, ← hxc] at hb
    refine ⟨f2, ?_, ?_, ?_, ?_⟩
    · exact doc_noClob d h hps hne hcut e ha hky w1 w2 f2 (fun hx => (hok xs (c :: cs) e hx (by simp)).scl)
    · by_cases hcs : cs = []
      · left
        subst hcs
        rw [← h2, e, hxc, List.foldl_append, ssRun_shift, ← hass] at hend
        rw [hend]; rfl
      · right
        rw [← hmc]
        exact hcm (xs ++ [c]) cs (by rw [e]; simp) (by simp) hcs
    · intro hcs
      have e' : ps = (xs ++ [c]) ++ cs := by rw [e]; simp
      have hst := doc_state d h hps hne hcut e' (by simp) hcs (hok _ _ e' (by simp) hcs).opn
      obtain ⟨i1, i2⟩ := doc_idx d h hps hne hcut e' (by simp) hcs (hcm _ _ e' (by simp) hcs) (hok _ _ e' (by simp) hcs).idxC
        (hok _ _ e' (by simp) hcs).idxE
      rw [hb.e] at i2
      have i1 : ∀ x ∈ (execAutomaton d c { a with tl := [] }).qs, NoIdx d x.key.1 :=
        fun x hx => i1 x.key (by rw [hb.q]; exact List.mem_map.2 ⟨x, hx, rfl⟩)
      refine ⟨by rw [← hmc]; exact hcm _ _ e' (by simp) hcs, i2, fun x hx => ⟨i1 x hx, ?_⟩, fun ht => ?_⟩
      · have := hst.1 x.key (by rw [hb.q]; exact List.mem_map.2 ⟨x, hx, rfl⟩)
        rwa [(i1 x hx).matchedType] at this
      · have := hst.2 (by rw [hb.ss]; exact ht)
        rw [hb.e, i2.matchedType] at this
        exact this
    · rw [← hmc]
      exact doc_chunksOK d h hps hne hcut hok cs (xs ++ [c]) _ (by rw [e]; simp) hb

/-- No container that is to be reported is open at a cut. -/
theorem doc_cleanCuts (d : QDfa) (h : DocOK pre trail v) (hb : pre.head? ≠ some ' ') (hps : ps.flatten = pre ++ v.render ++ trail)
    (hne : [] ∉ ps) (hcut : CutsAtStrings pre v ps)
    (hok : ∀ xs ys, ps = xs ++ ys → xs ≠ [] → ys ≠ [] → ∀ y ∈ allSpans pre v, y.2.1.isContainer = true →
      across y xs.flatten.length → d.matchedType (locState d 1 0 y.1).1 (locState d 1 0 y.1).2 ≠ .output) :
    ∀ (cs xs : List Str) (a : SA), ps = xs ++ cs → a.Is (ctlRun d Ctl.init (pieceToks 0 xs)) →
      CleanCuts d (pre ++ v.render ++ trail) xs.flatten.length a cs
  | [], _, _, _, _ => trivial
  | c :: cs, xs, a, e, ha => by
    have hc0 : c ≠ [] := by rintro rfl; exact hne (by rw [e]; simp)
    have hps' := hps
    rw [e, List.flatten_append, List.flatten_cons] at hps'
    have hxc : pieceToks 0 (xs ++ [c]) = pieceToks 0 xs ++ (lexAll c).map (Tok.shift xs.flatten.length) := by
      rw [pieceToks_append]; simp [pieceToks]
    refine ⟨?_, ?_, ?_⟩
    · have hhd : c.head? = (pre ++ v.render ++ trail)[xs.flatten.length]? := by
        rw [← hps']
        obtain ⟨z, c, rfl⟩ := List.exists_cons_of_ne_nil hc0
        simp
      have hnb : c.head? ≠ some ' ' := by
        rw [hhd]
        by_cases hx : xs = []
        · subst hx
          simp only [List.flatten_nil, List.length_nil]
          cases pre with
          | nil =>
            have hcn := h.container
            cases v <;> simp [J.isContainer, J.render] at hcn ⊢
          | cons z pre => simpa using hb
        · have := (doc_cut h hps hne hcut e hx (by simp)).1.1
          rw [this]; decide
      cases c with
      | nil => exact absurd rfl hc0
      | cons z c =>
        simp only [List.head?_cons, ne_eq, Option.some.injEq] at hnb
        simp [lead, hnb]
    · by_cases hx : xs = []
      · subst hx
        refine ⟨fun x hx => ?_, fun ht => ?_⟩
        · have := ha.q
          simp only [pieceToks, ctlRun, List.foldl_nil, Ctl.init] at this
          rw [List.map_eq_nil_iff.1 this.symm] at hx; cases hx
        · have := ha.ss
          simp only [pieceToks, ctlRun, List.foldl_nil, Ctl.init] at this
          rw [← this] at ht; cases ht
      · have hst := doc_state d h hps hne hcut e hx (by simp) (hok _ _ e hx (by simp))
        refine ⟨fun x hx => ?_, fun ht => ?_⟩
        · exact hst.1 x.key (by rw [ha.q]; exact List.mem_map.2 ⟨x, hx, rfl⟩)
        · have := hst.2 (by rw [ha.ss]; exact ht)
          rw [ha.e] at this
          exact this
    · have := doc_cleanCuts d h hb hps hne hcut hok cs (xs ++ [c])
        (runToks d (pre ++ v.render ++ trail) a ((lexAll c).map (Tok.shift xs.flatten.length))) (by rw [e]; simp) (by
          rw [hxc, ctlRun_append]
          have hid : ∀ l : List Tok, l.map (Tok.shift 0) = l := by
            intro l
            induction l with
            | nil => rfl
            | cons t l ih => rw [List.map_cons, ih]; cases t <;> rfl
          have := SA.Is.run (d := d) (s := pre ++ v.render ++ trail) (k := 0) ((lexAll c).map (Tok.shift xs.flatten.length)) ha
          rwa [hid] at this)
      simpa using this

end

end JPS
