import Verif.LexerDoc
import Verif.Seen
import Verif.Spec.Tokens
/-!
# The tokens read from a document and the tokens of the specification
-/
set_option autoImplicit false

namespace JPS
open Spec

/-- A token read from the text is the given token of the specification; `R` says how a scalar
is reported. -/
def TokIs (R : J → Str → Prop) : T → Tok → Prop
  | .lcb, .lcb _ => True
  | .rcb, .rcb _ => True
  | .lb, .lb _ => True
  | .rb, .rb _ => True
  | .com, .com => True
  | .key k, .ky k' => k' = k
  | .scalar v, .pri t => R v t
  | _, _ => False

theorem all2_single {α β : Type} {R : α → β → Prop} {a : α} {b : β} (h : R a b) :
    All2 R [a] [b] := .cons h .nil

/-- What has to hold of scalars in an element or member context. -/
theorem toks_scalar (R : J → Str → Prop) (obs : Str → Str) (off : Nat) (v : J)
    (hv : v.isContainer = false) (h : R v (otext obs v)) :
    All2 (TokIs R) v.tokens (toks obs off v) := by
  cases v with
  | lit t => exact all2_single h
  | str r => exact all2_single h
  | arr w es => cases hv
  | obj w ms => cases hv

mutual
theorem toks_shows (obs : Str → Str) (off : Nat) : ∀ v : J, v.wf = true → Shows v (otext obs v) →
    All2 (TokIs Shows) v.tokens (toks obs off v)
  | .lit t, _, h => all2_single h
  | .str r, _, h => all2_single h
  | .arr w es, h, _ => by
    simp only [J.wf, Bool.and_eq_true] at h
    exact .cons (by trivial) ((toksE_shows _ es h.2).append (all2_single (by trivial)))
  | .obj w ms, h, _ => by
    simp only [J.wf, Bool.and_eq_true] at h
    exact .cons (by trivial) ((toksM_shows _ ms h.2).append (all2_single (by trivial)))
theorem toksE_shows (off : Nat) : ∀ es : Elems, es.wf = true →
    All2 (TokIs Shows) es.tokens (toksE off es)
  | .nil, _ => .nil
  | .cons pre v post rest, h => by
    simp only [Elems.wf, Bool.and_eq_true] at h
    obtain ⟨⟨⟨_, hv⟩, hpost⟩, hrest⟩ := h
    refine (toks_shows _ _ v hv (otext_shows _ _ _ hpost v)).append ?_
    have ih := fun o => toksE_shows o rest hrest
    cases rest with
    | nil => exact .nil
    | cons => exact .cons (by trivial) (ih _)
theorem toksM_shows (off : Nat) : ∀ ms : Members, ms.wf = true →
    All2 (TokIs Shows) ms.tokens (toksM off ms)
  | .nil, _ => .nil
  | .cons pre k mid pre2 v post rest, h => by
    simp only [Members.wf, Bool.and_eq_true] at h
    obtain ⟨⟨⟨_, hv⟩, hpost⟩, hrest⟩ := h
    refine .cons rfl ((toks_shows _ _ v hv (otext_shows _ _ _ hpost v)).append ?_)
    have ih := fun o => toksM_shows o rest hrest
    cases rest with
    | nil => exact .nil
    | cons => exact .cons (by trivial) (ih _)
end

/-- Scalars keep their text. -/
def Exact (v : J) (t : Str) : Prop := t = v.render

theorem otext_tidyE {v : J} {post : Str} {c : Char} (h : tidyPost v post = true) :
    otext (litObs false post c) v = v.render := by
  cases v with
  | lit t =>
    simp only [tidyPost, Bool.and_eq_true, Bool.or_eq_true, bne_iff_ne, ne_eq, beq_iff_eq,
      List.isEmpty_iff] at h
    exact litObs_exact h.1 (by rcases h.2 with (h | h) | h <;> simp [h]) (Or.inl rfl)
  | str r => rfl
  | arr w es => rfl
  | obj w ms => rfl

theorem otext_tidyM {v : J} {pre2 post : Str} {rest : Members} (h : tidyPost v post = true)
    (h2 : tidyPre pre2 v post rest = true) :
    otext (litObs pre2.isEmpty post (nextM rest)) v = v.render := by
  cases v with
  | lit t =>
    simp only [tidyPost, Bool.and_eq_true, Bool.or_eq_true, bne_iff_ne, ne_eq, beq_iff_eq,
      List.isEmpty_iff] at h
    refine litObs_exact h.1 (by rcases h.2 with (h | h) | h <;> simp [h]) ?_
    simp only [tidyPre, Bool.or_eq_true, Bool.not_eq_true', Bool.and_eq_true, List.isEmpty_iff] at h2
    rcases h2 with h2 | ⟨h2, h3⟩
    · exact Or.inl h2
    · right
      refine ⟨h2, ?_⟩
      cases rest with
      | nil => cases h3
      | cons => rfl
  | str r => rfl
  | arr w es => rfl
  | obj w ms => rfl

mutual
theorem toks_exact (obs : Str → Str) (off : Nat) : ∀ v : J, v.tidy = true →
    Exact v (otext obs v) → All2 (TokIs Exact) v.tokens (toks obs off v)
  | .lit t, _, h => all2_single h
  | .str r, _, h => all2_single h
  | .arr w es, h, _ => .cons (by trivial) ((toksE_exact _ es h).append (all2_single (by trivial)))
  | .obj w ms, h, _ => .cons (by trivial) ((toksM_exact _ ms h).append (all2_single (by trivial)))
theorem toksE_exact (off : Nat) : ∀ es : Elems, es.tidy = true →
    All2 (TokIs Exact) es.tokens (toksE off es)
  | .nil, _ => .nil
  | .cons pre v post rest, h => by
    simp only [Elems.tidy, Bool.and_eq_true] at h
    obtain ⟨⟨hp, hv⟩, hrest⟩ := h
    refine (toks_exact _ _ v hv (otext_tidyE hp)).append ?_
    have ih := fun o => toksE_exact o rest hrest
    cases rest with
    | nil => exact .nil
    | cons => exact .cons (by trivial) (ih _)
theorem toksM_exact (off : Nat) : ∀ ms : Members, ms.tidy = true →
    All2 (TokIs Exact) ms.tokens (toksM off ms)
  | .nil, _ => .nil
  | .cons pre k mid pre2 v post rest, h => by
    simp only [Members.tidy, Bool.and_eq_true] at h
    obtain ⟨⟨⟨hp, hp2⟩, hv⟩, hrest⟩ := h
    refine .cons rfl ((toks_exact _ _ v hv (otext_tidyM hp hp2)).append ?_)
    have ih := fun o => toksM_exact o rest hrest
    cases rest with
    | nil => exact .nil
    | cons => exact .cons (by trivial) (ih _)
end

/-- Positions carried by bracket tokens: directly after the bracket. -/
def TokAt (s : Str) : Tok → Prop
  | .lcb p => 0 < p ∧ s[p - 1]? = some '{'
  | .rcb p => 0 < p ∧ s[p - 1]? = some '}'
  | .lb p => 0 < p ∧ s[p - 1]? = some '['
  | .rb p => 0 < p ∧ s[p - 1]? = some ']'
  | _ => True

theorem lexLoop_tokAt (s : Str) (lx : Lexer) : ∀ (rest : Str) (p start tokp st : Nat) (t : Tok),
    s.drop p = rest →
    (lexLoop s lx rest p start tokp st).1.toTok (lexLoop s lx rest p start tokp st).2 = some t →
    TokAt s t := by
  intro rest
  induction rest with
  | nil => intro p start tokp st t _ h; simp [lexLoop, RTok.toTok] at h
  | cons c rest ih =>
    intro p start tokp st t hs
    obtain ⟨hlt, hd⟩ := drop_cons_lt hs
    have hc : s[p]? = some c := by
      have := drop_getElem? hs 0
      simpa using this.symm
    match st with
    | 0 =>
      simp only [lexLoop]
      repeat' split
      all_goals first
        | exact ih _ _ _ _ t hd
        | (intro h; simp only [charFound, RTok.toTok, Option.some.injEq] at h; subst h
           subst_vars; first | trivial | exact ⟨by omega, by simpa using hc⟩)
    | 1 =>
      simp only [lexLoop]
      repeat' split
      all_goals first
        | exact ih _ _ _ _ t hd
        | skip
      intro h
      unfold stringFound at h
      simp only at h
      split at h <;> (simp only [RTok.toTok, Option.some.injEq] at h; subst h; trivial)
    | st + 2 =>
      simp only [lexLoop]
      split
      · intro h
        simp only [primitiveFound, RTok.toTok, Option.some.injEq] at h
        subst h; trivial
      · exact ih _ _ _ _ t hd

theorem lexFrom_tokAt (s : Str) : ∀ (n : Nat) (lx : Lexer), ∀ t ∈ lexFrom s n lx, TokAt s t := by
  intro n
  induction n with
  | zero => intro lx t h; cases h
  | succ n ih =>
    intro lx t h
    simp only [lexFrom] at h
    rcases ht : (nextToken s lx).1.toTok (nextToken s lx).2 with _ | u
    · rw [ht] at h; cases h
    · rw [ht] at h
      simp only [List.mem_cons] at h
      rcases h with rfl | h
      · exact lexLoop_tokAt s lx _ _ _ _ _ _ rfl ht
      · exact ih _ _ h

/-! ### Strings -/

theorem take_backslashes {s body : Str} {off : Nat} (hs : s.drop off = '"' :: body) (i : Nat)
    (hi : i ≤ body.length) : backslashes s (off + 1 + i) = trailing (body.take i) := by
  have hlen : off < s.length := (drop_cons_lt hs).1
  have e : s.take (off + 1 + i) = s.take off ++ '"' :: body.take i := by
    rw [Nat.add_assoc, List.take_add, hs, Nat.add_comm 1 i, List.take_succ_cons]
  unfold backslashes trailing
  rw [e, List.reverse_append, List.reverse_cons]
  generalize (body.take i).reverse = r
  induction r with
  | nil => simp
  | cons c r ih =>
    simp only [List.cons_append, List.takeWhile_cons]
    split
    · simpa using ih
    · rfl

/-- Reading the body of a string. -/
theorem lexLoop_body {s body : Str} {off : Nat} (lx : Lexer) (start tokp : Nat)
    (hs : s.drop off = '"' :: body) : ∀ (rest : Str) (i : Nat), body.drop i = rest →
    (∀ j, i ≤ j → ¬ closing body j) → lexLoop s lx rest (off + 1 + i) start tokp 1 = (.eof, lx) := by
  intro rest
  induction rest with
  | nil => intros; rfl
  | cons c rest ih =>
    intro i hi hn
    obtain ⟨hlt, hd⟩ := drop_cons_lt hi
    have hc : body[i]? = some c := by
      have := drop_getElem? hi 0
      simpa using this.symm
    have hr := ih (i + 1) hd (fun j hj => hn j (by omega))
    simp only [lexLoop]
    by_cases hq : c = '"'
    · rw [if_pos hq]
      have : backslashes s (off + 1 + i) % 2 = 1 := by
        rw [take_backslashes hs i (by omega)]
        have := hn i (Nat.le_refl i)
        unfold closing at this
        rw [hc, hq] at this
        simp at this; omega
      rw [if_pos this]; exact hr
    · rw [if_neg hq]; exact hr

theorem lexLoop_ends {s body : Str} {off : Nat} (lx : Lexer) (start tokp : Nat)
    (hs : s.drop off = '"' :: body) {e : Nat} (he : closing body e) :
    ∀ (rest : Str) (i : Nat), body.drop i = rest → i ≤ e →
    (∀ j, i ≤ j → j < e → ¬ closing body j) →
    lexLoop s lx rest (off + 1 + i) start tokp 1 =
      stringFound s (body.drop (e + 1)) (off + 1 + e) start lx := by
  have hel : e < body.length := by
    rcases Nat.lt_or_ge e body.length with h | h
    · exact h
    · have := he.1; rw [List.getElem?_eq_none h] at this; cases this
  intro rest
  induction rest with
  | nil =>
    intro i hi hie
    have := congrArg List.length hi
    simp at this; omega
  | cons c rest ih =>
    intro i hi hie hn
    obtain ⟨hlt, hd⟩ := drop_cons_lt hi
    have hc : body[i]? = some c := by
      have := drop_getElem? hi 0
      simpa using this.symm
    simp only [lexLoop]
    by_cases hee : i = e
    · subst hee
      have h1 := he.1
      rw [hc] at h1
      have h1 : c = '"' := by simpa using h1
      rw [if_pos h1, take_backslashes hs i (by omega), if_neg (by have := he.2; omega), hd]
    · have hr := ih (i + 1) hd (by omega) (fun j hj => hn j (by omega))
      by_cases hq : c = '"'
      · rw [if_pos hq]
        have : backslashes s (off + 1 + i) % 2 = 1 := by
          rw [take_backslashes hs i (by omega)]
          have := hn i (Nat.le_refl i) (by omega)
          unfold closing at this
          rw [hc, hq] at this
          simp at this; omega
        rw [if_pos this]; exact hr
      · rw [if_neg hq]; exact hr

/-- A raw string text that is well-formed ends where the specification says. -/
theorem rawOk_ends : ∀ (r pre rest : Str) (esc : Bool), rawOk esc r = true →
    (esc = true ↔ trailing pre % 2 = 1) →
    (∀ j < pre.length, ¬ closing (pre ++ r ++ '"' :: rest) j) →
    endsAt (pre ++ r ++ '"' :: rest) (pre.length + r.length) := by
  intro r
  induction r with
  | nil =>
    intro pre rest esc hr he hn
    refine ⟨⟨by simp, ?_⟩, by simpa using hn⟩
    have : esc = false := by cases esc <;> simp_all [rawOk]
    simp [this] at he
    simpa using he
  | cons c r ih =>
    intro pre rest esc hr he hn
    have htr : trailing (pre ++ [c]) = if c = '\\' then trailing pre + 1 else 0 := by
      unfold trailing
      rw [List.reverse_append]
      by_cases hc : c = '\\' <;> simp [List.takeWhile_cons, hc]
    have hnc : ¬ closing (pre ++ (c :: r) ++ '"' :: rest) pre.length := by
      rintro ⟨h1, h2⟩
      simp at h1 h2
      subst h1
      cases esc with
      | true => simp at he; omega
      | false => simp [rawOk] at hr
    have hassoc : pre ++ (c :: r) ++ '"' :: rest = (pre ++ [c]) ++ r ++ '"' :: rest := by simp
    rw [hassoc] at hn hnc ⊢
    have hl : pre.length + (c :: r).length = (pre ++ [c]).length + r.length := by
      simp; omega
    rw [hl]
    have hn' : ∀ j < (pre ++ [c]).length, ¬ closing (pre ++ [c] ++ r ++ '"' :: rest) j := by
      intro j hj
      simp at hj
      rcases Nat.lt_or_ge j pre.length with h | h
      · exact hn j h
      · have : j = pre.length := by omega
        subst this; exact hnc
    cases esc with
    | true =>
      simp [rawOk] at hr
      refine ih (pre ++ [c]) rest false hr ?_ hn'
      rw [htr]
      simp at he
      split
      · simp; omega
      · simp
    | false =>
      simp only [rawOk] at hr
      simp only [Bool.false_eq_true, if_false] at hr
      split at hr
      · cases hr
      · refine ih (pre ++ [c]) rest (c == '\\') hr ?_ hn'
        rw [htr]
        simp at he
        by_cases hc : c = '\\'
        · simp [hc]; omega
        · simp [hc]

end JPS
