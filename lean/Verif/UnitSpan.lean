import Verif.Reprocess
/-!
# Where the text of a unit begins and ends

`lexer.current_start - 1` after a bracket is the position of the bracket (lexing.c:33-69), so the text of a unit begins with its
opening bracket and ends directly before the bracket that closes it.
-/

set_option autoImplicit false

namespace JPS

/-- What `lexer.current_start`, lexing.c:33, 42, 51, 60, 69, tells about the token: for a bracket it is the position after it. -/
def PosAt (s : Str) : Tok → Nat → Prop
  | .lcb _, c => 0 < c ∧ s[c - 1]? = some '{'
  | .rcb _, c => 0 < c ∧ s[c - 1]? = some '}'
  | .lb _, c => 0 < c ∧ s[c - 1]? = some '['
  | .rb _, c => 0 < c ∧ s[c - 1]? = some ']'
  | _, c => 0 < c

theorem PosAt.pos {s : Str} {t : Tok} {c : Nat} (h : PosAt s t c) : 0 < c := by
  cases t <;> first | exact h | exact h.1

theorem lexLoop_posAt (s : Str) (lx : Lexer) : ∀ (rest : Str) (p start tokp st : Nat) (t : Tok),
    s.drop p = rest →
    (lexLoop s lx rest p start tokp st).1.toTok (lexLoop s lx rest p start tokp st).2 = some t →
    PosAt s t (lexLoop s lx rest p start tokp st).2.cstart := by
  intro rest
  induction rest with
  | nil => intro p start tokp st t _ h; simp [lexLoop, RTok.toTok] at h
  | cons c rest ih =>
    intro p start tokp st t hs
    obtain ⟨hlt, hd⟩ := drop_cons_lt hs
    have hc : s[p]? = some c := by
      have := drop_getElem? hs 0
      simpa using this.symm
    match st with
    | 0 =>
      simp only [lexLoop]
      repeat' split
      all_goals first
        | exact ih _ _ _ _ t hd
        | (intro h; simp only [charFound, RTok.toTok, Option.some.injEq] at h; subst h
           subst_vars
           first
             | exact ⟨Nat.succ_pos _, by simpa [charFound] using hc⟩
             | exact Nat.succ_pos _)
    | 1 =>
      simp only [lexLoop]
      repeat' split
      all_goals first
        | exact ih _ _ _ _ t hd
        | skip
      intro h
      unfold stringFound at h ⊢
      simp only at h ⊢
      split at h <;> (simp only [RTok.toTok, Option.some.injEq] at h; subst h; simp only [*]; exact Nat.succ_pos _)
    | st + 2 =>
      simp only [lexLoop]
      split
      · intro h
        simp only [primitiveFound, RTok.toTok, Option.some.injEq] at h
        subst h; exact Nat.succ_pos _
      · exact ih _ _ _ _ t hd

theorem lexPosFrom_posAt (s : Str) : ∀ (n : Nat) (lx : Lexer), ∀ x ∈ lexPosFrom s n lx, PosAt s x.1 x.2 := by
  intro n
  induction n with
  | zero => intro lx t h; cases h
  | succ n ih =>
    intro lx t h
    simp only [lexPosFrom] at h
    rcases ht : (nextToken s lx).1.toTok (nextToken s lx).2 with _ | u
    · rw [ht] at h; cases h
    · rw [ht] at h
      simp only [List.mem_cons] at h
      rcases h with rfl | h
      · exact lexLoop_posAt s lx _ _ _ _ _ _ rfl ht
      · exact ih _ _ h

theorem lexPos_posAt (s : Str) : ∀ x ∈ lexPos s, PosAt s x.1 x.2 := lexPosFrom_posAt s _ _

/-- The token types at which a unit may end. -/
def Tok.ends : Tok → Bool
  | .rcb _ => true
  | .rb _ => true
  | .pri _ => true
  | _ => false

/-- Only a closing bracket or a primitive closes a unit. -/
theorem W.step_ends {E : WEnv} {w : W} {t : Tok} {rest : List Tok} (h : w.units.length < (w.step E t rest).units.length) :
    t.ends = true := by
  cases t with
  | lcb p =>
    rw [show (w.step E (.lcb p) rest).units = w.units from W.mark_units w] at h; omega
  | lb p =>
    rw [show (w.step E (.lb p) rest).units = w.units from (W.pruned_units E w.mark none).trans (W.mark_units w)] at h; omega
  | com =>
    rw [show (w.step E .com rest).units = w.units from rfl] at h; omega
  | ky k =>
    rw [show (w.step E (.ky k) rest).units = w.units from (W.pruned_units E w.mark (some k)).trans (W.mark_units w)] at h; omega
  | rcb p => rfl
  | rb p => rfl
  | pri x => rfl

/-- Every end of a unit but the last is the position before the one recorded at the token that closes it; every beginning is the
position before the one recorded at the token that opens it. -/
theorem W.spans_at (E : WEnv) (n : Nat) (Q : Tok → Nat → Prop) : ∀ (ts : List (Tok × Nat)) (w : W) (b0 : Option Nat),
    (∀ x ∈ ts, 0 < x.2 ∧ Q x.1 x.2) → (∀ p, b0 = some p → ∃ t, t.starts = true ∧ Q t (p + 1)) →
    ∀ x ∈ W.spans E n w b0 ts, (x.2 = n ∨ ∃ t, t.ends = true ∧ Q t (x.2 + 1)) ∧
      ∀ p, x.1 = some p → ∃ t, t.starts = true ∧ Q t (p + 1)
  | [], _, b0, _, hb, x, hx => by
    cases List.mem_singleton.1 hx
    exact ⟨.inl rfl, hb⟩
  | (t, c) :: ts, w, b0, ht, hb, x, hx => by
    have h0 := ht _ (List.mem_cons_self ..)
    have e : c - 1 + 1 = c := by have := h0.1; dsimp only at this; omega
    have ih := fun w' b' => W.spans_at E n Q ts w' b' (fun x hx => ht x (List.mem_cons_of_mem _ hx))
    unfold W.spans at hx
    dsimp only at hx
    split at hx
    · rename_i hl
      rcases List.mem_cons.1 hx with rfl | hx
      · exact ⟨.inr ⟨t, W.step_ends hl, by rw [e]; exact h0.2⟩, hb⟩
      · exact ih _ _ (fun p hp => by cases hp) x hx
    · split at hx
      · rename_i hs
        refine ih _ _ (fun p hp => ?_) x hx
        cases hp
        exact ⟨t, hs.2, by rw [e]; exact h0.2⟩
      · exact ih _ _ hb x hx

end JPS
