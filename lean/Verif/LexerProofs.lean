import Verif.Lexer
import Verif.StreamProofs
import Verif.Doc
/-!
# Facts about the tokenizer
-/

namespace JPS
open Spec

/-! ### Progress -/

theorem drop_cons_lt {s rest : Str} {c : Char} {p : Nat} (h : s.drop p = c :: rest) :
    p < s.length ∧ s.drop (p + 1) = rest := by
  constructor
  · have := congrArg List.length h
    simp at this; omega
  · rw [← List.drop_drop, h]; rfl

theorem drop_getElem? {s rest : Str} {p : Nat} (h : s.drop p = rest) (i : Nat) :
    rest[i]? = s[p + i]? := by
  rw [← h, List.getElem?_drop]

theorem stringFound_progress {s rest : Str} {c : Char} {p : Nat} (start : Nat) (lx : Lexer)
    (h : s.drop p = c :: rest) :
    (stringFound s rest p start lx).1 ≠ .eof ∧ p < (stringFound s rest p start lx).2.nxt ∧
      (stringFound s rest p start lx).2.nxt ≤ s.length := by
  obtain ⟨hlt, hd⟩ := drop_cons_lt h
  have hsp : (rest.takeWhile isBlank).length ≤ rest.length := by
    exact (List.takeWhile_sublist _).length_le
  have hl : rest.length = s.length - (p + 1) := by rw [← hd]; simp
  unfold stringFound
  simp only
  split
  · rename_i hc
    have : (rest.takeWhile isBlank).length < rest.length := by
      rcases Nat.lt_or_ge (rest.takeWhile isBlank).length rest.length with h | h
      · exact h
      · rw [List.getElem?_eq_none h] at hc; cases hc
    simp; omega
  · simp; omega

theorem lexLoop_progress (s : Str) (lx : Lexer) : ∀ (rest : Str) (p start tokp st : Nat),
    s.drop p = rest →
    ((lexLoop s lx rest p start tokp st).1 = .eof ∧ (lexLoop s lx rest p start tokp st).2 = lx) ∨
    ((lexLoop s lx rest p start tokp st).1 ≠ .eof ∧
      (if st < 2 then p < (lexLoop s lx rest p start tokp st).2.nxt
        else p ≤ (lexLoop s lx rest p start tokp st).2.nxt) ∧
      (lexLoop s lx rest p start tokp st).2.nxt ≤ s.length) := by
  intro rest
  induction rest with
  | nil => intro p start tokp st _; left; simp [lexLoop]
  | cons c rest ih =>
    intro p start tokp st h
    obtain ⟨hlt, hd⟩ := drop_cons_lt h
    match st with
    | 0 =>
      simp only [lexLoop]
      repeat' split
      all_goals first
        | (right; simp [charFound]; omega)
        | (have := ih (p + 1) (p + 1) (p + 1) 0 hd; grind)
        | (have := ih (p + 1) p p 1 hd; grind)
        | (have := ih (p + 1) start tokp 2 hd; grind)
    | 1 =>
      simp only [lexLoop]
      repeat' split
      all_goals first
        | (have := ih (p + 1) start tokp 1 hd; grind)
        | (right; have := stringFound_progress (c := c) start lx h; grind)
    | st + 2 =>
      simp only [lexLoop]
      split
      · right; simp [primitiveFound]; omega
      · have := ih (p + 1) start tokp (st + 2) hd; grind

/-- Every token but `END` moves `next_start` forward, inside the stream; `END` changes nothing. -/
theorem nextToken_progress (s : Str) (lx : Lexer) :
    ((nextToken s lx).1 = .eof ∧ (nextToken s lx).2 = lx) ∨
    ((nextToken s lx).1 ≠ .eof ∧ lx.nxt < (nextToken s lx).2.nxt ∧
      (nextToken s lx).2.nxt ≤ s.length) := by
  have := lexLoop_progress s lx (s.drop lx.nxt) lx.nxt lx.cur lx.nxt 0 rfl
  simpa [nextToken] using this

theorem toTok_none {t : RTok} {lx : Lexer} : t.toTok lx = none ↔ t = .eof := by
  cases t <;> simp [RTok.toTok]

/-- With enough fuel, more fuel does not change the token list. -/
theorem lexFrom_fuel (s : Str) : ∀ (n m : Nat) (lx : Lexer),
    s.length - lx.nxt < n → s.length - lx.nxt < m → lexFrom s n lx = lexFrom s m lx := by
  intro n
  induction n with
  | zero => intro m lx h; omega
  | succ n ih =>
    intro m lx h1 h2
    obtain ⟨m, rfl⟩ : ∃ m', m = m' + 1 := ⟨m - 1, by omega⟩
    simp only [lexFrom]
    rcases hn : nextToken s lx with ⟨t, lx'⟩
    simp only
    rcases ht : t.toTok lx' with _ | t'
    · rfl
    · simp only
      have := nextToken_progress s lx
      rw [hn] at this
      have hne : t ≠ .eof := by intro hc; rw [toTok_none.mpr hc] at ht; cases ht
      simp [hne] at this
      rw [ih m lx' (by omega) (by omega)]

/-- Raise the flag of a configuration. -/
def SA.orUb (a : SA) (b : Bool) : SA := { a with ub := a.ub || b }

theorem addTuple_orUb (a : SA) (b s t) : (a.orUb b).addTuple s t = (a.addTuple s t).orUb b := by
  simp [SA.addTuple, SA.orUb, Bool.or_assoc, Bool.or_comm]

theorem popQ_orUb (a : SA) (b) : (a.orUb b).popQ = a.popQ.orUb b := by
  unfold SA.popQ SA.orUb
  cases a.qs <;> simp

theorem closeOutput_orUb (d : QDfa) (s pos e) (a : SA) (b) :
    (a.orUb b).closeOutput d s pos e = (a.closeOutput d s pos e).orUb b := by
  unfold SA.closeOutput
  cases e.ms with
  | none => rfl
  | some m =>
    simp only
    split
    · rw [addTuple_orUb]
      simp [SA.orUb, Bool.or_comm, Bool.or_left_comm]
    · rfl

theorem orUb_ss (a : SA) (b) : (a.orUb b).ss = a.ss := rfl
theorem orUb_qs (a : SA) (b) : (a.orUb b).qs = a.qs := rfl
theorem orUb_elt (a : SA) (b) : (a.orUb b).elt = a.elt := rfl

theorem step_orUb (d : QDfa) (s : Str) (a : SA) (b : Bool) (t : Tok) :
    step d s (a.orUb b) t = (step d s a t).orUb b := by
  cases t with
  | lcb p =>
    have h := addTuple_orUb { a with ss := push a.ss .lcb } b
    simp only [step, stepLcb, orUb_elt, orUb_ss]
    split <;> first | rfl | exact h _ _
  | rcb p =>
    have h : rcbOutput d s p (a.orUb b) = (rcbOutput d s p a).orUb b := by
      unfold rcbOutput
      simp only [closeOutput_orUb, orUb_elt]
      split <;> rfl
    simp only [step, stepRcb, h, orUb_ss, orUb_elt, popQ_orUb]
    generalize rcbOutput d s p a = a'
    split
    · rfl
    split
    · split
      · rfl
      split
      · split
        · exact addTuple_orUb { a' with ss := pop a'.ss, elt := { a'.elt with count := a'.elt.count + 1 } } b _ _
        · rfl
      · rfl
    · rfl
  | lb p =>
    simp only [step, stepLb, orUb_elt, addTuple_orUb]
    split <;> rfl
  | rb p =>
    simp only [step, stepRb, orUb_ss, orUb_qs, closeOutput_orUb]
    split
    · cases top a.qs with
      | none =>
        have h := popQ_orUb { a with qs := pop a.qs } b
        simp only [orUb_ss, popQ_orUb, orUb_qs]
        repeat' split
        all_goals first
          | rfl
          | exact congrArg (fun x : SA => { x with ss := pop (pop x.ss) }) h
      | some e =>
        simp only
        generalize SA.closeOutput d s p e a = a'
        have h := popQ_orUb { a' with qs := pop a'.qs } b
        simp only [orUb_ss, popQ_orUb, orUb_qs]
        repeat' split
        all_goals first
          | rfl
          | exact congrArg (fun x : SA => { x with ss := pop (pop x.ss) }) h
    · rfl
  | com => rfl
  | ky k => rfl
  | pri t =>
    simp only [step, stepPri, orUb_elt, orUb_ss, addTuple_orUb]
    by_cases h1 : top a.ss = some Sym.ky <;> by_cases h2 : top a.ss = some Sym.lb <;>
      (split
       · split <;> simp [addTuple_ss, orUb_ss, popQ_orUb, orUb_elt, h1, h2] <;> rfl
       · rfl)

theorem runToks_orUb (d : QDfa) (s : Str) (ts : List Tok) : ∀ (a : SA) (b : Bool),
    runToks d s (a.orUb b) ts = (runToks d s a ts).orUb b := by
  induction ts with
  | nil => intros; rfl
  | cons t ts ih => intro a b; simp only [runToks, List.foldl_cons, step_orUb]; exact ih _ _

/-- Whether reading all tokens overran the lexer's `content` buffer. -/
def lexUb (s : Str) : Nat → Lexer → Bool
  | 0, _ => false
  | n + 1, lx =>
    (nextToken s lx).2.ub ||
      (match (nextToken s lx).1.toTok (nextToken s lx).2 with
       | none => false
       | some _ => lexUb s n (nextToken s lx).2)

/-- `executeAutomaton` is the fold of the transition rules over the token list; the only extra
effect is the lexer's overrun flag. -/
theorem execLoop_eq (d : QDfa) (s : Str) : ∀ (n : Nat) (lx : Lexer) (a : SA),
    execLoop d s n lx a = (runToks d s a (lexFrom s n lx)).orUb (lexUb s n lx) := by
  intro n
  induction n with
  | zero => intro lx a; simp [execLoop, lexFrom, lexUb, runToks, SA.orUb]
  | succ n ih =>
    intro lx a
    simp only [execLoop, lexFrom, lexUb]
    rcases hn : nextToken s lx with ⟨t, lx'⟩
    simp only
    rcases ht : t.toTok lx' with _ | t'
    · simp [runToks, SA.orUb]
    · have := step_orUb d s a lx'.ub t'
      simp only [SA.orUb] at this
      simp only [ih, runToks, List.foldl_cons, this]
      have h2 := runToks_orUb d s (lexFrom s n lx') (step d s a t') lx'.ub
      simp only [runToks, SA.orUb] at h2 ⊢
      rw [h2]
      simp [Bool.or_assoc]

end JPS
