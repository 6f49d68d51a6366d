import Verif.Parser
import Verif.PathCtx
import Verif.Props.Expr
import Verif.Spec.Syntax
import Verif.Spec.Tokens
/-!
# Lemmas about the scanner and the parser
-/

set_option autoImplicit false

namespace JPS
open Spec

/-! ### Tokens of the written forms -/

/-- Token of an operator. -/
def opTok : BOp → PTok
  | .or => .or | .and => .and | .eq => .eq | .ne => .neq | .lt => .lt | .gt => .gt | .le => .leq
  | .ge => .geq | .add => .plus | .sub => .minus | .mul => .star | .div => .slash | .mod => .percent

/-- Tokens of a number. -/
def numToks (n : Num) : List PTok :=
  if n.neg then [.minus, .num { n with neg := false }] else [.num n]

/-- Words of a number. -/
def numWords (n : Num) : List Word :=
  (if n.neg then [['-']] else []) ++
    [Nat.toDigits 10 n.int ++ if n.frac = [] then [] else '.' :: n.frac]

/-- Number literals that can be written. -/
def NumOk (n : Num) : Prop := ∀ c ∈ n.frac, c.isDigit = true

/-- Parenthesised tokens. -/
def pparens (b : Bool) (ts : List PTok) : List PTok := if b then [.lpar] ++ ts ++ [.rpar] else ts

/-- Tokens of a property path. -/
def refToks (p : List Str) : List PTok := [.at] ++ p.flatMap fun s => [.dot, .name s]

/-- Tokens of an expression, parenthesised by `nl`, `nr`, `nn`. -/
def exprToks (nl nr : BOp → Expr Num → Bool) (nn : Expr Num → Bool) : Expr Num → List PTok
  | .prop p => refToks p
  | .str s => [.str s]
  | .num n => numToks n
  | .not e => [.bang] ++ pparens (nn e) (exprToks nl nr nn e)
  | .bin o a b =>
    pparens (nl o a) (exprToks nl nr nn a) ++ [opTok o] ++ pparens (nr o b) (exprToks nl nr nn b)

/-- A token that makes the parser reduce the operation at the top of `e`. -/
def Ends (e : Expr Num) (t : PTok) : Prop :=
  match e with
  | .bin o _ _ => t = .rpar ∨ ∃ o2, t.op = some o2 ∧ (Op.ofSpec o).reduces o2 = true
  | .not _ => t = .rpar ∨ ∃ o2, t.op = some o2 ∧ o2.prec.isSome = true
  | _ => True

theorem exprLoop_op (t : PTok) (o : Op) (h : t.op = some o) (r : List PTok) (fs : List Frame) (e : Ast) :
    exprLoop (t :: r) fs (some e) =
      exprLoop r (.bin (reduceOp o fs e).2 o :: (reduceOp o fs e).1) none := by
  cases t <;> simp [PTok.op] at h <;> subst h <;> simp [exprLoop, PTok.op]

theorem exprLoop_bin (t : PTok) (o : Op) (h : t = .rpar ∨ ∃ o2, t.op = some o2 ∧ o.reduces o2 = true)
    (r : List PTok) (fs : List Frame) (a b : Ast) :
    exprLoop (t :: r) (.bin a o :: fs) (some b) = exprLoop (t :: r) fs (some (.bin o a b)) := by
  rcases h with h | ⟨o2, h1, h2⟩
  · subst h; simp [exprLoop, reduceAll]
  · rw [exprLoop_op t o2 h1, exprLoop_op t o2 h1]
    simp [reduceOp, h2]

theorem exprLoop_not (t : PTok) (h : t = .rpar ∨ ∃ o2, t.op = some o2 ∧ o2.prec.isSome = true)
    (r : List PTok) (fs : List Frame) (b : Ast) :
    exprLoop (t :: r) (.not :: fs) (some b) = exprLoop (t :: r) fs (some (.not b)) := by
  rcases h with h | ⟨o2, h1, h2⟩
  · subst h; simp [exprLoop, reduceAll]
  · rw [exprLoop_op t o2 h1, exprLoop_op t o2 h1]
    simp [reduceOp, h2]

theorem exprLoop_ref (p : List Str) (r : List PTok) (fs : List Frame) (t : Ast) :
    exprLoop ((p.flatMap fun s => [PTok.dot, .name s]) ++ r) fs (some t) =
      exprLoop r fs (some (p.foldl (fun t s => .concat t (.id s)) t)) := by
  induction p generalizing t with
  | nil => rfl
  | cons s p ih => simp [List.flatMap_cons, exprLoop, ih]

theorem opTok_op (o : BOp) : (opTok o).op = some (Op.ofSpec o) := by cases o <;> rfl

theorem ofSpec_prec (o : BOp) : (Op.ofSpec o).prec = o.level := by cases o <;> rfl

/-- What is pending does not take the first operand of `e` away from the operation at its top. -/
def Holds (e : Expr Num) (fs : List Frame) : Prop :=
  match e with
  | .bin o _ _ => ∀ x, reduceOp (Op.ofSpec o) fs x = (fs, x)
  | _ => True

/-- What the parenthesisation must respect. -/
structure GoodParens (nl nr : BOp → Expr Num → Bool) (nn : Expr Num → Bool) : Prop where
  left : ∀ o e, nl o e = false → Ends e (opTok o)
  leftHolds : ∀ o e fs, nl o e = false → Holds (.bin o e e) fs → Holds e fs
  right : ∀ o e t, nr o e = false → Ends (.bin o e e) t → Ends e t
  rightHolds : ∀ o e a fs, nr o e = false → Holds e (.bin a (Op.ofSpec o) :: fs)
  not : ∀ e t, nn e = false → Ends (.not e) t → Ends e t
  notHolds : ∀ e fs, nn e = false → Holds e (.not :: fs)

variable {nl nr : BOp → Expr Num → Bool} {nn : Expr Num → Bool}

theorem exprLoop_numToks (n : Num) (r : List PTok) (fs : List Frame) :
    exprLoop (numToks n ++ r) fs none = exprLoop r fs (some (.number n)) := by
  obtain ⟨neg, i, f⟩ := n
  cases neg <;> simp [numToks, exprLoop]

theorem Ends_rpar (e : Expr Num) : Ends e .rpar := by
  cases e <;> simp [Ends]

theorem Holds_nil (e : Expr Num) : Holds e [] := by
  cases e <;> simp [Holds, reduceOp]

theorem Holds_paren (e : Expr Num) (fs : List Frame) : Holds e (.paren :: fs) := by
  cases e <;> simp [Holds, reduceOp]

/-- Reading the tokens of an expression, whatever is pending, up to a token that ends it. -/
theorem exprLoop_expr (g : GoodParens nl nr nn) (e : Expr Num) :
    ∀ (t : PTok) (r : List PTok) (fs : List Frame), Ends e t → Holds e fs →
      exprLoop (exprToks nl nr nn e ++ t :: r) fs none = exprLoop (t :: r) fs (some (exprTree e)) := by
  have par : ∀ (b : Bool) (e : Expr Num),
      (∀ (t : PTok) (r : List PTok) (fs : List Frame), Ends e t → Holds e fs →
        exprLoop (exprToks nl nr nn e ++ t :: r) fs none = exprLoop (t :: r) fs (some (exprTree e))) →
      ∀ (t : PTok) (r : List PTok) (fs : List Frame), (b = false → Ends e t) → (b = false → Holds e fs) →
        exprLoop (pparens b (exprToks nl nr nn e) ++ t :: r) fs none
          = exprLoop (t :: r) fs (some (exprTree e)) := by
    intro b e ih t r fs h hh
    cases b with
    | false => simpa [pparens] using ih t r fs (h rfl) (hh rfl)
    | true =>
      have h1 : exprLoop (PTok.lpar :: (exprToks nl nr nn e ++ .rpar :: t :: r)) fs none
          = exprLoop (exprToks nl nr nn e ++ .rpar :: t :: r) (.paren :: fs) none := by
        simp [exprLoop]
      simp only [pparens, if_true, List.append_assoc, List.cons_append, List.nil_append]
      rw [h1, ih .rpar (t :: r) (.paren :: fs) (Ends_rpar e) (Holds_paren e fs)]
      simp [exprLoop, reduceAll]
  induction e with
  | prop p =>
    intro t r fs _ _
    have h1 : exprLoop (PTok.at :: ((p.flatMap fun s => [PTok.dot, .name s]) ++ t :: r)) fs none
        = exprLoop ((p.flatMap fun s => [PTok.dot, .name s]) ++ t :: r) fs (some .ref) := by
      simp [exprLoop]
    simp only [exprToks, refToks, List.append_assoc, List.cons_append, List.nil_append]
    rw [h1, exprLoop_ref]; rfl
  | str s => intro t r fs _ _; simp [exprToks, exprLoop, exprTree]
  | num n => intro t r fs _ _; rw [exprToks, exprLoop_numToks]; rfl
  | not e ih =>
    intro t r fs h _
    have h1 : exprLoop (PTok.bang :: (pparens (nn e) (exprToks nl nr nn e) ++ t :: r)) fs none
        = exprLoop (pparens (nn e) (exprToks nl nr nn e) ++ t :: r) (.not :: fs) none := by
      simp [exprLoop]
    simp only [exprToks, List.append_assoc, List.cons_append, List.nil_append]
    rw [h1, par (nn e) e ih t r _ (fun hb => g.not e t hb h) (fun hb => g.notHolds e fs hb),
      exprLoop_not t h]
    rfl
  | bin o a b iha ihb =>
    intro t r fs h hh
    simp only [exprToks, List.append_assoc, List.cons_append, List.nil_append]
    rw [par (nl o a) a iha _ _ _ (fun hb => g.left o a hb) (fun hb => g.leftHolds o a fs hb hh),
      exprLoop_op _ _ (opTok_op o), hh,
      par (nr o b) b ihb t r _ (fun hb => g.right o b t hb h)
        (fun hb => g.rightHolds o b _ fs hb), exprLoop_bin t _ h]
    rfl

/-- Parentheses around every operand. -/
theorem goodFull : GoodParens (fun _ _ => true) (fun _ _ => true) (fun _ => true) := by
  constructor <;> intros <;> simp_all

theorem reduceOp_stop (o o1 : BOp) (a : Ast) (fs : List Frame) (x : Ast)
    (h : (Op.ofSpec o1).reduces (Op.ofSpec o) = false) :
    reduceOp (Op.ofSpec o) (.bin a (Op.ofSpec o1) :: fs) x = (.bin a (Op.ofSpec o1) :: fs, x) := by
  simp [reduceOp, h]

theorem reduces_ofSpec (o o1 : BOp) : (Op.ofSpec o1).reduces (Op.ofSpec o) =
    match o1.level, o.level with
    | some p, some q => decide (q ≤ p)
    | _, _ => false := by
  simp only [Op.reduces, ofSpec_prec]
  cases o1.level <;> cases o.level <;> rfl

theorem reduceOp_len (o : Op) (fs : List Frame) (e : Ast) :
    (reduceOp o fs e).1.length ≤ fs.length := by
  induction fs generalizing e with
  | nil => simp [reduceOp]
  | cons f fs ih =>
    cases f <;> simp only [reduceOp]
    · split
      · exact Nat.le_trans (ih _) (by simp)
      · simp
    · split
      · exact Nat.le_trans (ih _) (by simp)
      · simp
    · simp

/-- Only the parentheses required by the levels. -/
theorem goodLevels : GoodParens (fun o e => e.needsLeft o) (fun o e => e.needsRight o)
    Expr.needsNot := by
  constructor
  · intro o e h
    cases e with
    | bin o' a b =>
      refine .inr ⟨_, opTok_op o, ?_⟩
      rw [reduces_ofSpec]
      cases h1 : o'.level <;> cases h2 : o.level <;>
        simp [Expr.needsLeft, h1, h2] at h ⊢
      omega
    | not e =>
      refine .inr ⟨_, opTok_op o, ?_⟩
      rw [ofSpec_prec]
      cases h2 : o.level <;> simp [Expr.needsLeft, h2] at h ⊢
    | _ => trivial
  · intro o e fs h hh
    cases e with
    | bin o' a b =>
      intro x
      have hh := hh x
      cases fs with
      | nil => simp [reduceOp]
      | cons f fs =>
        cases f with
        | paren => simp [reduceOp]
        | not =>
          simp only [reduceOp, ofSpec_prec] at hh ⊢
          cases h1 : o'.level <;> cases h2 : o.level <;>
            simp [Expr.needsLeft, h1, h2] at h hh ⊢
          have := reduceOp_len (Op.ofSpec o) fs x.not
          rw [hh] at this
          simp at this
          omega
        | bin l o1 =>
          have hr : o1.reduces (Op.ofSpec o) = false := by
            cases hc : o1.reduces (Op.ofSpec o) with
            | false => rfl
            | true =>
              simp only [reduceOp, hc, if_true] at hh
              have := reduceOp_len (Op.ofSpec o) fs (.bin o1 l x)
              rw [hh] at this
              simp at this
              omega
          have hr' : o1.reduces (Op.ofSpec o') = false := by
            simp only [Op.reduces, ofSpec_prec] at hr ⊢
            cases h1 : o'.level <;> cases h2 : o.level <;> cases h3 : o1.prec <;>
              simp [Expr.needsLeft, h1, h2, h3] at h hr ⊢
            omega
          simp [reduceOp, hr']
    | _ => trivial
  · intro o e t h he
    cases e with
    | bin o' a b =>
      rcases he with he | ⟨o2, h1, h2⟩
      · exact .inl he
      · refine .inr ⟨o2, h1, ?_⟩
        simp only [Op.reduces, ofSpec_prec] at h2 ⊢
        cases h3 : o'.level <;> cases h4 : o.level <;> cases h5 : o2.prec <;>
          simp [Expr.needsRight, h3, h4, h5] at h h2 ⊢
        omega
    | not e =>
      rcases he with he | ⟨o2, h1, h2⟩
      · exact .inl he
      · refine .inr ⟨o2, h1, ?_⟩
        simp only [Op.reduces] at h2
        cases h5 : o2.prec with
        | some _ => rfl
        | none => rw [h5] at h2; cases h6 : (Op.ofSpec o).prec <;> simp [h6] at h2
    | _ => trivial
  · intro o e a fs h
    cases e with
    | bin o' l r =>
      intro x
      refine reduceOp_stop _ _ _ _ _ ?_
      rw [reduces_ofSpec]
      cases h1 : o'.level <;> cases h2 : o.level <;> simp [Expr.needsRight, h1, h2] at h ⊢
      omega
    | _ => trivial
  · intro e t h he
    cases e <;> simp_all [Expr.needsNot, Ends]
  · intro e fs h
    cases e <;> simp_all [Expr.needsNot, Holds]

/-! ### Steps -/

/-- Tokens of a step. -/
def stepToks : Step → List PTok
  | .dotAll => [.dot, .star]
  | .descAll => [.parent, .star]
  | .prop k => [.dot, .name k]
  | .descProp k => [.parent, .name k]
  | .all => [.lbr, .star, .rbr]
  | .slice a b => [.lbr] ++ (a.map fun i => numToks (numLit i)).getD [] ++ [.colon]
      ++ (b.map fun i => numToks (numLit i)).getD [] ++ [.rbr]

/-- Tokens of a step with filters. -/
def fstepToks (nl nr : BOp → Expr Num → Bool) (nn : Expr Num → Bool) : FStep Num → List PTok
  | .plain s => stepToks s
  | .filter e => [.lbr, .quest, .lpar] ++ exprToks nl nr nn e ++ [.rpar, .rbr]

/-- The tree of one more step, with filters (`Predicate`, parser_j.y:64-71). -/
def astFStep (t : Ast) : FStep Num → Ast
  | .plain s => astStep t s
  | .filter e => .predicate t (.filter (exprTree e))

theorem parseNumber_toks (n : Num) (r : List PTok) : parseNumber (numToks n ++ r) = some (n, r) := by
  obtain ⟨neg, i, f⟩ := n
  cases neg <;> simp [numToks, parseNumber]

theorem parsePred_num (n : Num) (r : List PTok) : parsePred (numToks n ++ .colon :: r) =
    match parseNumber r with
      | some (m, r') => some (.range (some n) (some m), r')
      | none => some (.range (some n) none, r) := by
  have h := parseNumber_toks n (.colon :: r)
  obtain ⟨neg, i, f⟩ := n
  cases neg <;> simp only [numToks, if_true, if_false, List.cons_append, List.nil_append,
    Bool.false_eq_true] at h ⊢ <;> simp only [parsePred, h] <;> cases parseNumber r <;> rfl

theorem stepsLoop_slice (a b : Option Int) (h : a ≠ none ∨ b ≠ none) (r : List PTok) :
    parsePred ((a.map fun i => numToks (numLit i)).getD [] ++ .colon ::
      ((b.map fun i => numToks (numLit i)).getD [] ++ .rbr :: r)) =
      some (.range (a.map numLit) (b.map numLit), .rbr :: r) := by
  cases a with
  | none =>
    cases b with
    | none => simp at h
    | some b => simp [parsePred, parseNumber_toks]
  | some a =>
    simp only [Option.map_some, Option.getD_some]
    rw [parsePred_num]
    cases b with
    | none => simp [parseNumber]
    | some b => simp [parseNumber_toks]

theorem stepsLoop_steps (g : GoodParens nl nr nn) (p : List (FStep Num))
    (hp : ∀ s ∈ p, s.Writable NumOk) : ∀ (n : Nat) (t : Ast),
    (p.flatMap (fstepToks nl nr nn)).length ≤ n →
    stepsLoop n t (p.flatMap (fstepToks nl nr nn)) = some (p.foldl astFStep t) := by
  induction p with
  | nil => intro n t _; simp [stepsLoop]
  | cons s p ih =>
    have ih := ih (fun s h => hp s (List.mem_cons_of_mem _ h))
    have hs := hp s (List.mem_cons_self ..)
    intro n t hn
    simp only [List.flatMap_cons, List.length_append] at hn ⊢
    cases n with
    | zero =>
      exfalso
      rcases s with s | e
      · cases s <;> simp [fstepToks, stepToks] at hn
      · simp [fstepToks] at hn
    | succ n =>
      rcases s with s | e
      · cases s with
        | slice a b =>
          simp only [fstepToks, stepToks, List.append_assoc, List.cons_append, List.nil_append,
            List.length_append, List.length_cons] at hn ⊢
          simp only [stepsLoop]
          rw [stepsLoop_slice a b hs]
          simp only [List.foldl_cons]
          rw [ih n _ (by omega)]
          rfl
        | all =>
          simp only [fstepToks, stepToks, List.cons_append, List.nil_append, List.length_cons] at hn ⊢
          simp only [stepsLoop, parsePred, List.foldl_cons]
          rw [ih n _ (by omega)]
          rfl
        | dotAll =>
          simp only [fstepToks, stepToks, List.cons_append, List.nil_append, List.length_cons] at hn ⊢
          simp only [stepsLoop, List.foldl_cons]
          rw [ih n _ (by omega)]
          rfl
        | descAll =>
          simp only [fstepToks, stepToks, List.cons_append, List.nil_append, List.length_cons] at hn ⊢
          simp only [stepsLoop, List.foldl_cons]
          rw [ih n _ (by omega)]
          rfl
        | prop k =>
          simp only [fstepToks, stepToks, List.cons_append, List.nil_append, List.length_cons] at hn ⊢
          simp only [stepsLoop, List.foldl_cons]
          rw [ih n _ (by omega)]
          rfl
        | descProp k =>
          simp only [fstepToks, stepToks, List.cons_append, List.nil_append, List.length_cons] at hn ⊢
          simp only [stepsLoop, List.foldl_cons]
          rw [ih n _ (by omega)]
          rfl
      · simp only [fstepToks, List.append_assoc, List.cons_append, List.nil_append,
            List.length_append, List.length_cons] at hn ⊢
        simp only [stepsLoop, parsePred]
        rw [exprLoop_expr g e _ _ _ (Ends_rpar e) (Holds_nil e)]
        simp only [exprLoop, reduceAll, Option.map_some, List.foldl_cons]
        rw [ih n _ (by omega)]
        rfl

theorem parsePath_steps (g : GoodParens nl nr nn) (p : List (FStep Num))
    (hp : ∀ s ∈ p, s.Writable NumOk) :
    parsePath (.dollar :: p.flatMap (fstepToks nl nr nn)) = some (p.foldl astFStep .root) :=
  stepsLoop_steps g p hp _ _ (Nat.le_refl _)

/-! ### Scanning words -/

/-- The scanner reads the word `w` as the token `t` whatever follows, unless they run together. -/
def ReadsWord (w : Word) (t : PTok) : Prop :=
  ∃ c r, w = c :: r ∧ ∀ s, sticks w s = false → scanOne c (r ++ s) = (some t, s)

theorem scanN_written (ws : List Word) (ts : List PTok) (h : All2 ReadsWord ws ts) (s : Str)
    (hs : Written ws s) : ∀ n, s.length ≤ n → scanN n s = ts := by
  have blank : ∀ (b : Str), (∀ c ∈ b, c = ' ' ∨ c = '\t') → ∀ (s : Str) (n : Nat),
      (b ++ s).length ≤ n → ∃ m, s.length ≤ m ∧ scanN n (b ++ s) = scanN m s := by
    intro b
    induction b with
    | nil => intro _ s n hn; exact ⟨n, hn, rfl⟩
    | cons c b ih =>
      intro hb s n hn
      cases n with
      | zero => simp at hn
      | succ n =>
        obtain ⟨m, hm, he⟩ := ih (fun c h => hb c (List.mem_cons_of_mem _ h)) s n (by simpa using hn)
        refine ⟨m, hm, ?_⟩
        rw [← he]
        have hc : scanBlank c = true := by
          rcases hb c (List.mem_cons_self ..) with h | h <;> subst h <;> decide
        simp [scanN, scanOne, hc]
  induction h generalizing s with
  | nil =>
    intro n hn
    cases hs with
    | nil b hb =>
      obtain ⟨m, _, he⟩ := blank s hb [] n (by simpa using hn)
      rw [List.append_nil] at he
      rw [he]
      cases m <;> rfl
  | cons hr _ ih =>
    intro n hn
    cases hs with
    | cons b _ _ s hb hw hst =>
      obtain ⟨m, hm, he⟩ := blank b hb (_ ++ s) n (by simpa using hn)
      rw [List.append_assoc, he]
      obtain ⟨c, r, rfl, hr⟩ := hr
      cases m with
      | zero => simp at hm
      | succ m =>
        simp only [List.cons_append, scanN, hr s hst]
        rw [ih s hw m]
        simp at hm; omega

theorem _root_.Spec.All2.one {α β : Type} {R : α → β → Prop} {a : α} {b : β} (h : R a b) : All2 R [a] [b] :=
  .cons h .nil

/-- Words of one character that begin no longer word. -/
theorem reads_char (c : Char) (t : PTok) (h : ∀ s, scanOne c s = (some t, s)) : ReadsWord [c] t :=
  ⟨c, [], rfl, fun s _ => h s⟩

theorem reads_op (o : BOp) : ReadsWord o.word (opTok o) := by
  have two : ∀ (c d : Char) (t : PTok), (∀ s, scanOne c (d :: s) = (some t, s)) → ReadsWord [c, d] t :=
    fun c d t h => ⟨c, [d], rfl, fun s _ => h s⟩
  have cmp : ∀ (c : Char) (t : PTok), (c = '<' ∨ c = '>' ∨ c = '!') →
      (∀ s, s.head? ≠ some '=' → scanOne c s = (some t, s)) → ReadsWord [c] t := by
    intro c t hc h
    refine ⟨c, [], rfl, fun s hs => h s ?_⟩
    cases s with
    | nil => simp
    | cons d s =>
      intro he
      simp at he
      subst he
      rcases hc with hc | hc | hc <;> subst hc <;> revert hs <;> simp [sticks]
  have nxt : ∀ (s : Str), s.head? ≠ some '=' → s = [] ∨ ∃ d s', s = d :: s' ∧ d ≠ '=' := by
    intro s h
    cases s with
    | nil => exact .inl rfl
    | cons d s => exact .inr ⟨d, s, rfl, by simpa using h⟩
  cases o with
  | or => exact two _ _ _ fun s => rfl
  | and => exact two _ _ _ fun s => rfl
  | eq => exact two _ _ _ fun s => rfl
  | ne => exact two _ _ _ fun s => rfl
  | le => exact two _ _ _ fun s => rfl
  | ge => exact two _ _ _ fun s => rfl
  | lt =>
    refine cmp _ _ (.inl rfl) fun s hs => ?_
    rcases nxt s hs with rfl | ⟨d, s', rfl, hd⟩
    · rfl
    · simp [scanOne, scanBlank, hd, opTok]
  | gt =>
    refine cmp _ _ (.inr (.inl rfl)) fun s hs => ?_
    rcases nxt s hs with rfl | ⟨d, s', rfl, hd⟩
    · rfl
    · simp [scanOne, scanBlank, hd, opTok]
  | add => exact reads_char _ _ fun s => rfl
  | sub => exact reads_char _ _ fun s => rfl
  | mul => exact reads_char _ _ fun s => rfl
  | div => exact reads_char _ _ fun s => rfl
  | mod => exact reads_char _ _ fun s => rfl

theorem reads_bang : ReadsWord ['!'] .bang := by
  refine ⟨'!', [], rfl, fun s hs => ?_⟩
  cases s with
  | nil => rfl
  | cons d s =>
    have hd : d ≠ '=' := by
      intro h; subst h; revert hs; simp [sticks, wordChar, Char.isAlphanum, Char.isAlpha, Char.isUpper, Char.isLower, Char.isDigit]
    simp [scanOne, scanBlank, hd]

theorem reads_dot : ReadsWord ['.'] .dot := by
  refine ⟨'.', [], rfl, fun s hs => ?_⟩
  cases s with
  | nil => rfl
  | cons d s =>
    have hd : d ≠ '.' := by
      intro h; subst h; revert hs; simp [sticks]
    simp [scanOne, scanBlank, hd]

theorem reads_parent : ReadsWord ['.', '.'] .parent := ⟨'.', ['.'], rfl, fun _ _ => rfl⟩

theorem isDig_eq (c : Char) : isDig c = c.isDigit := rfl

theorem nameStart_eq (c : Char) : nameStart c = (c.isAlpha || c == '_') := by
  rw [Bool.eq_iff_iff]
  simp only [nameStart, Char.isAlpha, Char.isUpper, Char.isLower, Bool.or_eq_true, Bool.and_eq_true,
    decide_eq_true_eq, beq_iff_eq, Char.le_def, ge_iff_le]
  constructor
  · rintro ((h | h) | h)
    · exact .inl (.inl h)
    · exact .inr h
    · exact .inl (.inr h)
  · rintro ((h | h) | h)
    · exact .inl (.inl h)
    · exact .inr h
    · exact .inl (.inr h)

theorem nameChar_eq (c : Char) : nameChar c = wordChar c := by
  simp only [nameChar, nameStart_eq, wordChar, Char.isAlphanum, isDig_eq]
  cases c.isAlpha <;> cases c.isDigit <;> cases (c == '_') <;> rfl

theorem scanOne_word (c : Char) (r : Str) (h : nameChar c = true) : scanOne c r =
    if isDig c then (some (.num (scanNum (c :: r)).1), (scanNum (c :: r)).2)
    else (some (.name (c :: r.takeWhile nameChar)), r.dropWhile nameChar) := by
  have ne : ∀ d, nameChar d = false → ¬ c = d := by
    intro d hd hc; subst hc; simp [h] at hd
  have hb : scanBlank c = false := by
    simp [scanBlank, ne ' ' (by decide), ne '\t' (by decide), ne (Char.ofNat 11) (by decide),
      ne (Char.ofNat 12) (by decide)]
  simp only [scanOne, hb, ne '*' (by decide), ne '-' (by decide), ne '+' (by decide),
    ne '/' (by decide), ne '%' (by decide), ne '?' (by decide), ne '[' (by decide), ne ']' (by decide),
    ne '(' (by decide), ne ')' (by decide), ne '=' (by decide), ne '!' (by decide), ne '<' (by decide),
    ne '>' (by decide), ne '&' (by decide), ne '|' (by decide), ne '$' (by decide), ne '@' (by decide),
    ne '.' (by decide), ne ',' (by decide), ne ':' (by decide), ne '"' (by decide),
    ne '\'' (by decide), if_false, Bool.false_eq_true, decide_false, Bool.or_false]
  cases hd : isDig c with
  | true => simp
  | false =>
    have : nameStart c = true := by simpa [nameChar, hd] using h
    simp [this]

theorem takeDrop (p : Char → Bool) (a s : Str) (ha : ∀ c ∈ a, p c = true)
    (hs : ∀ c r, s = c :: r → p c = false) :
    (a ++ s).takeWhile p = a ∧ (a ++ s).dropWhile p = s := by
  induction a with
  | nil =>
    cases s with
    | nil => simp
    | cons c r => simp [hs c r rfl]
  | cons x a ih =>
    have := ih (fun c h => ha c (List.mem_cons_of_mem _ h))
    simp [ha x (List.mem_cons_self ..), this.1, this.2]

theorem sticks_word {w : Word} {c : Char} {r : Str} (h : sticks w (c :: r) = false)
    (hw : wordChar (w.getLastD ' ') = true) : wordChar c = false := by
  simp only [sticks, hw, Bool.true_and, Bool.or_eq_false_iff] at h
  exact h.1.1.1

theorem lastD_mem (a b : Word) (hb : b ≠ []) : (a ++ b).getLastD ' ' ∈ b := by
  rw [List.getLastD_eq_getLast?, List.getLast?_append, List.getLast?_eq_some_getLast hb]
  simpa using List.getLast_mem hb

theorem reads_name (k : Str) (h : Identifier k) : ReadsWord k (.name k) := by
  obtain ⟨c, r, rfl, hc, hr⟩ := h
  refine ⟨c, r, rfl, fun s hs => ?_⟩
  have hcs : nameStart c = true := by rw [nameStart_eq]; exact hc
  have hd : isDig c = false := by
    cases hd : isDig c with
    | false => rfl
    | true =>
      exfalso
      simp only [nameStart, isDig, Bool.or_eq_true, Bool.and_eq_true, decide_eq_true_eq, Char.le_def,
        UInt32.le_iff_toNat_le] at hcs hd
      rcases hcs with (h | h) | h
      · have := h.1; have := hd.2
        simp at *
        omega
      · subst h; simp at hd
      · have := h.1; have := hd.2
        simp at *
        omega
  rw [scanOne_word c _ (by simp [nameChar, hcs]), hd]
  have hlast : wordChar ((c :: r).getLastD ' ') = true := by
    have hm : (c :: r).getLastD ' ' ∈ c :: r := lastD_mem [] _ (by simp)
    rcases List.mem_cons.1 hm with h | h
    · rw [h, ← nameChar_eq]; simp [nameChar, hcs]
    · exact hr _ h
  have := takeDrop nameChar r s (fun x hx => by rw [nameChar_eq]; exact hr x hx)
    (fun x y hxy => by rw [nameChar_eq]; subst hxy; exact sticks_word hs hlast)
  simp [this.1, this.2]

theorem scanStr_quotable (s : Str) (h : Quotable s) (r : Str) :
    scanStr '"' (s ++ '"' :: r) = some (s, r) := by
  induction h with
  | nil => rw [List.nil_append]; unfold scanStr; simp
  | char c s h1 h2 _ ih =>
    rw [List.cons_append]
    unfold scanStr
    simp only [h1, h2, if_false, ih, Option.map_some]
  | esc d s h _ ih =>
    rw [List.cons_append, List.cons_append]
    unfold scanStr
    have : ¬ ('\\' : Char) = '"' := by decide
    simp only [this, h, if_false, if_true, ih, Option.map_some]

theorem reads_str (s : Str) (h : Quotable s) : ReadsWord (['"'] ++ s ++ ['"']) (.str s) := by
  refine ⟨'"', s ++ ['"'], by simp, fun r _ => ?_⟩
  have : scanStr '"' ((s ++ ['"']) ++ r) = some (s, r) := by
    simpa using scanStr_quotable s h r
  simp only [scanOne, this]
  rfl

theorem digitsVal_toDigits (n : Nat) : digitsVal (Nat.toDigits 10 n) = n := by
  have := @Nat.ofDigitChars_toDigits 10 n (by decide) (by decide)
  rw [Nat.ofDigitChars_eq_foldl] at this
  exact this

theorem reads_num (n : Num) (hn : n.neg = false) (h : NumOk n) :
    ReadsWord (Nat.toDigits 10 n.int ++ if n.frac = [] then [] else '.' :: n.frac) (.num n) := by
  obtain ⟨neg, i, f⟩ := n
  simp only at hn; subst hn
  have hdig : ∀ c ∈ Nat.toDigits 10 i, isDig c = true := fun c hc => by
    rw [isDig_eq]; exact Nat.isDigit_of_mem_toDigits (by decide) (by decide) hc
  have hwd : ∀ c, isDig c = true → wordChar c = true := fun c hc => by
    rw [← nameChar_eq]; simp [nameChar, hc]
  have hv := digitsVal_toDigits i
  have hnz := @Nat.toDigits_ne_nil i 10
  revert hdig hv hnz
  generalize Nat.toDigits 10 i = ds
  intro hdig hv hnz
  cases ds with
  | nil => exact absurd rfl hnz
  | cons c ds =>
    have hcd := hdig c (List.mem_cons_self ..)
    refine ⟨c, ds ++ if f = [] then [] else '.' :: f, rfl, fun s hs => ?_⟩
    rw [scanOne_word c _ (by simp [nameChar, hcd]), hcd, if_pos rfl]
    have hdot : ∀ x y, s = x :: y → x ≠ '.' := by
      rintro x y rfl rfl
      simp [sticks, ← isDig_eq, hcd] at hs
    by_cases hf : f = []
    · subst hf
      simp only [if_pos, List.append_nil] at hs ⊢
      have hlast : wordChar ((c :: ds).getLastD ' ') = true := by
        exact hwd _ (hdig _ (lastD_mem [] _ (by simp)))
      have hnd : ∀ x y, s = x :: y → isDig x = false := by
        rintro x y rfl
        have := sticks_word hs hlast
        cases hx : isDig x with
        | false => rfl
        | true => rw [hwd x hx] at this; cases this
      have := takeDrop isDig (c :: ds) s hdig hnd
      have hq : scanNum (c :: (ds ++ s)) = (⟨false, i, []⟩, s) := by
        simp only [scanNum, ← List.cons_append, this.1, this.2, hv]
        split
        · exact absurd rfl (hdot _ _ rfl)
        · rfl
      rw [hq]
    · simp only [if_neg hf] at hs ⊢
      have hfd : ∀ x ∈ f, isDig x = true := fun x hx => by rw [isDig_eq]; exact h x hx
      have hlast : wordChar ((c :: ds ++ '.' :: f).getLastD ' ') = true := by
        have := lastD_mem (c :: ds ++ ['.']) f hf
        rw [List.append_assoc] at this
        exact hwd _ (hfd _ this)
      have hnd : ∀ x y, s = x :: y → isDig x = false := by
        rintro x y rfl
        have := sticks_word hs hlast
        cases hx : isDig x with
        | false => rfl
        | true => rw [hwd x hx] at this; cases this
      have h1 := takeDrop isDig (c :: ds) ('.' :: (f ++ s)) hdig (by
        rintro x y hxy; simp at hxy; rw [← hxy.1]; decide)
      have h2 := takeDrop isDig f s hfd hnd
      have hq : scanNum (c :: ((ds ++ '.' :: f) ++ s)) = (⟨false, i, f⟩, s) := by
        have he : c :: ((ds ++ '.' :: f) ++ s) = (c :: ds) ++ '.' :: (f ++ s) := by simp
        rw [he]
        simp only [scanNum, h1.1, h1.2, hv]
        cases f with
        | nil => exact absurd rfl hf
        | cons x f =>
          have hx := hfd x (List.mem_cons_self ..)
          rw [List.cons_append] at h2 ⊢
          simp only [hx, if_true, h2.1, h2.2]
      rw [hq]


theorem reads_numWords (n : Num) (h : NumOk n) : All2 ReadsWord (numWords n) (numToks n) := by
  obtain ⟨neg, i, f⟩ := n
  cases neg with
  | false => exact .one (reads_num ⟨false, i, f⟩ rfl h)
  | true => exact .cons (reads_char _ _ fun _ => rfl) (.one (reads_num ⟨false, i, f⟩ rfl h))

theorem reads_intWords (i : Int) : All2 ReadsWord (intWords i) (numToks (numLit i)) := by
  have h := reads_numWords (numLit i) (by intro c hc; simp [numLit] at hc)
  by_cases hi : i < 0 <;> simpa [numWords, numLit, intWords, hi] using h

theorem reads_parens (b : Bool) {ws : List Word} {ts : List PTok} (h : All2 ReadsWord ws ts) :
    All2 ReadsWord (parens b ws) (pparens b ts) := by
  cases b with
  | false => exact h
  | true =>
    exact .append (.append (.one (reads_char _ _ fun _ => rfl)) h) (.one (reads_char _ _ fun _ => rfl))

theorem reads_ref (p : List Str) (h : ∀ s ∈ p, Identifier s) :
    All2 ReadsWord (refWords p) (refToks p) := by
  refine .append (.one (reads_char _ _ fun _ => rfl)) ?_
  induction p with
  | nil => exact .nil
  | cons s p ih =>
    rw [List.flatMap_cons, List.flatMap_cons]
    exact .append (.cons reads_dot (.one (reads_name s (h s (List.mem_cons_self ..)))))
      (ih fun s hs => h s (List.mem_cons_of_mem _ hs))

theorem reads_full (e : Expr Num) (h : e.Writable NumOk) : All2 ReadsWord (e.fullWords numWords)
    (exprToks (fun _ _ => true) (fun _ _ => true) (fun _ => true) e) := by
  induction e with
  | prop p => exact reads_ref p h
  | str s => exact .one (reads_str s h)
  | num n => exact reads_numWords n h
  | not e ih => exact .append (.one reads_bang) (reads_parens true (ih h))
  | bin o a b iha ihb =>
    exact .append (.append (reads_parens true (iha h.1)) (.one (reads_op o))) (reads_parens true (ihb h.2))

theorem reads_levels (e : Expr Num) (h : e.Writable NumOk) : All2 ReadsWord (e.words numWords)
    (exprToks (fun o e => e.needsLeft o) (fun o e => e.needsRight o) Expr.needsNot e) := by
  induction e with
  | prop p => exact reads_ref p h
  | str s => exact .one (reads_str s h)
  | num n => exact reads_numWords n h
  | not e ih => exact .append (.one reads_bang) (reads_parens _ (ih h))
  | bin o a b iha ihb =>
    exact .append (.append (reads_parens _ (iha h.1)) (.one (reads_op o))) (reads_parens _ (ihb h.2))

theorem reads_step (s : Step) (h : s.Writable) : All2 ReadsWord s.words (stepToks s) := by
  have bound : ∀ a : Option Int, All2 ReadsWord ((a.map intWords).getD [])
      ((a.map fun i => numToks (numLit i)).getD []) := by
    intro a
    cases a with
    | none => exact .nil
    | some i => exact reads_intWords i
  cases s with
  | dotAll => exact .cons reads_dot (.one (reads_char _ _ fun _ => rfl))
  | descAll => exact .cons reads_parent (.one (reads_char _ _ fun _ => rfl))
  | prop k => exact .cons reads_dot (.one (reads_name k h))
  | descProp k => exact .cons reads_parent (.one (reads_name k h))
  | all =>
    exact .cons (reads_char _ _ fun _ => rfl) (.cons (reads_char _ _ fun _ => rfl)
      (.one (reads_char _ _ fun _ => rfl)))
  | slice a b =>
    exact .append (.append (.append (.append (.one (reads_char _ _ fun _ => rfl)) (bound a))
      (.one (reads_char _ _ fun _ => rfl))) (bound b)) (.one (reads_char _ _ fun _ => rfl))

theorem reads_filter {ws : List Word} {ts : List PTok} (h : All2 ReadsWord ws ts) :
    All2 ReadsWord ([['['], ['?'], ['(']] ++ ws ++ [[')'], [']']])
      ([.lbr, .quest, .lpar] ++ ts ++ [.rpar, .rbr]) :=
  .append (.append (.cons (reads_char _ _ fun _ => rfl) (.cons (reads_char _ _ fun _ => rfl)
    (.one (reads_char _ _ fun _ => rfl)))) h)
    (.cons (reads_char _ _ fun _ => rfl) (.one (reads_char _ _ fun _ => rfl)))

theorem reads_flatMap {α : Type} (p : List α) (f : α → List Word) (g : α → List PTok)
    (h : ∀ s ∈ p, All2 ReadsWord (f s) (g s)) : All2 ReadsWord (p.flatMap f) (p.flatMap g) := by
  induction p with
  | nil => exact .nil
  | cons s p ih =>
    rw [List.flatMap_cons, List.flatMap_cons]
    exact .append (h s (List.mem_cons_self ..)) (ih fun s hs => h s (List.mem_cons_of_mem _ hs))

theorem scan_written {ws : List Word} {ts : List PTok} (h : All2 ReadsWord ws ts) {s : Str}
    (hs : Written ws s) : scan s = ts := scanN_written ws ts h s hs _ (Nat.le_refl _)

end JPS
