import Verif.Spec.IndexList
import Verif.ParserProofs
import Verif.PathCtx
/-!
# Lists in brackets: what the parser reads
-/

set_option autoImplicit false

namespace JPS
open Spec

/-- The tree of an entry of a list (`IndexList`, parser_j.y:73-77). -/
def itemTree : Entry → Ast
  | .index i => .number (numLit i)
  | .key k => .string k

/-- The tree of a list (parser_j.y:73-77): the entries in order, nested to the left. -/
def listTree (x : Entry) (xs : List Entry) : Ast := xs.foldl (fun l y => .concat l (itemTree y)) (itemTree x)

/-- The tree of one more step (`Predicate`, parser_j.y:57, 64-71). -/
def astLStep (t : Ast) : LStep Num → Ast
  | .step s => astFStep t s
  | .list x xs => .predicate t (listTree x xs)
  | .script e => .predicate t (.script (exprTree e))

/-- The tree of a path with lists and scripts (parser_j.y:51-58). -/
def astLOf (p : List (LStep Num)) : Ast := p.foldl astLStep .root

/-- Tokens of an entry (scanner of parser_j.y:73-77). -/
def itemToks : Entry → List PTok
  | .index i => numToks (numLit i)
  | .key k => [.str k]

/-- Tokens of the further entries of a list (parser_j.y:75-76). -/
def moreToks (xs : List Entry) : List PTok := xs.flatMap fun y => .comma :: itemToks y

/-- Tokens of a step (parser_j.y:54-71). -/
def lstepToks : LStep Num → List PTok
  | .step s => fstepToks (fun o e => e.needsLeft o) (fun o e => e.needsRight o) Expr.needsNot s
  | .list x xs => [.lbr] ++ (itemToks x ++ moreToks xs) ++ [.rbr]
  | .script e =>
    [.lbr, .lpar] ++ exprToks (fun o e => e.needsLeft o) (fun o e => e.needsRight o) Expr.needsNot e ++ [.rpar, .rbr]

theorem indexLoop_list : ∀ (xs : List Entry) (l : Ast) (r : List PTok),
    indexLoop l (moreToks xs ++ .rbr :: r) = (xs.foldl (fun l y => .concat l (itemTree y)) l, .rbr :: r)
  | [], l, r => by simp [moreToks, indexLoop]
  | .key k :: xs, l, r => by
    have h := indexLoop_list xs (.concat l (.string k)) r
    simp only [moreToks, List.flatMap_cons, itemToks, List.cons_append, List.nil_append, List.foldl_cons] at h ⊢
    rw [indexLoop]
    exact h
  | .index i :: xs, l, r => by
    have h := indexLoop_list xs (.concat l (.number (numLit i))) r
    simp only [moreToks, List.flatMap_cons, itemToks, List.cons_append, List.foldl_cons, itemTree,
      List.append_assoc] at h ⊢
    by_cases hi : i < 0 <;> simp only [numToks, numLit, hi, decide_true, decide_false, if_true, if_false, List.cons_append,
      List.nil_append, Bool.false_eq_true] at h ⊢ <;> rw [indexLoop] <;> exact h

theorem moreToks_head (xs : List Entry) (r : List PTok) : ∀ r', moreToks xs ++ .rbr :: r ≠ .colon :: r' := by
  intro r'
  cases xs <;> simp [moreToks]

theorem parsePred_list (x : Entry) (xs : List Entry) (r : List PTok) :
    parsePred (itemToks x ++ (moreToks xs ++ .rbr :: r)) = some (listTree x xs, .rbr :: r) := by
  cases x with
  | key k =>
    simp only [itemToks, List.cons_append, List.nil_append, parsePred]
    rw [indexLoop_list]; rfl
  | index i =>
    have h := parseNumber_toks (numLit i) (moreToks xs ++ .rbr :: r)
    have hl := indexLoop_list xs (.number (numLit i)) r
    have hc := moreToks_head xs r
    simp only [itemToks]
    generalize moreToks xs ++ .rbr :: r = ts at h hl hc
    have : parsePred (numToks (numLit i) ++ ts) = some (indexLoop (.number (numLit i)) ts) := by
      by_cases hi : i < 0 <;> simp only [numToks, numLit, hi, decide_true, decide_false, if_true, if_false,
        List.cons_append, List.nil_append, Bool.false_eq_true] at h ⊢ <;> simp only [parsePred, h] <;>
        (cases ts with
         | nil => rfl
         | cons t ts => cases t <;> first | rfl | exact absurd rfl (hc ts))
    rw [this, hl]; rfl

theorem stepsLoop_list (p : List (LStep Num)) (hp : ∀ s ∈ p, s.Writable NumOk) : ∀ (n : Nat) (t : Ast),
    (p.flatMap lstepToks).length ≤ n → stepsLoop n t (p.flatMap lstepToks) = some (p.foldl astLStep t) := by
  induction p with
  | nil => intro n t _; simp [stepsLoop]
  | cons s p ih =>
    have ih := ih (fun s h => hp s (List.mem_cons_of_mem _ h))
    have hs := hp s (List.mem_cons_self ..)
    intro n t hn
    simp only [List.flatMap_cons, List.length_append] at hn ⊢
    cases n with
    | zero =>
      exfalso
      rcases s with (s | e) | ⟨x, xs⟩ | e <;> try (simp [lstepToks, fstepToks] at hn)
      cases s <;> simp [stepToks] at hn
    | succ n =>
      rcases s with (s | e) | ⟨x, xs⟩ | e
      · simp only [lstepToks] at hn ⊢
        cases s with
        | slice a b =>
          simp only [fstepToks, stepToks, List.append_assoc, List.cons_append, List.nil_append,
            List.length_append, List.length_cons] at hn ⊢
          simp only [stepsLoop]
          rw [stepsLoop_slice a b hs]
          simp only [List.foldl_cons]
          rw [ih n _ (by omega)]
          rfl
        | _ =>
          simp only [fstepToks, stepToks, List.cons_append, List.nil_append, List.length_cons] at hn ⊢
          simp only [stepsLoop, parsePred, List.foldl_cons]
          rw [ih n _ (by omega)]
          rfl
      · simp only [lstepToks, fstepToks, List.append_assoc, List.cons_append, List.nil_append,
            List.length_append, List.length_cons] at hn ⊢
        simp only [stepsLoop, parsePred]
        rw [exprLoop_expr goodLevels e _ _ _ (Ends_rpar e) (Holds_nil e)]
        simp only [exprLoop, reduceAll, Option.map_some, List.foldl_cons]
        rw [ih n _ (by omega)]
        rfl
      · simp only [lstepToks, List.append_assoc, List.cons_append, List.nil_append,
            List.length_append, List.length_cons] at hn ⊢
        simp only [stepsLoop]
        rw [parsePred_list]
        simp only [List.foldl_cons]
        rw [ih n _ (by omega)]
        rfl
      · simp only [lstepToks, List.append_assoc, List.cons_append, List.nil_append,
            List.length_append, List.length_cons] at hn ⊢
        simp only [stepsLoop, parsePred]
        rw [exprLoop_expr goodLevels e _ _ _ (Ends_rpar e) (Holds_nil e)]
        simp only [exprLoop, reduceAll, Option.map_some, List.foldl_cons]
        rw [ih n _ (by omega)]
        rfl

theorem reads_item (x : Entry) (h : x.Writable) : All2 ReadsWord x.words (itemToks x) := by
  cases x with
  | index i => exact reads_intWords i
  | key k => exact .one (reads_str k h)

theorem reads_lstep (s : LStep Num) (h : s.Writable NumOk) : All2 ReadsWord (s.words numWords) (lstepToks s) := by
  rcases s with (s | e) | ⟨x, xs⟩ | e
  · exact reads_step s h
  · exact reads_filter (reads_levels e h)
  · refine .append (.append (.one (reads_char _ _ fun _ => rfl)) (.append (reads_item x h.1)
      (reads_flatMap _ _ _ fun y hy => .cons (reads_char _ _ fun _ => rfl) (reads_item y (h.2 y hy)))))
      (.one (reads_char _ _ fun _ => rfl))
  · exact .append (.append (.cons (reads_char _ _ fun _ => rfl) (.one (reads_char _ _ fun _ => rfl)))
      (reads_levels e h)) (.cons (reads_char _ _ fun _ => rfl) (.one (reads_char _ _ fun _ => rfl)))

theorem listTree_noEffect (t : Ast) (x : Entry) (xs : List Entry) (c : SCtx) :
    constructRight (.predicate t (listTree x xs)) c = c := by
  have : ∀ (xs : List Entry) (l : Ast), (∃ a b, l = .concat a b) ∨ (∃ i, l = .number i) ∨ (∃ k, l = .string k) →
      (∃ a b, xs.foldl (fun l y => Ast.concat l (itemTree y)) l = .concat a b) ∨
      (∃ i, xs.foldl (fun l y => Ast.concat l (itemTree y)) l = .number i) ∨
      (∃ k, xs.foldl (fun l y => Ast.concat l (itemTree y)) l = .string k) := by
    intro xs
    induction xs with
    | nil => intro l h; exact h
    | cons y xs ih => intro l _; exact ih _ (.inl ⟨_, _, rfl⟩)
  have h := this xs (itemTree x) (by cases x <;> simp [itemTree])
  unfold listTree
  rcases h with ⟨a, b, h⟩ | ⟨i, h⟩ | ⟨k, h⟩ <;> rw [h] <;> rfl

theorem construct_dropLists : ∀ (p : List (LStep Num)) (t u : Ast) (c : SCtx), construct t c = construct u c →
    construct (p.foldl astLStep t) c = construct ((dropLists p).foldl astFStep u) c
  | [], _, _, _, h => h
  | .step s :: p, t, u, c, h => by
    have hd : dropLists (LStep.step s :: p) = s :: dropLists p := rfl
    rw [List.foldl_cons, hd, List.foldl_cons]
    refine construct_dropLists p _ _ c ?_
    cases s with
    | plain s => simp only [astLStep, astFStep, construct_astStep, h]
    | filter e => simp only [astLStep, astFStep, construct, h]; rfl
  | .list x xs :: p, t, u, c, h => by
    have hd : dropLists (LStep.list (L := Num) x xs :: p) = dropLists p := rfl
    rw [List.foldl_cons, hd]
    refine construct_dropLists p _ _ c ?_
    simp only [astLStep, construct]
    rw [listTree_noEffect, h]
  | .script e :: p, t, u, c, h => by
    have hd : dropLists (LStep.script e :: p) = dropLists p := rfl
    rw [List.foldl_cons, hd]
    refine construct_dropLists p _ _ c ?_
    simp only [astLStep, construct, constructRight, h]

end JPS
