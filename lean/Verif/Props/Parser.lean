import Verif.ParserProofs
import Verif.Props.Query
/-!
# C37, C38: paths and filter expressions as written
-/

set_option autoImplicit false

namespace JPS
open Spec

/-! ## C37 -/

/-- The tree of a path with filters. -/
def astFOf (p : List (FStep Num)) : Ast := p.foldl astFStep .root

/-- **C37** A path whose filter expressions are written with parentheses around every operand, with any
blanks between the words, is read back as that path. -/
theorem c37_parenthesised (p : List (FStep Num)) (hp : ∀ x ∈ p, x.Writable NumOk) (s : Str)
    (hs : Written ([['$']] ++ p.flatMap (FStep.fullWords numWords)) s) :
    analysisJSONPath s = some (astFOf p) := by
  have h : All2 ReadsWord ([['$']] ++ p.flatMap (FStep.fullWords numWords))
      (.dollar :: p.flatMap (fstepToks (fun _ _ => true) (fun _ _ => true) (fun _ => true))) := by
    refine All2.append (All2.one (reads_char _ _ fun _ => rfl)) (reads_flatMap _ _ _ fun x hx => ?_)
    cases x with
    | plain x => exact reads_step x (hp _ hx)
    | filter e => exact reads_filter (reads_full e (hp _ hx))
  unfold analysisJSONPath
  rw [scan_written h hs]
  exact parsePath_steps goodFull p hp

/-- **C37** A path whose filter expressions are written with only the parentheses required by the
declared levels (`||` and `&&` on one level, then comparisons, then `+ -`, then `* /`, then `!`; equal
levels associate to the left) is read back as that path. -/
theorem c37_levels (p : List (FStep Num)) (hp : ∀ x ∈ p, x.Writable NumOk) (s : Str)
    (hs : Written ([['$']] ++ p.flatMap (FStep.words numWords)) s) :
    analysisJSONPath s = some (astFOf p) := by
  have h : All2 ReadsWord ([['$']] ++ p.flatMap (FStep.words numWords))
      (.dollar :: p.flatMap (fstepToks (fun o e => e.needsLeft o) (fun o e => e.needsRight o)
        Expr.needsNot)) := by
    refine All2.append (All2.one (reads_char _ _ fun _ => rfl)) (reads_flatMap _ _ _ fun x hx => ?_)
    cases x with
    | plain x => exact reads_step x (hp _ hx)
    | filter e => exact reads_filter (reads_levels e (hp _ hx))
  unfold analysisJSONPath
  rw [scan_written h hs]
  exact parsePath_steps goodLevels p hp

theorem astFOf_plain (p : List Step) : astFOf (p.map .plain) = astOf p := by
  unfold astFOf astOf
  generalize Ast.root = t
  induction p generalizing t with
  | nil => rfl
  | cons s p ih => exact ih (astStep t s)

/-- **C37** A path without filters, with any blanks between its words, is read as that path. -/
theorem c37_path (p : List Step) (hp : ∀ x ∈ p, x.Writable) (s : Str) (hs : Written (pathWords p) s) :
    analysisJSONPath s = some (astOf p) := by
  rw [← astFOf_plain]
  refine c37_levels _ (fun x hx => ?_) s ?_
  · obtain ⟨y, hy, rfl⟩ := List.mem_map.1 hx
    exact hp y hy
  · have : (p.map FStep.plain).flatMap (FStep.words numWords) = p.flatMap Step.words := by
      rw [List.flatMap_map]; rfl
    rw [this]; exact hs

/-- **C01 from the path text**: the program run on a path text and a file reports what the path
selects. -/
theorem c37_query_partial (O : NumOps) (p : List Step) (hp : p ≠ []) (hw : ∀ x ∈ p, x.Writable)
    (hc : noSlices p) (hl : fewNames p) (s : Str) (hs : Written (pathWords p) s)
    (pre trail : Str) (v : J) (h : Readable pre trail v) (ht : v.tidy = true) :
    ∃ t, analysisJSONPath s = some t ∧
      results O t (pre ++ v.render ++ trail) = some ((selected p v).map J.render) :=
  ⟨_, c37_path p hw s hs, (c01_serial_exact_partial O p hp hc hl pre trail v h ht).1⟩

/-! ### Different paths are written differently -/

theorem refTree_inj (p q : List Str) (h : refTree p = refTree q) : p = q := by
  induction hn : p.length generalizing p q with
  | zero =>
    have : p = [] := List.length_eq_zero_iff.1 hn
    subst this
    rcases List.eq_nil_or_concat q with rfl | ⟨q', s, rfl⟩
    · rfl
    · simp [refTree, List.foldl_append] at h
  | succ n ih =>
    rcases List.eq_nil_or_concat p with rfl | ⟨p', s, rfl⟩
    · simp at hn
    · rcases List.eq_nil_or_concat q with rfl | ⟨q', s', rfl⟩
      · simp [refTree, List.foldl_append] at h
      · simp only [refTree, List.concat_eq_append, List.foldl_append, List.foldl_cons, List.foldl_nil,
          Ast.concat.injEq, Ast.id.injEq] at h
        rw [ih p' q' h.1 (by simpa using hn), h.2]

theorem ofSpec_inj {o o' : BOp} (h : Op.ofSpec o = Op.ofSpec o') : o = o' := by
  cases o <;> cases o' <;> first | rfl | cases h

theorem refTree_shape (p : List Str) : refTree p = .ref ∨ ∃ t s, refTree p = .concat t (.id s) := by
  rcases List.eq_nil_or_concat p with rfl | ⟨p', s, rfl⟩
  · exact .inl rfl
  · exact .inr ⟨refTree p', s, by simp [refTree, List.foldl_append]⟩

theorem exprTree_inj (e f : Expr Num) (h : exprTree e = exprTree f) : e = f := by
  induction e generalizing f with
  | prop p =>
    cases f with
    | prop q => rw [refTree_inj p q h]
    | _ => rcases refTree_shape p with hp | ⟨t, s, hp⟩ <;> simp [exprTree, hp] at h
  | str s =>
    cases f with
    | prop q => rcases refTree_shape q with hp | ⟨t, s, hp⟩ <;> simp [exprTree, hp] at h
    | _ => simp_all [exprTree]
  | num n =>
    cases f with
    | prop q => rcases refTree_shape q with hp | ⟨t, s, hp⟩ <;> simp [exprTree, hp] at h
    | _ => simp_all [exprTree]
  | not e ih =>
    cases f with
    | prop q => rcases refTree_shape q with hp | ⟨t, s, hp⟩ <;> simp [exprTree, hp] at h
    | not f => rw [ih f (by simpa [exprTree] using h)]
    | _ => simp_all [exprTree]
  | bin o a b iha ihb =>
    cases f with
    | prop q => rcases refTree_shape q with hp | ⟨t, s, hp⟩ <;> simp [exprTree, hp] at h
    | bin o' a' b' =>
      simp only [exprTree, Ast.bin.injEq] at h
      rw [ofSpec_inj h.1, iha a' h.2.1, ihb b' h.2.2]
    | _ => simp_all [exprTree]

/-- **C37** A text is the writing of at most one filter expression. -/
theorem c37_unambiguous (e f : Expr Num) (he : e.Writable NumOk) (hf : f.Writable NumOk) (s : Str)
    (h1 : Written ([['$']] ++ [FStep.filter e].flatMap (FStep.words numWords)) s)
    (h2 : Written ([['$']] ++ [FStep.filter f].flatMap (FStep.words numWords)) s) : e = f := by
  have h1 := c37_levels [.filter e] (by simpa [FStep.Writable] using he) s h1
  have h2 := c37_levels [.filter f] (by simpa [FStep.Writable] using hf) s h2
  rw [h1] at h2
  simp only [astFOf, List.foldl_cons, List.foldl_nil, astFStep, Option.some.injEq,
    Ast.predicate.injEq, Ast.filter.injEq, true_and] at h2
  exact exprTree_inj e f h2

/-! ### Examples -/

theorem ident_of (s : Str) (c : Char) (r : Str) (h : s = c :: r) (h1 : (c.isAlpha || c == '_') = true)
    (h2 : r.all wordChar = true) : Identifier s :=
  ⟨c, r, h, h1, by simpa using h2⟩

/-- `@.x - 1 - 2 * @.y <= 3 && !@.z` -/
def exExpr : Expr Num :=
  .bin .and (.bin .le (.bin .sub (.bin .sub (.prop [['x']]) (.num ⟨false, 1, []⟩))
    (.bin .mul (.num ⟨false, 2, []⟩) (.prop [['y']]))) (.num ⟨false, 3, []⟩)) (.not (.prop [['z']]))

theorem exExpr_writable : exExpr.Writable NumOk := by
  have h : ∀ c : Char, (c.isAlpha || c == '_') = true → ∀ s ∈ [[c]], Identifier s := by
    intro c hc s hs
    simp at hs; subst hs
    exact ident_of _ c [] rfl hc rfl
  have hn : ∀ n, NumOk ⟨false, n, []⟩ := by intro n c hc; simp at hc
  exact ⟨⟨⟨⟨h 'x' (by decide), hn 1⟩, hn 2, h 'y' (by decide)⟩, hn 3⟩, h 'z' (by decide)⟩

/-- Words set one after the other without blanks. -/
theorem written_tight : ∀ (ws : List Word), (∀ i, i < ws.length → sticks (ws[i]?.getD []) ((ws.drop (i + 1)).flatten) = false) →
    Written ws ws.flatten
  | [], _ => .nil [] (by simp)
  | w :: ws, h => by
    have h0 := h 0 (by simp)
    have := Written.cons [] w ws ws.flatten (by simp)
      (written_tight ws fun i hi => by simpa using h (i + 1) (by simpa using hi)) (by simpa using h0)
    simpa using this

/-- `$.a[?(@.x-1-2*@.y<=3&&!@.z)]..b` is written without blanks and parentheses … -/
example : Written ([['$']] ++ [FStep.plain (.prop ['a']), .filter exExpr, .plain (.descProp ['b'])].flatMap
    (FStep.words numWords)) "$.a[?(@.x-1-2*@.y<=3&&!@.z)]..b".toList :=
  written_tight _ (by decide)

/-- … and read with `-` to the left, `*` before `-`, `-` before `<=` and `<=` before `&&`. -/
example : analysisJSONPath "$.a[?(@.x-1-2*@.y<=3&&!@.z)]..b".toList =
    some (astFOf [.plain (.prop ['a']), .filter exExpr, .plain (.descProp ['b'])]) := by decide

/-- The steps of the example can be written. -/
example : ∀ x ∈ [FStep.plain (.prop ['a']), .filter exExpr, .plain (.descProp ['b'])],
    x.Writable NumOk := by
  intro x hx
  simp at hx
  rcases hx with rfl | rfl | rfl
  · exact ident_of _ 'a' [] rfl (by decide) rfl
  · exact exExpr_writable
  · exact ident_of _ 'b' [] rfl (by decide) rfl

/-- `$ .a[ * ] [2:-1]` with blanks. -/
example : Written (pathWords [.prop ['a'], .all, .slice (some 2) (some (-1))])
    "$ .a[ * ] [2:-1]".toList :=
  .cons [] _ _ _ (by simp) (.cons [' '] _ _ _ (by simp) (.cons [] _ _ _ (by simp)
    (.cons [] _ _ _ (by simp) (.cons [' '] _ _ _ (by simp) (.cons [' '] _ _ _ (by simp)
      (.cons [' '] _ _ _ (by simp) (.cons [] _ _ _ (by simp) (.cons [] _ _ _ (by simp)
        (.cons [] _ _ _ (by simp) (.cons [] _ _ _ (by simp) (.cons [] _ _ _ (by simp)
          (.nil [] (by simp)) rfl) rfl) rfl) rfl) rfl) rfl) rfl) rfl) rfl) rfl) rfl) rfl

/-- `%` has no declared level: everything to its right becomes its operand, `a % b + c` is read
`a % (b + c)`, and `!` applies to the whole of it. -/
theorem c37_mod_unlevelled :
    analysisJSONPath "$[?(!@.a%2+1)]".toList =
      some (astFOf [.filter (.not (.bin .mod (.prop [['a']]) (.bin .add (.num ⟨false, 2, []⟩)
        (.num ⟨false, 1, []⟩))))]) := by decide

/-! ## C38 -/

/-- An operand written without parentheses beside `||` and `&&`: not itself an `||`, `&&` or `%`. -/
def Operand (e : Expr Num) : Prop := e.Writable NumOk ∧ e.needsRight .or = false

/-- The words of `$[?(a o b o' c)]`. -/
def chainWords (a b c : Expr Num) (o o' : BOp) : List Word :=
  [['$'], ['['], ['?'], ['(']] ++ (a.words numWords ++ [o.word] ++ b.words numWords ++ [o'.word]
    ++ c.words numWords) ++ [[')'], [']']]

/-- The full claim: `a || b && c` is read as `a || (b && c)`. -/
def C38Full : Prop := ∀ (a b c : Expr Num) (s : Str), Operand a → Operand b → Operand c →
  Written (chainWords a b c .or .and) s →
  analysisJSONPath s = some (astFOf [.filter (.bin .or a (.bin .and b c))])

theorem needs_level1 (o o' : BOp) (ho : o.level = some 1) (ho' : o'.level = some 1) (a b c : Expr Num)
    (ha : Operand a) (hb : Operand b) (hc : Operand c) :
    chainWords a b c o o' =
      [['$']] ++ [FStep.filter (.bin o' (.bin o a b) c)].flatMap (FStep.words numWords) := by
  have hr : ∀ (e : Expr Num) (o : BOp), o.level = some 1 → Operand e → e.needsRight o = false := by
    intro e o ho he
    have := he.2
    cases e with
    | bin o'' x y =>
      have hor : BOp.level .or = some 1 := rfl
      simp only [Expr.needsRight, hor] at this
      simp only [Expr.needsRight, ho]
      exact this
    | not e => simp [Expr.needsRight, ho]
    | _ => rfl
  have hl : a.needsLeft o = false := by
    have := ha.2
    cases a with
    | bin o'' x y =>
      have hor : BOp.level .or = some 1 := rfl
      simp only [Expr.needsRight, hor] at this
      simp only [Expr.needsLeft, ho]
      cases h : o''.level <;> simp [h] at this ⊢
      omega
    | not e => simp [Expr.needsLeft, ho]
    | _ => rfl
  have h2 : (Expr.bin o a b).needsLeft o' = false := by simp [Expr.needsLeft, ho, ho']
  simp [chainWords, FStep.words, Expr.words, hl, h2, hr b o ho hb, hr c o' ho' hc, parens]

/-- **C38** What happens instead: `||` and `&&` are on one level and associate to the left, so
`a || b && c` is read `(a || b) && c`; `a && b || c` is read `(a && b) || c` as intended. -/
theorem c38_left_partial (o o' : BOp) (ho : o = .or ∨ o = .and) (ho' : o' = .or ∨ o' = .and)
    (a b c : Expr Num) (s : Str) (ha : Operand a) (hb : Operand b) (hc : Operand c)
    (hs : Written (chainWords a b c o o') s) :
    analysisJSONPath s = some (astFOf [.filter (.bin o' (.bin o a b) c)]) := by
  rw [needs_level1 o o' (by rcases ho with rfl | rfl <;> rfl) (by rcases ho' with rfl | rfl <;> rfl)
    a b c ha hb hc] at hs
  refine c37_levels _ ?_ s hs
  intro x hx
  simp at hx; subst hx
  exact ⟨⟨ha.1, hb.1⟩, hc.1⟩

theorem operand_prop (c : Char) (h : (c.isAlpha || c == '_') = true) : Operand (.prop [[c]]) :=
  ⟨fun s hs => by simp at hs; subst hs; exact ident_of _ c [] rfl h rfl, rfl⟩

/-- `$[?(@.a||@.b&&@.c)]` is a writing of the chain. -/
theorem exChain : Written (chainWords (.prop [['a']]) (.prop [['b']]) (.prop [['c']]) .or .and)
    "$[?(@.a||@.b&&@.c)]".toList :=
  written_tight _ (by decide)

/-- **C38 is false.** -/
theorem c38_false : ¬ C38Full := by
  intro h
  have h1 := h _ _ _ _ (operand_prop 'a' (by decide)) (operand_prop 'b' (by decide))
    (operand_prop 'c' (by decide)) exChain
  revert h1
  decide

/-- The reading makes a difference: an element with `a` true and `c` absent satisfies
`a || (b && c)`, but the filter `@.a || @.b && @.c` rejects it. -/
theorem c38_rejects (O : NumOps) :
    ∃ t, analysisJSONPath "$.l[?(@.a || @.b && @.c)].v".toList = some t ∧
      results O t "{\"l\": [{\"a\": true ,\"v\": 1 }] }".toList = some [] :=
  ⟨_, rfl, by with_unfolding_all rfl⟩

/-- **C38** The two readings have the same truth value exactly when `a` true implies `c` true; writing
`a || (b && c)` with parentheses is read as intended (`c37_levels`). -/
theorem c38_value_partial {N L : Type} (A : Arith N L) (env : List (List Char) → SV N) (a b c : Expr L)
    (x y z : SV N) (hx : a.eval A env = some x) (hy : b.eval A env = some y)
    (hz : c.eval A env = some z) :
    ∃ r r', (Expr.bin .and (.bin .or a b) c).eval A env = some (.bool r) ∧
      (Expr.bin .or a (.bin .and b c)).eval A env = some (.bool r') ∧
      (r = r' ↔ (x.truth A = true → z.truth A = true)) := by
  refine ⟨(x.truth A || y.truth A) && z.truth A, x.truth A || (y.truth A && z.truth A), ?_, ?_, ?_⟩
  · simp [Expr.eval, hx, hy, hz, BOp.apply, SV.truth]
  · simp [Expr.eval, hx, hy, hz, BOp.apply, SV.truth]
  · cases x.truth A <;> cases y.truth A <;> cases z.truth A <;> decide

/-- The hypotheses hold for `@.a || @.b && @.c`. -/
example : analysisJSONPath "$[?(@.a||@.b&&@.c)]".toList =
    some (astFOf [.filter (.bin .and (.bin .or (.prop [['a']]) (.prop [['b']])) (.prop [['c']]))]) :=
  c38_left_partial .or .and (.inl rfl) (.inr rfl) _ _ _ _ (operand_prop 'a' (by decide))
    (operand_prop 'b' (by decide)) (operand_prop 'c' (by decide)) exChain

end JPS
