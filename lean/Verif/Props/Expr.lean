import Verif.Eval
import Verif.Spec.Expr
import Verif.Spec.Scalar
/-!
# C26, C27, C28: filter expressions
-/

set_option autoImplicit false

namespace JPS
open Spec

/-! ### Correspondence of syntax and values -/

/-- The operator as the parser names it. -/
def Op.ofSpec : BOp → Op
  | .or => .or | .and => .and | .eq => .equal | .ne => .neq | .lt => .less | .gt => .greater
  | .le => .leq | .ge => .geq | .add => .add | .sub => .minus | .mul => .multiply | .div => .div
  | .mod => .mod

/-- The tree of `@.p₁.p₂…`, built to the left as by the grammar (parser_j.y, `concat`). -/
def refTree (p : List Str) : Ast := p.foldl (fun t s => .concat t (.id s)) .ref

/-- The tree the parser builds for a filter expression. -/
def exprTree : Expr Num → Ast
  | .prop p => refTree p
  | .str s => .string s
  | .num n => .number n
  | .not e => .not (exprTree e)
  | .bin o a b => .bin (Op.ofSpec o) (exprTree a) (exprTree b)

/-- The numbers of the evaluator as numbers of the specification.  A missing or null value is read as zero. -/
def arith (O : NumOps) : Arith O.N Num where
  blank := some O.zero
  lit := O.ofNum
  isZero n := O.eq n O.zero
  eq := O.eq
  lt := O.lt
  le := O.le
  add := O.add
  sub := O.sub
  mul := O.mul
  div := O.div
  mod := O.mod

/-- The evaluator's value for a value of the specification: missing and null share the type
`jvt_null`. -/
def valOf {O : NumOps} : SV O.N → Value O
  | .missing => .null
  | .null => .null
  | .bool b => .bool b
  | .num n => .num n
  | .str s => .str s

/-- The condition name of a property path: the names joined by points. -/
def joinPath : List Str → Str
  | [] => []
  | [s] => s
  | s :: r => s ++ '.' :: joinPath r

/-! ## C28 reference rewriting -/

theorem joinPath_snoc : ∀ (p : List Str) (s : Str), p ≠ [] → joinPath (p ++ [s]) = joinPath p ++ '.' :: s
  | [], _, h => absurd rfl h
  | [_], _, _ => rfl
  | a :: b :: r, s, _ => by
    have := joinPath_snoc (b :: r) s (by simp)
    simp only [List.cons_append] at this ⊢
    simp only [joinPath, this, List.append_assoc, List.cons_append]

/-- A reference chain becomes one condition name. -/
theorem modRef_chain (p : List Str) (hp : p ≠ []) : modRef (refTree p) = .var (joinPath p) := by
  suffices h : ∀ n, ∀ q : List Str, q.length = n + 1 → modRef (refTree q) = .var (joinPath q) by
    cases p with
    | nil => exact absurd rfl hp
    | cons a r => exact h r.length _ rfl
  intro n
  induction n with
  | zero =>
    intro q hq
    match q, hq with
    | [a], _ => rfl
  | succ n ih =>
    intro q hq
    have hq0 : q ≠ [] := by rintro rfl; simp at hq
    obtain ⟨x, s, rfl⟩ : ∃ x s, q = x ++ [s] := ⟨q.dropLast, q.getLast hq0, (List.dropLast_concat_getLast hq0).symm⟩
    have hx : x.length = n + 1 := by simpa using hq
    have h := ih x hx
    have hx0 : x ≠ [] := by rintro rfl; simp at hx
    rw [joinPath_snoc x s hx0]
    unfold refTree at h ⊢
    rw [List.foldl_append]
    simp only [List.foldl_cons, List.foldl_nil, modRef, h]

/-- The expression with every reference chain replaced by its condition name and nothing else
changed. -/
def withVars : Expr Num → Ast
  | .prop p => .var (joinPath p)
  | .str s => .string s
  | .num n => .number n
  | .not e => .not (withVars e)
  | .bin o a b => .bin (Op.ofSpec o) (withVars a) (withVars b)

/-- **C28** `evaluatorModifyReference` turns every `@.a.b.c` of a filter expression into one condition
name and leaves the rest unchanged. -/
theorem c28_rewrites : ∀ (e : Expr Num), (∀ p ∈ e.props, p ≠ []) → modRef (exprTree e) = withVars e
  | .prop p, h => modRef_chain p (h p (by simp [Expr.props]))
  | .str _, _ => rfl
  | .num _, _ => rfl
  | .not e, h => by simp only [exprTree, modRef, withVars, c28_rewrites e h]
  | .bin o a b, h => by
    simp only [exprTree, modRef, withVars,
      c28_rewrites a (fun p hp => h p (by simp [Expr.props, hp])),
      c28_rewrites b (fun p hp => h p (by simp [Expr.props, hp]))]

/-- Names without points are recovered from a condition name. -/
theorem splitFirst : ∀ (a b x y : Str), '.' ∉ a → '.' ∉ b → a ++ '.' :: x = b ++ '.' :: y → a = b ∧ x = y
  | [], [], _, _, _, _, h => by simpa using h
  | [], c :: b, _, _, _, hb, h => by
    simp only [List.nil_append, List.cons_append, List.cons.injEq] at h
    exact absurd (by simp [← h.1]) hb
  | c :: a, [], _, _, ha, _, h => by
    simp only [List.nil_append, List.cons_append, List.cons.injEq] at h
    exact absurd (by simp [h.1]) ha
  | c :: a, e :: b, x, y, ha, hb, h => by
    simp only [List.cons_append, List.cons.injEq] at h
    obtain ⟨h1, h2⟩ := splitFirst a b x y (fun hm => ha (by simp [hm])) (fun hm => hb (by simp [hm])) h.2
    exact ⟨by rw [h.1, h1], h2⟩

theorem joinPath_inj : ∀ (p q : List Str), p ≠ [] → q ≠ [] → (∀ s ∈ p, '.' ∉ s) → (∀ s ∈ q, '.' ∉ s) →
    joinPath p = joinPath q → p = q
  | [], _, h, _, _, _, _ => absurd rfl h
  | _, [], _, h, _, _, _ => absurd rfl h
  | [a], [b], _, _, _, _, h => by simpa [joinPath] using h
  | [a], b :: c :: r, _, _, hp, _, h => by
    simp only [joinPath] at h
    exact absurd (by rw [h]; simp) (hp a (by simp))
  | a :: c :: r, [b], _, _, _, hq, h => by
    simp only [joinPath] at h
    exact absurd (by rw [← h]; simp) (hq b (by simp))
  | a :: b :: r, a' :: b' :: r', _, _, hp, hq, h => by
    simp only [joinPath] at h
    obtain ⟨h1, h2⟩ := splitFirst a a' _ _ (hp a (by simp)) (hq a' (by simp)) h
    have := joinPath_inj (b :: r) (b' :: r') (by simp) (by simp)
      (fun s hs => hp s (by simp only [List.mem_cons] at hs ⊢; exact .inr hs))
      (fun s hs => hq s (by simp only [List.mem_cons] at hs ⊢; exact .inr hs)) h2
    rw [h1, this]

/-- **C28** Different property paths get different condition names (names contain no point). -/
theorem c28_distinct (p q : List Str) (hp : p ≠ []) (hq : q ≠ []) (hp' : ∀ s ∈ p, '.' ∉ s)
    (hq' : ∀ s ∈ q, '.' ∉ s) (h : joinPath p = joinPath q) : p = q := joinPath_inj p q hp hq hp' hq' h

/-- `@.a.b > 1 && !@.c` becomes an expression over the conditions `a.b` and `c`. -/
example : modRef (exprTree (.bin .and (.bin .gt (.prop [['a'], ['b']]) (.num ⟨false, 1, []⟩))
      (.not (.prop [['c']])))) =
    .bin .and (.bin .greater (.var "a.b".toList) (.number ⟨false, 1, []⟩)) (.not (.var "c".toList)) := by
  decide

/-- The chain of two names or more makes `evaluatorModifyReference` use a released node. -/
theorem modRefUb_chain : ∀ (p : List Str), p ≠ [] → modRefUb (refTree p) = decide (2 ≤ p.length) := by
  intro p
  induction hn : p.length generalizing p with
  | zero => intro h; exact absurd (List.length_eq_zero_iff.1 hn) h
  | succ n ih =>
    intro hp
    obtain ⟨x, s, rfl⟩ : ∃ x s, p = x ++ [s] := ⟨p.dropLast, p.getLast hp, (List.dropLast_concat_getLast hp).symm⟩
    have hx : x.length = n := by simpa using hn
    by_cases hx0 : x = []
    · subst hx0
      simp only [List.length_nil] at hx
      subst hx; rfl
    · have h1 := ih x hx hx0
      have h2 := modRef_chain x hx0
      have hlen : 0 < x.length := List.length_pos_iff.2 hx0
      unfold refTree at h1 h2 ⊢
      rw [List.foldl_append]
      simp only [List.foldl_cons, List.foldl_nil, modRefUb, h1, h2]
      simp; omega

/-- Rewriting touches only live nodes for every filter expression. -/
def C28LiveFull : Prop := ∀ e : Expr Num, (∀ p ∈ e.props, p ≠ []) → modRefUb (exprTree e) = false

/-- **C28, storage**: rewriting `@.a.b` writes to a node after releasing it. -/
theorem c28_live_false : ¬ C28LiveFull := by
  intro h
  have := h (.prop [['a'], ['b']]) (by simp [Expr.props])
  revert this; decide

/-- **C28, storage** The rewriting stays within live nodes exactly when every reference is a single name;
otherwise `c28_rewrites` describes what is computed if the released node is not reused meanwhile. -/
theorem c28_live_partial : ∀ (e : Expr Num), (∀ p ∈ e.props, p ≠ []) →
    modRefUb (exprTree e) = e.props.any (fun p => decide (2 ≤ p.length))
  | .prop p, h => by
    simp only [exprTree, Expr.props, List.any_cons, List.any_nil, Bool.or_false]
    exact modRefUb_chain p (h p (by simp [Expr.props]))
  | .str _, _ => rfl
  | .num _, _ => rfl
  | .not e, h => by
    simp only [exprTree, modRefUb, Expr.props]
    exact c28_live_partial e h
  | .bin o a b, h => by
    simp only [exprTree, modRefUb, Expr.props, List.any_append,
      c28_live_partial a (fun p hp => h p (by simp [Expr.props, hp])),
      c28_live_partial b (fun p hp => h p (by simp [Expr.props, hp]))]

/-! ## C26 semantics -/

theorem truth_valOf {O : NumOps} (v : SV O.N) : (valOf v).truth = v.truth (arith O) := by
  cases v <;> rfl

theorem equal_valOf {O : NumOps} (v w : SV O.N) : (valOf v).equal (valOf w) = v.equal (arith O) w := by
  cases v <;> cases w <;> rfl

theorem number_valOf {O : NumOps} (v : SV O.N) : (valOf v).asNum = v.number (arith O) := by
  cases v <;> rfl

theorem onNums_valOf {O : NumOps} (v w : SV O.N) (f : O.N → O.N → Option (Value O)) (g : O.N → O.N → Option (SV O.N))
    (h : ∀ x y, f x y = (g x y).map valOf) : onNums f (valOf v) (valOf w) = (withNumbers (arith O) v w g).map valOf := by
  unfold onNums withNumbers
  rw [number_valOf, number_valOf]
  cases v.number (arith O) <;> cases w.number (arith O) <;> simp only [Option.map_none]
  exact h _ _

theorem binary_valOf {O : NumOps} (o : BOp) (v w : SV O.N) :
    binary (Op.ofSpec o) (valOf v) (valOf w) = (o.apply (arith O) v w).map valOf := by
  cases o with
  | or => simp only [Op.ofSpec, binary, truth_valOf]; rfl
  | and => simp only [Op.ofSpec, binary, truth_valOf]; rfl
  | eq => simp only [Op.ofSpec, binary, equal_valOf]; rfl
  | ne => simp only [Op.ofSpec, binary, equal_valOf]; rfl
  | mod =>
    refine onNums_valOf v w _ _ ?_
    intro x y
    show (O.mod x y).map _ = ((O.mod x y).map _).map valOf
    cases O.mod x y <;> rfl
  | _ => exact onNums_valOf v w _ _ fun _ _ => rfl

/-- Evaluation of the rewritten expression over any table that holds the values of the property
paths. -/
theorem calculate_eval {O : NumOps} (table : Str → Value O) (env : List Str → SV O.N) :
    ∀ (e : Expr Num), (∀ p ∈ e.props, table (joinPath p) = valOf (env p)) →
    calculate O table (withVars e) = (e.eval (arith O) env).map valOf
  | .prop p, ht => by
    simp only [withVars, calculate, Expr.eval, ht p (by simp [Expr.props]), Option.map_some]
  | .str s, _ => rfl
  | .num n, _ => rfl
  | .not e, ht => by
    simp only [withVars, calculate, Expr.eval, calculate_eval table env e ht]
    cases e.eval (arith O) env with
    | none => rfl
    | some v => simp only [Option.map_some, truth_valOf]; rfl
  | .bin o a b, ht => by
    simp only [withVars, calculate, Expr.eval,
      calculate_eval table env a (fun p hp => ht p (by simp [Expr.props, hp])),
      calculate_eval table env b (fun p hp => ht p (by simp [Expr.props, hp]))]
    cases a.eval (arith O) env with
    | none => rfl
    | some v =>
      cases b.eval (arith O) env with
      | none => rfl
      | some w => simp only [Option.map_some]; exact binary_valOf o v w

/-- The value the evaluator's condition table has for a recorded text (`none`: not recorded). -/
def textValue (O : NumOps) : Option Str → SV O.N
  | none => .missing
  | some t =>
    match stringToValue O (some t) with
    | .null => .null
    | .bool b => .bool b
    | .num n => .num n
    | .str s => .str s

theorem textValue_val (O : NumOps) (t : Option Str) : valOf (textValue O t) = stringToValue O t := by
  cases t with
  | none => rfl
  | some t =>
    unfold textValue
    simp only
    cases stringToValue O (some t) <;> rfl

/-- The recorded conditions: each tested path once, with the recorded text. -/
def condsOf (paths : List (List Str)) (text : List Str → Option Str) : Conds :=
  paths.map fun p => (joinPath p, text p)

theorem condsOf_value {O : NumOps} (text : List Str → Option Str) : ∀ (paths : List (List Str)) (p : List Str),
    p ∈ paths → (∀ q ∈ paths, q ≠ [] ∧ ∀ s ∈ q, '.' ∉ s) →
    (condsOf paths text).value O (joinPath p) = stringToValue O (text p)
  | [], _, hp, _ => by simp at hp
  | q :: paths, p, hp, hq => by
    unfold condsOf Conds.value
    rw [List.map_cons, List.find?_cons]
    by_cases hqp : joinPath q = joinPath p
    · have h0 := hq q (by simp)
      have h1 := hq p hp
      have := joinPath_inj q p h0.1 h1.1 h0.2 h1.2 hqp
      subst this
      simp
    · have hne : ((joinPath q, text q).1 == joinPath p) = false := by simpa using hqp
      rw [hne]
      simp only
      have hp' : p ∈ paths := by
        rcases List.mem_cons.1 hp with rfl | h
        · exact absurd rfl hqp
        · exact h
      exact condsOf_value text paths p hp' (fun x hx => hq x (by simp [hx]))

/-- **C26, C28** The verdict on an element is the value of the filter expression over the element's
properties: `&&`, `||`, `!` follow the truth tables, equality compares equal types by value, ordering
and arithmetic are those of the numbers, a missing or null value being read as zero there.  The verdict is indeterminate exactly
where the expression has no value. -/
theorem c26_semantics (O : NumOps) (e : Expr Num) (paths : List (List Str)) (text : List Str → Option Str)
    (hpaths : ∀ q ∈ paths, q ≠ [] ∧ ∀ s ∈ q, '.' ∉ s) (hprops : ∀ p ∈ e.props, p ∈ paths) :
    evaluate O (modRef (exprTree e)) (condsOf paths text) =
      (e.eval (arith O) (fun p => textValue O (text p))).map (SV.truth (arith O)) := by
  unfold evaluate
  rw [c28_rewrites e (fun p hp => (hpaths p (hprops p hp)).1),
    calculate_eval _ (fun p => textValue O (text p)) e (fun p hp => by
      rw [condsOf_value text paths p (hprops p hp) hpaths, textValue_val])]
  cases e.eval (arith O) (fun p => textValue O (text p)) with
  | none => rfl
  | some x => simp [truth_valOf]

/-- Boolean combinations of equality tests and bare properties always have a value. -/
theorem logical_eval {N L : Type} (A : Arith N L) (env : List Str → SV N) : ∀ e : Expr L, e.logical = true →
    ∃ x, e.eval A env = some x
  | .prop p, _ => ⟨_, rfl⟩
  | .str s, _ => ⟨_, rfl⟩
  | .num n, _ => ⟨_, rfl⟩
  | .not e, h => by
    obtain ⟨x, hx⟩ := logical_eval A env e h
    exact ⟨_, by rw [Expr.eval, hx]; rfl⟩
  | .bin o a b, h => by
    simp only [Expr.logical, Bool.and_eq_true] at h
    obtain ⟨x, hx⟩ := logical_eval A env a h.1.2
    obtain ⟨y, hy⟩ := logical_eval A env b h.2
    obtain ⟨ho, _⟩ := h.1
    cases o <;> simp at ho
    all_goals exact ⟨_, by simp only [Expr.eval, hx, hy, BOp.apply]; rfl⟩

/-- **C26** Boolean combinations of equality tests and bare properties are decided for every element,
whatever its properties are. -/
theorem c26_logical_total (O : NumOps) (e : Expr Num) (he : e.logical = true) (paths : List (List Str))
    (text : List Str → Option Str) (hpaths : ∀ q ∈ paths, q ≠ [] ∧ ∀ s ∈ q, '.' ∉ s)
    (hprops : ∀ p ∈ e.props, p ∈ paths) :
    ∃ x, e.eval (arith O) (fun p => textValue O (text p)) = some x ∧
      evaluate O (modRef (exprTree e)) (condsOf paths text) = some (x.truth (arith O)) := by
  obtain ⟨x, hx⟩ := logical_eval (arith O) (fun p => textValue O (text p)) e he
  exact ⟨x, hx, by rw [c26_semantics O e paths text hpaths hprops, hx]; rfl⟩

/-- **C26** `!=` is the complement of `==` on all values. -/
theorem c26_complementary {O : NumOps} (a b : Value O) :
    ∃ r, binary .equal a b = some (.bool r) ∧ binary .neq a b = some (.bool (!r)) :=
  ⟨a.equal b, rfl, rfl⟩

/-- **C26** A missing property is false, and different from every value but null. -/
theorem c26_missing (O : NumOps) (cs : Conds) (name : Str) (h : ∀ c ∈ cs, c.1 = name → c.2 = none) :
    (cs.value O name).truth = false ∧
    ∀ v : Value O, v ≠ .null → binary .equal (cs.value O name) v = some (.bool false) := by
  have hv : cs.value O name = .null := by
    unfold Conds.value
    cases hf : cs.find? (fun c => c.1 == name) with
    | none => rfl
    | some c =>
      have h1 := List.mem_of_find?_eq_some hf
      have h2 := List.find?_some hf
      simp only [beq_iff_eq] at h2
      simp only [h c h1 h2]; rfl
  rw [hv]
  refine ⟨rfl, ?_⟩
  intro v hne
  cases v with
  | null => exact absurd rfl hne
  | _ => rfl

/-- The element `{"a": {"b": 2}, "d": "x"}` under `@.a.b > 1 && !@.c`. -/
example : evaluate intOps (modRef (exprTree (.bin .and (.bin .gt (.prop [['a'], ['b']]) (.num ⟨false, 1, []⟩))
      (.not (.prop [['c']])))))
    (condsOf [[['a'], ['b']], [['c']]] (fun p => if p = [['a'], ['b']] then some ['2'] else none)) =
    some true := by decide

/-- **C26** The text of a scalar of the document has the value of that scalar: `true`, `false` and
`null` the corresponding constant, an unsigned number its value, a string its characters. -/
theorem c26_text_value_partial (O : NumOps) (v : J) (x : SV O.N) (hneg : v.negative = false) (h : v.scalar O.atof = some x) :
    textValue O (some v.render) = x := by
  cases v with
  | str r =>
    simp only [J.scalar, Option.some.injEq] at h; subst h
    have h1 : ¬ '"' :: (r ++ ['"']) = "true".toList := by simp
    have h2 : ¬ '"' :: (r ++ ['"']) = "false".toList := by simp
    have h3 : ¬ '"' :: (r ++ ['"']) = "null".toList := by simp
    simp only [textValue, J.render, List.cons_append, stringToValue, if_neg h1, if_neg h2, if_neg h3, if_true,
      List.dropLast_concat]
  | arr w es => simp [J.scalar] at h
  | obj w ms => simp [J.scalar] at h
  | lit t =>
    simp only [J.scalar] at h
    by_cases h1 : t = ['t', 'r', 'u', 'e']
    · subst h1; simp at h; subst h; rfl
    rw [if_neg h1] at h
    by_cases h2 : t = ['f', 'a', 'l', 's', 'e']
    · subst h2; simp at h; subst h; rfl
    rw [if_neg h2] at h
    by_cases h3 : t = ['n', 'u', 'l', 'l']
    · subst h3; simp at h; subst h; rfl
    rw [if_neg h3] at h
    cases t with
    | nil => simp at h
    | cons c r =>
      simp only at h
      have hm : c ≠ '-' := by rintro rfl; simp [J.negative] at hneg
      by_cases hc : '0' ≤ c ∧ c ≤ '9'
      · rw [if_pos (.inr hc)] at h
        simp only [Option.some.injEq] at h; subst h
        have hq : ¬ c = '"' := by rintro rfl; revert hc; decide
        have h1 : ¬ c :: r = "true".toList := h1
        have h2 : ¬ c :: r = "false".toList := h2
        have h3 : ¬ c :: r = "null".toList := h3
        simp only [textValue, J.render, stringToValue, if_neg h1, if_neg h2, if_neg h3, if_neg hq, if_pos hc]
      · rw [if_neg (by simp [hm, hc])] at h; cases h

/-- The claim of C26 on values: the text of every scalar of a document has the value of that scalar. -/
def C26ValuesFull : Prop := ∀ (O : NumOps) (v : J) (x : SV O.N), v.scalar O.atof = some x → textValue O (some v.render) = x

/-- **C26 is false for negative numbers**: they are read as null (jsonpath_evaluator.h:186, `isdigit(str[0])`). -/
theorem c26_false : ¬ C26ValuesFull := by
  intro h
  have := h intOps (.lit ['-', '5']) _ rfl
  cases this

/-- **C26** So `@.x == -5` is false, `@.x == @.y` is true and `@.x < 0` compares zero with zero on the element `{"x": -5}`. -/
theorem c26_false_negative (O : NumOps) (n : Num) :
    let cs := condsOf [[['x']], [['y']]] (fun p => if p = [['x']] then some "-5".toList else none)
    evaluate O (modRef (exprTree (.bin .eq (.prop [['x']]) (.num n)))) cs = some false ∧
    evaluate O (modRef (exprTree (.bin .eq (.prop [['x']]) (.prop [['y']])))) cs = some true ∧
    evaluate O (modRef (exprTree (.bin .lt (.prop [['x']]) (.num n)))) cs = some (O.lt O.zero (O.ofNum n)) :=
  ⟨rfl, rfl, rfl⟩

/-- The text recorded for a property: nothing for an array or an object (streaming_automaton.c:179-182, 226-229), the text of the
token otherwise. -/
def condText (v : J) : Str := if v.isContainer then [] else v.render

/-- An array or an object that is present counts as true. -/
theorem c26_container (O : NumOps) (v : J) (h : v.isContainer = true) : textValue O (some (condText v)) = .bool true := by
  rw [condText, if_pos h]; rfl

/-- **C26** A missing property differs from every present value other than null and negative numbers. -/
theorem c26_present_partial (O : NumOps) (v : J) (h : v.isContainer = true ∨ ∃ x : SV O.N, v.scalar O.atof = some x)
    (hneg : v.negative = false) (hn : v ≠ .lit ['n', 'u', 'l', 'l']) :
    binary .equal (stringToValue O none) (stringToValue O (some (condText v))) = some (.bool false) := by
  have key : ∀ t, textValue O (some t) ≠ .null →
      binary .equal (stringToValue O none) (stringToValue O (some t)) = some (.bool false) := by
    intro t ht
    have h0 : stringToValue O none = .null := rfl
    rw [h0]
    cases hv : stringToValue O (some t) with
    | null => exact absurd (by simp only [textValue, hv]) ht
    | _ => rfl
  apply key
  by_cases hc : v.isContainer = true
  · rw [c26_container O v hc]; simp
  · obtain ⟨x, hx⟩ := h.resolve_left hc
    rw [condText, if_neg hc, c26_text_value_partial O v x hneg hx]
    intro he; subst he
    cases v with
    | str r => simp [J.scalar] at hx
    | arr w es => simp [J.scalar] at hx
    | obj w ms => simp [J.scalar] at hx
    | lit t =>
      simp only [J.scalar] at hx
      split at hx
      · cases hx
      split at hx
      · cases hx
      split at hx
      · rename_i ht; exact hn (by rw [ht])
      split at hx
      · cases hx
      · split at hx <;> cases hx

/-- `42`, `"a"` and `false` are such scalars. -/
example : (J.lit ['4', '2']).scalar intOps.atof = some (.num (42 : Int)) ∧
    (J.str ['a']).scalar intOps.atof = some (.str ['a']) ∧
    (J.lit ['f', 'a', 'l', 's', 'e']).scalar intOps.atof = some (.bool false) := ⟨rfl, rfl, rfl⟩

/-! ## C27 ordering on missing and non-numeric values -/

/-- The comparison operators on numbers. -/
def orderOps : List BOp := [.lt, .gt, .le, .ge]

/-- The full claim: an element in which `@.p` is missing or not a number is not selected by an ordering
test against a number. -/
def C27Full : Prop := ∀ (O : NumOps) (o : BOp), o ∈ orderOps → ∀ (p : List Str), p ≠ [] → (∀ s ∈ p, '.' ∉ s) →
  ∀ (n : Num) (t : Option Str), (∀ x, textValue O t ≠ .num x) →
  evaluate O (modRef (exprTree (.bin o (.prop p) (.num n)))) (condsOf [p] (fun _ => t)) = some false

/-- **C27 is false**: an element without `p` satisfies `@.p < 10`, because a missing property is read
as the number zero. -/
theorem c27_false : ¬ C27Full := by
  intro h
  have := h intOps .lt (by decide) [['p']] (by simp) (by decide) ⟨false, 10, []⟩ none (by intro x; simp [textValue])
  revert this
  decide

/-- **C27** What does happen: with a missing property the test compares zero; it does not select
exactly when zero fails it.  With a string or boolean there the result is indeterminate (the evaluator
reads the wrong member of a union); with a number the test is the comparison of the numbers. -/
theorem c27_ordering_partial (O : NumOps) (o : BOp) (ho : o ∈ orderOps) (p : List Str) (hp : p ≠ [])
    (hp' : ∀ s ∈ p, '.' ∉ s) (n : Num) (t : Option Str) :
    let r := evaluate O (modRef (exprTree (.bin o (.prop p) (.num n)))) (condsOf [p] (fun _ => t))
    let cmp := fun x : O.N => match o with
      | .lt => O.lt x (O.ofNum n)
      | .gt => O.lt (O.ofNum n) x
      | .le => O.le x (O.ofNum n)
      | _ => O.le (O.ofNum n) x
    match textValue O t with
    | .num x => r = some (cmp x)
    | .missing => r = some (cmp O.zero)
    | .null => r = some (cmp O.zero)
    | _ => r = none := by
  have hv : (condsOf [p] (fun _ => t)).value O (joinPath p) = stringToValue O t :=
    condsOf_value (fun _ => t) [p] p (by simp) (by simpa using ⟨hp, hp'⟩)
  rw [c28_rewrites _ (by simpa [Expr.props] using hp)]
  simp only [evaluate, withVars, calculate, hv, ← textValue_val]
  simp only [orderOps, List.mem_cons, List.not_mem_nil, or_false] at ho
  rcases ho with rfl | rfl | rfl | rfl <;>
    cases textValue O t <;> rfl

end JPS
