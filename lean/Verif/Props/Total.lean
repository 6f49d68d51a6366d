import Verif.Props.Expr
import Verif.Props.Capacity
import Verif.Spec.Total
import Verif.FilterPrune
/-!
# C59: which filter expressions have a value on every element
-/

set_option autoImplicit false

namespace JPS
open Spec

/-! ### The specification alone -/

/-- A constant expression has the same value in every environment. -/
theorem const_eval {N L : Type} (A : Arith N L) (env : List Str → SV N) : ∀ (e : Expr L) (n : N), e.const A = some n →
    e.eval A env = some (.num n)
  | .num _, n, h => by
    simp only [Expr.const, Option.some.injEq] at h; subst h; rfl
  | .prop _, _, h => by cases h
  | .str _, _, h => by cases h
  | .not _, _, h => by cases h
  | .bin o a b, n, h => by
    simp only [Expr.const] at h
    cases ha : a.const A with
    | none => rw [ha] at h; cases h
    | some x =>
      cases hb : b.const A with
      | none => rw [ha, hb] at h; cases h
      | some y =>
        rw [ha, hb] at h
        simp only at h
        simp only [Expr.eval, const_eval A env a x ha, const_eval A env b y hb]
        cases o <;> simp only [Option.some.injEq, reduceCtorEq] at h <;> simp only [BOp.apply, withNumbers, SV.number, h, Option.map_some]

/-- A total expression has a value in every environment. -/
theorem total_eval {N L : Type} (A : Arith N L) (env : List Str → SV N) : ∀ e : Expr L, e.total A = true →
    ∃ x, e.eval A env = some x
  | .prop _, _ => ⟨_, rfl⟩
  | .str _, _ => ⟨_, rfl⟩
  | .num _, _ => ⟨_, rfl⟩
  | .not e, h => by
    obtain ⟨x, hx⟩ := total_eval A env e h
    exact ⟨_, by rw [Expr.eval, hx]; rfl⟩
  | .bin o a b, h => by
    rw [Expr.total] at h
    by_cases ho : o.isLogical = true
    · rw [if_pos ho, Bool.and_eq_true] at h
      obtain ⟨x, hx⟩ := total_eval A env a h.1
      obtain ⟨y, hy⟩ := total_eval A env b h.2
      cases o <;> simp [BOp.isLogical] at ho
      all_goals exact ⟨_, by simp only [Expr.eval, hx, hy, BOp.apply]; rfl⟩
    · rw [if_neg ho] at h
      simp only [Bool.and_eq_true, Bool.or_eq_true, Option.isSome_iff_exists] at h
      obtain ⟨⟨⟨x, hx⟩, y, hy⟩, h3⟩ := h
      by_cases hm : o.isArith = true
      · obtain ⟨z, hz⟩ := h3.resolve_left (by simp [hm])
        exact ⟨_, const_eval A env _ z hz⟩
      · cases o <;> simp [BOp.isLogical, BOp.isArith] at ho hm
        all_goals exact ⟨_, by simp only [Expr.eval, const_eval A env a x hx, const_eval A env b y hy, BOp.apply]; rfl⟩

mutual
theorem lookup_unsigned : ∀ (v : J) (c : List (List Char)) (x : J), v.unsigned = true → v.lookup c = some x → x.negative = false
  | v, [], x, h, hl => by
    rw [lookup_self, Option.some.injEq] at hl; subst hl
    cases v with
    | lit t => simpa [J.unsigned] using h
    | _ => rfl
  | .obj _ ms, k :: c, x, h, hl => by
    rw [J.lookup] at hl
    exact lookupM_unsigned ms k c x (by simpa [J.unsigned] using h) hl
  | .lit _, _ :: _, _, _, hl => by simp [J.lookup] at hl
  | .str _, _ :: _, _, _, hl => by simp [J.lookup] at hl
  | .arr _ _, _ :: _, _, _, hl => by simp [J.lookup] at hl
theorem lookupM_unsigned : ∀ (ms : Members) (k : List Char) (c : List (List Char)) (x : J), ms.unsigned = true →
    ms.lookup k c = some x → x.negative = false
  | .nil, _, _, _, _, hl => by simp [Members.lookup] at hl
  | .cons _ m _ _ v _ rest, k, c, x, h, hl => by
    simp only [Members.unsigned, Bool.and_eq_true] at h
    rw [Members.lookup] at hl
    cases hr : rest.lookup k c with
    | some y =>
      rw [hr] at hl
      simp only [Option.orElse_some, Option.some.injEq] at hl
      subst hl
      exact lookupM_unsigned rest k c _ h.2 hr
    | none =>
      rw [hr, Option.orElse_none] at hl
      split at hl
      · exact lookup_unsigned v c x h.1 hl
      · cases hl
end

mutual
/-- Where the filters are total, every filter is defined on every object of every document; without negative numbers the document is
decided. -/
theorem decided_of_total {N L : Type} (A : Arith N L) (num : List Char → N) : ∀ (v : J) (p : List (QStep L)),
    totalPath A p = true → v.unsigned = true → v.decided A num p = true
  | v, [], _, _ => by cases v <;> rfl
  | .obj _ ms, .prop k :: p, h, hu => by
    rw [J.decided]
    exact decidedM_of_total A num ms k p (by simpa [totalPath] using h) (by simpa [J.unsigned] using hu)
  | .arr _ es, .all :: p, h, hu => by
    rw [J.decided]
    exact decidedE_of_total A num es none p (by intro e he; cases he) (by simpa [totalPath] using h) (by simpa [J.unsigned] using hu)
  | .arr _ es, .filter e :: p, h, hu => by
    rw [J.decided]
    simp only [totalPath, List.all_cons, Bool.and_eq_true] at h
    exact decidedE_of_total A num es (some e) p (by rintro _ ⟨⟩; exact h.1) h.2 (by simpa [J.unsigned] using hu)
  | .obj _ _, .all :: _, _, _ => rfl
  | .obj _ _, .filter _ :: _, _, _ => rfl
  | .arr _ _, .prop _ :: _, _, _ => rfl
  | .lit _, s :: _, _, _ => by cases s <;> (unfold J.decided; rfl)
  | .str _, s :: _, _, _ => by cases s <;> (unfold J.decided; rfl)
theorem decidedE_of_total {N L : Type} (A : Arith N L) (num : List Char → N) : ∀ (es : Elems) (t : Option (Expr L))
    (p : List (QStep L)), (∀ e, t = some e → e.total A = true) → totalPath A p = true → es.unsigned = true →
    es.decided A num t p = true
  | .nil, _, _, _, _, _ => rfl
  | .cons _ v _ rest, t, p, ht, h, hu => by
    simp only [Elems.unsigned, Bool.and_eq_true] at hu
    have h1 := decided_of_total A num v p h hu.1
    have h2 := decidedE_of_total A num rest t p ht h hu.2
    unfold Elems.decided
    rw [h1, h2, Bool.and_true, Bool.and_true]
    split
    · rename_i e w ms
      obtain ⟨x, hx⟩ := total_eval A (J.property num (.obj w ms)) e (ht e rfl)
      rw [Expr.judges, Expr.on, hx, Option.isSome_some, Bool.true_and, Expr.unsigned, List.all_eq_true]
      intro c _
      cases hl : (J.obj w ms).lookup c with
      | none => rfl
      | some y => simp only [lookup_unsigned _ c y hu.1 hl]; rfl
    · rfl
theorem decidedM_of_total {N L : Type} (A : Arith N L) (num : List Char → N) : ∀ (ms : Members) (k : List Char)
    (p : List (QStep L)), totalPath A p = true → ms.unsigned = true → ms.decided A num k p = true
  | .nil, _, _, _, _ => rfl
  | .cons _ m _ _ v _ rest, k, p, h, hu => by
    simp only [Members.unsigned, Bool.and_eq_true] at hu
    rw [Members.decided, decided_of_total A num v p h hu.1, decidedM_of_total A num rest k p h hu.2, Bool.or_true, Bool.and_true]
end

/-! ### The evaluator -/

/-- The evaluator where every property is a string: a value that is a number is that of a constant expression, and the expression is
total. -/
theorem total_of_strings {O : NumOps} : ∀ (e : Expr Num) (x : Value O),
    calculate O (fun _ => .str []) (withVars e) = some x →
    e.total (arith O) = true ∧ x ≠ .null ∧ ∀ n, x = .num n → e.const (arith O) = some n
  | .prop _, x, h => by
    simp only [withVars, calculate, Option.some.injEq] at h; subst h
    exact ⟨rfl, by simp, by simp⟩
  | .str _, x, h => by
    simp only [withVars, calculate, Option.some.injEq] at h; subst h
    exact ⟨rfl, by simp, by simp⟩
  | .num n, x, h => by
    simp only [withVars, calculate, Option.some.injEq] at h; subst h
    refine ⟨rfl, by simp, ?_⟩
    intro m hm
    simp only [Value.num.injEq] at hm; subst hm; rfl
  | .not e, x, h => by
    simp only [withVars, calculate, Option.map_eq_some_iff] at h
    obtain ⟨y, hy, rfl⟩ := h
    exact ⟨(total_of_strings e y hy).1, by simp, by simp⟩
  | .bin o a b, x, h => by
    simp only [withVars, calculate] at h
    cases ha : calculate O (fun _ => .str []) (withVars a) with
    | none => rw [ha] at h; cases h
    | some y =>
      cases hb : calculate O (fun _ => .str []) (withVars b) with
      | none => rw [ha, hb] at h; cases h
      | some z =>
        rw [ha, hb] at h
        obtain ⟨a1, a2, a3⟩ := total_of_strings a y ha
        obtain ⟨b1, b2, b3⟩ := total_of_strings b z hb
        simp only at h
        by_cases ho : o.isLogical = true
        · rw [Expr.total, if_pos ho, a1, b1]
          cases o <;> simp [BOp.isLogical] at ho
          all_goals
            simp only [Op.ofSpec, binary, Option.some.injEq] at h
            subst h
            exact ⟨rfl, by simp, by simp⟩
        · rw [Expr.total, if_neg ho]
          cases o <;> simp [BOp.isLogical] at ho
          all_goals
            simp only [Op.ofSpec, binary, onNums] at h
            cases y <;> simp only [Value.asNum, reduceCtorEq] at h
            · exact absurd rfl a2
            cases z <;> simp only [reduceCtorEq] at h
            · exact absurd rfl b2
            rw [a3 _ rfl, b3 _ rfl]
            rename_i m k
            simp only [Expr.const, a3 m rfl, b3 k rfl]
          all_goals first
            | (simp only [Option.some.injEq] at h; subst h
               refine ⟨rfl, by simp, ?_⟩
               intro n hn
               simp only [Value.num.injEq, reduceCtorEq] at hn
               try (subst hn; rfl))
            | (simp only [Option.map_eq_some_iff] at h
               obtain ⟨r, hr, rfl⟩ := h
               have hr' : (arith O).mod m k = some r := hr
               refine ⟨by simp [hr'], by simp, ?_⟩
               intro n hn
               simp only [Value.num.injEq] at hn
               subst hn; exact hr')

/-- The value depends on the tested properties only. -/
theorem calculate_congr {O : NumOps} {f g : Str → Value O} : ∀ e : Expr Num, (∀ p ∈ e.props, g (joinPath p) = f (joinPath p)) →
    calculate O f (withVars e) = calculate O g (withVars e)
  | .prop p, h => by simp only [withVars, calculate, h p (by simp [Expr.props])]
  | .str _, _ => rfl
  | .num _, _ => rfl
  | .not e, h => by simp only [withVars, calculate, calculate_congr e h]
  | .bin o a b, h => by
    simp only [withVars, calculate, calculate_congr a (fun p hp => h p (by simp [Expr.props, hp])),
      calculate_congr b (fun p hp => h p (by simp [Expr.props, hp]))]

/-- The claim of C59: every filter expression has a value on every element. -/
def C59Full : Prop := ∀ (O : NumOps) (e : Expr Num), (∀ p ∈ e.props, p ≠ [] ∧ ∀ s ∈ p, '.' ∉ s) →
  ∀ text : List Str → Option Str, ∃ b, evaluate O (modRef (exprTree e)) (condsOf e.props text) = some b

/-- **C59** An expression is decided on every element exactly if orderings and arithmetic occur between constants only. -/
theorem c59_exact (O : NumOps) (e : Expr Num) (hp : ∀ p ∈ e.props, p ≠ [] ∧ ∀ s ∈ p, '.' ∉ s) :
    (∀ text : List Str → Option Str, ∃ b, evaluate O (modRef (exprTree e)) (condsOf e.props text) = some b) ↔
      e.total (arith O) = true := by
  constructor
  · intro h
    obtain ⟨b, hb⟩ := h fun _ => some ['"', '"']
    rw [c28_rewrites e fun p hm => (hp p hm).1, evaluate, Option.map_eq_some_iff] at hb
    obtain ⟨x, hx, _⟩ := hb
    refine (total_of_strings e x ?_).1
    rw [← hx]
    exact calculate_congr e fun p hm => by rw [condsOf_value _ _ p hm hp]; rfl
  · intro h text
    obtain ⟨x, hx⟩ := total_eval (arith O) (fun p => textValue O (text p)) e h
    exact ⟨_, by rw [c26_semantics O e e.props text hp (fun _ h => h), hx]; rfl⟩

/-- `!(@.a == "x") || 1 + 2 < 4` is total; `@.a < 1` and `5 % 0 == 1` are not. -/
example : (Expr.bin .or (.not (.bin .eq (.prop [['a']]) (.str ['x']))) (.bin .lt (.bin .add (.num ⟨false, 1, []⟩) (.num ⟨false, 2, []⟩))
      (.num ⟨false, 4, []⟩))).total (arith intOps) = true ∧
    (Expr.bin .lt (.prop [['a']]) (.num ⟨false, 1, []⟩)).total (arith intOps) = false ∧
    (Expr.bin .eq (.bin .mod (.num ⟨false, 5, []⟩) (.num ⟨false, 0, []⟩)) (.num ⟨false, 1, []⟩)).total (arith intOps) = false := by
  decide

/-- **C59 is false**: on an element whose `a` is a string the test `@.a < 1` compares the bytes of a pointer. -/
theorem c59_false : ¬ C59Full := by
  intro h
  have := (c59_exact intOps (.bin .lt (.prop [['a']]) (.num ⟨false, 1, []⟩)) (by decide)).1 (h intOps _ (by decide))
  revert this
  decide

/-- **C59** A test of the operands does not protect: both sides of `&&` and `||` are evaluated first, so where one side has no value
the whole has none. -/
theorem c59_unguarded (O : NumOps) (o : Op) (g e : Ast) (cs : Conds) (h : evaluate O e cs = none) :
    evaluate O (.bin o g e) cs = none ∧ evaluate O (.bin o e g) cs = none := by
  unfold evaluate at h ⊢
  rw [Option.map_eq_none_iff] at h
  constructor
  · simp only [calculate, h]
    cases calculate O (cs.value O) g <;> rfl
  · simp only [calculate, h]; rfl

/-- `$[?(@.y != 0 && 7 % @.y == 1)].b` -/
def exGuard : List (QStep Num) := [.filter (.bin .and (.bin .ne (.prop [['y']]) (.num ⟨false, 0, []⟩))
  (.bin .eq (.bin .mod (.num ⟨false, 7, []⟩) (.prop [['y']])) (.num ⟨false, 1, []⟩))), .prop ['b']]

/-- **C59 is false of whole runs**: `$[?(@.y != 0 && 7 % @.y == 1)].b` on `[{"y": 0 ,"b": 1 }]` and on `[{"b": 1 }]` takes a remainder by
zero. -/
theorem c59_false_remainder : FilterQuery exGuard ∧ ¬ clean intOps (fAst exGuard) "[{\"y\": 0 ,\"b\": 1 }]".toList ∧
    ¬ clean intOps (fAst exGuard) "[{\"b\": 1 }]".toList := by
  have key : ∀ f : Str, (serialRun intOps MEMORY_FOOTPRINT (fAst exGuard) f).map (·.pf.ub) = some true →
      ¬ clean intOps (fAst exGuard) f := by
    intro f h hc
    cases hr : serialRun intOps MEMORY_FOOTPRINT (fAst exGuard) f with
    | none => rw [hr] at h; cases h
    | some r =>
      rw [hr] at h
      have := (hc r hr).2
      simp [this] at h
  refine ⟨⟨rfl, rfl, rfl, ⟨rfl, by unfold cleanName; decide⟩, by decide, by decide⟩, key _ (by decide +kernel), key _ (by decide +kernel)⟩

/-- **C59** Queries whose filters are total are decided on every document: the run meets no undefined behaviour and returns the
selection.  Of the values of the document only that no number is negative is assumed. -/
theorem c59_run_partial (O : NumOps) (p : List (QStep Num)) (hq : FilterQuery p) (hp : totalPath (arith O) p = true)
    (pre trail : Str) (v : J) (h : Readable pre trail v) (ht : v.tidy = true)
    (hu : v.unsigned = true) (hw : v.within 998 = true) (hl : v.tokenCount ≤ MAX_TUPLE_LIST)
    (hn : (v.select (arith O) O.atof (unfiltered p)).length ≤ MAX_OUTPUT)
    (hx : ∀ x ∈ v.select (arith O) O.atof (unfiltered p), x.render.length ≤ 998) :
    results O (fAst p) (pre ++ v.render ++ trail) = some ((v.select (arith O) O.atof p).map J.render) ∧
      clean O (fAst p) (pre ++ v.render ++ trail) :=
  ⟨c03_select_partial O p hq pre trail v h ht (decided_of_total _ _ v p hp hu),
    c35_filter_partial O p hq pre trail v h ht (decided_of_total _ _ v p hp hu) hw hl hn hx⟩

/-- `$.a[?(@.x == "s")].c` -/
def exTotalPath : List (QStep Num) := [.prop ['a'], .filter (.bin .eq (.prop [['x']]) (.str ['s'])), .prop ['c']]

/-- `{"a": [{"x": "s","c": 1 },{"x": true ,"c": 2 },{"c": 3 }]}` -/
def exTotalDoc : J :=
  .obj [] (.cons [] ['a'] [] [' '] (.arr [] (
    .cons [] (.obj [] (.cons [] ['x'] [] [' '] (.str ['s']) [] (.cons [] ['c'] [] [' '] (C03.lit "1") [' '] .nil))) []
    (.cons [] (.obj [] (.cons [] ['x'] [] [' '] (C03.lit "true") [' '] (.cons [] ['c'] [] [' '] (C03.lit "2") [' '] .nil))) []
    (.cons [] (.obj [] (.cons [] ['c'] [] [' '] (C03.lit "3") [' '] .nil)) [] .nil)))) [] .nil)

/-- The hypotheses of `c59_run_partial` hold for it. -/
example (O : NumOps) : FilterQuery exTotalPath ∧ totalPath (arith O) exTotalPath = true ∧ Readable [] ['\n'] exTotalDoc ∧
    exTotalDoc.tidy = true ∧ exTotalDoc.unsigned = true ∧ exTotalDoc.within 998 = true ∧ exTotalDoc.tokenCount ≤ MAX_TUPLE_LIST ∧
    exTotalDoc.select (arith O) O.atof (unfiltered exTotalPath) = [C03.lit "1", C03.lit "2", C03.lit "3"] ∧
    exTotalDoc.select (arith O) O.atof exTotalPath = [C03.lit "1"] :=
  ⟨⟨rfl, rfl, rfl, ⟨rfl, by unfold cleanName; decide⟩, by decide, by decide⟩, rfl,
    ⟨by decide, by decide, by decide, by decide, by decide, by decide, by decide, by decide⟩, by decide, by decide, by decide, by decide,
    by with_unfolding_all rfl, by with_unfolding_all rfl⟩

end JPS
