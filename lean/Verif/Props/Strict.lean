import Verif.Props.Capacity
import Verif.Props.FilterRun
/-!
# C03, C27: orderings of missing properties

`arith O` reads a missing or null value as zero in orderings and arithmetic, as the evaluator does.  In the strict reading such an
operation has no value.  Where the strict reading decides a document, the two agree.
-/

set_option autoImplicit false

namespace JPS
open Spec

section
variable {N L : Type} (A : Arith N L)

theorem strict_truth (v : SV N) : v.truth A.strict = v.truth A := by cases v <;> rfl

theorem strict_equal (v w : SV N) : v.equal A.strict w = v.equal A w := by cases v <;> cases w <;> rfl

theorem strict_number (v : SV N) (n : N) (h : v.number A.strict = some n) : v.number A = some n := by
  cases v <;> simp [SV.number, Arith.strict] at h ⊢
  exact h

theorem strict_with (v w : SV N) (f : N → N → Option (SV N)) (x : SV N) (h : withNumbers A.strict v w f = some x) :
    withNumbers A v w f = some x := by
  unfold withNumbers at h ⊢
  cases hv : v.number A.strict with
  | none => rw [hv] at h; cases h
  | some a =>
    cases hw : w.number A.strict with
    | none => rw [hv, hw] at h; cases h
    | some b =>
      rw [hv, hw] at h
      rw [strict_number A v a hv, strict_number A w b hw]
      exact h

theorem strict_apply (o : BOp) (v w x : SV N) (h : o.apply A.strict v w = some x) : o.apply A v w = some x := by
  cases o with
  | or => simpa only [BOp.apply, strict_truth] using h
  | and => simpa only [BOp.apply, strict_truth] using h
  | eq => simpa only [BOp.apply, strict_equal] using h
  | ne => simpa only [BOp.apply, strict_equal] using h
  | _ => exact strict_with A v w _ x h

/-- A value in the strict reading is the value. -/
theorem strict_eval (env : List Str → SV N) : ∀ (e : Expr L) (x : SV N), e.eval A.strict env = some x → e.eval A env = some x
  | .prop _, _, h => h
  | .str _, _, h => h
  | .num _, _, h => h
  | .not e, x, h => by
    simp only [Expr.eval, Option.map_eq_some_iff] at h ⊢
    obtain ⟨y, hy, rfl⟩ := h
    exact ⟨y, strict_eval env e y hy, by rw [strict_truth]⟩
  | .bin o a b, x, h => by
    simp only [Expr.eval] at h ⊢
    cases ha : a.eval A.strict env with
    | none => rw [ha] at h; cases h
    | some y =>
      cases hb : b.eval A.strict env with
      | none => rw [ha, hb] at h; cases h
      | some z =>
        rw [ha, hb] at h
        rw [strict_eval env a y ha, strict_eval env b z hb]
        exact strict_apply A o y z x h

variable (num : List Char → N)

theorem strict_judges (e : Expr L) (v : J) (h : e.judges A.strict num v = true) :
    e.judges A num v = true ∧ e.holds A.strict num v = e.holds A num v := by
  rw [Expr.judges, Bool.and_eq_true] at h ⊢
  obtain ⟨x, hx⟩ := Option.isSome_iff_exists.1 h.1
  have hy : e.on A num v = some x := strict_eval A _ e x hx
  refine ⟨⟨by rw [hy]; rfl, h.2⟩, ?_⟩
  unfold Expr.holds
  rw [hx, hy]
  exact strict_truth A x

/-- Nothing is selected by a name in what is not an object. -/
theorem select_nonobj (B : Arith N L) {v : J} (h : ∀ w ms, v ≠ .obj w ms) (k : Str) (p : List (QStep L)) :
    v.select B num (.prop k :: p) = [] := by
  cases v with
  | obj w ms => exact absurd rfl (h w ms)
  | _ => simp [J.select]

mutual
/-- A document that the strict reading decides is decided, and the same values are selected. -/
theorem strict_select : ∀ (v : J) (p : List (QStep L)), namedAfterFilter p = true → v.decided A.strict num p = true →
    v.decided A num p = true ∧ v.select A.strict num p = v.select A num p
  | v, [], _, _ => by cases v <;> exact ⟨by simp [J.decided], by simp [J.select]⟩
  | .obj _ ms, .prop k :: p, hn, h => by
    rw [J.decided] at h ⊢
    rw [J.select, J.select]
    exact strict_selectM ms k p hn h
  | .arr _ es, .all :: p, hn, h => by
    rw [J.decided] at h ⊢
    rw [J.select, J.select]
    exact strict_selectE es none p (by simp) hn h
  | .arr _ es, .filter e :: p, hn, h => by
    rw [J.decided] at h ⊢
    rw [J.select, J.select]
    match p, hn with
    | .prop k :: p, hn => exact strict_selectE es (some e) _ (fun _ => ⟨k, p, rfl⟩) hn h
  | .obj _ _, .all :: _, _, _ => ⟨by simp [J.decided], by simp [J.select]⟩
  | .obj _ _, .filter _ :: _, _, _ => ⟨by simp [J.decided], by simp [J.select]⟩
  | .arr _ _, .prop _ :: _, _, _ => ⟨by simp [J.decided], by simp [J.select]⟩
  | .lit _, s :: _, _, _ => by cases s <;> exact ⟨by simp [J.decided], by simp [J.select]⟩
  | .str _, s :: _, _, _ => by cases s <;> exact ⟨by simp [J.decided], by simp [J.select]⟩
theorem strict_selectE : ∀ (es : Elems) (t : Option (Expr L)) (p : List (QStep L)),
    (t ≠ none → ∃ k q, p = .prop k :: q) → namedAfterFilter p = true → es.decided A.strict num t p = true →
    es.decided A num t p = true ∧ es.select A.strict num t p = es.select A num t p
  | .nil, _, _, _, _, _ => by exact ⟨by simp [Elems.decided], by simp [Elems.select]⟩
  | .cons pre v post rest, t, p, ht, hn, h => by
    unfold Elems.decided at h
    rw [Bool.and_eq_true, Bool.and_eq_true] at h
    obtain ⟨⟨h1, h2⟩, h3⟩ := h
    obtain ⟨a1, a2⟩ := strict_select v p hn h2
    obtain ⟨b1, b2⟩ := strict_selectE rest t p ht hn h3
    unfold Elems.decided Elems.select
    rw [a1, b1, a2, b2, Bool.and_true, Bool.and_true]
    cases t with
    | none => exact ⟨by cases v <;> rfl, rfl⟩
    | some e =>
      by_cases hv : ∃ w ms, v = .obj w ms
      · obtain ⟨w, ms, rfl⟩ := hv
        obtain ⟨c1, c2⟩ := strict_judges A num e _ h1
        exact ⟨c1, by rw [passes, passes, c2]⟩
      · have hv' : ∀ w ms, v ≠ .obj w ms := fun w ms hh => hv ⟨w, ms, hh⟩
        obtain ⟨k, q, rfl⟩ := ht (by simp)
        rw [select_nonobj num A hv']
        refine ⟨?_, by simp⟩
        cases v with
        | obj w ms => exact absurd rfl (hv' w ms)
        | _ => rfl
theorem strict_selectM : ∀ (ms : Members) (k : List Char) (p : List (QStep L)), namedAfterFilter p = true →
    ms.decided A.strict num k p = true → ms.decided A num k p = true ∧ ms.select A.strict num k p = ms.select A num k p
  | .nil, _, _, _, _ => by exact ⟨by simp [Members.decided], by simp [Members.select]⟩
  | .cons pre m mid pre2 v post rest, k, p, hn, h => by
    rw [Members.decided, Bool.and_eq_true, Bool.or_eq_true] at h
    obtain ⟨h1, h2⟩ := h
    obtain ⟨b1, b2⟩ := strict_selectM rest k p hn h2
    rw [Members.decided, Members.select, Members.select, b1, b2]
    by_cases hm : m = k
    · obtain ⟨a1, a2⟩ := strict_select v p hn (h1.resolve_left (by simp [hm]))
      rw [a1, a2]
      exact ⟨by simp, rfl⟩
    · exact ⟨by simp [hm], by simp [hm]⟩
end
end

/-- **C03** In the strict reading: on a document that it decides, the serial run returns exactly what it selects.  The documents of
`c03_select_partial` are more: there a missing or null value may also be ordered, and is read as zero. -/
theorem c03_strict_partial (O : NumOps) (p : List (QStep Num)) (hq : FilterQuery p) (pre trail : Str) (v : J)
    (h : Readable pre trail v) (ht : v.tidy = true) (hd : v.decided (arith O).strict O.atof p = true) :
    results O (fAst p) (pre ++ v.render ++ trail) = some ((v.select (arith O).strict O.atof p).map J.render) := by
  obtain ⟨h1, h2⟩ := strict_select (arith O) O.atof v p hq.named hd
  rw [h2]
  exact c03_select_partial O p hq pre trail v h ht h1

/-- The case of `c03_select_partial` is decided in the strict reading, too. -/
example : C03.doc.decided (arith intOps).strict intOps.atof C03.path = true ∧
    C03.doc.select (arith intOps).strict intOps.atof C03.path = [C03.lit "1"] :=
  ⟨by with_unfolding_all rfl, by with_unfolding_all rfl⟩

/-- `$[?(@.p < 10)].b` -/
def exBlankPath : List (QStep Num) := [.filter (.bin .lt (.prop [['p']]) (.num ⟨false, 10, []⟩)), .prop ['b']]

/-- `[{"b": 1 }]` -/
def exBlankDoc : J := .arr [] (.cons [] (.obj [] (.cons [] ['b'] [] [' '] (C03.lit "1") [' '] .nil)) [] .nil)

/-- `c03_select_partial` applies to it, the strict reading does not. -/
example : FilterQuery exBlankPath ∧ Readable [] [] exBlankDoc ∧ exBlankDoc.tidy = true ∧
    exBlankDoc.decided (arith intOps) intOps.atof exBlankPath = true ∧
    exBlankDoc.decided (arith intOps).strict intOps.atof exBlankPath = false :=
  ⟨⟨rfl, rfl, rfl, ⟨rfl, by unfold cleanName; decide⟩, by decide, by decide⟩,
    ⟨by decide, by decide, by decide, by decide, by decide, by decide, by decide, by decide⟩, by decide,
    by with_unfolding_all rfl, by with_unfolding_all rfl⟩

/-- **C27 is false of whole runs**: `$[?(@.p < 10)].b` on `[{"b": 1 }]` returns 1, although the element has no `p`; in the strict reading
nothing is selected. -/
theorem c27_false_run : results intOps (fAst exBlankPath) exBlankDoc.render = some [['1']] ∧
    exBlankDoc.select (arith intOps).strict intOps.atof exBlankPath = [] :=
  ⟨by decide +kernel, by with_unfolding_all rfl⟩

/-- `$[?(@.p < 0)].b` -/
def exSignPath : List (QStep Num) := [.filter (.bin .lt (.prop [['p']]) (.num ⟨false, 0, []⟩)), .prop ['b']]

/-- `[{"p": -5 ,"b": 1 }]` -/
def exSignDoc : J :=
  .arr [] (.cons [] (.obj [] (.cons [] ['p'] [] [' '] (C03.lit "-5") [' '] (.cons [] ['b'] [] [' '] (C03.lit "1") [' '] .nil))) [] .nil)

/-- Integers as numbers, where `atof` reads a sign. -/
def signedOps : NumOps := { intOps with
  atof := fun s => match s with
    | '-' :: r => (Int.neg (intOps.atof r) : Int)
    | s => intOps.atof s }

/-- **C03 is false for negative numbers**: `$[?(@.p < 0)].b` on `[{"p": -5 ,"b": 1 }]` selects 1, but nothing is returned. -/
theorem c03_false_negative : results signedOps (fAst exSignPath) exSignDoc.render = some [] ∧
    exSignDoc.select (arith signedOps) signedOps.atof exSignPath = [C03.lit "1"] :=
  ⟨by decide +kernel, by with_unfolding_all rfl⟩

end JPS
