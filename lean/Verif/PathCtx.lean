import Verif.TableProofs
import Verif.Spec.Path
/-!
# The compilation context of a path without filters
-/

namespace JPS
open Spec

/-- The number token for a slice bound (grammar `Number`, parser_j.y:101-103). -/
def numLit (i : Int) : Num := ⟨decide (i < 0), i.natAbs, []⟩

theorem numLit_toInt (i : Int) : (numLit i).toInt = i := by
  unfold numLit Num.toInt
  by_cases h : i < 0 <;> simp [h] <;> omega

/-- The tree of one more step (`LocationPath`, parser_j.y:54-58; `Predicate`, 64-71). -/
def astStep (t : Ast) : Step → Ast
  | .dotAll => .concat t .wildcard
  | .descAll => .parentConcat t .wildcard
  | .prop k => .concat t (.id k)
  | .descProp k => .parentConcat t (.id k)
  | .all => .predicate t .wildcard
  | .slice a b => .predicate t (.range (a.map numLit) (b.map numLit))

/-- The tree the parser builds for a path (left-associated, parser_j.y:54-58). -/
def astOf (p : List Step) : Ast := p.foldl astStep .root

/-- Bounds as stored by the compiler, dfa_builder.cpp:239-243. -/
def sliceLo (a : Option Int) : Int := a.getD intMin
/-- See `sliceLo`. -/
def sliceHi (b : Option Int) : Int := b.getD intMax

/-- The stack element of a step. -/
def seOf : Step → SE
  | .dotAll => .dotAll
  | .descAll => .parentAll
  | .prop k => .dotProp k
  | .descProp k => .parentProp k
  | .all => .arrayAll
  | .slice a b => .arrayIndex (sliceLo a) (sliceHi b)

/-- Slices. -/
def isSlice : Step → Bool
  | .slice _ _ => true
  | _ => false

/-- Index range of a path: that of its last step. -/
def rangeOf (p : List Step) : Int × Int :=
  match p.getLast? with
  | some (.slice a b) => (sliceLo a, sliceHi b)
  | _ => (0, 0)

/-- Does a path end in a slice? -/
def endsSlice (p : List Step) : Bool := (p.getLast?.map isSlice).getD false

/-- Prefixes of `pre ++ p` longer than `pre` that end in a slice. -/
def slicePrefs (pre : List Step) : List Step → List (List Step)
  | [] => []
  | s :: r => (if isSlice s then [pre ++ [s]] else []) ++ slicePrefs (pre ++ [s]) r

theorem slicePrefs_snoc (pre p : List Step) (s : Step) :
    slicePrefs pre (p ++ [s]) = slicePrefs pre p ++ (if isSlice s then [pre ++ p ++ [s]] else []) := by
  induction p generalizing pre with
  | nil => simp [slicePrefs]
  | cons x p ih => simp [slicePrefs, ih]

/-- Effect of one step on the context. -/
def ctxStep (c : SCtx) (s : Step) : SCtx :=
  match s with
  | .slice a b =>
    let c := ((c.push (.arrayIndex (sliceLo a) (sliceHi b))).createDfa false).1
    { c with ranges := c.ranges.set (c.rules.length - 1) (sliceLo a, sliceHi b) }
  | s => c.push (seOf s)

theorem construct_astStep (t : Ast) (s : Step) (c : SCtx) :
    construct (astStep t s) c = ctxStep (construct t c) s := by
  cases s with
  | slice a b =>
    have ha : (((a.map numLit).map Num.toInt).getD intMin) = sliceLo a := by
      cases a <;> simp [sliceLo, numLit_toInt]
    have hb : (((b.map numLit).map Num.toInt).getD intMax) = sliceHi b := by
      cases b <;> simp [sliceHi, numLit_toInt]
    simp only [astStep, construct, constructRight, ctxStep, ha, hb]
  | _ => rfl

theorem construct_astOf (p : List Step) (c : SCtx) : construct (astOf p) c = p.foldl ctxStep c := by
  have gen : ∀ (p : List Step) (t : Ast), construct (p.foldl astStep t) c = p.foldl ctxStep (construct t c) := by
    intro p
    induction p with
    | nil => intro t; rfl
    | cons s p ih => intro t; simp only [List.foldl_cons, ih, construct_astStep]
  exact gen p .root

/-! ### Names -/

/-- All names of `p` are registered. -/
def Named (names : List Str) (p : List Step) : Prop := ∀ s ∈ p, ∀ k, stepName s = some k → k ∈ names

theorem addName_spec (names : List Str) (s : Step) :
    ∃ ext, addName names (seOf s) = names ++ ext ∧ ext.length ≤ 1 ∧
      (names.Nodup → (names ++ ext).Nodup) ∧ (∀ k, stepName s = some k → k ∈ names ++ ext) := by
  have hadd : ∀ k : Str, ∃ ext, (if k ∈ names then names else names ++ [k]) = names ++ ext ∧ ext.length ≤ 1 ∧
      (names.Nodup → (names ++ ext).Nodup) ∧ k ∈ names ++ ext := by
    intro k
    by_cases h : k ∈ names
    · exact ⟨[], by simp [h], by simp, by simp, by simp [h]⟩
    · refine ⟨[k], by simp [h], by simp, ?_, by simp⟩
      intro hn
      rw [List.nodup_append]
      refine ⟨hn, by simp, ?_⟩
      intro a ha b hb
      simp at hb; subst hb; intro he; subst he; exact h ha
  have hnil : ∃ ext, names = names ++ ext ∧ ext.length ≤ 1 ∧ (names.Nodup → (names ++ ext).Nodup) ∧
      (∀ k, (none : Option Str) = some k → k ∈ names ++ ext) :=
    ⟨[], by simp, by simp, by simp, by simp⟩
  cases s with
  | prop k =>
    obtain ⟨e, h1, h2, h3, h4⟩ := hadd k
    exact ⟨e, h1, h2, h3, by intro x hx; cases hx; exact h4⟩
  | descProp k =>
    obtain ⟨e, h1, h2, h3, h4⟩ := hadd k
    exact ⟨e, h1, h2, h3, by intro x hx; cases hx; exact h4⟩
  | _ => exact hnil

theorem addNames_spec (p : List Step) (names : List Str) :
    ∃ ext, (p.map seOf).foldl addName names = names ++ ext ∧
      (names.Nodup → (names ++ ext).Nodup) ∧ Named (names ++ ext) p := by
  induction p generalizing names with
  | nil => exact ⟨[], by simp, by simp, by intro s hs; simp at hs⟩
  | cons s p ih =>
    obtain ⟨e1, h1, _, h3, h4⟩ := addName_spec names s
    obtain ⟨e2, g1, g2, g3⟩ := ih (names ++ e1)
    refine ⟨e1 ++ e2, by simp [h1, g1], ?_, ?_⟩
    · intro h; rw [← List.append_assoc]; exact g2 (h3 h)
    · intro s' hs' k hk
      rw [← List.append_assoc]
      rcases List.mem_cons.1 hs' with rfl | hs'
      · exact List.mem_append_left _ (h4 k hk)
      · exact g3 s' hs' k hk

/-- Registered names all come from the path. -/
theorem addNames_from (p : List Step) (names : List Str) :
    ∀ k ∈ (p.map seOf).foldl addName names, k ∈ names ∨ ∃ s ∈ p, stepName s = some k := by
  induction p generalizing names with
  | nil => intro k hk; exact .inl hk
  | cons s p ih =>
    intro k hk
    simp only [List.map_cons, List.foldl_cons] at hk
    rcases ih _ k hk with h | ⟨s', h1, h2⟩
    · have : k ∈ names ∨ stepName s = some k := by
        cases s <;> simp only [seOf, addName] at h
        all_goals first
          | exact .inl h
          | (split at h
             · exact .inl h
             · rcases List.mem_append.1 h with h | h
               · exact .inl h
               · simp at h; subst h; exact .inr rfl)
      rcases this with h | h
      · exact .inl h
      · exact .inr ⟨s, by simp, h⟩
    · exact .inr ⟨s', by simp [h1], h2⟩

/-- The items of a path. -/
def itemsOf (names : List Str) (p : List Step) : List Item :=
  (p.map seOf).flatMap (SE.items names)

theorem nameCol_append {names : List Str} {k : Str} (h : k ∈ names) (ext : List Str) :
    nameCol (names ++ ext) k = nameCol names k := by
  simp [nameCol, List.idxOf_append, h]

theorem itemsOf_append {names : List Str} {p : List Step} (h : Named names p) (ext : List Str) :
    itemsOf (names ++ ext) p = itemsOf names p := by
  unfold itemsOf
  induction p with
  | nil => rfl
  | cons s p ih =>
    have hp := ih (fun s' hs' => h s' (by simp [hs']))
    simp only [List.map_cons, List.flatMap_cons, hp]
    congr 1
    have hs := h s (by simp)
    cases s <;> simp only [seOf, SE.items]
    · rw [nameCol_append (hs _ rfl)]
    · rw [nameCol_append (hs _ rfl)]

theorem Named.append {names : List Str} {p : List Step} (h : Named names p) (ext : List Str) :
    Named (names ++ ext) p := fun s hs k hk => List.mem_append_left _ (h s hs k hk)

/-! ### The invariant of `construct_dfa` -/

theorem text_pos (s : Step) : 0 < (seOf s).text.length := by
  cases s <;> simp [seOf, SE.text]

theorem getOutput_lt (p r : List Step) (hr : r ≠ []) :
    (getOutput (p.map seOf)).length < (getOutput ((p ++ r).map seOf)).length := by
  cases r with
  | nil => exact absurd rfl hr
  | cons s r =>
    have := text_pos s
    simp only [getOutput, List.map_append, List.map_cons, List.flatMap_append, List.flatMap_cons,
      List.length_cons, List.length_append]
    omega

/-- The registered prefixes `Q` of a path, their rules and ranges. -/
structure CtxInv (p : List Step) (Q : List (List Step)) (c : SCtx) : Prop where
  st : c.st = p.map seOf
  rules : c.rules = Q.map (itemsOf c.names)
  ranges : c.ranges = Q.map rangeOf
  trees : c.trees = Q.map (fun _ => none)
  mapping : c.mapping = []
  named : ∀ q ∈ Q, Named c.names q
  nodup : c.names.Nodup
  from_ : ∀ k ∈ c.names, ∃ s ∈ p, stepName s = some k
  check : ∀ t ∈ c.check, ∃ q ∈ Q, t = getOutput (q.map seOf)
  pre : ∀ q ∈ Q, ∃ r, p = q ++ r

theorem CtxInv.create {p : List Step} {Q : List (List Step)} {c : SCtx} (h : CtxInv p Q c)
    (hfresh : ∀ q ∈ Q, q ≠ p) :
    (c.createDfa false).2 = false ∧ (c.createDfa false).1.lastGen = some true ∧
    (c.createDfa false).1.lastId = some (c.createDfa false).1.rules.length ∧
    (c.createDfa false).1.rules.length = Q.length + 1 ∧
    CtxInv p (Q ++ [p]) { (c.createDfa false).1 with ranges := (Q ++ [p]).map rangeOf } ∧
    (c.createDfa false).1.ranges = Q.map rangeOf ++ [(0, 0)] := by
  have hnot : ¬ getOutput c.st ∈ c.check := by
    intro hm
    obtain ⟨q, hq, he⟩ := h.check _ hm
    obtain ⟨r, hr⟩ := h.pre q hq
    have hrne : r ≠ [] := by
      intro h0; subst h0; simp at hr; exact hfresh q hq hr.symm
    have := getOutput_lt q r hrne
    rw [← hr, ← h.st, ← he] at this
    omega
  obtain ⟨ext, e1, e2, e3⟩ := addNames_spec p c.names
  rw [← h.st] at e1
  unfold SCtx.createDfa
  rw [if_neg hnot]
  simp only [e1]
  refine ⟨trivial, trivial, by simp, by simp [h.rules], ⟨h.st, ?_, rfl, ?_, h.mapping, ?_, e2 h.nodup, ?_, ?_, ?_⟩, by simp [h.ranges]⟩
  · simp only [h.rules, List.map_append, List.map_cons, List.map_nil]
    congr 1
    · apply List.map_congr_left
      intro q hq
      exact (itemsOf_append (h.named q hq) ext).symm
    · simp only [itemsOf, h.st]
  · simp [h.trees]
  · intro q hq
    rcases List.mem_append.1 hq with hq | hq
    · exact (h.named q hq).append ext
    · simp at hq; subst hq; exact e3
  · intro k hk
    have := addNames_from p c.names k (by rw [← h.st, e1]; exact hk)
    rcases this with h' | h'
    · exact h.from_ k h'
    · exact h'
  · intro t ht
    rcases List.mem_append.1 ht with ht | ht
    · obtain ⟨q, hq, he⟩ := h.check t ht
      exact ⟨q, List.mem_append_left _ hq, he⟩
    · simp at ht; subst ht
      exact ⟨p, by simp, by rw [h.st]⟩
  · intro q hq
    rcases List.mem_append.1 hq with hq | hq
    · exact h.pre q hq
    · simp at hq; subst hq; exact ⟨[], by simp⟩

theorem CtxInv.push {p : List Step} {Q : List (List Step)} {c : SCtx} (h : CtxInv p Q c) (s : Step) :
    CtxInv (p ++ [s]) Q (c.push (seOf s)) := by
  refine ⟨by simp [SCtx.push, h.st], h.rules, h.ranges, h.trees, h.mapping, h.named, h.nodup, ?_, h.check, ?_⟩
  · intro k hk
    obtain ⟨s', h1, h2⟩ := h.from_ k hk
    exact ⟨s', by simp [h1], h2⟩
  · intro q hq
    obtain ⟨r, hr⟩ := h.pre q hq
    exact ⟨r ++ [s], by simp [hr]⟩

theorem CtxInv.slice {p : List Step} {Q : List (List Step)} {c : SCtx} (h : CtxInv p Q c)
    (a b : Option Int) :
    CtxInv (p ++ [.slice a b]) (Q ++ [p ++ [.slice a b]]) (ctxStep c (.slice a b)) ∧
    (ctxStep c (.slice a b)).lastGen = some true ∧
    (ctxStep c (.slice a b)).lastId = some (Q.length + 1) := by
  have hp := h.push (.slice a b)
  have hfresh : ∀ q ∈ Q, q ≠ p ++ [.slice a b] := by
    intro q hq he
    obtain ⟨r, hr⟩ := h.pre q hq
    rw [he] at hr
    have := congrArg List.length hr
    simp at this
  obtain ⟨g1, g2, g3, g4, g5, g6⟩ := hp.create hfresh
  have e : ctxStep c (.slice a b) =
      { ((c.push (seOf (.slice a b))).createDfa false).1 with ranges := (Q ++ [p ++ [Step.slice a b]]).map rangeOf } := by
    simp only [ctxStep]
    have : (SE.arrayIndex (sliceLo a) (sliceHi b)) = seOf (.slice a b) := rfl
    rw [this]
    have hr : (((c.push (seOf (.slice a b))).createDfa false).1.ranges.set
        (((c.push (seOf (.slice a b))).createDfa false).1.rules.length - 1) (sliceLo a, sliceHi b)) =
        (Q ++ [p ++ [Step.slice a b]]).map rangeOf := by
      rw [g6, g4, Nat.add_sub_cancel, List.set_append_right _ _ (by simp)]
      simp [rangeOf]
    rw [hr]
  rw [e]
  exact ⟨g5, g2, by rw [← g4]; exact g3⟩

theorem foldl_ctxStep (p : List Step) : ∃ c, p.foldl ctxStep .init = c ∧
    CtxInv p (slicePrefs [] p) c ∧
    c.lastGen = (if p = [] then none else some (endsSlice p)) ∧
    (endsSlice p = true → c.lastId = some (slicePrefs [] p).length) := by
  generalize hn : p.length = n
  induction n generalizing p with
  | zero =>
    have : p = [] := List.length_eq_zero_iff.1 hn
    subst this
    refine ⟨.init, rfl, ⟨rfl, rfl, rfl, rfl, rfl, by simp [slicePrefs], by simp [SCtx.init], by simp [SCtx.init],
      by simp [SCtx.init], by simp [slicePrefs]⟩, rfl, by simp [endsSlice]⟩
  | succ n ih =>
    obtain ⟨p, s, rfl⟩ : ∃ p' s, p = p' ++ [s] := by
      have hne : p ≠ [] := by intro h; rw [h] at hn; simp at hn
      exact ⟨p.dropLast, p.getLast hne, (List.dropLast_concat_getLast hne).symm⟩
    obtain ⟨c, h1, h2, h3, h4⟩ := ih p (by simpa using hn)
    rw [List.foldl_append, h1]
    refine ⟨_, rfl, ?_⟩
    rw [slicePrefs_snoc]
    simp only [List.foldl_cons, List.foldl_nil, List.nil_append]
    cases s with
    | slice a b =>
      obtain ⟨g1, g2, g3⟩ := h2.slice a b
      simp only [isSlice, if_true]
      exact ⟨g1, by simp [g2, endsSlice, isSlice], fun _ => by simp [g3]⟩
    | _ =>
      simp only [isSlice, Bool.false_eq_true, if_false, List.append_nil]
      refine ⟨h2.push _, by simp [ctxStep, SCtx.push, endsSlice, isSlice], by simp [endsSlice, isSlice]⟩

/-- The registered prefixes of a path: those ending in a slice and the path itself. -/
def prefsOf (p : List Step) : List (List Step) :=
  slicePrefs [] p ++ (if endsSlice p then [] else [p])

theorem mem_slicePrefs {pre p q : List Step} (h : q ∈ slicePrefs pre p) :
    endsSlice q = true ∧ ∃ q' r, p = q' ++ r ∧ q = pre ++ q' ∧ q' ≠ [] := by
  induction p generalizing pre with
  | nil => simp [slicePrefs] at h
  | cons s p ih =>
    simp only [slicePrefs, List.mem_append] at h
    rcases h with h | h
    · split at h
      · rename_i hs
        simp at h; subst h
        exact ⟨by simp [endsSlice, hs], [s], p, rfl, rfl, by simp⟩
      · simp at h
    · obtain ⟨h1, q', r, h2, h3, h4⟩ := ih h
      exact ⟨h1, s :: q', r, by simp [h2], by simp [h3], by simp⟩

/-- The finished context of a path. -/
theorem buildCtx_path (p : List Step) (hp : p ≠ []) : ∃ c, buildCtx (astOf p) = some c ∧
    CtxInv p (prefsOf p) c ∧ c.lastId = some (prefsOf p).length := by
  obtain ⟨c, h1, h2, h3, h4⟩ := foldl_ctxStep p
  have hb : buildCtx (astOf p) = match c.lastGen with
      | none => none
      | some true => some c
      | some false => some (c.createDfa false).1 := by
    simp only [buildCtx, construct_astOf, h1]
    rfl
  rw [hb, h3, if_neg hp]
  cases he : endsSlice p with
  | true =>
    refine ⟨c, rfl, ?_, ?_⟩
    · simpa [prefsOf, he] using h2
    · simpa [prefsOf, he] using h4 he
  | false =>
    have hfresh : ∀ q ∈ slicePrefs [] p, q ≠ p := by
      intro q hq hqp
      have := (mem_slicePrefs hq).1
      rw [hqp, he] at this; cases this
    obtain ⟨g1, g2, g3, g4, g5, g6⟩ := h2.create hfresh
    have hr : (slicePrefs [] p ++ [p]).map rangeOf = (slicePrefs [] p).map rangeOf ++ [(0, 0)] := by
      have : rangeOf p = (0, 0) := by
        unfold rangeOf
        unfold endsSlice at he
        cases hl : p.getLast? with
        | none => rfl
        | some s =>
          rw [hl] at he
          cases s <;> simp_all [isSlice]
      simp [this]
    have e : ({ (c.createDfa false).1 with ranges := (slicePrefs [] p ++ [p]).map rangeOf } : SCtx) =
        (c.createDfa false).1 := by rw [hr, ← g6]
    rw [e] at g5
    refine ⟨_, rfl, by simpa [prefsOf, he] using g5, ?_⟩
    rw [g3, g4]; simp [prefsOf, he]

end JPS
