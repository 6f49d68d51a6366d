import Verif.FilterRun
import Verif.PathSerial
/-!
# Queries that end in a filter

The word of a final filter is also the result, so no predicate state remains and every tuple is returned.
-/

set_option autoImplicit false

namespace JPS
open Spec

/-! ### What the states below a word accept -/

/-- Acceptance below a word when only the properties `ps` are tested. -/
def propF (ps : List (List Str)) (x : List Step) : Acc :=
  if x ∈ ps.map (·.map Step.prop) then .condition else .none

/-- Acceptance below a word when `p` leads to results in which the properties `ps` are tested. -/
def lastF (p : List Step) (ps : List (List Str)) (x : List Step) : Acc :=
  if x = p then .output else if x ∈ ps.map (fun q => p ++ q.map Step.prop) then .condition else .none

theorem propF_key (ps : List (List Str)) (k : Str) (x : List Step) :
    propF ps (.prop k :: x) = propF (below k ps) x := by
  unfold propF
  congr 1
  apply propext
  simp only [List.mem_map, below, List.mem_filterMap]
  constructor
  · rintro ⟨q, hq, he⟩
    cases q with
    | nil => simp at he
    | cons a q =>
      simp only [List.map_cons, List.cons.injEq, Step.prop.injEq] at he
      exact ⟨q, ⟨a :: q, hq, by simp [he.1]⟩, he.2⟩
  · rintro ⟨q, ⟨q', hq', he⟩, h2⟩
    cases q' with
    | nil => cases he
    | cons a q' =>
      simp only at he
      split at he
      · rename_i ha
        cases he
        exact ⟨_, hq', by rw [← h2, ha]; rfl⟩
      · cases he

theorem propF_elem (ps : List (List Str)) (x : List Step) : propF ps (.all :: x) = .none := by
  unfold propF
  rw [if_neg]
  simp only [List.mem_map, not_exists, not_and]
  intro q _ he
  cases q <;> simp at he

theorem lastF_nil (ps : List (List Str)) (s : Step) (x : List Step) : lastF [] ps (s :: x) = propF ps (s :: x) := by
  unfold lastF propF
  rw [if_neg (by simp)]
  simp

theorem lastF_step (p : List Step) (ps : List (List Str)) (s t : Step) (x : List Step) :
    lastF (s :: p) ps (t :: x) = if s = t then lastF p ps x else .none := by
  unfold lastF
  by_cases h : s = t
  · subst h
    rw [if_pos rfl]
    simp [List.mem_map]
  · rw [if_neg h, if_neg (by intro he; simp at he; exact h he.1.symm), if_neg]
    simp only [List.mem_map, List.cons_append, List.cons.injEq, not_exists, not_and]
    intro q _ he; exact absurd he h

/-- The states below `w` accept as `f` tells. -/
def Sees (c : SCtx) (w : List Step) (f : List Step → Acc) : Prop :=
  ∀ x n, SimpleWord x → (tableOf c).matchedType (c.state (w ++ x)) n = f x

theorem simple_key (k : Str) {x : List Step} (h : SimpleWord x) : SimpleWord (.prop k :: x) := by
  intro s hs
  rcases List.mem_cons.1 hs with rfl | hs
  · exact .inr ⟨k, rfl⟩
  · exact h s hs

theorem simple_all {x : List Step} (h : SimpleWord x) : SimpleWord (.all :: x) := by
  intro s hs
  rcases List.mem_cons.1 hs with rfl | hs
  · exact .inl rfl
  · exact h s hs

namespace Sees
variable {c : SCtx} {w : List Step} {f : List Step → Acc}

theorem here (h : Sees c w f) (n : Nat) : (tableOf c).matchedType (c.state w) n = f [] := by
  have := h [] n (by intro s hs; simp at hs)
  rwa [List.append_nil] at this

theorem key (h : Sees c w f) (k : Str) : Sees c (w ++ [.prop k]) (fun x => f (.prop k :: x)) := by
  intro x n hx
  have := h (.prop k :: x) n (simple_key k hx)
  simpa using this

theorem elem (h : Sees c w f) : Sees c (w ++ [.all]) (fun x => f (.all :: x)) := by
  intro x n hx
  have := h (.all :: x) n (simple_all hx)
  simpa using this

end Sees

section
variable {Q : List Reg} {T : List (Option Ast)} {c : SCtx} (h : FWords Q T c)
include h

/-! ### Nothing is accepted -/

mutual
theorem emit_silent {w : List Step} (hs : Sees c w (fun _ => .none)) (obs : Str → Str) (el : Bool) (n : Nat) :
    ∀ v : J, emit (tableOf c) obs el (c.state w) n v = []
  | .lit t => by rw [emit, hs.here]
  | .str r => by rw [emit, hs.here]
  | .arr a es => by
    rw [emit, hs.here]
    simp only
    rw [h.goArr, emitE_silent hs.elem]
  | .obj a ms => by
    rw [emit, hs.here]
    simp only
    rw [emitM_silent hs]
theorem emitE_silent {w : List Step} (hs : Sees c w (fun _ => .none)) :
    ∀ (es : Elems) (n : Nat), emitE (tableOf c) (c.state w) n es = []
  | .nil, n => by rw [emitE]
  | .cons _ v _ rest, n => by rw [emitE, emit_silent hs, emitE_silent hs rest]; rfl
theorem emitM_silent {w : List Step} (hs : Sees c w (fun _ => .none)) (n : Nat) :
    ∀ ms : Members, emitM (tableOf c) (c.state w) n ms = []
  | .nil => by rw [emitM]
  | .cons _ k _ _ v _ rest => by rw [emitM, h.goKey, emit_silent (hs.key k), emitM_silent hs n rest]; rfl
end

/-! ### Inside a result -/

mutual
theorem emit_shown {w : List Step} (ps : List (List Str)) (hs : Sees c w (propF ps)) (obs : Str → Str) (el : Bool)
    (n : Nat) : ∀ v : J, v.tidy = true → ExactObs obs v →
    (emit (tableOf c) obs el (c.state w) n v).map Tuple.text = v.shown ps
  | .lit t, _, hx => by
    have e : propF ps [] = if [] ∈ ps then .condition else .none := by simp [propF]
    rw [emit, hs.here, e, J.shown, hx t rfl]
    by_cases hm : [] ∈ ps <;> simp [hm]
  | .str t, _, hx => by
    have e : propF ps [] = if [] ∈ ps then .condition else .none := by simp [propF]
    rw [emit, hs.here, e, J.shown]
    by_cases hm : [] ∈ ps <;> simp [hm]
  | .arr a es, _, _ => by
    have e : propF ps [] = if [] ∈ ps then .condition else .none := by simp [propF]
    have hd : Sees c (w ++ [.all]) (fun _ => .none) := by
      have := hs.elem
      simpa only [propF_elem] using this
    rw [emit, hs.here, e, J.shown, h.goArr, emitE_silent h hd]
    by_cases hm : [] ∈ ps <;> simp [hm]
  | .obj a ms, ht, _ => by
    have e : propF ps [] = if [] ∈ ps then .condition else .none := by simp [propF]
    rw [emit, hs.here, e, J.shown, ← emitM_shown ps (fun k => by
      have := hs.key k
      simpa only [propF_key] using this) n ms ht]
    by_cases hm : [] ∈ ps <;> simp [hm]
theorem emitM_shown {w : List Step} (ps : List (List Str)) (hs : ∀ k, Sees c (w ++ [.prop k]) (propF (below k ps)))
    (n : Nat) : ∀ ms : Members, ms.tidy = true →
    (emitM (tableOf c) (c.state w) n ms).map Tuple.text = ms.shown ps
  | .nil, _ => by rw [emitM, Members.shown]; rfl
  | .cons _ k _ _ v _ rest, ht => by
    simp only [Members.tidy, Bool.and_eq_true] at ht
    rw [emitM, h.goKey, List.map_append, emit_shown _ (hs k) _ _ _ v ht.1.2 (exactM ht.1.1.1 ht.1.1.2),
      emitM_shown ps hs n rest ht.2, Members.shown]
end

theorem emit_result {w : List Step} (ps : List (List Str)) (hp : [] ∉ ps) (hs : Sees c w (lastF [] ps)) (obs : Str → Str)
    (el : Bool) (n : Nat) : ∀ v : J, v.tidy = true → ExactObs obs v →
    (emit (tableOf c) obs el (c.state w) n v).map Tuple.text = v.shown ps ++ [v.render]
  | .lit t, _, hx => by
    have e : lastF [] ps [] = .output := rfl
    rw [emit, hs.here, e, J.shown, hx t rfl, if_neg hp]; rfl
  | .str t, _, hx => by
    have e : lastF [] ps [] = .output := rfl
    rw [emit, hs.here, e, J.shown, if_neg hp]; rfl
  | .arr a es, _, _ => by
    have e : lastF [] ps [] = .output := rfl
    have hd : Sees c (w ++ [.all]) (fun _ => .none) := by
      have := hs.elem
      simpa only [lastF_nil, propF_elem] using this
    rw [emit, hs.here, e, J.shown, if_neg hp]
    simp only
    rw [h.goArr, emitE_silent h hd]; rfl
  | .obj a ms, ht, _ => by
    have e : lastF [] ps [] = .output := rfl
    rw [emit, hs.here, e, J.shown, if_neg hp, ← emitM_shown h ps (fun k => by
      have := hs.key k
      simpa only [lastF_nil, propF_key] using this) n ms ht]
    simp

/-! ### On the way to the results -/

theorem emitM_none (n : Nat) {w : List Step} (hs : ∀ m, Sees c (w ++ [.prop m]) (fun _ => .none)) :
    ∀ ms : Members, emitM (tableOf c) (c.state w) n ms = []
  | .nil => by rw [emitM]
  | .cons _ k _ _ v _ rest => by rw [emitM, h.goKey, emit_silent h (hs k), emitM_none n hs rest]; rfl

/-- What a query with a final filter returns for a result. -/
def shownResult (ps : List (List Str)) (x : J) : List Str := x.shown ps ++ [x.render]

variable {N : Type} (A : Arith N Num) (num : Str → N)

mutual
theorem emit_way {ps : List (List Str)} (hp : [] ∉ ps) (p : List (QStep Num)) (hf : hasFilter p = false) {w : List Step}
    (hs : Sees c w (lastF (p.map sk) ps)) (obs : Str → Str) (el : Bool) (n : Nat) : ∀ v : J, v.tidy = true → ExactObs obs v →
    (emit (tableOf c) obs el (c.state w) n v).map Tuple.text = (v.select A num p).flatMap (shownResult ps)
  | .lit t, ht, hx => by
    cases p with
    | nil => rw [emit_result h ps hp hs obs el n _ ht hx]; simp [J.select, shownResult]
    | cons s p =>
      have e : lastF ((s :: p).map sk) ps [] = .none := by simp [lastF]
      rw [emit, hs.here, e]
      cases s <;> rfl
  | .str t, ht, hx => by
    cases p with
    | nil => rw [emit_result h ps hp hs obs el n _ ht hx]; simp [J.select, shownResult]
    | cons s p =>
      have e : lastF ((s :: p).map sk) ps [] = .none := by simp [lastF]
      rw [emit, hs.here, e]
      cases s <;> rfl
  | .arr a es, ht, hx => by
    cases p with
    | nil => rw [emit_result h ps hp hs obs el n _ ht hx]; simp [J.select, shownResult]
    | cons s p =>
      have e : lastF ((s :: p).map sk) ps [] = .none := by simp [lastF]
      rw [emit, hs.here, e]
      simp only
      rw [h.goArr]
      have hk := hs.elem
      simp only [List.map_cons, lastF_step] at hk
      cases s with
      | all =>
        simp only [sk, if_true] at hk
        rw [emitE_way hp p hf hk es 0 ht]
        simp only [J.select]
      | prop k =>
        simp only [sk, reduceCtorEq, if_false] at hk
        rw [emitE_silent h hk]; rfl
      | filter e => cases hf
  | .obj a ms, ht, hx => by
    cases p with
    | nil => rw [emit_result h ps hp hs obs el n _ ht hx]; simp [J.select, shownResult]
    | cons s p =>
      have e : lastF ((s :: p).map sk) ps [] = .none := by simp [lastF]
      rw [emit, hs.here, e]
      simp only
      cases s with
      | all =>
        rw [emitM_none h n (fun k => by
          have hk := hs.key k
          simpa only [List.map_cons, lastF_step, sk, reduceCtorEq, if_false] using hk) ms]; rfl
      | prop k =>
        rw [emitM_way hp p hf n k (fun m => by
          have hk := hs.key m
          simpa only [List.map_cons, lastF_step, sk, Step.prop.injEq] using hk) ms ht]
        simp only [J.select]
      | filter e => cases hf
theorem emitE_way {ps : List (List Str)} (hp : [] ∉ ps) (p : List (QStep Num)) (hf : hasFilter p = false) {w : List Step}
    (hs : Sees c w (lastF (p.map sk) ps)) : ∀ (es : Elems) (n : Nat), es.tidy = true →
    (emitE (tableOf c) (c.state w) n es).map Tuple.text = (es.select A num none p).flatMap (shownResult ps)
  | .nil, n, _ => by rw [emitE, Elems.select]; rfl
  | .cons _ v _ rest, n, ht => by
    simp only [Elems.tidy, Bool.and_eq_true] at ht
    rw [emitE, List.map_append, emit_way hp p hf hs _ _ _ v ht.1.2 (exactE ht.1.1), emitE_way hp p hf hs rest _ ht.2,
      Elems.select]
    simp [passes]
theorem emitM_way {ps : List (List Str)} (hp : [] ∉ ps) (p : List (QStep Num)) (hf : hasFilter p = false) {w : List Step}
    (n : Nat) (k : Str) (hs : ∀ m, Sees c (w ++ [.prop m]) (fun x => if k = m then lastF (p.map sk) ps x else .none)) :
    ∀ ms : Members, ms.tidy = true →
    (emitM (tableOf c) (c.state w) n ms).map Tuple.text = (ms.select A num k p).flatMap (shownResult ps)
  | .nil, _ => by rw [emitM, Members.select]; rfl
  | .cons _ m _ _ v _ rest, ht => by
    simp only [Members.tidy, Bool.and_eq_true] at ht
    rw [emitM, h.goKey, List.map_append, emitM_way hp p hf n k hs rest ht.2, Members.select, List.flatMap_append]
    congr 1
    have hm := hs m
    by_cases hk : m = k
    · subst hk
      simp only [if_true] at hm ⊢
      exact emit_way hp p hf hm _ _ _ v ht.1.2 (exactM ht.1.1.1 ht.1.1.2)
    · simp only [if_neg (Ne.symm hk)] at hm
      rw [if_neg hk, emit_silent h hm]; rfl
end

end

/-! ### The context -/

theorem constructFilter_last (h : Nat) (e : Expr Num) (c : SCtx) :
    (constructFilter h (withVars e) c).lastId = c.lastId ∧
    (c.lastGen.isSome = true → (constructFilter h (withVars e) c).lastGen.isSome = true) := by
  rw [constructFilter_props]
  have push : ∀ (ts : List Str) (c : SCtx), (ts.foldl (fun c t => c.push (.dotProp t)) c).lastId = c.lastId ∧
      (c.lastGen.isSome = true → (ts.foldl (fun c t => c.push (.dotProp t)) c).lastGen.isSome = true) := by
    intro ts
    induction ts with
    | nil => intro c; exact ⟨rfl, id⟩
    | cons t ts ih =>
      intro c
      rw [List.foldl_cons]
      exact ⟨(ih _).1, fun _ => (ih _).2 rfl⟩
  have one : ∀ (q : List Str) (c : SCtx), (constructFilter h (.var (joinPath q)) c).lastId = c.lastId ∧
      (c.lastGen.isSome = true → (constructFilter h (.var (joinPath q)) c).lastGen.isSome = true) := by
    intro q c
    have hp := push (splitDots (joinPath q)) c
    simp only [constructFilter]
    generalize (splitDots (joinPath q)).foldl (fun c t => c.push (.dotProp t)) c = c1 at hp
    unfold SCtx.createDfa
    split
    · exact hp
    · exact ⟨hp.1, fun _ => rfl⟩
  generalize e.props = ps
  induction ps generalizing c with
  | nil => exact ⟨rfl, id⟩
  | cons q ps ih =>
    rw [List.foldl_cons]
    exact ⟨(ih _).1.trans (one q c).1, fun hs => (ih _).2 ((one q c).2 hs)⟩

/-- A compilation whose last word is registered already ends without a new rule. -/
theorem buildCtx_known {t : Ast} {c : SCtx} (hc : construct t .init = c) (hg : c.lastGen.isSome = true)
    (hk : getOutput c.st ∈ c.check) : buildCtx t = some c := by
  unfold buildCtx
  rw [hc]
  cases hl : c.lastGen with
  | none => rw [hl] at hg; cases hg
  | some b =>
    cases b with
    | true => simp only [hl]
    | false => simp only [hl, SCtx.createDfa, if_pos hk]

theorem hasFilter_regs : ∀ (p : List (QStep Num)) (u : List Step), hasFilter p = false → regs u p = []
  | [], u, _ => rfl
  | .prop k :: p, u, h => hasFilter_regs p _ h
  | .all :: p, u, h => hasFilter_regs p _ h
  | .filter e :: p, u, h => by cases h

theorem regs_append : ∀ (p q : List (QStep Num)) (u : List Step), regs u (p ++ q) = regs u p ++ regs (u ++ p.map sk) q
  | [], q, u => by simp [regs]
  | .prop k :: p, q, u => by
    simp only [List.cons_append, regs, regs_append p q, List.map_cons, sk, List.append_assoc, List.nil_append]
  | .all :: p, q, u => by
    simp only [List.cons_append, regs, regs_append p q, List.map_cons, sk, List.append_assoc, List.nil_append]
  | .filter e :: p, q, u => by
    simp only [List.cons_append, regs, regs_append p q, List.map_cons, sk, List.append_assoc, List.nil_append]

/-- The context of a path that ends in a filter. -/
def lastCtx (p : List (QStep Num)) (e : Expr Num) : SCtx := (p ++ [QStep.filter e]).foldl fctxStep .init

theorem lastCtx_all (p : List (QStep Num)) (e : Expr Num) (hp : CleanPath (p ++ [.filter e])) :
    FAll [] (p.map sk ++ [.all]) (regs [] p ++ block (p.map sk ++ [.all]) e) (lastCtx p e) := by
  have := FAll.fold (p ++ [.filter e]) [] [] .init (FAll.init [] rfl) (by intro s hs; simp at hs) hp
  simpa [regs_append, regs, sk, lastCtx] using this

theorem lastCtx_gen (p : List (QStep Num)) (e : Expr Num) : (lastCtx p e).lastGen.isSome = true := by
  unfold lastCtx
  rw [List.foldl_append]
  simp only [List.foldl_cons, List.foldl_nil, fctxStep]
  apply (constructFilter_last _ e _).2
  unfold SCtx.createDfa
  split <;> rfl

/-- The last rule that counts is that of the filter. -/
theorem lastCtx_id (p : List (QStep Num)) (e : Expr Num) (hp : CleanPath (p ++ [.filter e])) :
    (lastCtx p e).lastId = some ((regs [] p).length + 1) := by
  have hp' : CleanPath p := by
    refine ⟨?_, fun k hk => hp.2 k ?_⟩
    · have := hp.1
      clear hp
      induction p with
      | nil => rfl
      | cons s p ih => cases s <;> simp only [List.cons_append, refsNamed, Bool.and_eq_true] at this ⊢
                       · exact ih this
                       · exact ih this
                       · exact ⟨this.1, ih this.2⟩
    · clear hp
      induction p with
      | nil => cases hk
      | cons s p ih =>
        cases s <;> simp only [List.cons_append, pathNames, List.mem_cons, List.mem_append] at hk ⊢
        · rcases hk with hk | hk
          · exact .inl hk
          · exact .inr (ih hk)
        · exact ih hk
        · rcases hk with hk | hk
          · exact .inl hk
          · exact .inr (ih hk)
  have ha : FAll [] (p.map sk) (regs [] p) (p.foldl fctxStep .init) := by
    simpa using FAll.fold p [] [] .init (FAll.init [] rfl) (by intro s hs; simp at hs) hp'
  unfold lastCtx
  rw [List.foldl_append]
  simp only [List.foldl_cons, List.foldl_nil, fctxStep]
  rw [(constructFilter_last _ e _).1]
  have hnew : p.map sk ++ [.all] ∉ (regs [] p).map Reg.w := by
    intro hm
    obtain ⟨r, hr, he⟩ := List.mem_map.1 hm
    have := ha.counts r hr
    rw [he, List.count_append] at this
    simp at this; omega
  have hcr := (ha.push .all).inv.create (ha.push .all).st (hp'.word.append (by
    intro s hs; simp only [List.mem_singleton] at hs; exact .inl hs)) hnew false none
  simp only [Bool.false_eq_true, if_false] at hcr
  have := hcr.2.2.2.2.2.1
  rw [List.length_map] at this
  exact this

theorem lastCtx_known (p : List (QStep Num)) (e : Expr Num) (hp : CleanPath (p ++ [.filter e])) :
    getOutput (lastCtx p e).st ∈ (lastCtx p e).check := by
  have ha := lastCtx_all p e hp
  rw [ha.st, ha.inv.check]
  exact List.mem_map.2 ⟨p.map sk ++ [.all], by simp [block], rfl⟩

theorem lastCtx_build (p : List (QStep Num)) (e : Expr Num) (hp : CleanPath (p ++ [.filter e])) :
    buildCtx (fAst (p ++ [.filter e])) = some (lastCtx p e) :=
  buildCtx_known (construct_fAst _ hp.1 .init) (lastCtx_gen p e) (lastCtx_known p e hp)

/-- The words of a path that ends in its only filter. -/
def lastRegs (p : List (QStep Num)) (e : Expr Num) : List Reg :=
  ⟨p.map sk ++ [.all], .out⟩ :: (testedPaths e).map fun q => ⟨p.map sk ++ [.all] ++ q.map .prop, .cond q⟩

theorem lastRegs_words (p : List (QStep Num)) (e : Expr Num) (hf : hasFilter p = false) :
    (lastRegs p e).map Reg.w = (regs [] (p ++ [.filter e])).map Reg.w := by
  rw [regs_append, hasFilter_regs p [] hf]
  simp [lastRegs, regs, block]

theorem lastCtx_words (p : List (QStep Num)) (e : Expr Num) (hp : CleanPath (p ++ [.filter e])) (hf : hasFilter p = false)
    (hl : (pathNames (p ++ [.filter e])).length ≤ 253) :
    ∃ T, FWords (lastRegs p e) T (lastCtx p e) := by
  have ha := lastCtx_all p e hp
  have hid := lastCtx_id p e hp
  have hw : (regs [] p ++ block (p.map sk ++ [.all]) e) = regs [] (p ++ [.filter e]) := by
    rw [regs_append]; simp [regs]
  rw [hw] at ha
  rw [hasFilter_regs p [] hf] at hid
  have hww := lastRegs_words p e hf
  refine ⟨_, by rw [hww]; exact ha.inv, ?_, ?_, ?_, ⟨0, _, rfl, hid, ?_⟩, ?_, ?_⟩
  · refine Nat.le_trans (nodup_subset_length ha.inv.nodup ?_) hl
    intro k hk
    obtain ⟨w, hw, hm⟩ := (ha.inv.from_ k hk).resolve_left (by simp)
    obtain ⟨r, hr, rfl⟩ := List.mem_map.1 hw
    rcases regs_steps _ [] r hr k hm with h | h
    · simp at h
    · exact h
  · rw [hww]; exact regs_nodup _ [] hp
  · intro r hr
    simp only [lastRegs, List.mem_cons, List.mem_map] at hr
    rcases hr with rfl | ⟨q, _, rfl⟩ <;> simp
  · intro j w hj
    cases j with
    | zero => rfl
    | succ j =>
      simp only [lastRegs, List.getElem?_cons_succ, List.getElem?_map] at hj
      cases hd : (testedPaths e)[j]? with
      | none => rw [hd] at hj; cases hj
      | some q => rw [hd] at hj; simp at hj
  · intro w e' ds hr
    simp [lastRegs] at hr
  · intro w q hr
    simp only [lastRegs, List.mem_cons, List.mem_map, Reg.mk.injEq, reduceCtorEq, and_false, false_or] at hr
    obtain ⟨q', hq', h1, h2⟩ := hr
    have hm : ⟨w, .cond q'⟩ ∈ regs [] (p ++ [.filter e]) := by
      rw [← hw, ← h1]
      exact List.mem_append_right _ (by simp [block]; exact hq')
    exact regs_cond _ [] hp w q' hm

theorem lastRegs_role (p : List (QStep Num)) (e : Expr Num) (hn : ((lastRegs p e).map Reg.w).Nodup) (x : List Step) :
    FWords.accOf (roleOf (lastRegs p e) x) = lastF ((p ++ [QStep.all]).map sk) (testedPaths e) x := by
  have e1 : (p ++ [QStep.all]).map sk = p.map sk ++ [Step.all] := by simp [sk]
  unfold lastF
  rw [e1]
  split
  · rename_i hx
    subst hx
    rw [(roleOf_some hn (r := .out)).2 (by simp [lastRegs])]; rfl
  · rename_i hx
    split
    · rename_i hm
      obtain ⟨q, hq, rfl⟩ := List.mem_map.1 hm
      rw [(roleOf_some hn (r := .cond q)).2 (List.mem_cons_of_mem _ (List.mem_map.2 ⟨q, hq, rfl⟩))]; rfl
    · rename_i hm
      rw [roleOf_none.2]
      · rfl
      · intro hw
        obtain ⟨r, hr, rfl⟩ := List.mem_map.1 hw
        simp only [lastRegs, List.mem_cons, List.mem_map] at hr
        rcases hr with rfl | ⟨q, hq, rfl⟩
        · exact hx rfl
        · exact hm (List.mem_map.2 ⟨q, hq, rfl⟩)

theorem lastRegs_preds {p : List (QStep Num)} {e : Expr Num} {T : List (Option Ast)} {c : SCtx}
    (h : FWords (lastRegs p e) T c) : (contextOf c).predStates = [] := by
  apply List.eq_nil_iff_forall_not_mem.2
  intro s hm
  have hm' : s ∈ ((List.range (tableOf c).statesNum).filter fun i =>
    (tableOf c).stop i ≠ 0 && (tableOf c).accept i == .predicate) := hm
  rw [List.mem_filter, List.mem_range] at hm'
  obtain ⟨h1, h2⟩ := hm'
  simp only [ne_eq, decide_not, Bool.and_eq_true, Bool.not_eq_true', decide_eq_false_iff_not, beq_iff_eq] at h2
  have hlt : s < c.dfa.rows.length + 1 := h1
  have hst := h2.1
  rw [h.stopQ, if_pos hlt] at hst
  have h0 : s ≠ 0 := by rintro rfl; exact hst rfl
  obtain ⟨x, hx, hr⟩ := c.reach s (by omega) (by omega)
  rcases h.stop_of_word hx with ⟨h3, _⟩ | ⟨k, r, h3, h4, h5⟩
  · rw [hr] at h3; exact absurd h3 hst
  · have hrs : c.state r.w = s := by rw [← hr, h4]; rfl
    have hrw : SimpleWord r.w := (h.inv.clean r.w (List.mem_map_of_mem (f := Reg.w) (List.mem_of_getElem? h3))).simple
    have hacc := h.accept hrw
    rw [hrs, h2.2, lastRegs_role p e h.nodup] at hacc
    unfold lastF at hacc
    split at hacc
    · cases hacc
    · split at hacc <;> cases hacc

theorem hasFilter_append : ∀ (p q : List (QStep Num)), hasFilter (p ++ q) = (hasFilter p || hasFilter q)
  | [], q => rfl
  | .prop k :: p, q => hasFilter_append p q
  | .all :: p, q => hasFilter_append p q
  | .filter e :: p, q => rfl

mutual
theorem J.shown_congr {ps qs : List (List Str)} (h : ∀ q, q ∈ ps ↔ q ∈ qs) : ∀ v : J, v.shown ps = v.shown qs
  | .lit t => by simp only [J.shown, h]
  | .str t => by simp only [J.shown, h]
  | .arr _ _ => by simp only [J.shown, h]
  | .obj _ ms => by simp only [J.shown, h, Members.shown_congr h ms]
theorem Members.shown_congr {ps qs : List (List Str)} (h : ∀ q, q ∈ ps ↔ q ∈ qs) :
    ∀ ms : Members, ms.shown ps = ms.shown qs
  | .nil => rfl
  | .cons _ k _ _ v _ rest => by
    rw [Members.shown, Members.shown, Members.shown_congr h rest, J.shown_congr (ps := below k ps) (qs := below k qs) (fun q => by
      simp only [below, List.mem_filterMap, h]) v]
end

/-- The serial run of a path that ends in its only filter. -/
theorem lastCtx_serial {N : Type} (A : Arith N Num) (num : Str → N) (O : NumOps) (p : List (QStep Num)) (e : Expr Num)
    (hp : CleanPath (p ++ [.filter e])) (hf : hasFilter p = false) (hl : (pathNames (p ++ [.filter e])).length ≤ 253)
    (pre trail : Str) (v : J)
    (hpre : pre.all isWs = true) (htr : trail.all isWs = true) (hsp : pre.head? ≠ some ' ')
    (hc : v.isContainer = true) (hwf : v.wf = true) (hk : v.keysTight = true)
    (hdep : v.depth ≤ MAX_STACK) (htd : v.tidy = true) :
    (serialPartialRun O (tableOf (lastCtx p e)) (contextOf (lastCtx p e)) none (pre ++ v.render ++ trail)).pf.output =
      (v.select A num (p ++ [.all])).flatMap (shownResult e.props) := by
  obtain ⟨T, h⟩ := lastCtx_words p e hp hf hl
  generalize lastCtx p e = c at h
  obtain ⟨ms', he⟩ := execAutomaton_doc (tableOf c) pre trail v id SA.init hpre htr hsp hc hwf hk rfl
    hdep (by simpa [SA.init] using hdep)
  have htl : (execAutomaton (tableOf c) (pre ++ v.render ++ trail) SA.init).tl =
      emit (tableOf c) id false 1 0 v := by
    rw [he]
    show (SA.init.emitAll _).tl = _
    rw [emitAll_tl]; rfl
  simp only [serialPartialRun]
  rw [htl, generate_none O _ (lastRegs_preds h), foldl_addOutput]
  have hs : Sees c [] (lastF ((p ++ [QStep.all]).map sk) (testedPaths e)) := by
    intro x n hx
    rw [List.nil_append, h.matched hx, lastRegs_role p e h.nodup]
  have hne : [] ∉ testedPaths e := by
    intro hm
    have hm' := mem_testedPaths.1 hm
    have hr := hp.1
    have : ∀ p : List (QStep Num), refsNamed (p ++ [.filter e]) = true → e.props.all (fun c => !c.isEmpty) = true := by
      intro p
      induction p with
      | nil => intro hr; simp only [List.nil_append, refsNamed, Bool.and_true] at hr; exact hr
      | cons s p ih =>
        intro hr
        cases s <;> simp only [List.cons_append, refsNamed, Bool.and_eq_true] at hr
        · exact ih hr
        · exact ih hr
        · exact ih hr.2
    have := List.all_eq_true.1 (this p hr) [] hm'
    simp at this
  have := emit_way h A num hne (p ++ [.all]) (by rw [hasFilter_append, hf]; rfl) hs id false 0 v htd (fun _ _ => rfl)
  rw [show c.state [] = 1 from rfl] at this
  rw [this]
  simp only [PF.init, List.nil_append]
  congr 1
  funext x
  unfold shownResult
  rw [J.shown_congr (fun q => mem_testedPaths) x]

end JPS
