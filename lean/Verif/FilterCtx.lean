import Verif.PathCtx
import Verif.Props.Expr
import Verif.Spec.FilterPath
/-!
# The compilation context of a path with filters
-/

set_option autoImplicit false

namespace JPS
open Spec

/-- The tree of one more step (`LocationPath`, parser_j.y:54-58; `Predicate`, 64-71; `FilterExpression`). -/
def fstepAst (t : Ast) : QStep Num → Ast
  | .prop k => .concat t (.id k)
  | .all => .predicate t .wildcard
  | .filter e => .predicate t (.filter (exprTree e))

/-- The tree the parser builds for a path with filters. -/
def fAst (p : List (QStep Num)) : Ast := p.foldl fstepAst .root

/-- Effect of one step on the context, dfa_builder.cpp:213-274. -/
def fctxStep (c : SCtx) : QStep Num → SCtx
  | .prop k => c.push (.dotProp k)
  | .all => c.push .arrayAll
  | .filter e =>
    let c := ((c.push .arrayAll).createDfa false).1
    let h := c.rules.length - 1
    constructFilter h (withVars e) { c with mapping := mapReset c.mapping h, trees := c.trees.set h (some (withVars e)) }

theorem construct_fsteps (p : List (QStep Num)) (t : Ast) (hp : refsNamed p = true) (c : SCtx) :
    construct (p.foldl fstepAst t) c = p.foldl fctxStep (construct t c) := by
  have gen : ∀ (p : List (QStep Num)) (t : Ast), refsNamed p = true →
      construct (p.foldl fstepAst t) c = p.foldl fctxStep (construct t c) := by
    intro p
    induction p with
    | nil => intro t _; rfl
    | cons s p ih =>
      intro t hp
      have hp' : refsNamed p = true := by
        cases s <;> simp only [refsNamed, Bool.and_eq_true] at hp
        · exact hp
        · exact hp
        · exact hp.2
      simp only [List.foldl_cons, ih _ hp']
      congr 1
      cases s with
      | prop k => rfl
      | all => rfl
      | filter e =>
        simp only [refsNamed, Bool.and_eq_true, List.all_eq_true] at hp
        have hne : ∀ q ∈ e.props, q ≠ [] := by
          intro q hq h; have := hp.1 q hq; rw [h] at this; simp at this
        simp only [fstepAst, construct, constructRight, fctxStep, c28_rewrites e hne]
  exact gen p t hp

theorem construct_fAst (p : List (QStep Num)) (hp : refsNamed p = true) (c : SCtx) :
    construct (fAst p) c = p.foldl fctxStep c := construct_fsteps p .root hp c

/-! ### Texts of words -/

/-- A name without the characters used as separators in `getOutput`. -/
def cleanName (k : Str) : Prop := '.' ∉ k ∧ '[' ∉ k

/-- A word of names and array steps. -/
def CleanWord (w : List Step) : Prop := ∀ s ∈ w, s = .all ∨ ∃ k, s = .prop k ∧ cleanName k

theorem CleanWord.append {w x : List Step} (hw : CleanWord w) (hx : CleanWord x) : CleanWord (w ++ x) := by
  intro s hs
  rcases List.mem_append.1 hs with h | h
  · exact hw s h
  · exact hx s h

theorem CleanWord.props {c : List Str} (h : ∀ k ∈ c, cleanName k) : CleanWord (c.map .prop) := by
  intro s hs
  obtain ⟨k, hk, rfl⟩ := List.mem_map.1 hs
  exact .inr ⟨k, rfl, h k hk⟩

/-- Texts of words that follow a name: nothing or a separator. -/
def startsSep : Str → Prop
  | [] => True
  | c :: _ => c = '.' ∨ c = '['

theorem startsSep_text (w : List Step) (hw : CleanWord w) : startsSep ((w.map seOf).flatMap SE.text) := by
  cases w with
  | nil => trivial
  | cons s w =>
    rcases hw s (by simp) with rfl | ⟨k, rfl, _⟩
    · exact .inr rfl
    · exact .inl rfl

theorem name_cut : ∀ (a b x y : Str), cleanName a → cleanName b → startsSep x → startsSep y →
    a ++ x = b ++ y → a = b ∧ x = y
  | [], [], x, y, _, _, _, _, h => ⟨rfl, by simpa using h⟩
  | [], c :: b, x, y, _, hb, hx, _, h => by
    simp only [List.nil_append] at h
    subst h
    rcases hx with hx | hx
    · exact absurd (by simp [hx]) hb.1
    · exact absurd (by simp [hx]) hb.2
  | c :: a, [], x, y, ha, _, _, hy, h => by
    simp only [List.nil_append] at h
    subst h
    rcases hy with hy | hy
    · exact absurd (by simp [hy]) ha.1
    · exact absurd (by simp [hy]) ha.2
  | c :: a, d :: b, x, y, ha, hb, hx, hy, h => by
    simp only [List.cons_append, List.cons.injEq] at h
    obtain ⟨h1, h2⟩ := name_cut a b x y ⟨fun hm => ha.1 (by simp [hm]), fun hm => ha.2 (by simp [hm])⟩
      ⟨fun hm => hb.1 (by simp [hm]), fun hm => hb.2 (by simp [hm])⟩ hx hy h.2
    exact ⟨by rw [h.1, h1], h2⟩

theorem text_inj : ∀ (w x : List Step), CleanWord w → CleanWord x →
    (w.map seOf).flatMap SE.text = (x.map seOf).flatMap SE.text → w = x
  | [], [], _, _, _ => rfl
  | [], s :: x, _, hx, h => by
    rcases hx s (by simp) with rfl | ⟨k, rfl, _⟩ <;> simp [seOf, SE.text] at h
  | s :: w, [], hw, _, h => by
    rcases hw s (by simp) with rfl | ⟨k, rfl, _⟩ <;> simp [seOf, SE.text] at h
  | s :: w, t :: x, hw, hx, h => by
    have hw' : CleanWord w := fun s hs => hw s (by simp [hs])
    have hx' : CleanWord x := fun s hs => hx s (by simp [hs])
    rcases hw s (by simp) with rfl | ⟨k, rfl, hk⟩ <;> rcases hx t (by simp) with rfl | ⟨k', rfl, hk'⟩
    · simp only [List.map_cons, seOf, List.flatMap_cons, SE.text, List.cons_append, List.nil_append,
        List.cons.injEq, true_and] at h
      rw [text_inj w x hw' hx' h]
    · simp [seOf, SE.text] at h
    · simp [seOf, SE.text] at h
    · simp only [List.map_cons, seOf, List.flatMap_cons, SE.text, List.cons_append,
        List.cons.injEq, true_and] at h
      obtain ⟨h1, h2⟩ := name_cut k k' _ _ hk hk' (startsSep_text w hw') (startsSep_text x hx') h
      rw [h1, text_inj w x hw' hx' h2]

theorem getOutput_inj (B : List Step) {w x : List Step} (hw : CleanWord w) (hx : CleanWord x)
    (h : getOutput ((B ++ w).map seOf) = getOutput ((B ++ x).map seOf)) : w = x := by
  simp only [getOutput, List.cons.injEq, true_and, List.map_append, List.flatMap_append, List.append_cancel_left_eq] at h
  exact text_inj w x hw hx h

/-! ### Splitting condition names -/

theorem splitDots_single (s : Str) (h : '.' ∉ s) : splitDots s = [s] := by
  induction s with
  | nil => rfl
  | cons c s ih =>
    have hc : c ≠ '.' := fun e => h (by simp [e])
    simp only [splitDots, if_neg hc, ih (fun hm => h (by simp [hm]))]

theorem splitDots_cons (s r : Str) (h : '.' ∉ s) : splitDots (s ++ '.' :: r) = s :: splitDots r := by
  induction s with
  | nil => simp [splitDots]
  | cons c s ih =>
    have hc : c ≠ '.' := fun e => h (by simp [e])
    simp only [List.cons_append, splitDots, if_neg hc, ih (fun hm => h (by simp [hm]))]

theorem splitDots_join : ∀ (c : List Str), c ≠ [] → (∀ k ∈ c, '.' ∉ k) → splitDots (joinPath c) = c
  | [], h, _ => absurd rfl h
  | [s], _, h => splitDots_single s (h s (by simp))
  | s :: t :: r, _, h => by
    simp only [joinPath]
    rw [splitDots_cons s _ (h s (by simp)), splitDots_join (t :: r) (by simp) (fun k hk => h k (by
      simp only [List.mem_cons] at hk ⊢; exact .inr hk))]

/-! ### The registered words -/

/-- What the compiler has registered: the words `W`, each after the common steps `B`, and the subtrees `T`. -/
structure FInv (B : List Step) (W : List (List Step)) (T : List (Option Ast)) (c : SCtx) : Prop where
  rules : c.rules = W.map (fun w => itemsOf c.names (B ++ w))
  ranges : c.ranges = W.map (fun _ => (0, 0))
  trees : c.trees = T
  check : c.check = W.map (fun w => getOutput ((B ++ w).map seOf))
  named : ∀ w ∈ W, Named c.names (B ++ w)
  nodup : c.names.Nodup
  from_ : ∀ k ∈ c.names, (∃ s ∈ B, stepName s = some k) ∨ ∃ w ∈ W, Step.prop k ∈ w
  clean : ∀ w ∈ W, CleanWord w
  len : T.length = W.length

theorem prop_of_stepName {u : List Step} (hu : CleanWord u) {k : Str} {s : Step} (hs : s ∈ u)
    (h : stepName s = some k) : Step.prop k ∈ u := by
  rcases hu s hs with rfl | ⟨k', rfl, _⟩
  · simp [stepName] at h
  · simp only [stepName, Option.some.injEq] at h; subst h; exact hs

/-- Registering a new word with the subtree `t`. -/
theorem FInv.create {B : List Step} {W : List (List Step)} {T : List (Option Ast)} {c : SCtx} (h : FInv B W T c)
    {u : List Step} (hst : c.st = (B ++ u).map seOf) (hu : CleanWord u) (hf : u ∉ W) (b : Bool) (t : Option Ast) :
    let c' := (c.createDfa b).1
    (c.createDfa b).2 = false ∧ c'.lastGen = some true ∧ c'.rules.length = W.length + 1 ∧
    c'.st = c.st ∧ c'.mapping = c.mapping ∧ c'.lastId = (if b then c.lastId else some (W.length + 1)) ∧
    FInv B (W ++ [u]) (T ++ [t]) { c' with trees := c'.trees.set (c'.rules.length - 1) t } := by
  have hnot : ¬ getOutput c.st ∈ c.check := by
    rw [h.check, hst]
    intro hm
    obtain ⟨w, hw, he⟩ := List.mem_map.1 hm
    exact hf (by rw [← getOutput_inj B (h.clean w hw) hu he]; exact hw)
  obtain ⟨ext, e1, e2, e3⟩ := addNames_spec (B ++ u) c.names
  rw [← hst] at e1
  unfold SCtx.createDfa
  rw [if_neg hnot]
  simp only [e1]
  have hr : c.rules.length = W.length := by rw [h.rules]; simp
  refine ⟨trivial, trivial, by simp [hr], trivial, trivial, by simp [hr], ?_⟩
  refine ⟨?_, by simp [h.ranges], ?_, by simp [h.check, hst], ?_, e2 h.nodup, ?_, ?_, by simp [h.len]⟩
  · simp only [h.rules, List.map_append, List.map_cons, List.map_nil]
    congr 1
    · apply List.map_congr_left
      intro q hq
      exact (itemsOf_append (h.named q hq) ext).symm
    · simp only [itemsOf, hst]
  · simp only [h.trees, List.length_append, List.length_cons, List.length_nil, hr, Nat.zero_add, Nat.add_sub_cancel]
    rw [List.set_append_right _ _ (by rw [h.len]; exact Nat.le_refl _), h.len]
    simp
  · intro q hq
    rcases List.mem_append.1 hq with hq | hq
    · exact (h.named q hq).append ext
    · simp at hq; subst hq; exact e3
  · intro k hk
    have := addNames_from (B ++ u) c.names k (by rw [← hst, e1]; exact hk)
    rcases this with h' | ⟨s, hs, h'⟩
    · rcases h.from_ k h' with h' | ⟨w, hw, hm⟩
      · exact .inl h'
      · exact .inr ⟨w, List.mem_append_left _ hw, hm⟩
    · rcases List.mem_append.1 hs with hs | hs
      · exact .inl ⟨s, hs, h'⟩
      · exact .inr ⟨u, by simp, prop_of_stepName hu hs h'⟩
  · intro w hw
    rcases List.mem_append.1 hw with hw | hw
    · exact h.clean w hw
    · simp at hw; subst hw; exact hu

theorem FInv.congr {B : List Step} {W : List (List Step)} {T : List (Option Ast)} {c c' : SCtx} (h : FInv B W T c)
    (h1 : c'.rules = c.rules) (h2 : c'.ranges = c.ranges) (h3 : c'.trees = c.trees) (h4 : c'.check = c.check)
    (h5 : c'.names = c.names) : FInv B W T c' :=
  ⟨by rw [h1, h5]; exact h.rules, by rw [h2]; exact h.ranges, by rw [h3]; exact h.trees, by rw [h4]; exact h.check,
    by rw [h5]; exact h.named, by rw [h5]; exact h.nodup, by rw [h5]; exact h.from_, h.clean, h.len⟩

/-! ### The conditions of one filter -/

/-- `states_mapping[h]` lists rules whose subtrees are the variables `ns`. -/
def MapOk (M : List (Nat × List Nat)) (T : List (Option Ast)) (h : Nat) (ns : List Str) : Prop :=
  ∃ xs, (M.find? (fun p => p.1 == h)).map Prod.snd = some xs ∧
    xs.map (fun x => T[x]?) = ns.map (fun n => some (some (.var n)))

theorem MapOk.grow {M : List (Nat × List Nat)} {T : List (Option Ast)} {h : Nat} {ns : List Str}
    (hm : MapOk M T h ns) (T' : List (Option Ast)) : MapOk M (T ++ T') h ns := by
  obtain ⟨xs, h1, h2⟩ := hm
  refine ⟨xs, h1, ?_⟩
  rw [← h2]
  apply List.map_congr_left
  intro x hx
  have : ∃ n ∈ ns, T[x]? = some (some (.var n)) := by
    have hx' := List.mem_map_of_mem (f := fun x => T[x]?) hx
    rw [h2] at hx'
    obtain ⟨n, hn, he⟩ := List.mem_map.1 hx'
    exact ⟨n, hn, he.symm⟩
  obtain ⟨n, _, he⟩ := this
  exact List.getElem?_append_left (List.getElem?_eq_some_iff.1 he).1

theorem find_push (M : List (Nat × List Nat)) (h x h' : Nat) :
    ((mapPush M h x).find? (fun p => p.1 == h')).map Prod.snd =
      ((M.find? (fun p => p.1 == h')).map Prod.snd).map (fun xs => if h' = h then xs ++ [x] else xs) := by
  induction M with
  | nil => rfl
  | cons p M ih =>
    unfold mapPush at ih ⊢
    rw [List.map_cons, List.find?_cons, List.find?_cons]
    by_cases hp : p.1 = h'
    · by_cases hh : p.1 = h
      · simp [hh, ← hp]
      · simp [hh, ← hp]
    · have h1 : (p.1 == h') = false := by simpa using hp
      have h2 : ((if p.1 = h then (p.1, p.2 ++ [x]) else p).1 == h') = false := by
        split <;> simpa using hp
      rw [h1, h2]
      exact ih

theorem find_reset (M : List (Nat × List Nat)) (h h' : Nat) :
    ((mapReset M h).find? (fun p => p.1 == h')).map Prod.snd =
      if h' = h then some [] else (M.find? (fun p => p.1 == h')).map Prod.snd := by
  unfold mapReset
  by_cases hh : h' = h
  · subst hh
    rw [List.find?_append]
    have : (M.filter (fun p => decide (p.1 ≠ h'))).find? (fun p => p.1 == h') = none := by
      rw [List.find?_eq_none]
      intro x hx
      have := (List.mem_filter.1 hx).2
      simpa using this
    rw [this]; simp
  · rw [if_neg hh, List.find?_append]
    have hlast : ([(h, ([] : List Nat))].find? (fun p => p.1 == h')) = none := by
      simp [Ne.symm hh]
    rw [hlast, Option.or_none]
    congr 1
    induction M with
    | nil => rfl
    | cons p M ih =>
      by_cases hp : p.1 = h
      · rw [List.filter_cons_of_neg (by simp [hp]), ih, List.find?_cons]
        have : (p.1 == h') = false := by rw [hp]; simpa using Ne.symm hh
        rw [this]
      · rw [List.filter_cons_of_pos (by simp [hp]), List.find?_cons, List.find?_cons, ih]

/-- The tested paths in order of first occurrence. -/
def addTested (ds : List (List Str)) (q : List Str) : List (List Str) := if q ∈ ds then ds else ds ++ [q]

theorem push_all (q : List Str) (c : SCtx) :
    let c1 := q.foldl (fun c t => c.push (.dotProp t)) c
    c1.st = c.st ++ q.map .dotProp ∧ c1.rules = c.rules ∧ c1.ranges = c.ranges ∧ c1.trees = c.trees ∧
    c1.check = c.check ∧ c1.names = c.names ∧ c1.mapping = c.mapping := by
  induction q generalizing c with
  | nil => simp
  | cons k q ih =>
    obtain ⟨h1, h2, h3, h4, h5, h6, h7⟩ := ih (c.push (.dotProp k))
    simp only [List.foldl_cons]
    exact ⟨by rw [h1]; simp [SCtx.push], h2, h3, h4, h5, h6, h7⟩

/-- The words and subtrees while the conditions of the filter at `u` are being registered. -/
structure Conds1 (B : List Step) (W0 : List (List Step)) (T0 : List (Option Ast)) (u : List Step) (h : Nat)
    (ds : List (List Str)) (c : SCtx) : Prop where
  st : c.st = (B ++ u).map seOf
  inv : FInv B (W0 ++ ds.map (fun q => u ++ q.map .prop)) (T0 ++ ds.map (fun q => some (.var (joinPath q)))) c
  map : MapOk c.mapping (T0 ++ ds.map (fun q => some (.var (joinPath q)))) h (ds.map joinPath)

theorem map_prop_inj {a b : List Str} (h : a.map Step.prop = b.map Step.prop) : a = b := by
  have := congrArg (fun l => l.filterMap stepName) h
  simpa [List.filterMap_map, Function.comp_def, stepName] using this

theorem Conds1.step {B : List Step} {W0 : List (List Step)} {T0 : List (Option Ast)} {u : List Step} {h : Nat}
    {ds : List (List Str)} {c : SCtx} (hc : Conds1 B W0 T0 u h ds c) (hu : CleanWord u)
    {q : List Str} (hq : q ≠ []) (hqc : ∀ k ∈ q, cleanName k)
    (hW : ∀ w ∈ W0, ∀ x : List Step, x ≠ [] → w ≠ u ++ x) (hT : T0.length = W0.length) :
    let c' := constructFilter h (.var (joinPath q)) c
    Conds1 B W0 T0 u h (addTested ds q) c' ∧
    (∀ h', h' ≠ h → (c'.mapping.find? (fun p => p.1 == h')).map Prod.snd =
      (c.mapping.find? (fun p => p.1 == h')).map Prod.snd) := by
  have hsp := splitDots_join q hq (fun k hk => (hqc k hk).1)
  obtain ⟨g1, g2, g3, g4, g5, g6, g7⟩ := push_all q c
  simp only [constructFilter, hsp]
  generalize q.foldl (fun c t => c.push (.dotProp t)) c = c1 at *
  have hinv : FInv B (W0 ++ ds.map (fun q => u ++ q.map .prop))
      (T0 ++ ds.map (fun q => some (.var (joinPath q)))) c1 := hc.inv.congr g2 g3 g4 g5 g6
  have hst1 : c1.st = (B ++ (u ++ q.map Step.prop)).map seOf := by
    rw [g1, hc.st]; simp [seOf, Function.comp_def]
  have hclean : CleanWord (u ++ q.map .prop) := hu.append (.props hqc)
  by_cases hm : q ∈ ds
  · have hin : getOutput c1.st ∈ c1.check := by
      rw [hinv.check, hst1]
      exact List.mem_map.2 ⟨u ++ q.map .prop, by simp only [List.mem_append, List.mem_map]; exact .inr ⟨q, hm, rfl⟩, rfl⟩
    have hcr : c1.createDfa true = (c1, true) := by unfold SCtx.createDfa; rw [if_pos hin]
    rw [hcr]
    simp only [if_true, addTested, if_pos hm]
    refine ⟨⟨?_, hinv.congr rfl rfl rfl rfl rfl, by rw [g7]; exact hc.map⟩, by rw [g7]; intros; rfl⟩
    show c1.st.take c.st.length = _
    rw [g1, List.take_left' rfl, hc.st]
  · have hf : u ++ q.map .prop ∉ W0 ++ ds.map (fun q => u ++ q.map .prop) := by
      intro hmem
      rcases List.mem_append.1 hmem with h1 | h1
      · exact hW _ h1 (q.map .prop) (by simpa using hq) rfl
      · obtain ⟨q', hq', he⟩ := List.mem_map.1 h1
        have := map_prop_inj (List.append_cancel_left he)
        subst this; exact hm hq'
    obtain ⟨k1, k2, k3, k4, k5, k6, k7⟩ := hinv.create hst1 hclean hf true (some (.var (joinPath q)))
    rw [k1]
    simp only [Bool.false_eq_true, if_false, addTested, if_neg hm]
    have hW' : W0 ++ ds.map (fun q => u ++ q.map .prop) ++ [u ++ q.map .prop] =
        W0 ++ (ds ++ [q]).map (fun q => u ++ q.map .prop) := by simp
    have hT' : T0 ++ ds.map (fun q => some (Ast.var (joinPath q))) ++ [some (.var (joinPath q))] =
        T0 ++ (ds ++ [q]).map (fun q => some (.var (joinPath q))) := by simp
    rw [hW', hT'] at k7
    have hx : (c1.createDfa true).1.rules.length - 1 = T0.length + ds.length := by
      rw [k3]; simp [hT]
    refine ⟨⟨?_, k7.congr rfl rfl rfl rfl rfl, ?_⟩, ?_⟩
    · show (c1.createDfa true).1.st.take c.st.length = _
      rw [k4, g1, List.take_left' rfl, hc.st]
    · obtain ⟨xs, m1, m2⟩ := hc.map.grow [some (.var (joinPath q))]
      refine ⟨xs ++ [T0.length + ds.length], ?_, ?_⟩
      · show ((mapPush _ _ _).find? _).map _ = _
        rw [find_push, k5, g7, m1, hx]; simp
      · rw [hT'] at m2
        rw [List.map_append, m2]
        simp only [List.map_append, List.map_cons, List.map_nil]
        congr 2
        rw [← List.append_assoc, List.getElem?_append_right (by simp)]
        simp
    · intro h' hh
      show ((mapPush _ _ _).find? _).map _ = _
      rw [find_push, k5, g7]
      generalize Option.map Prod.snd _ = o
      cases o <;> simp [hh]

theorem constructFilter_props (h : Nat) : ∀ (e : Expr Num) (c : SCtx),
    constructFilter h (withVars e) c = e.props.foldl (fun c q => constructFilter h (.var (joinPath q)) c) c
  | .prop p, c => rfl
  | .str s, c => rfl
  | .num n, c => rfl
  | .not e, c => by
    simp only [withVars, constructFilter, Expr.props]
    exact constructFilter_props h e c
  | .bin o a b, c => by
    simp only [withVars, constructFilter, Expr.props, List.foldl_append,
      constructFilter_props h a c, constructFilter_props h b]

theorem Conds1.fold {B : List Step} {W0 : List (List Step)} {T0 : List (Option Ast)} {u : List Step} {h : Nat}
    (hu : CleanWord u) (hW : ∀ w ∈ W0, ∀ x : List Step, x ≠ [] → w ≠ u ++ x) (hT : T0.length = W0.length) :
    ∀ (ps : List (List Str)) (ds : List (List Str)) (c : SCtx), Conds1 B W0 T0 u h ds c →
    (∀ q ∈ ps, q ≠ [] ∧ ∀ k ∈ q, cleanName k) →
    let c' := ps.foldl (fun c q => constructFilter h (.var (joinPath q)) c) c
    Conds1 B W0 T0 u h (ps.foldl addTested ds) c' ∧
    (∀ h', h' ≠ h → (c'.mapping.find? (fun p => p.1 == h')).map Prod.snd =
      (c.mapping.find? (fun p => p.1 == h')).map Prod.snd)
  | [], ds, c, hc, _ => ⟨hc, fun _ _ => rfl⟩
  | q :: ps, ds, c, hc, hps => by
    obtain ⟨h1, h2⟩ := hc.step hu (hps q (by simp)).1 (hps q (by simp)).2 hW hT
    obtain ⟨h3, h4⟩ := Conds1.fold hu hW hT ps (addTested ds q) _ h1 (fun q hq => hps q (by simp [hq]))
    exact ⟨h3, fun h' hh => (h4 h' hh).trans (h2 h' hh)⟩

/-! ### The whole path -/

/-- What a registered word stands for. -/
inductive Role where
  /-- elements tested by a filter, with the paths it tests -/
  | pred (e : Expr Num) (ds : List (List Str))
  /-- a tested property -/
  | cond (q : List Str)
  /-- a result -/
  | out

/-- The subtree of a registered word. -/
def Role.tree : Role → Option Ast
  | .pred e _ => some (withVars e)
  | .cond q => some (.var (joinPath q))
  | .out => none

/-- A registered word. -/
structure Reg where
  w : List Step
  role : Role

/-- The paths a filter tests, each once. -/
def testedPaths (e : Expr Num) : List (List Str) := e.props.foldl addTested []

/-- The words one filter registers. -/
def block (u : List Step) (e : Expr Num) : List Reg :=
  ⟨u, .pred e (testedPaths e)⟩ :: (testedPaths e).map fun q => ⟨u ++ q.map .prop, .cond q⟩

/-- The words the filters of a path register; `u` is the word before the path. -/
def regs (u : List Step) : List (QStep Num) → List Reg
  | [] => []
  | .prop k :: p => regs (u ++ [.prop k]) p
  | .all :: p => regs (u ++ [.all]) p
  | .filter e :: p => block (u ++ [.all]) e ++ regs (u ++ [.all]) p

/-- The state of the compilation after the steps `B` and the word `u`. -/
structure FAll (B u : List Step) (Q : List Reg) (c : SCtx) : Prop where
  st : c.st = (B ++ u).map seOf
  inv : FInv B (Q.map Reg.w) (Q.map (·.role.tree)) c
  maps : ∀ h w e ds, Q[h]? = some ⟨w, .pred e ds⟩ →
    MapOk c.mapping (Q.map (·.role.tree)) h (ds.map joinPath)
  counts : ∀ r ∈ Q, r.w.count .all ≤ u.count .all

theorem FAll.push {B u : List Step} {Q : List Reg} {c : SCtx} (h : FAll B u Q c) (s : Step) :
    FAll B (u ++ [s]) Q (c.push (seOf s)) := by
  refine ⟨by simp [SCtx.push, h.st], h.inv.congr rfl rfl rfl rfl rfl, h.maps, ?_⟩
  intro r hr
  have := h.counts r hr
  rw [List.count_append]; omega

theorem mem_addTested {ds : List (List Str)} {q x : List Str} : x ∈ addTested ds q ↔ x ∈ ds ∨ x = q := by
  unfold addTested
  split
  · rename_i h
    constructor
    · exact .inl
    · rintro (h' | rfl)
      · exact h'
      · exact h
  · simp

theorem mem_foldl_addTested {x : List Str} : ∀ (ps ds : List (List Str)),
    x ∈ ps.foldl addTested ds ↔ x ∈ ds ∨ x ∈ ps
  | [], ds => by simp
  | q :: ps, ds => by
    rw [List.foldl_cons, mem_foldl_addTested ps, mem_addTested, List.mem_cons, or_assoc]

theorem mem_testedPaths {e : Expr Num} {q : List Str} : q ∈ testedPaths e ↔ q ∈ e.props := by
  simp [testedPaths, mem_foldl_addTested]

theorem nodup_foldl_addTested : ∀ (ps ds : List (List Str)), ds.Nodup → (ps.foldl addTested ds).Nodup
  | [], _, h => h
  | q :: ps, ds, h => by
    rw [List.foldl_cons]
    refine nodup_foldl_addTested ps _ ?_
    unfold addTested
    split
    · exact h
    · rename_i hm
      rw [List.nodup_append]
      exact ⟨h, by simp, by intro a ha b hb; simp at hb; subst hb; rintro rfl; exact hm ha⟩

theorem nodup_testedPaths (e : Expr Num) : (testedPaths e).Nodup := nodup_foldl_addTested _ _ List.nodup_nil

theorem count_props (q : List Str) : (q.map Step.prop).count .all = 0 := by
  rw [List.count_eq_zero]
  intro h
  obtain ⟨k, _, hk⟩ := List.mem_map.1 h
  cases hk

theorem FAll.filter {B u : List Step} {Q : List Reg} {c : SCtx} (h : FAll B u Q c) (hu : CleanWord u)
    (e : Expr Num) (he : ∀ q ∈ e.props, q ≠ [] ∧ ∀ k ∈ q, cleanName k) :
    FAll B (u ++ [.all]) (Q ++ block (u ++ [.all]) e) (fctxStep c (.filter e)) := by
  have hp := h.push .all
  have hu' : CleanWord (u ++ [.all]) := hu.append (by intro s hs; simp at hs; exact .inl hs)
  have hlt : ∀ r ∈ Q, r.w.count .all < (u ++ [Step.all]).count .all := by
    intro r hr
    have := h.counts r hr
    rw [List.count_append]
    simp; omega
  have hnew : u ++ [.all] ∉ Q.map Reg.w := by
    intro hm
    obtain ⟨r, hr, he⟩ := List.mem_map.1 hm
    have := hlt r hr
    rw [he] at this; omega
  obtain ⟨k1, k2, k3, k4, k5, k6, k7⟩ := hp.inv.create hp.st hu' hnew false (some (withVars e))
  have hx : ((c.push (seOf .all)).createDfa false).1.rules.length - 1 = Q.length := by rw [k3]; simp
  have hfc : fctxStep c (.filter e) = constructFilter Q.length (withVars e)
      { ((c.push (seOf .all)).createDfa false).1 with
        mapping := mapReset ((c.push (seOf .all)).createDfa false).1.mapping Q.length
        trees := ((c.push (seOf .all)).createDfa false).1.trees.set Q.length (some (withVars e)) } := by
    rw [← hx]; rfl
  rw [hfc, constructFilter_props]
  rw [hx] at k7
  generalize ((c.push (seOf .all)).createDfa false).1 = c1 at *
  have hinit : Conds1 B (Q.map Reg.w ++ [u ++ [.all]]) (Q.map (·.role.tree) ++ [some (withVars e)]) (u ++ [.all]) Q.length []
      { c1 with mapping := mapReset c1.mapping Q.length, trees := c1.trees.set Q.length (some (withVars e)) } := by
    refine ⟨by show c1.st = _; rw [k4]; exact hp.st, ?_, ⟨[], ?_, rfl⟩⟩
    · simpa using k7.congr (c' := { c1 with mapping := mapReset c1.mapping Q.length, trees := c1.trees.set Q.length (some (withVars e)) })
        rfl rfl rfl rfl rfl
    · show ((mapReset _ _).find? _).map _ = _
      rw [find_reset, if_pos rfl]
  obtain ⟨f1, f2⟩ := Conds1.fold hu' (by
      intro w hw x hx he
      rcases List.mem_append.1 hw with hw | hw
      · obtain ⟨r, hr, rfl⟩ := List.mem_map.1 hw
        have := hlt r hr
        rw [he, List.count_append (l₁ := u ++ [Step.all])] at this; omega
      · simp only [List.mem_singleton] at hw
        rw [hw] at he
        have := congrArg List.length he
        have hx' : 0 < x.length := List.length_pos_iff.2 hx
        rw [List.length_append (as := u ++ [Step.all])] at this
        omega) (by simp) e.props [] _ hinit he
  generalize e.props.foldl (fun c q => constructFilter Q.length (.var (joinPath q)) c) _ = c2 at *
  have hW : Q.map Reg.w ++ [u ++ [Step.all]] ++ (e.props.foldl addTested []).map (fun q => u ++ [.all] ++ q.map .prop) =
      (Q ++ block (u ++ [.all]) e).map Reg.w := by
    simp [block, testedPaths, Function.comp_def]
  have hT : Q.map (·.role.tree) ++ [some (withVars e)] ++ (e.props.foldl addTested []).map (fun q => some (Ast.var (joinPath q))) =
      (Q ++ block (u ++ [.all]) e).map (·.role.tree) := by
    simp [block, testedPaths, Function.comp_def, Role.tree]
  refine ⟨f1.st, by rw [← hW, ← hT]; exact f1.inv, ?_, ?_⟩
  · intro i w e' ds hi
    by_cases hiq : i < Q.length
    · rw [List.getElem?_append_left hiq] at hi
      have := (hp.maps i w e' ds hi).grow ((block (u ++ [.all]) e).map (·.role.tree))
      rw [← List.map_append] at this
      obtain ⟨xs, m1, m2⟩ := this
      refine ⟨xs, ?_, m2⟩
      rw [f2 i (by omega)]
      show ((mapReset _ _).find? _).map _ = _
      rw [find_reset, if_neg (by omega), k5]
      exact m1
    · rw [List.getElem?_append_right (by omega)] at hi
      by_cases hi0 : i = Q.length
      · subst hi0
        simp only [Nat.sub_self, block, List.getElem?_cons_zero, Option.some.injEq, Reg.mk.injEq, Role.pred.injEq] at hi
        rw [← hi.2.2, ← hT]
        exact f1.map
      · obtain ⟨j, hj⟩ : ∃ j, i - Q.length = j + 1 := ⟨i - Q.length - 1, by omega⟩
        rw [hj] at hi
        simp only [block, List.getElem?_cons_succ, List.getElem?_map] at hi
        cases hd : (testedPaths e)[j]? with
        | none => rw [hd] at hi; cases hi
        | some q => rw [hd] at hi; simp at hi
  · intro r hr
    rcases List.mem_append.1 hr with hr | hr
    · exact Nat.le_of_lt (hlt r hr)
    · simp only [block, List.mem_cons, List.mem_map] at hr
      rcases hr with rfl | ⟨q, _, rfl⟩
      · exact Nat.le_refl _
      · rw [List.count_append (l₁ := u ++ [Step.all]), count_props]; exact Nat.le_refl _

/-- Names without separators and nonempty references. -/
def CleanPath (p : List (QStep Num)) : Prop := refsNamed p = true ∧ ∀ k ∈ pathNames p, cleanName k

theorem CleanPath.filter {e : Expr Num} {p : List (QStep Num)} (h : CleanPath (.filter e :: p)) :
    (∀ q ∈ e.props, q ≠ [] ∧ ∀ k ∈ q, cleanName k) ∧ CleanPath p := by
  obtain ⟨h1, h2⟩ := h
  simp only [refsNamed, Bool.and_eq_true, List.all_eq_true] at h1
  simp only [pathNames, List.mem_append] at h2
  refine ⟨fun q hq => ⟨?_, fun k hk => h2 k (.inl (List.mem_flatten.2 ⟨q, hq, hk⟩))⟩, h1.2, fun k hk => h2 k (.inr hk)⟩
  intro h0; have := h1.1 q hq; rw [h0] at this; simp at this

theorem FAll.fold {B : List Step} : ∀ (p : List (QStep Num)) (u : List Step) (Q : List Reg) (c : SCtx), FAll B u Q c → CleanWord u →
    CleanPath p → FAll B (u ++ p.map sk) (Q ++ regs u p) (p.foldl fctxStep c)
  | [], u, Q, c, h, _, _ => by simpa [regs] using h
  | .prop k :: p, u, Q, c, h, hu, hp => by
    have := FAll.fold p (u ++ [.prop k]) Q _ (h.push (.prop k)) (hu.append (by
      intro s hs; simp only [List.mem_singleton] at hs
      exact .inr ⟨k, hs, hp.2 k (by simp [pathNames])⟩)) ⟨hp.1, fun k hk => hp.2 k (by simp [pathNames, hk])⟩
    simpa [regs, sk, fctxStep, seOf] using this
  | .all :: p, u, Q, c, h, hu, hp => by
    have := FAll.fold p (u ++ [.all]) Q _ (h.push .all) (hu.append (by
      intro s hs; simp only [List.mem_singleton] at hs; exact .inl hs)) ⟨hp.1, fun k hk => hp.2 k (by simp [pathNames, hk])⟩
    simpa [regs, sk, fctxStep, seOf] using this
  | .filter e :: p, u, Q, c, h, hu, hp => by
    have := FAll.fold p (u ++ [.all]) _ _ (h.filter hu e hp.filter.1) (hu.append (by
      intro s hs; simp only [List.mem_singleton] at hs; exact .inl hs)) hp.filter.2
    simpa [regs, sk] using this

end JPS
