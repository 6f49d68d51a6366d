import Verif.FilterRun
import Verif.Spec.FilterSlice
/-!
# The compilation context of a path with filters and slices
-/

set_option autoImplicit false

namespace JPS
open Spec

/-- The tree of one more step (`LocationPath`, parser_j.y:54-58; `Predicate`, 64-71; `FilterExpression`). -/
def sstepAst (t : Ast) : SStep Num → Ast
  | .prop k => .concat t (.id k)
  | .all => .predicate t .wildcard
  | .slice a b => .predicate t (.range (a.map numLit) (b.map numLit))
  | .filter e => .predicate t (.filter (exprTree e))

/-- The tree the parser builds for a path with filters and slices. -/
def sAst (p : List (SStep Num)) : Ast := p.foldl sstepAst .root

/-- Effect of one step on the context, dfa_builder.cpp:213-274. -/
def sctxStep (c : SCtx) : SStep Num → SCtx
  | .prop k => c.push (.dotProp k)
  | .all => c.push .arrayAll
  | .slice a b =>
    let c := ((c.push (.arrayIndex (sliceLo a) (sliceHi b))).createDfa false).1
    { c with ranges := c.ranges.set (c.rules.length - 1) (sliceLo a, sliceHi b) }
  | .filter e =>
    let c := ((c.push .arrayAll).createDfa false).1
    let h := c.rules.length - 1
    constructFilter h (withVars e) { c with mapping := mapReset c.mapping h, trees := c.trees.set h (some (withVars e)) }

theorem construct_sAst (p : List (SStep Num)) (hp : refsNamed (wholes p) = true) (c : SCtx) :
    construct (sAst p) c = p.foldl sctxStep c := by
  have gen : ∀ (p : List (SStep Num)) (t : Ast), refsNamed (wholes p) = true →
      construct (p.foldl sstepAst t) c = p.foldl sctxStep (construct t c) := by
    intro p
    induction p with
    | nil => intro t _; rfl
    | cons s p ih =>
      intro t hp
      have hp' : refsNamed (wholes p) = true := by
        cases s <;> simp only [wholes, List.map_cons, SStep.whole, refsNamed, Bool.and_eq_true] at hp ⊢
        · exact hp
        · exact hp
        · exact hp
        · exact hp.2
      simp only [List.foldl_cons, ih _ hp']
      congr 1
      cases s with
      | prop k => rfl
      | all => rfl
      | slice a b =>
        have ha : (((a.map numLit).map Num.toInt).getD intMin) = sliceLo a := by
          cases a <;> simp [sliceLo, numLit_toInt]
        have hb : (((b.map numLit).map Num.toInt).getD intMax) = sliceHi b := by
          cases b <;> simp [sliceHi, numLit_toInt]
        simp only [sstepAst, construct, constructRight, sctxStep, ha, hb]
      | filter e =>
        simp only [wholes, List.map_cons, SStep.whole, refsNamed, Bool.and_eq_true, List.all_eq_true] at hp
        have hne : ∀ q ∈ e.props, q ≠ [] := by
          intro q hq h; have := hp.1 q hq; rw [h] at this; simp at this
        simp only [sstepAst, construct, constructRight, sctxStep, c28_rewrites e hne]
  exact gen p .root hp

/-! ### Texts of words -/

/-- The step without its test. -/
def ssk : SStep Num → Step
  | .prop k => .prop k
  | .all => .all
  | .slice a b => .slice a b
  | .filter _ => .all

/-- A word of names and array steps with or without bounds. -/
def GClean (w : List Step) : Prop := ∀ s ∈ w, s = .all ∨ (∃ a b, s = .slice a b) ∨ ∃ k, s = .prop k ∧ cleanName k

theorem GClean.append {w x : List Step} (hw : GClean w) (hx : GClean x) : GClean (w ++ x) := by
  intro s hs
  rcases List.mem_append.1 hs with h | h
  · exact hw s h
  · exact hx s h

theorem GClean.props {c : List Str} (h : ∀ k ∈ c, cleanName k) : GClean (c.map .prop) := by
  intro s hs
  obtain ⟨k, hk, rfl⟩ := List.mem_map.1 hs
  exact .inr (.inr ⟨k, rfl, h k hk⟩)

theorem intText_bracket (i : Int) : (intText i).count '[' = 0 := by
  rw [List.count_eq_zero]
  have hn : ∀ n : Nat, '[' ∉ (Nat.repr n).toList := by
    intro n h
    have : '[' ∈ Nat.toDigits 10 n := by simpa [Nat.repr] using h
    have := Nat.isDigit_of_mem_toDigits (by omega) (by omega) this
    exact absurd this (by decide)
  unfold intText
  cases i with
  | ofNat n => exact hn n
  | negSucc n =>
    show '[' ∉ ("-" ++ Nat.repr (n + 1)).toList
    rw [String.toList_append]
    intro h
    rcases List.mem_append.1 h with h | h
    · exact absurd h (by decide)
    · exact hn _ h

/-- Array steps of a word. -/
def arrs (w : List Step) : Nat := (w.map unslice).count .all

theorem arrs_append (w x : List Step) : arrs (w ++ x) = arrs w + arrs x := by
  simp [arrs, List.count_append]

theorem arrs_props (q : List Str) : arrs (q.map .prop) = 0 := by
  unfold arrs
  rw [List.count_eq_zero]
  intro h
  obtain ⟨s, hs, he⟩ := List.mem_map.1 h
  obtain ⟨k, _, rfl⟩ := List.mem_map.1 hs
  cases he

theorem text_brackets : ∀ (w : List Step), GClean w → ((w.map seOf).flatMap SE.text).count '[' = arrs w
  | [], _ => rfl
  | s :: w, h => by
    have ih := text_brackets w (fun s hs => h s (by simp [hs]))
    rw [List.map_cons, List.flatMap_cons, List.count_append, ih, show s :: w = [s] ++ w from rfl, arrs_append]
    congr 1
    rcases h s (by simp) with rfl | ⟨a, b, rfl⟩ | ⟨k, rfl, hk⟩
    · rfl
    · simp only [seOf, SE.text, List.count_append, List.count_cons, intText_bracket]
      simp [arrs, unslice]
    · simp only [seOf, SE.text, List.count_cons, List.count_eq_zero.2 hk.2]
      simp [arrs, unslice]

theorem getOutput_arrs {w x : List Step} (hw : GClean w) (hx : GClean x)
    (h : getOutput (w.map seOf) = getOutput (x.map seOf)) : arrs w = arrs x := by
  simp only [getOutput, List.cons.injEq, true_and] at h
  rw [← text_brackets w hw, ← text_brackets x hx, h]

/-! ### The registered words -/

/-- What the compiler has registered: the words `W`, the subtrees `T`. -/
structure GInv (W : List (List Step)) (T : List (Option Ast)) (c : SCtx) : Prop where
  rules : c.rules = W.map (itemsOf c.names)
  ranges : c.ranges = W.map rangeOf
  trees : c.trees = T
  check : c.check = W.map (fun w => getOutput (w.map seOf))
  named : ∀ w ∈ W, Named c.names w
  nodup : c.names.Nodup
  from_ : ∀ k ∈ c.names, ∃ w ∈ W, Step.prop k ∈ w
  clean : ∀ w ∈ W, GClean w
  len : T.length = W.length

theorem GClean.prop_mem {u : List Step} (hu : GClean u) {k : Str} {s : Step} (hs : s ∈ u)
    (h : stepName s = some k) : Step.prop k ∈ u := by
  rcases hu s hs with rfl | ⟨a, b, rfl⟩ | ⟨k', rfl, _⟩
  · simp [Spec.stepName] at h
  · simp [Spec.stepName] at h
  · simp only [Spec.stepName, Option.some.injEq] at h; subst h; exact hs

/-- Registering a new word with the subtree `t` and its range. -/
theorem GInv.create {W : List (List Step)} {T : List (Option Ast)} {c : SCtx} (h : GInv W T c)
    {u : List Step} (hst : c.st = u.map seOf) (hu : GClean u)
    (hf : ∀ w ∈ W, getOutput (w.map seOf) ≠ getOutput (u.map seOf)) (b : Bool) (t : Option Ast) :
    let c' := (c.createDfa b).1
    (c.createDfa b).2 = false ∧ c'.lastGen = some true ∧ c'.rules.length = W.length + 1 ∧
    c'.st = c.st ∧ c'.mapping = c.mapping ∧ c'.lastId = (if b then c.lastId else some (W.length + 1)) ∧
    c'.ranges = W.map rangeOf ++ [(0, 0)] ∧
    GInv (W ++ [u]) (T ++ [t]) { c' with trees := c'.trees.set (c'.rules.length - 1) t, ranges := W.map rangeOf ++ [rangeOf u] } := by
  have hnot : ¬ getOutput c.st ∈ c.check := by
    rw [h.check, hst]
    intro hm
    obtain ⟨w, hw, he⟩ := List.mem_map.1 hm
    exact hf w hw he
  obtain ⟨ext, e1, e2, e3⟩ := addNames_spec u c.names
  rw [← hst] at e1
  unfold SCtx.createDfa
  rw [if_neg hnot]
  simp only [e1]
  have hr : c.rules.length = W.length := by rw [h.rules]; simp
  refine ⟨trivial, trivial, by simp [hr], trivial, trivial, by simp [hr], by simp [h.ranges], ?_⟩
  refine ⟨?_, by simp, ?_, by simp [h.check, hst], ?_, e2 h.nodup, ?_, ?_, by simp [h.len]⟩
  · simp only [h.rules, List.map_append, List.map_cons, List.map_nil]
    congr 1
    · apply List.map_congr_left
      intro q hq
      exact (itemsOf_append (h.named q hq) ext).symm
    · simp only [itemsOf, hst]
  · simp only [h.trees, List.length_append, List.length_cons, List.length_nil, hr, Nat.zero_add, Nat.add_sub_cancel]
    rw [List.set_append_right _ _ (by rw [h.len]; exact Nat.le_refl _), h.len]
    simp
  · intro q hq
    rcases List.mem_append.1 hq with hq | hq
    · exact (h.named q hq).append ext
    · simp at hq; subst hq; exact e3
  · intro k hk
    have := addNames_from u c.names k (by rw [← hst, e1]; exact hk)
    rcases this with h' | ⟨s, hs, h'⟩
    · obtain ⟨w, hw, hm⟩ := h.from_ k h'
      exact ⟨w, List.mem_append_left _ hw, hm⟩
    · exact ⟨u, by simp, hu.prop_mem hs h'⟩
  · intro w hw
    rcases List.mem_append.1 hw with hw | hw
    · exact h.clean w hw
    · simp at hw; subst hw; exact hu

theorem GInv.congr {W : List (List Step)} {T : List (Option Ast)} {c c' : SCtx} (h : GInv W T c)
    (h1 : c'.rules = c.rules) (h2 : c'.ranges = c.ranges) (h3 : c'.trees = c.trees) (h4 : c'.check = c.check)
    (h5 : c'.names = c.names) : GInv W T c' :=
  ⟨by rw [h1, h5]; exact h.rules, by rw [h2]; exact h.ranges, by rw [h3]; exact h.trees, by rw [h4]; exact h.check,
    by rw [h5]; exact h.named, by rw [h5]; exact h.nodup, by rw [h5]; exact h.from_, h.clean, h.len⟩

theorem rangeOf_all (u : List Step) : rangeOf (u ++ [.all]) = (0, 0) := by simp [rangeOf]

theorem rangeOf_prop (u : List Step) (k : Str) : rangeOf (u ++ [.prop k]) = (0, 0) := by simp [rangeOf]

theorem rangeOf_slice (u : List Step) (a b : Option Int) : rangeOf (u ++ [.slice a b]) = (sliceLo a, sliceHi b) := by
  simp [rangeOf]

theorem rangeOf_props (u : List Step) {q : List Str} (hq : q ≠ []) : rangeOf (u ++ q.map .prop) = (0, 0) := by
  rw [← List.dropLast_concat_getLast hq, List.map_append, ← List.append_assoc]
  exact rangeOf_prop _ _

/-! ### The conditions of one filter -/

/-- The words and subtrees while the conditions of the filter at `u` are being registered. -/
structure GConds (W0 : List (List Step)) (T0 : List (Option Ast)) (u : List Step) (h : Nat)
    (ds : List (List Str)) (c : SCtx) : Prop where
  st : c.st = u.map seOf
  inv : GInv (W0 ++ ds.map (fun q => u ++ q.map .prop)) (T0 ++ ds.map (fun q => some (.var (joinPath q)))) c
  map : MapOk c.mapping (T0 ++ ds.map (fun q => some (.var (joinPath q)))) h (ds.map joinPath)

theorem getOutput_suffix {u : List Step} {x y : List Step} (h : getOutput ((u ++ x).map seOf) = getOutput ((u ++ y).map seOf)) :
    getOutput (x.map seOf) = getOutput (y.map seOf) := by
  simp only [getOutput, List.cons.injEq, true_and, List.map_append, List.flatMap_append] at h ⊢
  exact List.append_cancel_left h

theorem GConds.step {W0 : List (List Step)} {T0 : List (Option Ast)} {u : List Step} {h : Nat}
    {ds : List (List Str)} {c : SCtx} (hc : GConds W0 T0 u h ds c) (hu : GClean u)
    {q : List Str} (hq : q ≠ []) (hqc : ∀ k ∈ q, cleanName k) (hdc : ∀ q ∈ ds, ∀ k ∈ q, cleanName k)
    (hW : ∀ w ∈ W0, ∀ q : List Str, q ≠ [] → (∀ k ∈ q, cleanName k) →
      getOutput (w.map seOf) ≠ getOutput ((u ++ q.map Step.prop).map seOf)) (hT : T0.length = W0.length) :
    let c' := constructFilter h (.var (joinPath q)) c
    GConds W0 T0 u h (addTested ds q) c' ∧
    (∀ h', h' ≠ h → (c'.mapping.find? (fun p => p.1 == h')).map Prod.snd =
      (c.mapping.find? (fun p => p.1 == h')).map Prod.snd) := by
  have hsp := splitDots_join q hq (fun k hk => (hqc k hk).1)
  obtain ⟨g1, g2, g3, g4, g5, g6, g7⟩ := push_all q c
  simp only [constructFilter, hsp]
  generalize q.foldl (fun c t => c.push (.dotProp t)) c = c1 at *
  have hinv : GInv (W0 ++ ds.map (fun q => u ++ q.map .prop))
      (T0 ++ ds.map (fun q => some (.var (joinPath q)))) c1 := hc.inv.congr g2 g3 g4 g5 g6
  have hst1 : c1.st = (u ++ q.map Step.prop).map seOf := by
    rw [g1, hc.st]; simp [seOf, Function.comp_def]
  have hclean : GClean (u ++ q.map .prop) := hu.append (.props hqc)
  by_cases hm : q ∈ ds
  · have hin : getOutput c1.st ∈ c1.check := by
      rw [hinv.check, hst1]
      exact List.mem_map.2 ⟨u ++ q.map .prop, by simp only [List.mem_append, List.mem_map]; exact .inr ⟨q, hm, rfl⟩, rfl⟩
    have hcr : c1.createDfa true = (c1, true) := by unfold SCtx.createDfa; rw [if_pos hin]
    rw [hcr]
    simp only [if_true, addTested, if_pos hm]
    refine ⟨⟨?_, hinv.congr rfl rfl rfl rfl rfl, by rw [g7]; exact hc.map⟩, by rw [g7]; intros; rfl⟩
    show c1.st.take c.st.length = _
    rw [g1, List.take_left' rfl, hc.st]
  · have hf : ∀ w ∈ W0 ++ ds.map (fun q => u ++ q.map .prop),
        getOutput (w.map seOf) ≠ getOutput ((u ++ q.map Step.prop).map seOf) := by
      intro w hmem he
      rcases List.mem_append.1 hmem with h1 | h1
      · exact hW _ h1 q hq hqc he
      · obtain ⟨q', hq', rfl⟩ := List.mem_map.1 h1
        have := getOutput_inj [] (CleanWord.props (hdc q' hq')) (CleanWord.props hqc) (getOutput_suffix he)
        have := map_prop_inj this
        subst this; exact hm hq'
    obtain ⟨k1, k2, k3, k4, k5, k6, k7r, k7⟩ := hinv.create hst1 hclean hf true (some (.var (joinPath q)))
    rw [rangeOf_props u hq, ← k7r] at k7
    rw [k1]
    simp only [Bool.false_eq_true, if_false, addTested, if_neg hm]
    have hW' : W0 ++ ds.map (fun q => u ++ q.map .prop) ++ [u ++ q.map .prop] =
        W0 ++ (ds ++ [q]).map (fun q => u ++ q.map .prop) := by simp
    have hT' : T0 ++ ds.map (fun q => some (Ast.var (joinPath q))) ++ [some (.var (joinPath q))] =
        T0 ++ (ds ++ [q]).map (fun q => some (.var (joinPath q))) := by simp
    rw [hW', hT'] at k7
    have hx : (c1.createDfa true).1.rules.length - 1 = T0.length + ds.length := by
      rw [k3]; simp [hT]
    refine ⟨⟨?_, k7.congr rfl rfl rfl rfl rfl, ?_⟩, ?_⟩
    · show (c1.createDfa true).1.st.take c.st.length = _
      rw [k4, g1, List.take_left' rfl, hc.st]
    · obtain ⟨xs, m1, m2⟩ := hc.map.grow [some (.var (joinPath q))]
      refine ⟨xs ++ [T0.length + ds.length], ?_, ?_⟩
      · show ((mapPush _ _ _).find? _).map _ = _
        rw [find_push, k5, g7, m1, hx]; simp
      · rw [hT'] at m2
        rw [List.map_append, m2]
        simp only [List.map_append, List.map_cons, List.map_nil]
        congr 2
        rw [← List.append_assoc, List.getElem?_append_right (by simp)]
        simp
    · intro h' hh
      show ((mapPush _ _ _).find? _).map _ = _
      rw [find_push, k5, g7]
      generalize Option.map Prod.snd _ = o
      cases o <;> simp [hh]

theorem GConds.fold {W0 : List (List Step)} {T0 : List (Option Ast)} {u : List Step} {h : Nat}
    (hu : GClean u) (hW : ∀ w ∈ W0, ∀ q : List Str, q ≠ [] → (∀ k ∈ q, cleanName k) →
      getOutput (w.map seOf) ≠ getOutput ((u ++ q.map Step.prop).map seOf)) (hT : T0.length = W0.length) :
    ∀ (ps : List (List Str)) (ds : List (List Str)) (c : SCtx), GConds W0 T0 u h ds c →
    (∀ q ∈ ps, q ≠ [] ∧ ∀ k ∈ q, cleanName k) → (∀ q ∈ ds, ∀ k ∈ q, cleanName k) →
    let c' := ps.foldl (fun c q => constructFilter h (.var (joinPath q)) c) c
    GConds W0 T0 u h (ps.foldl addTested ds) c' ∧
    (∀ h', h' ≠ h → (c'.mapping.find? (fun p => p.1 == h')).map Prod.snd =
      (c.mapping.find? (fun p => p.1 == h')).map Prod.snd)
  | [], ds, c, hc, _, _ => ⟨hc, fun _ _ => rfl⟩
  | q :: ps, ds, c, hc, hps, hds => by
    obtain ⟨h1, h2⟩ := hc.step hu (hps q (by simp)).1 (hps q (by simp)).2 hds hW hT
    obtain ⟨h3, h4⟩ := GConds.fold hu hW hT ps (addTested ds q) _ h1 (fun q hq => hps q (by simp [hq])) (by
      intro d hd
      rcases mem_addTested.1 hd with hd | rfl
      · exact hds d hd
      · exact (hps _ (by simp)).2)
    exact ⟨h3, fun h' hh => (h4 h' hh).trans (h2 h' hh)⟩

/-! ### The whole path -/

/-- A registered word; `none`: it only carries the range of a slice inside the path. -/
structure SReg where
  w : List Step
  role : Option Role

/-- The subtree of a registered word. -/
def SReg.tree (r : SReg) : Option Ast := r.role.bind Role.tree

/-- A word registered by a filter. -/
def Reg.up (r : Reg) : SReg := ⟨r.w, some r.role⟩

/-- The words the filters and slices of a path register; `u` is the word before the path.  A slice at the end is
the result. -/
def sregs (u : List Step) : List (SStep Num) → List SReg
  | [] => []
  | .prop k :: p => sregs (u ++ [.prop k]) p
  | .all :: p => sregs (u ++ [.all]) p
  | .slice a b :: p => ⟨u ++ [.slice a b], if p.isEmpty then some .out else none⟩ :: sregs (u ++ [.slice a b]) p
  | .filter e :: p => (block (u ++ [.all]) e).map Reg.up ++ sregs (u ++ [.all]) p

/-- The state of the compilation after the word `u`. -/
structure GAll (u : List Step) (Q : List SReg) (c : SCtx) : Prop where
  st : c.st = u.map seOf
  inv : GInv (Q.map SReg.w) (Q.map SReg.tree) c
  maps : ∀ h w e ds, Q[h]? = some ⟨w, some (.pred e ds)⟩ → MapOk c.mapping (Q.map SReg.tree) h (ds.map joinPath)
  counts : ∀ r ∈ Q, arrs r.w ≤ arrs u

theorem GAll.push {u : List Step} {Q : List SReg} {c : SCtx} (h : GAll u Q c) (s : Step) :
    GAll (u ++ [s]) Q (c.push (seOf s)) := by
  refine ⟨by simp [SCtx.push, h.st], h.inv.congr rfl rfl rfl rfl rfl, h.maps, ?_⟩
  intro r hr
  have := h.counts r hr
  rw [arrs_append]; omega

theorem GAll.fresh {u : List Step} {Q : List SReg} {c : SCtx} (h : GAll u Q c) (hu : GClean u) {x : List Step} (hx : GClean x)
    (hlt : 0 < arrs x) : ∀ w ∈ Q.map SReg.w, getOutput (w.map seOf) ≠ getOutput ((u ++ x).map seOf) := by
  intro w hw he
  obtain ⟨r, hr, rfl⟩ := List.mem_map.1 hw
  have h1 := h.counts r hr
  have h2 := getOutput_arrs (h.inv.clean _ hw) (hu.append hx) he
  rw [arrs_append] at h2; omega

theorem clean_all : GClean [.all] := by intro s hs; simp at hs; exact .inl hs
theorem clean_slice (a b : Option Int) : GClean [.slice a b] := by intro s hs; simp at hs; exact .inr (.inl ⟨a, b, hs⟩)
theorem clean_prop {k : Str} (h : cleanName k) : GClean [.prop k] := by intro s hs; simp at hs; exact .inr (.inr ⟨k, hs, h⟩)

theorem GAll.slice {u : List Step} {Q : List SReg} {c : SCtx} (h : GAll u Q c) (hu : GClean u) (a b : Option Int)
    (o : Option Role) (ho : o.bind Role.tree = none) (hop : ∀ e ds, o ≠ some (.pred e ds)) :
    GAll (u ++ [.slice a b]) (Q ++ [⟨u ++ [.slice a b], o⟩]) (sctxStep c (.slice a b)) ∧
    (sctxStep c (.slice a b)).lastGen = some true ∧ (sctxStep c (.slice a b)).lastId = some (Q.length + 1) := by
  have hp := h.push (.slice a b)
  have hu' : GClean (u ++ [.slice a b]) := hu.append (clean_slice a b)
  obtain ⟨k1, k2, k3, k4, k5, k6, k8, k7⟩ := hp.inv.create hp.st hu'
    (h.fresh hu (clean_slice a b) (by simp [arrs, unslice])) false none
  have htr := createDfa_trees _ _ k1
  have e : sctxStep c (.slice a b) = { ((c.push (seOf (.slice a b))).createDfa false).1 with
      ranges := ((c.push (seOf (.slice a b))).createDfa false).1.ranges.set
        (((c.push (seOf (.slice a b))).createDfa false).1.rules.length - 1) (sliceLo a, sliceHi b) } := rfl
  rw [e]
  have hlenQ : (c.push (seOf (.slice a b))).trees.length = Q.length := by rw [hp.inv.trees]; simp
  generalize ((c.push (seOf (.slice a b))).createDfa false).1 = c1 at *
  refine ⟨⟨by show c1.st = _; rw [k4]; exact hp.st, ?_, ?_, ?_⟩, k2, by show c1.lastId = _; rw [k6]; simp⟩
  · have ht : SReg.tree ⟨u ++ [.slice a b], o⟩ = none := ho
    rw [List.map_append, List.map_append, List.map_cons, List.map_cons, List.map_nil, List.map_nil, ht]
    refine k7.congr rfl ?_ ?_ rfl rfl
    · show c1.ranges.set _ _ = _
      rw [k8, k3, Nat.add_sub_cancel, List.set_append_right _ _ (by simp), rangeOf_slice]
      simp
    · show c1.trees = c1.trees.set _ none
      rw [htr, k3, List.length_map, Nat.add_sub_cancel, ← hlenQ]
      simp
  · intro i w e' ds hi
    show MapOk c1.mapping _ _ _
    rw [k5, List.map_append]
    apply MapOk.grow
    apply h.maps i w e' ds
    rw [List.getElem?_append] at hi
    split at hi
    · exact hi
    · have h0 : i - Q.length = 0 := by
        have := (List.getElem?_eq_some_iff.1 hi).1
        simp at this; omega
      rw [h0] at hi
      simp only [List.getElem?_cons_zero, Option.some.injEq, SReg.mk.injEq] at hi
      exact absurd hi.2 (hop e' ds)
  · intro r hr
    rcases List.mem_append.1 hr with hr | hr
    · exact hp.counts r hr
    · simp only [List.mem_singleton] at hr; subst hr; exact Nat.le_refl _

theorem GAll.filter {u : List Step} {Q : List SReg} {c : SCtx} (h : GAll u Q c) (hu : GClean u)
    (e : Expr Num) (he : ∀ q ∈ e.props, q ≠ [] ∧ ∀ k ∈ q, cleanName k) :
    GAll (u ++ [.all]) (Q ++ (block (u ++ [.all]) e).map Reg.up) (sctxStep c (.filter e)) := by
  have hp := h.push .all
  have hu' : GClean (u ++ [.all]) := hu.append clean_all
  obtain ⟨k1, k2, k3, k4, k5, k6, k8, k7⟩ := hp.inv.create hp.st hu'
    (h.fresh hu clean_all (by simp [arrs, unslice])) false (some (withVars e))
  rw [rangeOf_all, ← k8] at k7
  have hx : ((c.push (seOf .all)).createDfa false).1.rules.length - 1 = Q.length := by rw [k3]; simp
  have hfc : sctxStep c (.filter e) = constructFilter Q.length (withVars e)
      { ((c.push (seOf .all)).createDfa false).1 with
        mapping := mapReset ((c.push (seOf .all)).createDfa false).1.mapping Q.length
        trees := ((c.push (seOf .all)).createDfa false).1.trees.set Q.length (some (withVars e)) } := by
    rw [← hx]; rfl
  rw [hfc, constructFilter_props]
  rw [hx] at k7
  generalize ((c.push (seOf .all)).createDfa false).1 = c1 at *
  have hinit : GConds (Q.map SReg.w ++ [u ++ [.all]]) (Q.map SReg.tree ++ [some (withVars e)]) (u ++ [.all]) Q.length []
      { c1 with mapping := mapReset c1.mapping Q.length, trees := c1.trees.set Q.length (some (withVars e)) } := by
    refine ⟨by show c1.st = _; rw [k4]; exact hp.st, ?_, ⟨[], ?_, rfl⟩⟩
    · simpa using k7.congr (c' := { c1 with mapping := mapReset c1.mapping Q.length, trees := c1.trees.set Q.length (some (withVars e)) })
        rfl rfl rfl rfl rfl
    · show ((mapReset _ _).find? _).map _ = _
      rw [find_reset, if_pos rfl]
  obtain ⟨f1, f2⟩ := GConds.fold hu' (by
      intro w hw q hq hqc he
      rcases List.mem_append.1 hw with hw | hw
      · rw [List.append_assoc] at he
        exact h.fresh hu (clean_all.append (.props hqc)) (by rw [arrs_append, show arrs [Step.all] = 1 from rfl]; omega) w hw he
      · simp only [List.mem_singleton] at hw
        rw [hw] at he
        have := getOutput_lt (u ++ [.all]) (q.map .prop) (by simpa using hq)
        rw [he] at this; omega) (by simp) e.props [] _ hinit he (by intro q hq; simp at hq)
  generalize e.props.foldl (fun c q => constructFilter Q.length (.var (joinPath q)) c) _ = c2 at *
  have hW : Q.map SReg.w ++ [u ++ [Step.all]] ++ (e.props.foldl addTested []).map (fun q => u ++ [.all] ++ q.map .prop) =
      (Q ++ (block (u ++ [.all]) e).map Reg.up).map SReg.w := by
    simp [block, testedPaths, Function.comp_def, Reg.up]
  have hT : Q.map SReg.tree ++ [some (withVars e)] ++ (e.props.foldl addTested []).map (fun q => some (Ast.var (joinPath q))) =
      (Q ++ (block (u ++ [.all]) e).map Reg.up).map SReg.tree := by
    simp [block, testedPaths, Function.comp_def, Role.tree, Reg.up, SReg.tree]
  refine ⟨f1.st, by rw [← hW, ← hT]; exact f1.inv, ?_, ?_⟩
  · intro i w e' ds hi
    by_cases hiq : i < Q.length
    · rw [List.getElem?_append_left hiq] at hi
      have := (hp.maps i w e' ds hi).grow (((block (u ++ [.all]) e).map Reg.up).map SReg.tree)
      rw [← List.map_append] at this
      obtain ⟨xs, m1, m2⟩ := this
      refine ⟨xs, ?_, m2⟩
      rw [f2 i (by omega)]
      show ((mapReset _ _).find? _).map _ = _
      rw [find_reset, if_neg (by omega), k5]
      exact m1
    · rw [List.getElem?_append_right (by omega)] at hi
      by_cases hi0 : i = Q.length
      · subst hi0
        simp only [Nat.sub_self, block, Reg.up, List.map_cons, List.getElem?_cons_zero, Option.some.injEq, SReg.mk.injEq, Role.pred.injEq] at hi
        rw [← hi.2.2, ← hT]
        exact f1.map
      · obtain ⟨j, hj⟩ : ∃ j, i - Q.length = j + 1 := ⟨i - Q.length - 1, by omega⟩
        rw [hj] at hi
        simp only [block, List.map_cons, List.getElem?_cons_succ, List.getElem?_map] at hi
        cases hd : (testedPaths e)[j]? with
        | none => rw [hd] at hi; cases hi
        | some q => rw [hd] at hi; simp [Reg.up] at hi
  · intro r hr
    rcases List.mem_append.1 hr with hr | hr
    · exact hp.counts r hr
    · simp only [block, List.map_cons, List.mem_cons, List.mem_map] at hr
      rcases hr with rfl | ⟨_, ⟨q, _, rfl⟩, rfl⟩
      · exact Nat.le_refl _
      · show arrs (u ++ [Step.all] ++ q.map .prop) ≤ _
        rw [arrs_append (u ++ [Step.all]), arrs_props]; exact Nat.le_refl _

theorem clean_tail {s : SStep Num} {p : List (SStep Num)} (h : CleanPath (wholes (s :: p))) : CleanPath (wholes p) := by
  cases s with
  | filter e => exact h.filter.2
  | prop k => exact ⟨h.1, fun k hk => h.2 k (by simp only [wholes, List.map_cons, SStep.whole, pathNames]; exact List.mem_cons_of_mem _ hk)⟩
  | all => exact ⟨h.1, fun k hk => h.2 k hk⟩
  | slice a b => exact ⟨h.1, fun k hk => h.2 k hk⟩

theorem clean_head {s : SStep Num} {p : List (SStep Num)} (h : CleanPath (wholes (s :: p))) : GClean [ssk s] := by
  cases s with
  | filter e => exact clean_all
  | prop k => exact clean_prop (h.2 k (by simp [wholes, SStep.whole, pathNames]))
  | all => exact clean_all
  | slice a b => exact clean_slice a b

theorem GAll.fold : ∀ (p : List (SStep Num)) (u : List Step) (Q : List SReg) (c : SCtx), GAll u Q c → GClean u →
    CleanPath (wholes p) → GAll (u ++ p.map ssk) (Q ++ sregs u p) (p.foldl sctxStep c)
  | [], u, Q, c, h, _, _ => by simpa [sregs] using h
  | .prop k :: p, u, Q, c, h, hu, hp => by
    have := GAll.fold p (u ++ [.prop k]) Q _ (h.push (.prop k)) (hu.append (clean_head hp)) (clean_tail hp)
    simpa [sregs, ssk, sctxStep, seOf] using this
  | .all :: p, u, Q, c, h, hu, hp => by
    have := GAll.fold p (u ++ [.all]) Q _ (h.push .all) (hu.append clean_all) (clean_tail hp)
    simpa [sregs, ssk, sctxStep, seOf] using this
  | .slice a b :: p, u, Q, c, h, hu, hp => by
    have := GAll.fold p (u ++ [.slice a b]) _ _
      (h.slice hu a b (if p.isEmpty then some .out else none) (by split <;> rfl) (by intro e ds; split <;> simp)).1
      (hu.append (clean_slice a b)) (clean_tail hp)
    simpa [sregs, ssk] using this
  | .filter e :: p, u, Q, c, h, hu, hp => by
    have hp' : CleanPath (.filter e :: wholes p) := hp
    have := GAll.fold p (u ++ [.all]) _ _ (h.filter hu e hp'.filter.1) (hu.append clean_all) (clean_tail hp)
    simpa [sregs, ssk] using this

end JPS
