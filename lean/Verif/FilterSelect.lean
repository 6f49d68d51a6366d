import Verif.FilterVerdict
/-!
# Verdicts and results of the forest of a document
-/

set_option autoImplicit false

namespace JPS
open Spec

/-! ### Recorded properties -/

/-- The names still to be read before the tested property `c` is reached. -/
def Res.want (r : Res) (c : List Str) : Option (List Str) :=
  if c ∈ r.ds ∧ r.pre <+: c then some (c.drop r.pre.length) else none

theorem Res.want_some {r : Res} {c c' : List Str} : r.want c = some c' ↔ c ∈ r.ds ∧ r.pre ++ c' = c := by
  unfold Res.want
  constructor
  · intro h
    split at h
    · rename_i hc
      obtain ⟨h1, x, h2⟩ := hc
      simp only [Option.some.injEq] at h
      subst h2
      rw [List.drop_left] at h
      exact ⟨h1, by rw [h]⟩
    · cases h
  · rintro ⟨h1, h2⟩
    rw [if_pos ⟨h1, c', h2⟩, ← h2, List.drop_left]

theorem Res.want_key_cons {r : Res} {c c' : List Str} {k : Str} (h : r.want c = some (k :: c')) :
    (r.key k).want c = some c' := by
  rw [Res.want_some] at h ⊢
  exact ⟨h.1, by simpa [Res.key] using h.2⟩

theorem Res.want_key_ne {r : Res} {c c' : List Str} {k k' : Str} (h : r.want c = some (k' :: c')) (hk : k' ≠ k) :
    (r.key k).want c = none := by
  cases hw : (r.key k).want c with
  | none => rfl
  | some x =>
    rw [Res.want_some] at h hw
    have h1 : r.pre ++ [k] ++ x = c := hw.2
    rw [← h.2, List.append_assoc] at h1
    have := List.append_cancel_left h1
    simp at this
    exact absurd this.1.symm hk

theorem Res.want_key_nil {r : Res} {c : List Str} {k : Str} (h : r.want c = some []) :
    (r.key k).want c = none := by
  cases hw : (r.key k).want c with
  | none => rfl
  | some x =>
    rw [Res.want_some] at h hw
    have h1 : r.pre ++ [k] ++ x = c := hw.2
    rw [← h.2, List.append_assoc] at h1
    have := List.append_cancel_left h1
    simp at this

theorem Res.want_key_none {r : Res} {c : List Str} {k : Str} (h : r.want c = none) :
    (r.key k).want c = none := by
  cases hw : (r.key k).want c with
  | none => rfl
  | some x =>
    rw [Res.want_some] at hw
    have : r.want c = some (k :: x) := Res.want_some.2 ⟨hw.1, by simpa [Res.key] using hw.2⟩
    rw [h] at this; cases this

/-- The text recorded for the rest `o` of a tested property. -/
def lookedUp (o : Option (List Str)) (v : J) : Option Str := o.bind fun c => (v.lookup c).map condText

/-- The same for members. -/
def lookedUpM (o : Option (List Str)) (ms : Members) : Option Str :=
  match o with
  | some (k :: c) => (ms.lookup k c).map condText
  | _ => none

theorem lookup_nil (v : J) : v.lookup [] = some v := by cases v <;> simp [J.lookup]

theorem lookedUp_obj (o : Option (List Str)) (a : Str) (ms : Members) (h : o ≠ some []) :
    lookedUp o (.obj a ms) = lookedUpM o ms := by
  cases o with
  | none => rfl
  | some c =>
    cases c with
    | nil => exact absurd rfl h
    | cons k c => simp [lookedUp, lookedUpM, J.lookup]

theorem lookedUp_arr (o : Option (List Str)) (a : Str) (es : Elems) (h : o ≠ some []) :
    lookedUp o (.arr a es) = none := by
  cases o with
  | none => rfl
  | some c =>
    cases c with
    | nil => exact absurd rfl h
    | cons k c => simp [lookedUp, J.lookup]

theorem lookedUp_lit (o : Option (List Str)) (t : Str) (h : o ≠ some []) : lookedUp o (.lit t) = none := by
  cases o with
  | none => rfl
  | some c =>
    cases c with
    | nil => exact absurd rfl h
    | cons k c => simp [lookedUp, J.lookup]

theorem lookedUp_str (o : Option (List Str)) (t : Str) (h : o ≠ some []) : lookedUp o (.str t) = none := by
  cases o with
  | none => rfl
  | some c =>
    cases c with
    | nil => exact absurd rfl h
    | cons k c => simp [lookedUp, J.lookup]

theorem orElse_none_right {α : Type} (a : Option α) : (a.orElse fun _ => none) = a := by cases a <;> rfl

theorem want_not_nil {r : Res} {c : List Str} (h : r.pre ∉ r.ds) : r.want c ≠ some [] := by
  intro hw
  rw [Res.want_some, List.append_nil] at hw
  exact h (hw.2 ▸ hw.1)

/-- The effect of an item for the property at hand. -/
theorem recorded_cond {r : Res} (hg : Good r) {q c : List Str} (hr : r.role = some (.cond q)) (hc : c ≠ [])
    (hcd : ∀ s ∈ c, '.' ∉ s) {st : Nat} {t : Str} {f : Forest} :
    (Forest.cond st (joinPath q) t f).recorded (joinPath c) =
      (f.recorded (joinPath c)).orElse fun _ => if r.want c = some [] then some t else none := by
  obtain ⟨_, h2, h3⟩ := Res.role_cond hr
  have hcl := hg.clean _ h3
  have hiff : joinPath q = joinPath c ↔ r.want c = some [] := by
    rw [Res.want_some, List.append_nil, h2]
    constructor
    · intro he
      have := joinPath_inj _ _ hcl.1 hc hcl.2 hcd he
      exact ⟨this ▸ h3, this⟩
    · rintro ⟨_, he⟩; rw [he]
  simp only [Forest.recorded, hiff]

theorem recorded_leaf {r : Res} (hg : Good r) {c : List Str} (hc : c ≠ []) (hcd : ∀ s ∈ c, '.' ∉ s) {st : Nat} {t : Str}
    {f : Forest} : (leafForest st r t f).recorded (joinPath c) =
      (f.recorded (joinPath c)).orElse fun _ => if r.tst.isSome then none else if r.want c = some [] then some t else none := by
  unfold leafForest
  cases hr : r.role with
  | none =>
    have := Res.role_none hr
    rw [this.1, if_neg (want_not_nil this.2.1)]
    simp
  | some ro =>
    cases ro with
    | pred e ds =>
      have := Res.role_pred hr
      rw [this.1]; simp
    | cond q =>
      simp only
      rw [recorded_cond hg hr hc hcd, (Res.role_cond hr).1]; rfl
    | out =>
      have := Res.role_out hr
      rw [this.1, if_neg (want_not_nil this.2.1)]
      simp [Forest.recorded]

section
variable (st : List Step → Nat) {c : List Str} (hc : c ≠ []) (hcd : ∀ s ∈ c, '.' ∉ s)
include hc hcd

mutual
theorem recorded_forest (r : Res) (w : List Step) (hg : Good r) (obs : Str → Str) : ∀ (v : J), v.tidy = true →
    ExactObs obs v → ∀ (rest : Forest), (forest st r w obs v rest).recorded (joinPath c) =
      (rest.recorded (joinPath c)).orElse fun _ => if r.tst.isSome then none else lookedUp (r.want c) v
  | .lit t, _, hx, rest => by
    unfold forest
    rw [recorded_leaf hg hc hcd, hx t rfl]
    by_cases hw : r.want c = some []
    · rw [if_pos hw, hw]; rfl
    · rw [if_neg hw, lookedUp_lit _ _ hw]
  | .str t, _, hx, rest => by
    unfold forest
    rw [recorded_leaf hg hc hcd]
    by_cases hw : r.want c = some []
    · rw [if_pos hw, hw]; rfl
    · rw [if_neg hw, lookedUp_str _ _ hw]
  | .arr a es, htd, _, rest => by
    have ih := recorded_forestE r.elem (w ++ [Step.all]) hg.elem (fun hn => Res.elem_ds hn) es htd
    unfold forest
    cases hr : r.role with
    | none =>
      have := Res.role_none hr
      simp only
      rw [ih, this.1, lookedUp_arr _ _ _ (want_not_nil this.2.1)]
      simp
    | some ro =>
      cases ro with
      | pred e ds =>
        simp only
        rw [ih, (Res.role_pred hr).1]; simp
      | cond q =>
        simp only
        rw [recorded_cond hg hr hc hcd, ih, (Res.role_cond hr).1]
        by_cases hw : r.want c = some []
        · rw [if_pos hw, hw]; rfl
        · rw [if_neg hw, lookedUp_arr _ _ _ hw]; rfl
      | out =>
        have := Res.role_out hr
        simp only
        rw [ih, this.1, lookedUp_arr _ _ _ (want_not_nil this.2.1)]
        simp [Forest.recorded]
  | .obj a ms, htd, _, rest => by
    have ih := recorded_forestM r w hg ms htd
    unfold forest
    cases hr : r.role with
    | none =>
      have := Res.role_none hr
      simp only
      rw [ih, this.1, lookedUp_obj _ _ _ (want_not_nil this.2.1)]
      simp
    | some ro =>
      cases ro with
      | pred e ds =>
        simp only
        rw [(Res.role_pred hr).1]; simp [Forest.recorded]
      | cond q =>
        simp only
        rw [recorded_cond hg hr hc hcd, ih, (Res.role_cond hr).1]
        by_cases hw : r.want c = some []
        · rw [if_pos hw, hw, show lookedUpM (some []) ms = none from rfl, orElse_none_right]; rfl
        · rw [if_neg hw, lookedUp_obj _ _ _ hw, orElse_none_right]; rfl
      | out =>
        have := Res.role_out hr
        simp only
        rw [ih, this.1, lookedUp_obj _ _ _ (want_not_nil this.2.1)]
        simp [Forest.recorded]
theorem recorded_forestE (r : Res) (w : List Step) (hg : Good r) (hds : r.tst = none → r.ds = []) : ∀ (es : Elems),
    es.tidy = true → ∀ (rest : Forest), (forestE st r w es rest).recorded (joinPath c) = rest.recorded (joinPath c)
  | .nil, _, rest => by unfold forestE; rfl
  | .cons pre v post tail, htd, rest => by
    simp only [Elems.tidy, Bool.and_eq_true] at htd
    unfold forestE
    rw [recorded_forest r w hg _ v htd.1.2 (exactE htd.1.1), recorded_forestE r w hg hds tail htd.2]
    cases ht : r.tst with
    | some e => simp
    | none =>
      have : r.want c = none := by simp [Res.want, hds ht]
      rw [this]; simp [lookedUp]
theorem recorded_forestM (r : Res) (w : List Step) (hg : Good r) : ∀ (ms : Members),
    ms.tidy = true → ∀ (rest : Forest), (forestM st r w ms rest).recorded (joinPath c) =
      (rest.recorded (joinPath c)).orElse fun _ => lookedUpM (r.want c) ms
  | .nil, _, rest => by
    unfold forestM
    cases r.want c with
    | none => simp [lookedUpM]
    | some x => cases x <;> simp [lookedUpM, Members.lookup]
  | .cons pre k mid pre2 v post tail, htd, rest => by
    simp only [Members.tidy, Bool.and_eq_true] at htd
    unfold forestM
    rw [recorded_forest (r.key k) (w ++ [Step.prop k]) (hg.key k) _ v htd.1.2 (exactM htd.1.1.1 htd.1.1.2),
      recorded_forestM r w hg tail htd.2]
    have hn : (r.key k).tst = none := rfl
    rw [hn]
    simp only [Option.isSome_none, Bool.false_eq_true, if_false]
    cases hw : r.want c with
    | none => rw [Res.want_key_none hw]; simp [lookedUp, lookedUpM]
    | some x =>
      cases x with
      | nil => rw [Res.want_key_nil hw]; simp [lookedUp, lookedUpM]
      | cons k' x =>
        simp only [lookedUpM, Members.lookup]
        by_cases hk : k' = k
        · subst hk
          rw [Res.want_key_cons hw]
          simp only [lookedUp, Option.bind_some, if_true]
          cases rest.recorded (joinPath c) with
          | some y => simp
          | none => cases tail.lookup k' x <;> simp
        · rw [Res.want_key_ne hw hk, if_neg (Ne.symm hk)]
          simp only [lookedUp, Option.bind_none, orElse_none_right]
end

end

/-! ### Values of recorded texts -/

mutual
theorem lookup_wf : ∀ (v : J) (c : List Str) (x : J), v.wf = true → v.lookup c = some x → x.wf = true
  | .lit t, c, x, hw, h => by
    cases c with
    | nil => rw [lookup_nil] at h; cases h; exact hw
    | cons k c => simp [J.lookup] at h
  | .str t, c, x, hw, h => by
    cases c with
    | nil => rw [lookup_nil] at h; cases h; exact hw
    | cons k c => simp [J.lookup] at h
  | .arr a es, c, x, hw, h => by
    cases c with
    | nil => rw [lookup_nil] at h; cases h; exact hw
    | cons k c => simp [J.lookup] at h
  | .obj a ms, c, x, hw, h => by
    cases c with
    | nil => rw [lookup_nil] at h; cases h; exact hw
    | cons k c =>
      simp only [J.lookup] at h
      simp only [J.wf, Bool.and_eq_true] at hw
      exact lookupM_wf ms k c x hw.2 h
theorem lookupM_wf : ∀ (ms : Members) (k : Str) (c : List Str) (x : J), ms.wf = true → ms.lookup k c = some x → x.wf = true
  | .nil, k, c, x, _, h => by simp [Members.lookup] at h
  | .cons pre m mid pre2 v post rest, k, c, x, hw, h => by
    simp only [Members.wf, Bool.and_eq_true] at hw
    simp only [Members.lookup] at h
    cases hr : rest.lookup k c with
    | some y =>
      rw [hr] at h
      simp at h
      subst h
      exact lookupM_wf rest k c y hw.2 hr
    | none =>
      rw [hr] at h
      simp only [Option.orElse_none] at h
      split at h
      · exact lookup_wf v c x hw.1.1.2 h
      · cases h
end

theorem textValue_property (O : NumOps) (v : J) (hw : v.wf = true) (c : List Str)
    (hneg : ∀ x, v.lookup c = some x → x.negative = false) :
    textValue O ((v.lookup c).map condText) = v.property O.atof c := by
  unfold J.property
  cases hl : v.lookup c with
  | none => rfl
  | some x =>
    simp only [Option.map_some]
    have hx := lookup_wf v c x hw hl
    by_cases hc : x.isContainer = true
    · rw [if_pos hc]; exact c26_container O x hc
    · rw [if_neg hc, condText, if_neg hc]
      cases hs : x.scalar O.atof with
      | some y => exact c26_text_value_partial O x y (hneg x hl) hs
      | none =>
        cases x with
        | str r => simp [J.scalar] at hs
        | arr w es => exact absurd rfl hc
        | obj w ms => exact absurd rfl hc
        | lit t =>
          obtain ⟨_, _, t1, t2⟩ := lit_text (t := t) hx
          simp only [J.scalar] at hs
          by_cases h1 : t = ['t', 'r', 'u', 'e']
          · rw [if_pos h1] at hs; cases hs
          rw [if_neg h1] at hs
          by_cases h2 : t = ['f', 'a', 'l', 's', 'e']
          · rw [if_pos h2] at hs; cases hs
          rw [if_neg h2] at hs
          by_cases h3 : t = ['n', 'u', 'l', 'l']
          · rw [if_pos h3] at hs; cases hs
          rw [if_neg h3] at hs
          cases t with
          | nil => exact absurd rfl t1
          | cons a r =>
            simp only at hs
            by_cases ha : '0' ≤ a ∧ a ≤ '9'
            · rw [if_pos (.inr ha)] at hs; cases hs
            · have hq : ¬ a = '"' := by rintro rfl; exact t2 rfl
              have h1 : ¬ a :: r = "true".toList := h1
              have h2 : ¬ a :: r = "false".toList := h2
              have h3 : ¬ a :: r = "null".toList := h3
              simp only [textValue, J.render, stringToValue, if_neg h1, if_neg h2, if_neg h3, if_neg hq, if_neg ha,
                Option.getD_none]

theorem eval_congr {N L : Type} (A : Arith N L) (f g : List Str → SV N) : ∀ (e : Expr L), (∀ p ∈ e.props, f p = g p) →
    e.eval A f = e.eval A g
  | .prop p, h => by simp only [Expr.eval, h p (by simp [Expr.props])]
  | .str s, _ => rfl
  | .num n, _ => rfl
  | .not e, h => by simp only [Expr.eval, eval_congr A f g e h]
  | .bin o a b, h => by
    simp only [Expr.eval, eval_congr A f g a (fun p hp => h p (by simp [Expr.props, hp])),
      eval_congr A f g b (fun p hp => h p (by simp [Expr.props, hp]))]

/-! ### Verdicts -/

/-- The verdict of a predicate state on recorded texts. -/
def filterHolds (O : NumOps) (ctx : QCtx) (s : Nat) (r : Str → Option Str) : Bool :=
  match ctx.subtrees s with
  | some e => (evaluate O e (condTable (condNames ctx s) r)).getD false
  | none => false

section
variable {Q : List Reg} {c : SCtx} {st : List Step → Nat} (h : FSem Q c st) (O : NumOps)
include h

/-- The verdict on an object at a filter position. -/
theorem elem_verdict {r : Res} {w : List Step} (ht : Track Q w r) (hg : Good r) {e : Expr Num} {ds : List (List Str)}
    (hr : r.role = some (.pred e ds)) {a : Str} {ms : Members} (hw : (J.obj a ms).wf = true)
    (htd : (J.obj a ms).tidy = true) (hd : e.judges (arith O) O.atof (.obj a ms) = true) :
    let rec_ := (forestM st r w ms .nil).recorded
    ((condNames (contextOf c) (st w)).Nodup ∧
      Verdict O (contextOf c) (condNames (contextOf c)) (filterHolds O (contextOf c)) (st w) rec_) ∧
    filterHolds O (contextOf c) (st w) rec_ = e.holds (arith O) O.atof (.obj a ms) := by
  intro rec_
  obtain ⟨h1, h2⟩ := Res.role_pred hr
  subst h2
  obtain ⟨t1, t2, k, p, t3⟩ := hg.tested e h1
  have hro : roleOf Q w = some (.pred e (testedPaths e)) := by rw [ht.role h.nodup, hr]
  have hn := h.names ht.simple hro
  have hs := h.subtrees ht.simple
  rw [hro] at hs
  have hs' : (contextOf c).subtrees (st w) = some (withVars e) := hs
  rw [Expr.judges, Bool.and_eq_true] at hd
  obtain ⟨hd, hu⟩ := hd
  obtain ⟨x, hx⟩ := Option.isSome_iff_exists.1 hd
  have hclean : ∀ q ∈ testedPaths e, q ≠ [] ∧ ∀ s ∈ q, '.' ∉ s := fun q hq => hg.clean q (t2 ▸ hq)
  have hrec : ∀ q ∈ testedPaths e, rec_ (joinPath q) = ((J.obj a ms).lookup q).map condText := by
    intro q hq
    obtain ⟨q1, q2⟩ := hclean q hq
    have := recorded_forestM st q1 q2 r w hg ms htd .nil
    have hwant : r.want q = some q := Res.want_some.2 ⟨t2 ▸ hq, by rw [t1]; rfl⟩
    show (forestM st r w ms .nil).recorded (joinPath q) = _
    rw [this, hwant]
    cases q with
    | nil => exact absurd rfl q1
    | cons k q => rfl
  have hev : evaluate O (withVars e) (condTable (condNames (contextOf c) (st w)) rec_) = some (x.truth (arith O)) := by
    rw [hn]
    have e1 : condTable ((testedPaths e).map joinPath) rec_ = condsOf (testedPaths e) (fun q => rec_ (joinPath q)) := by
      simp [condTable, condsOf]
    rw [e1, ← c28_rewrites e (fun p hp => (hclean p (mem_testedPaths.2 hp)).1)]
    rw [c26_semantics O e (testedPaths e) _ hclean (fun p hp => mem_testedPaths.2 hp)]
    suffices hs : e.eval (arith O) (fun q => textValue O (rec_ (joinPath q))) = some x by rw [hs]; rfl
    rw [← hx]
    unfold Expr.on
    apply eval_congr
    intro p hp
    rw [hrec p (mem_testedPaths.2 hp), textValue_property O _ hw]
    intro y hy
    have := List.all_eq_true.1 hu p hp
    rw [hy] at this
    simpa using this
  have hh : filterHolds O (contextOf c) (st w) rec_ = x.truth (arith O) := by
    unfold filterHolds
    rw [hs']
    simp only [hev, Option.getD_some]
  refine ⟨⟨?_, withVars e, hs', by rw [hev, hh]⟩, ?_⟩
  · rw [hn]
    have hnd := nodup_testedPaths e
    generalize testedPaths e = ds at hnd hclean
    induction ds with
    | nil => exact List.nodup_nil
    | cons q ds ih =>
      rw [List.nodup_cons] at hnd
      rw [List.map_cons, List.nodup_cons]
      refine ⟨?_, ih hnd.2 (fun q hq => hclean q (by simp [hq]))⟩
      intro hm
      obtain ⟨q', hq', he⟩ := List.mem_map.1 hm
      have c1 := hclean q (by simp)
      have c2 := hclean q' (by simp [hq'])
      have := joinPath_inj _ _ c2.1 c1.1 c2.2 c1.2 he
      exact hnd.1 (this ▸ hq')
  · rw [hh]
    unfold Expr.holds
    rw [hx]

/-! ### Decided documents -/

/-- The expression is defined on an object. -/
def DecT (t : Option (Expr Num)) (v : J) : Prop :=
  ∀ e, t = some e → ∀ a ms, v = .obj a ms → e.judges (arith O) O.atof v = true

omit h in
theorem decided_cons {pre : Str} {v : J} {post : Str} {tail : Elems} {t : Option (Expr Num)} {p : List (QStep Num)}
    (hd : (Elems.cons pre v post tail).decided (arith O) O.atof t p = true) :
    DecT O t v ∧ v.decided (arith O) O.atof p = true ∧ tail.decided (arith O) O.atof t p = true := by
  simp only [Elems.decided, Bool.and_eq_true] at hd
  refine ⟨?_, hd.1.2, hd.2⟩
  rintro e rfl a ms rfl
  exact hd.1.1

omit h in
theorem leaf_decided {ctx : QCtx} {names : Nat → List Str} {holds : Nat → (Str → Option Str) → Bool}
    (st : Nat) (r : Res) (t : Str) (rest : Forest) :
    Decided O ctx names holds (leafForest st r t rest) ↔ Decided O ctx names holds rest := by
  unfold leafForest
  cases hr : r.role with
  | none => exact Iff.rfl
  | some ro => cases ro <;> exact Iff.rfl

/-- Documents on which the filters below a position are defined. -/
def DecR (r : Res) (v : J) : Prop := DecT O r.tst v ∧ ∀ p, r.rem = some p → v.decided (arith O) O.atof p = true
def DecE (r : Res) (es : Elems) : Prop := ∀ p, r.rem = some p → es.decided (arith O) O.atof r.tst p = true
def DecM (r : Res) (ms : Members) : Prop := ∀ k p, r.rem = some (.prop k :: p) → ms.decided (arith O) O.atof k p = true

omit h in
theorem DecR.elems {r : Res} {a : Str} {es : Elems} (hd : DecR O r (.arr a es)) : DecE O r.elem es := by
  intro p hp
  unfold Res.elem at hp ⊢
  split at hp
  · rename_i q hr
    simp only [Option.some.injEq] at hp; subst hp
    simpa only [hr, J.decided] using hd.2 _ hr
  · rename_i e q hr
    simp only [Option.some.injEq] at hp; subst hp
    simpa only [hr, J.decided] using hd.2 _ hr
  · cases hp

omit h in
theorem DecR.members {r : Res} {a : Str} {ms : Members} (hd : DecR O r (.obj a ms)) : DecM O r ms := by
  intro k p hr
  simpa only [J.decided] using hd.2 _ hr

omit h in
theorem DecE.cons {r : Res} (hg : Good r) {pre : Str} {v : J} {post : Str} {tail : Elems}
    (hd : DecE O r (.cons pre v post tail)) : DecR O r v ∧ DecE O r tail := by
  refine ⟨⟨?_, fun p hp => (decided_cons O (hd p hp)).2.1⟩, fun p hp => (decided_cons O (hd p hp)).2.2⟩
  intro e he
  obtain ⟨_, _, k, p, hp⟩ := hg.tested e he
  exact (decided_cons O (hd _ hp)).1 e he

omit h in
theorem DecM.cons {r : Res} {pre k mid pre2 : Str} {v : J} {post : Str} {tail : Members}
    (hd : DecM O r (.cons pre k mid pre2 v post tail)) : DecR O (r.key k) v ∧ DecM O r tail := by
  refine ⟨⟨(by intro e he; cases he), ?_⟩, ?_⟩
  · intro p hp
    have hp' : remProp k r.rem = some p := hp
    unfold remProp at hp'
    split at hp'
    · rename_i k' q hr
      split at hp'
      · rename_i hk
        simp only [Option.some.injEq] at hp'
        subst hp' hk
        have := hd _ _ hr
        simp only [Members.decided, Bool.and_eq_true] at this
        simpa using this.1
      · cases hp'
    · cases hp'
  · intro k' p hr
    have := hd _ _ hr
    simp only [Members.decided, Bool.and_eq_true] at this
    exact this.2

mutual
theorem decided_forest (r : Res) (w : List Step) (ht : Track Q w r) (hg : Good r) (obs : Str → Str) : ∀ (v : J),
    v.wf = true → v.tidy = true → DecR O r v → ∀ (rest : Forest),
    Decided O (contextOf c) (condNames (contextOf c)) (filterHolds O (contextOf c)) rest →
    Decided O (contextOf c) (condNames (contextOf c)) (filterHolds O (contextOf c)) (forest st r w obs v rest)
  | .lit t, _, _, _, rest, hd => by unfold forest; exact (leaf_decided O _ _ _ _).2 hd
  | .str t, _, _, _, rest, hd => by unfold forest; exact (leaf_decided O _ _ _ _).2 hd
  | .arr a es, hw, htd, hdr, rest, hd => by
    simp only [J.wf, Bool.and_eq_true] at hw
    have ih := decided_forestE r.elem (w ++ [Step.all]) ht.elem hg.elem es hw.2 htd hdr.elems rest hd
    unfold forest
    cases hr : r.role with
    | none => exact ih
    | some ro =>
      cases ro with
      | pred e ds => exact ih
      | cond q => exact ih
      | out => exact decided_forestE r.elem (w ++ [Step.all]) ht.elem hg.elem es hw.2 htd hdr.elems _ hd
  | .obj a ms, hw, htd, hdr, rest, hd => by
    have hw' := hw
    simp only [J.wf, Bool.and_eq_true] at hw'
    have ih := decided_forestM r w ht hg ms hw'.2 htd hdr.members
    unfold forest
    cases hr : r.role with
    | none => exact ih rest hd
    | some ro =>
      cases ro with
      | pred e ds =>
        exact ⟨(elem_verdict h O ht hg hr hw htd (hdr.1 e (Res.role_pred hr).1 a ms rfl)).1, ih .nil trivial, hd⟩
      | cond q => exact ih rest hd
      | out => exact ih _ hd
theorem decided_forestE (r : Res) (w : List Step) (ht : Track Q w r) (hg : Good r) : ∀ (es : Elems),
    es.wf = true → es.tidy = true → DecE O r es → ∀ (rest : Forest),
    Decided O (contextOf c) (condNames (contextOf c)) (filterHolds O (contextOf c)) rest →
    Decided O (contextOf c) (condNames (contextOf c)) (filterHolds O (contextOf c)) (forestE st r w es rest)
  | .nil, _, _, _, rest, hd => by unfold forestE; exact hd
  | .cons pre v post tail, hw, htd, hde, rest, hd => by
    simp only [Elems.wf, Bool.and_eq_true] at hw
    simp only [Elems.tidy, Bool.and_eq_true] at htd
    obtain ⟨d1, d2⟩ := DecE.cons O hg hde
    unfold forestE
    exact decided_forest r w ht hg _ v hw.1.1.2 htd.1.2 d1 _ (decided_forestE r w ht hg tail hw.2 htd.2 d2 rest hd)
theorem decided_forestM (r : Res) (w : List Step) (ht : Track Q w r) (hg : Good r) : ∀ (ms : Members),
    ms.wf = true → ms.tidy = true → DecM O r ms → ∀ (rest : Forest),
    Decided O (contextOf c) (condNames (contextOf c)) (filterHolds O (contextOf c)) rest →
    Decided O (contextOf c) (condNames (contextOf c)) (filterHolds O (contextOf c)) (forestM st r w ms rest)
  | .nil, _, _, _, rest, hd => by unfold forestM; exact hd
  | .cons pre k mid pre2 v post tail, hw, htd, hdm, rest, hd => by
    simp only [Members.wf, Bool.and_eq_true] at hw
    simp only [Members.tidy, Bool.and_eq_true] at htd
    obtain ⟨d1, d2⟩ := DecM.cons O hdm
    unfold forestM
    exact decided_forest (r.key k) (w ++ [Step.prop k]) (ht.key k) (hg.key k) _ v hw.1.1.2 htd.1.2 d1 _
      (decided_forestM r w ht hg tail hw.2 htd.2 d2 rest hd)
end

/-! ### Released results -/

/-- The results below a position in a value. -/
def selR (r : Res) (v : J) : List Str :=
  match r.rem with
  | none => []
  | some p => if passes (arith O) O.atof r.tst v then (v.select (arith O) O.atof p).map J.render else []
def selE (r : Res) (es : Elems) : List Str :=
  match r.rem with
  | none => []
  | some p => (es.select (arith O) O.atof r.tst p).map J.render
def selM (r : Res) (ms : Members) : List Str :=
  match r.rem with
  | some (.prop k :: p) => (ms.select (arith O) O.atof k p).map J.render
  | _ => []

omit h in
theorem selR_arr {r : Res} (hr : r.rem ≠ some []) (hg : Good r) (a : Str) (es : Elems) :
    selR O r (.arr a es) = selE O r.elem es := by
  unfold selR selE
  cases htst : r.tst with
  | some e =>
    rw [hg.elem_of_tested htst]
    obtain ⟨_, _, k, p, hp⟩ := hg.tested e htst
    rw [hp]
    simp [J.select, Res.dead]
  | none =>
    unfold Res.elem
    cases hm : r.rem with
    | none => rfl
    | some p =>
      cases p with
      | nil => exact absurd hm hr
      | cons s p => cases s <;> simp [passes, J.select, Res.dead]

omit h in
theorem selR_obj {r : Res} (hr : r.rem ≠ some []) (htst : r.tst = none) (a : Str) (ms : Members) :
    selR O r (.obj a ms) = selM O r ms := by
  unfold selR selM
  rw [htst]
  cases hm : r.rem with
  | none => rfl
  | some p =>
    cases p with
    | nil => exact absurd hm hr
    | cons s p => cases s <;> simp [passes, J.select]

omit h in
theorem selR_out {r : Res} (hr : r.rem = some []) (htst : r.tst = none) (v : J) : selR O r v = [v.render] := by
  unfold selR
  rw [hr, htst]
  cases v <;> simp [passes, J.select]

omit h in
theorem selR_scalar {r : Res} (hr : r.rem ≠ some []) (v : J) (hv : v.isContainer = false) : selR O r v = [] := by
  unfold selR
  cases hm : r.rem with
  | none => rfl
  | some p =>
    cases p with
    | nil => exact absurd hm hr
    | cons s p =>
      cases v with
      | arr a es => cases hv
      | obj a ms => cases hv
      | lit t => cases s <;> simp [J.select]
      | str t => cases s <;> simp [J.select]

omit h in
theorem elem_done {r : Res} (hr : r.rem = some []) : r.elem = .dead := by unfold Res.elem; rw [hr]

theorem released_leaf {r : Res} {w : List Step} (ht : Track Q w r) (hg : Good r) {v : J} (hv : v.isContainer = false)
    {t : Str} (hx : t = v.render) (st : Nat) (rest : Forest) :
    (leafForest st r t rest).released (filterHolds O (contextOf c)) =
      selR O r v ++ rest.released (filterHolds O (contextOf c)) := by
  unfold leafForest
  cases hr : r.role with
  | none => rw [selR_scalar O (Res.role_none hr).2.2 v hv]; rfl
  | some ro =>
    cases ro with
    | pred e ds =>
      obtain ⟨_, _, k, p, hp⟩ := hg.tested e (Res.role_pred hr).1
      rw [selR_scalar O (by rw [hp]; simp) v hv]; rfl
    | cond q =>
      rw [selR_scalar O (ht.cond_not_out h.nodup (Res.role_cond hr).2.2) v hv]; rfl
    | out =>
      have := Res.role_out hr
      rw [selR_out O this.2.2 this.1, hx]; rfl

mutual
theorem released_forest (r : Res) (w : List Step) (ht : Track Q w r) (hg : Good r) (obs : Str → Str) : ∀ (v : J),
    v.wf = true → v.tidy = true → ExactObs obs v → DecR O r v → ∀ (rest : Forest),
    (forest st r w obs v rest).released (filterHolds O (contextOf c)) =
      selR O r v ++ rest.released (filterHolds O (contextOf c))
  | .lit t, _, _, hx, _, rest => by
    unfold forest
    exact released_leaf h O ht hg (v := .lit t) rfl (by rw [hx t rfl]; rfl) _ _
  | .str t, _, _, _, _, rest => by
    unfold forest
    exact released_leaf h O ht hg (v := .str t) rfl rfl _ _
  | .arr a es, hw, htd, _, hdr, rest => by
    simp only [J.wf, Bool.and_eq_true] at hw
    have ih := released_forestE r.elem (w ++ [Step.all]) ht.elem hg.elem es hw.2 htd hdr.elems
    unfold forest
    cases hr : r.role with
    | none =>
      simp only
      rw [ih, selR_arr O (Res.role_none hr).2.2 hg]
    | some ro =>
      cases ro with
      | pred e ds =>
        obtain ⟨_, _, k, p, hp⟩ := hg.tested e (Res.role_pred hr).1
        simp only
        rw [ih, selR_arr O (by rw [hp]; simp) hg]
      | cond q =>
        simp only [Forest.released]
        rw [ih, selR_arr O (ht.cond_not_out h.nodup (Res.role_cond hr).2.2) hg]
      | out =>
        have := Res.role_out hr
        simp only
        rw [ih, selR_out O this.2.2 this.1, elem_done this.2.2]
        simp [Forest.released, selE, Res.dead]
  | .obj a ms, hw, htd, _, hdr, rest => by
    have hw' := hw
    simp only [J.wf, Bool.and_eq_true] at hw'
    have ih := released_forestM r w ht hg ms hw'.2 htd hdr.members
    unfold forest
    cases hr : r.role with
    | none =>
      simp only
      rw [ih, selR_obj O (Res.role_none hr).2.2 (Res.role_none hr).1]
    | some ro =>
      cases ro with
      | pred e ds =>
        have htst := (Res.role_pred hr).1
        obtain ⟨_, _, k, p, hp⟩ := hg.tested e htst
        simp only [Forest.released]
        rw [(elem_verdict h O ht hg hr hw htd (hdr.1 e htst a ms rfl)).2, ih]
        unfold selR selM
        rw [hp, htst]
        have hpass : passes (arith O) O.atof (some e) (.obj a ms) = e.holds (arith O) O.atof (.obj a ms) := rfl
        simp only [J.select, Forest.released, List.append_nil]
        rw [hpass]
      | cond q =>
        simp only [Forest.released]
        rw [ih, selR_obj O (ht.cond_not_out h.nodup (Res.role_cond hr).2.2) (Res.role_cond hr).1]
      | out =>
        have := Res.role_out hr
        simp only
        rw [ih, selR_out O this.2.2 this.1]
        simp [Forest.released, selM, this.2.2]
theorem released_forestE (r : Res) (w : List Step) (ht : Track Q w r) (hg : Good r) : ∀ (es : Elems),
    es.wf = true → es.tidy = true → DecE O r es → ∀ (rest : Forest),
    (forestE st r w es rest).released (filterHolds O (contextOf c)) =
      selE O r es ++ rest.released (filterHolds O (contextOf c))
  | .nil, _, _, _, rest => by
    unfold forestE selE
    cases r.rem <;> simp [Elems.select]
  | .cons pre v post tail, hw, htd, hde, rest => by
    simp only [Elems.wf, Bool.and_eq_true] at hw
    simp only [Elems.tidy, Bool.and_eq_true] at htd
    obtain ⟨d1, d2⟩ := DecE.cons O hg hde
    unfold forestE
    rw [released_forest r w ht hg _ v hw.1.1.2 htd.1.2 (exactE htd.1.1) d1,
      released_forestE r w ht hg tail hw.2 htd.2 d2, ← List.append_assoc]
    congr 1
    unfold selR selE
    cases r.rem with
    | none => rfl
    | some p =>
      simp only [Elems.select, List.map_append]
      split <;> rfl
theorem released_forestM (r : Res) (w : List Step) (ht : Track Q w r) (hg : Good r) : ∀ (ms : Members),
    ms.wf = true → ms.tidy = true → DecM O r ms → ∀ (rest : Forest),
    (forestM st r w ms rest).released (filterHolds O (contextOf c)) =
      selM O r ms ++ rest.released (filterHolds O (contextOf c))
  | .nil, _, _, _, rest => by
    unfold forestM selM
    split <;> simp [Members.select]
  | .cons pre k mid pre2 v post tail, hw, htd, hdm, rest => by
    simp only [Members.wf, Bool.and_eq_true] at hw
    simp only [Members.tidy, Bool.and_eq_true] at htd
    obtain ⟨d1, d2⟩ := DecM.cons O hdm
    unfold forestM
    rw [released_forest (r.key k) (w ++ [Step.prop k]) (ht.key k) (hg.key k) _ v hw.1.1.2 htd.1.2
      (exactM htd.1.1.1 htd.1.1.2) d1, released_forestM r w ht hg tail hw.2 htd.2 d2, ← List.append_assoc]
    congr 1
    unfold selR selM Res.key remProp
    cases hm : r.rem with
    | none => rfl
    | some p =>
      cases p with
      | nil => rfl
      | cons s p =>
        cases s with
        | all => rfl
        | filter e => rfl
        | prop k' =>
          simp only [Members.select, List.map_append]
          by_cases hk : k' = k
          · simp [hk, passes]
          · simp [hk, Ne.symm hk]
end

end

end JPS
