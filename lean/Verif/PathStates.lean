import Verif.StateBlowup
/-!
# An upper bound on the number of states of a path with descendant steps

Helper lemmas for C58: before the first descendant step one item is alive, after it the item of that step and any of the items
behind it.
-/

set_option autoImplicit false

namespace JPS
open Spec

/-! ### The sets of items that can be alive -/

theorem filter_range_front {N k m : Nat} (hN : N = k + 1 + m) {P : Nat → Bool} (hlo : ∀ f, f < N → P f = true → k ≤ f)
    (hk : P k = true) : (List.range N).filter P = k :: (List.range' (k + 1) m).filter P := by
  have e : List.range N = List.range k ++ k :: List.range' (k + 1) m := by
    rw [List.range_eq_range', List.range_eq_range', hN, show k + 1 + m = k + (m + 1) by omega, ← List.range'_append_1,
      List.range'_succ]
    simp
  rw [e, List.filter_append, List.filter_cons, if_pos hk]
  have : (List.range k).filter P = [] := by
    rw [List.filter_eq_nil_iff]
    intro f hf hp
    rw [List.mem_range] at hf
    have := hlo f (by omega) hp
    omega
  rw [this, List.nil_append]

theorem filter_range_single {N j : Nat} {P : Nat → Bool} (h : ∀ f, f < N → P f = true → f = j) :
    (List.range N).filter P = [] ∨ (List.range N).filter P = [j] := by
  have e : (List.range N).filter P = (List.range N).filter fun f => (f == j) && P j := by
    refine List.filter_congr ?_
    intro f hf
    rw [List.mem_range] at hf
    by_cases hj : f = j
    · subst hj; simp
    · have : P f = false := by
        cases hp : P f with
        | false => rfl
        | true => exact absurd (h f hf hp) hj
      rw [this]
      simp [hj]
  rw [e]
  cases P j with
  | false => left; simp
  | true =>
    simp only [Bool.and_true]
    rw [filter_range_one]
    split
    · exact .inr rfl
    · exact .inl rfl

/-- The sets of items alive when `k` items come before the first repeated one and `m` behind it. -/
def aliveSets (k m : Nat) : List (List Nat) :=
  [k + 1 + m] :: ((List.range k).map ([·]) ++ (subs (List.range' (k + 1) m)).map (k :: ·))

theorem length_aliveSets (k m : Nat) : (aliveSets k m).length = k + 1 + 2 ^ m := by
  simp [aliveSets, length_subs]; omega

theorem mem_follow {items : List Item} {p f : Nat} : f ∈ follow items p ↔
    (f = p ∧ ∃ it, items[p]? = some it ∧ it.rep = true) ∨
    (∃ j, f = p + 1 + j ∧ f < items.length ∧ ((items.drop (p + 1)).take j).all Item.nullable = true) := by
  unfold follow
  rw [List.mem_append, mem_firstLoop]
  constructor
  · rintro (h | ⟨j, h1, h2, h3⟩)
    · cases hg : items[p]? with
      | none => rw [hg] at h; cases h
      | some it =>
        rw [hg] at h
        dsimp only at h
        split at h
        · rename_i hr
          rw [List.mem_singleton] at h
          exact .inl ⟨h, it, rfl, hr⟩
        · cases h
    · simp at h2
      exact .inr ⟨j, h1, by omega, h3⟩
  · rintro (⟨h1, it, h2, h3⟩ | ⟨j, h1, h2, h3⟩)
    · rw [h2]
      dsimp only
      rw [if_pos h3]
      exact .inl (by simp [h1])
    · exact .inr ⟨j, h1, by simp; omega, h3⟩

theorem aliveSets_step {A R : List Item} {x : Item} (hA : ∀ it ∈ A, it.opt = .none) (hc : x.ch = none) (hx : x.rep = true)
    {S : List Nat} (hS : S ∈ aliveSets A.length R.length) {a : Nat} (ha : a < 256) :
    nextSet (A ++ x :: R) S a = [] ∨ nextSet (A ++ x :: R) S a ∈ aliveSets A.length R.length := by
  have hlen : (A ++ x :: R).length = A.length + 1 + R.length := by simp; omega
  have hxk : (A ++ x :: R)[A.length]? = some x := by simp
  have hedge : x.edge a = true := by simp [Item.edge, hc, ha]
  have hnull : ∀ i, i < A.length → ∀ it, (A ++ x :: R)[i]? = some it → it.opt = .none := by
    intro i hi it hg
    rw [List.getElem?_append_left hi] at hg
    exact hA it (List.mem_of_getElem? hg)
  -- items between `p` and `f` may be left out, so none of them comes before the repeated item
  have hgap : ∀ b j, b < A.length → ((((A ++ x :: R).drop b).take j).all Item.nullable = true) → j = 0 := by
    intro b j hb h
    cases j with
    | zero => rfl
    | succ j =>
      have hb' : b < (A ++ x :: R).length := by omega
      rw [List.drop_eq_getElem_cons hb', List.take_succ_cons, List.all_cons, Bool.and_eq_true] at h
      have := hnull b hb _ (List.getElem?_eq_getElem hb')
      simp [Item.nullable, this] at h
  have hpred : ∀ f, f < (A ++ x :: R).length →
      ((match (A ++ x :: R)[f]? with | some it => it.edge a | none => false) &&
        S.any fun p => (followB (A ++ x :: R) p).contains f) = true →
      ∃ p ∈ S, f ∈ followB (A ++ x :: R) p := by
    intro f _ h
    rw [Bool.and_eq_true, List.any_eq_true] at h
    obtain ⟨_, p, h1, h2⟩ := h
    exact ⟨p, h1, by simpa using h2⟩
  have front : (∀ p ∈ S, ∀ f, f < (A ++ x :: R).length → f ∈ followB (A ++ x :: R) p → A.length ≤ f) →
      (∃ p ∈ S, A.length ∈ followB (A ++ x :: R) p) → nextSet (A ++ x :: R) S a ∈ aliveSets A.length R.length := by
    intro h1 h2
    unfold nextSet
    rw [filter_range_front hlen (fun f hf hp => by
        obtain ⟨p, hp1, hp2⟩ := hpred f hf hp
        exact h1 p hp1 f hf hp2) (by
        obtain ⟨p, hp1, hp2⟩ := h2
        rw [hxk, Bool.and_eq_true, List.any_eq_true]
        exact ⟨hedge, p, hp1, by simpa using hp2⟩)]
    unfold aliveSets
    exact List.mem_cons_of_mem _ (List.mem_append_right _ (List.mem_map_of_mem (filter_mem_subs _ _)))
  have single : ∀ j, j < A.length → (∀ p ∈ S, ∀ f, f < (A ++ x :: R).length → f ∈ followB (A ++ x :: R) p → f = j) →
      nextSet (A ++ x :: R) S a = [] ∨ nextSet (A ++ x :: R) S a ∈ aliveSets A.length R.length := by
    intro j hj h1
    have := filter_range_single (N := (A ++ x :: R).length) (j := j) (P := fun f =>
      (match (A ++ x :: R)[f]? with | some it => it.edge a | none => false) &&
        S.any fun p => (followB (A ++ x :: R) p).contains f) (fun f hf hp => by
        obtain ⟨p, hp1, hp2⟩ := hpred f hf hp
        exact h1 p hp1 f hf hp2)
    rcases this with h | h
    · exact .inl h
    · right
      have h : nextSet (A ++ x :: R) S a = [j] := h
      rw [h]
      unfold aliveSets
      exact List.mem_cons_of_mem _ (List.mem_append_left _ (List.mem_map.2 ⟨j, List.mem_range.2 hj, rfl⟩))
  unfold aliveSets at hS
  rcases List.mem_cons.1 hS with rfl | hS
  · have hb : followB (A ++ x :: R) (A.length + 1 + R.length) = firstLoop (A ++ x :: R) 0 := by rw [followB, if_pos hlen.symm]
    by_cases h0 : A.length = 0
    · right
      refine front (fun _ _ f _ _ => by omega) ⟨_, List.mem_singleton.2 rfl, ?_⟩
      rw [hb, mem_firstLoop]
      exact ⟨0, by omega, by omega, rfl⟩
    · refine single 0 (by omega) ?_
      intro p hp f _ hf
      rw [List.mem_singleton] at hp
      subst hp
      rw [hb, mem_firstLoop] at hf
      obtain ⟨j, h1, _, h3⟩ := hf
      have := hgap 0 j (by omega) (by simpa using h3)
      omega
  · rcases List.mem_append.1 hS with hS | hS
    · obtain ⟨p, hp, rfl⟩ := List.mem_map.1 hS
      rw [List.mem_range] at hp
      have hb : followB (A ++ x :: R) p = follow (A ++ x :: R) p := by rw [followB, if_neg (by omega)]
      have hno : ∀ it, (A ++ x :: R)[p]? = some it → it.rep = false := by
        intro it hg
        simp [Item.rep, hnull p hp it hg]
      by_cases hk : p + 1 = A.length
      · right
        refine front ?_ ⟨p, by simp, ?_⟩
        · intro p' hp' f _ hf
          rw [List.mem_singleton] at hp'
          subst hp'
          rw [hb, mem_follow] at hf
          rcases hf with ⟨_, it, h1, h2⟩ | ⟨j, h1, _, _⟩
          · rw [hno it h1] at h2; cases h2
          · omega
        · rw [hb, mem_follow]
          exact .inr ⟨0, by omega, by omega, rfl⟩
      · refine single (p + 1) (by omega) ?_
        intro p' hp' f _ hf
        rw [List.mem_singleton] at hp'
        subst hp'
        rw [hb, mem_follow] at hf
        rcases hf with ⟨_, it, h1, h2⟩ | ⟨j, h1, _, h3⟩
        · rw [hno it h1] at h2; cases h2
        · have := hgap (p' + 1) j (by omega) h3
          omega
    · obtain ⟨T, hT, rfl⟩ := List.mem_map.1 hS
      have hin : ∀ p ∈ T, A.length ≤ p ∧ p < A.length + 1 + R.length := by
        have : ∀ (l : List Nat) (T : List Nat), T ∈ subs l → ∀ p ∈ T, p ∈ l := by
          intro l
          induction l with
          | nil => intro T hT p hp; simp [subs] at hT; subst hT; cases hp
          | cons y ys ih =>
            intro T hT p hp
            rw [subs, List.mem_append] at hT
            rcases hT with hT | hT
            · exact List.mem_cons_of_mem _ (ih T hT p hp)
            · obtain ⟨T', hT', rfl⟩ := List.mem_map.1 hT
              rcases List.mem_cons.1 hp with rfl | hp
              · simp
              · exact List.mem_cons_of_mem _ (ih T' hT' p hp)
        intro p hp
        have := this _ _ hT p hp
        rw [List.mem_range'] at this
        obtain ⟨i, h1, h2⟩ := this
        omega
      right
      refine front ?_ ⟨A.length, by simp, ?_⟩
      · intro p hp f _ hf
        have hp' : A.length ≤ p ∧ p < A.length + 1 + R.length := by
          rcases List.mem_cons.1 hp with rfl | hp
          · omega
          · exact hin p hp
        rw [followB, if_neg (by omega), mem_follow] at hf
        rcases hf with ⟨h1, _⟩ | ⟨j, h1, _⟩ <;> omega
      · rw [followB, if_neg (by omega), mem_follow]
        exact .inl ⟨rfl, x, hxk, hx⟩

theorem aliveSets_run {A R : List Item} {x : Item} (hA : ∀ it ∈ A, it.opt = .none) (hc : x.ch = none) (hx : x.rep = true) :
    ∀ (w : List Nat) (S : List Nat), S ∈ aliveSets A.length R.length → (∀ a ∈ w, a < 256) →
    ∀ T, optRun (bNext (A ++ x :: R)) (some S) w = some T → T ∈ aliveSets A.length R.length
  | [], S, hS, _, T, h => by cases h; exact hS
  | a :: w, S, hS, hw, T, h => by
    have e : optRun (bNext (A ++ x :: R)) (some S) (a :: w) =
      optRun (bNext (A ++ x :: R)) (bNext (A ++ x :: R) S a) w := rfl
    rw [e] at h
    rcases aliveSets_step hA hc hx hS (hw a (by simp)) with h0 | h1
    · rw [show bNext (A ++ x :: R) S a = none by simp [bNext, h0], optRun_dead] at h; cases h
    · by_cases hn : nextSet (A ++ x :: R) S a = []
      · rw [show bNext (A ++ x :: R) S a = none by simp [bNext, hn], optRun_dead] at h; cases h
      · rw [show bNext (A ++ x :: R) S a = some (nextSet (A ++ x :: R) S a) by simp [bNext, hn]] at h
        exact aliveSets_run hA hc hx w _ h1 (fun b hb => hw b (by simp [hb])) T h

/-! ### The rule of a beginning of the path knows no more than the rule of the path -/

/-- A set, if it is not empty. -/
def nonempty? (S : List Nat) : Option (List Nat) := if S = [] then none else some S

theorem bNext_eq (items : List Item) (S : List Nat) (a : Nat) : bNext items S a = nonempty? (nextSet items S a) := rfl

theorem follow_prefix {P Q : List Item} {p f : Nat} (hf : f < P.length) : f ∈ follow (P ++ Q) p ↔ f ∈ follow P p := by
  rw [mem_follow, mem_follow]
  constructor
  · rintro (⟨h1, it, h2, h3⟩ | ⟨j, h1, h2, h3⟩)
    · subst h1
      rw [List.getElem?_append_left hf] at h2
      exact .inl ⟨rfl, it, h2, h3⟩
    · refine .inr ⟨j, h1, hf, ?_⟩
      rwa [List.drop_append_of_le_length (by omega), List.take_append_of_le_length (by simp; omega)] at h3
  · rintro (⟨h1, it, h2, h3⟩ | ⟨j, h1, h2, h3⟩)
    · subst h1
      refine .inl ⟨rfl, it, ?_, h3⟩
      rwa [List.getElem?_append_left hf]
    · refine .inr ⟨j, h1, by simp; omega, ?_⟩
      rwa [List.drop_append_of_le_length (by omega), List.take_append_of_le_length (by simp; omega)]

theorem filter_lt_range (n m : Nat) (P : Nat → Bool) : ((List.range (n + m)).filter P).filter (fun f => decide (f < n)) = (List.range n).filter P := by
  rw [List.range_eq_range', ← List.range'_append_1, List.filter_append, List.filter_append, Nat.zero_add]
  have h1 : ((List.range' 0 n).filter P).filter (fun f => decide (f < n)) = (List.range n).filter P := by
    rw [← List.range_eq_range', List.filter_eq_self]
    intro f hf
    have := (List.mem_filter.1 hf).1
    simpa using this
  have h2 : ((List.range' n m).filter P).filter (fun f => decide (f < n)) = [] := by
    rw [List.filter_eq_nil_iff]
    intro f hf
    have := (List.mem_filter.1 hf).1
    rw [List.mem_range'] at this
    obtain ⟨i, _, h⟩ := this
    simp; omega
  rw [h1, h2, List.append_nil]

theorem nextSet_prefix {P Q : List Item} {S T : List Nat} {a : Nat}
    (h : ∀ f, f < P.length → ((∃ p ∈ S, f ∈ followB (P ++ Q) p) ↔ ∃ p ∈ T, f ∈ followB P p)) :
    nextSet P T a = (nextSet (P ++ Q) S a).filter fun f => decide (f < P.length) := by
  unfold nextSet
  rw [List.length_append, filter_lt_range]
  refine List.filter_congr ?_
  intro f hf
  rw [List.mem_range] at hf
  rw [List.getElem?_append_left hf]
  congr 1
  rw [Bool.eq_iff_iff]
  simp only [List.any_eq_true, List.contains_iff_mem]
  exact (h f hf).symm

theorem follow_lt {items : List Item} {p f : Nat} (h : f ∈ follow items p) : p ≤ f := by
  rw [mem_follow] at h
  rcases h with ⟨h1, _⟩ | ⟨j, h1, _⟩ <;> omega

theorem nextSet_prefix_in {P Q : List Item} {S : List Nat} (hS : ∀ p ∈ S, p < (P ++ Q).length) {a : Nat} :
    nextSet P (S.filter fun f => decide (f < P.length)) a = (nextSet (P ++ Q) S a).filter fun f => decide (f < P.length) := by
  refine nextSet_prefix ?_
  intro f hf
  constructor
  · rintro ⟨p, h1, h2⟩
    have := hS p h1
    rw [followB, if_neg (by omega)] at h2
    have hle := follow_lt h2
    refine ⟨p, List.mem_filter.2 ⟨h1, by simp; omega⟩, ?_⟩
    rw [followB, if_neg (by omega)]
    exact (follow_prefix hf).1 h2
  · rintro ⟨p, h1, h2⟩
    rw [List.mem_filter] at h1
    have hp : p < P.length := by simpa using h1.2
    rw [followB, if_neg (by omega)] at h2
    refine ⟨p, h1.1, ?_⟩
    rw [followB, if_neg (by simp; omega)]
    exact (follow_prefix hf).2 h2

theorem nextSet_prefix_start {P Q : List Item} {a : Nat} :
    nextSet P [P.length] a = (nextSet (P ++ Q) [(P ++ Q).length] a).filter fun f => decide (f < P.length) := by
  refine nextSet_prefix ?_
  intro f hf
  simp only [List.mem_singleton, exists_eq_left, followB, if_true, mem_firstLoop]
  constructor
  · rintro ⟨j, h1, h2, h3⟩
    exact ⟨j, h1, by omega, by rwa [List.take_append_of_le_length (by omega)] at h3⟩
  · rintro ⟨j, h1, h2, h3⟩
    exact ⟨j, h1, by simp; omega, by rwa [List.take_append_of_le_length (by omega)]⟩

theorem optRun_prefix {P Q : List Item} : ∀ (w : List Nat) (S : List Nat), (∀ p ∈ S, p < (P ++ Q).length) →
    optRun (bNext P) (nonempty? (S.filter fun f => decide (f < P.length))) w =
      (optRun (bNext (P ++ Q)) (nonempty? S) w).bind fun T => nonempty? (T.filter fun f => decide (f < P.length))
  | [], S, _ => by
    by_cases h : S = []
    · subst h; rfl
    · show _ = (nonempty? S).bind _
      rw [show nonempty? S = some S by simp [nonempty?, h]]; rfl
  | a :: w, S, hS => by
    by_cases h : S = []
    · subst h
      show optRun (bNext P) none (a :: w) = (optRun (bNext (P ++ Q)) none (a :: w)).bind _
      rw [optRun_dead, optRun_dead]; rfl
    · have e : optRun (bNext (P ++ Q)) (nonempty? S) (a :: w) = optRun (bNext (P ++ Q)) (nonempty? (nextSet (P ++ Q) S a)) w := by
        rw [show nonempty? S = some S by simp [nonempty?, h]]; rfl
      rw [e, ← optRun_prefix w _ nextSet_lt, ← nextSet_prefix_in hS]
      by_cases h' : (S.filter fun f => decide (f < P.length)) = []
      · rw [h']
        have : nextSet P [] a = [] := by simp [nextSet]
        rw [this]
        show optRun (bNext P) none (a :: w) = optRun (bNext P) none w
        rw [optRun_dead, optRun_dead]
      · conv => lhs; rw [show nonempty? (S.filter fun f => decide (f < P.length)) = some (S.filter fun f => decide (f < P.length)) by
          simp only [nonempty?, if_neg h']]
        rfl

theorem optRun_prefix_start {P Q : List Item} (a : Nat) (w : List Nat) :
    optRun (bNext P) (some [P.length]) (a :: w) =
      (optRun (bNext (P ++ Q)) (some [(P ++ Q).length]) (a :: w)).bind fun T => nonempty? (T.filter fun f => decide (f < P.length)) := by
  have e : ∀ I : List Item, optRun (bNext I) (some [I.length]) (a :: w) = optRun (bNext I) (nonempty? (nextSet I [I.length] a)) w :=
    fun _ => rfl
  rw [e, e, ← optRun_prefix w _ nextSet_lt, ← nextSet_prefix_start]

/-- The start set is only met at the start. -/
theorem optRun_start_only {I : List Item} {a : Nat} {w : List Nat} :
    optRun (bNext I) (some [I.length]) (a :: w) ≠ some [I.length] := by
  have : ∀ (w : List Nat) (S T : List Nat), (∀ p ∈ S, p < I.length) → optRun (bNext I) (nonempty? S) w = some T → ∀ p ∈ T, p < I.length := by
    intro w
    induction w with
    | nil =>
      intro S T hS h
      by_cases h0 : S = []
      · subst h0; cases h
      · rw [show nonempty? S = some S by simp [nonempty?, h0]] at h
        cases h; exact hS
    | cons b w ih =>
      intro S T hS h
      by_cases h0 : S = []
      · subst h0
        have h : optRun (bNext I) none (b :: w) = some T := h
        rw [optRun_dead] at h; cases h
      · rw [show nonempty? S = some S by simp [nonempty?, h0]] at h
        exact ih _ T nextSet_lt h
  intro h
  have := this w (nextSet I [I.length] a) _ nextSet_lt h I.length (by simp)
  omega

/-- Two words that leave the rule of the path in the same set leave the rules of its beginnings in the same set. -/
theorem optRun_prefix_eq {P Q : List Item} {x y : List Nat}
    (h : optRun (bNext (P ++ Q)) (some [(P ++ Q).length]) x = optRun (bNext (P ++ Q)) (some [(P ++ Q).length]) y) :
    optRun (bNext P) (some [P.length]) x = optRun (bNext P) (some [P.length]) y := by
  cases x with
  | nil =>
    cases y with
    | nil => rfl
    | cons b y => exact absurd h.symm optRun_start_only
  | cons a x =>
    cases y with
    | nil => exact absurd h optRun_start_only
    | cons b y =>
      refine (optRun_prefix_start (Q := Q) a x).trans (.trans ?_ (optRun_prefix_start (Q := Q) b y).symm)
      rw [h]

/-! ### The bound -/

/-- The items of a step. -/
def stepItems : Step → Nat
  | .descProp _ => 2
  | _ => 1

theorem length_itemsOf (names : List Str) : ∀ p : List Step, (itemsOf names p).length = (p.map stepItems).sum
  | [] => rfl
  | s :: p => by
    have ih := length_itemsOf names p
    have e : itemsOf names (s :: p) = SE.items names (seOf s) ++ itemsOf names p := by simp [itemsOf]
    rw [e, List.length_append, ih, List.map_cons, List.sum_cons]
    cases s <;> rfl

theorem desc_items (names : List Str) {d : Step} (hd : isDesc d = true) : ∃ x R, SE.items names (seOf d) = x :: R ∧
    x.ch = none ∧ x.rep = true ∧ R.length + 1 = stepItems d := by
  cases d <;> simp [isDesc] at hd
  · exact ⟨_, _, rfl, rfl, rfl, rfl⟩
  · exact ⟨_, _, rfl, rfl, rfl, rfl⟩

/-- The states of the table of a path whose first descendant step is `d`. -/
theorem PathCtx.desc_states {B R : List Step} {d : Step} {c : SCtx} (h : PathCtx (B ++ d :: R) c) (hB : ∀ s ∈ B, isDesc s = false)
    (hd : isDesc d = true) :
    (tableOf c).statesNum ≤ B.length + 2 + 2 ^ (((d :: R).map stepItems).sum - 1) := by
  have e : (tableOf c).statesNum = c.dfa.rows.length + 1 := rfl
  obtain ⟨x, R0, hx, hch, hrep, hR0⟩ := desc_items c.names hd
  have hI : itemsOf c.names (B ++ d :: R) = itemsOf c.names B ++ x :: (R0 ++ itemsOf c.names R) := by
    rw [itemsOf_cat, show itemsOf c.names (d :: R) = SE.items c.names (seOf d) ++ itemsOf c.names R by simp [itemsOf], hx]
    simp
  have hA := itemsOf_levels (names := c.names) hB
  have hm : (R0 ++ itemsOf c.names R).length = ((d :: R).map stepItems).sum - 1 := by
    rw [List.length_append, length_itemsOf, List.map_cons, List.sum_cons]; omega
  have hpre : ∀ r ∈ c.rules, ∃ Q, itemsOf c.names (B ++ d :: R) = r ++ Q := by
    intro r hr
    rw [h.inv.rules] at hr
    obtain ⟨q, hq, rfl⟩ := List.mem_map.1 hr
    obtain ⟨s, hs⟩ := h.inv.pre q hq
    exact ⟨itemsOf c.names s, by rw [← itemsOf_cat, ← hs]⟩
  have hnames := h.names_le
  have hset : ∀ j, j ≠ 0 → j < c.dfa.rows.length + 1 → ∃ S ∈ aliveSets B.length (((d :: R).map stepItems).sum - 1), ∃ w, c.letters w ∧
      c.run w = j ∧ optRun (bNext (itemsOf c.names (B ++ d :: R))) (some [(itemsOf c.names (B ++ d :: R)).length]) w = some S := by
    intro j h0 hj
    obtain ⟨w, hw, hr⟩ := c.reach j h0 hj
    cases ho : optRun (bNext (itemsOf c.names (B ++ d :: R))) (some [(itemsOf c.names (B ++ d :: R)).length]) w with
    | some S =>
      refine ⟨S, ?_, w, hw, hr, ho⟩
      rw [hI] at ho
      have := aliveSets_run hA.2 hch hrep w _ (by
        unfold aliveSets
        rw [show [(itemsOf c.names B ++ x :: (R0 ++ itemsOf c.names R)).length] =
          [(itemsOf c.names B).length + 1 + (R0 ++ itemsOf c.names R).length] by simp; omega]
        exact List.mem_cons_self ..) (fun a ha => by have := (hw a ha).2; omega) S ho
      rwa [hA.1, hm] at this
    | none =>
      refine absurd ?_ (hr ▸ h0)
      refine (buildDfa_zero c.rules h.ok.rules (c.names.length + 3) w hw).2 ?_
      intro r hrm
      rw [createDFA_zero _ _ w hw]
      obtain ⟨Q, hQ⟩ := hpre r hrm
      cases w with
      | nil => cases ho
      | cons a w =>
        rw [hQ] at ho
        rw [optRun_prefix_start (Q := Q), ho]; rfl
  have hlen := length_aliveSets B.length (((d :: R).map stepItems).sum - 1)
  -- a choice of a set for each state is injective
  have hinj : ∀ L : List Nat, L.Nodup → (∀ j ∈ L, j ≠ 0 ∧ j < c.dfa.rows.length + 1) →
      ∃ Ss : List (List Nat), Ss.length = L.length ∧ Ss.Nodup ∧ ∀ S ∈ Ss, S ∈ aliveSets B.length (((d :: R).map stepItems).sum - 1) ∧
        ∃ j ∈ L, ∃ w, c.letters w ∧ c.run w = j ∧
          optRun (bNext (itemsOf c.names (B ++ d :: R))) (some [(itemsOf c.names (B ++ d :: R)).length]) w = some S := by
    intro L
    induction L with
    | nil => intro _ _; exact ⟨[], rfl, List.nodup_nil, by simp⟩
    | cons j L ih =>
      intro hnd hL
      rw [List.nodup_cons] at hnd
      obtain ⟨Ss, h1, h2, h3⟩ := ih hnd.2 (fun i hi => hL i (by simp [hi]))
      obtain ⟨S, hS, w, hw, hr, ho⟩ := hset j (hL j (by simp)).1 (hL j (by simp)).2
      refine ⟨S :: Ss, by simp [h1], ?_, ?_⟩
      · rw [List.nodup_cons]
        refine ⟨?_, h2⟩
        intro hm
        obtain ⟨_, i, hi, w', hw', hr', ho'⟩ := h3 S hm
        have : c.run w = c.run w' := by
          refine buildDfa_run_eq c.rules h.ok.rules (c.names.length + 3) hw hw' ?_
          intro r hrm
          obtain ⟨Q, hQ⟩ := hpre r hrm
          rw [hQ] at ho ho'
          exact optRun_prefix_eq (ho.trans ho'.symm)
        rw [hr, hr'] at this
        subst this
        exact hnd.1 hi
      · intro T hT
        rcases List.mem_cons.1 hT with rfl | hT
        · exact ⟨hS, j, by simp, w, hw, hr, ho⟩
        · obtain ⟨h4, i, hi, h5⟩ := h3 T hT
          exact ⟨h4, i, by simp [hi], h5⟩
  obtain ⟨Ss, h1, h2, h3⟩ := hinj (List.range' 1 c.dfa.rows.length) List.nodup_range' (by
    intro j hj
    rw [List.mem_range'] at hj
    obtain ⟨i, hi, rfl⟩ := hj
    omega)
  have := h2.length_le_of_subset (l₂ := aliveSets B.length (((d :: R).map stepItems).sum - 1)) (fun S hS => (h3 S hS).1)
  rw [h1, hlen, List.length_range'] at this
  rw [e]
  omega

/-! ### The exact number for `..a` followed by `.*` -/

theorem Explored.start_num {σ : Type} [DecidableEq σ] {next : σ → Nat → Option σ} {m : Nat} {init : σ} {L : List σ}
    {rows : List (List Nat)} (h : Explored next m init L rows) {w : List Nat} (hw : ∀ a ∈ w, 1 ≤ a ∧ a < m)
    (h1 : w.foldl (rowsNext rows) 1 = 1) : optRun next (some init) w = some init := by
  obtain ⟨h2, h3⟩ := h.run1 w hw
  rw [h3] at h1
  have := numOf_get h2
  rw [h1] at this
  simp only [Nat.one_ne_zero, if_false, Nat.sub_self, h.first] at this
  exact this.symm

/-- No word but the empty one leads back to the start. -/
theorem SCtx.run_start (c : SCtx) (hr : c.rules ≠ []) {a : Nat} {w : List Nat} (hw : c.letters (a :: w)) : c.run (a :: w) ≠ 1 := by
  intro h1
  have h2 := c.explored.start_num hw h1
  have hv : runVec (c.rules.map (createDFA · (c.names.length + 3)))
      (List.replicate (c.rules.map (createDFA · (c.names.length + 3))).length 1) (a :: w) =
      List.replicate (c.rules.map (createDFA · (c.names.length + 3))).length 1 := by
    rcases optRun_mix (ds := c.rules.map (createDFA · (c.names.length + 3))) (a :: w)
      (some (List.replicate (c.rules.map (createDFA · (c.names.length + 3))).length 1)) _ (.inr rfl) with ⟨h0, _⟩ | h0
    · rw [h2] at h0; cases h0
    · rw [h2] at h0; exact (Option.some.inj h0).symm
  rw [List.length_map, runVec_rules] at hv
  cases hc : c.rules with
  | nil => exact hr hc
  | cons r rs =>
    rw [hc, List.map_cons, List.length_cons, List.replicate_succ] at hv
    exact optRun_start_only ((createDFA_explored r (c.names.length + 3)).start_num hw (List.cons.inj hv).1)

/-- `..a` followed by `n` times `.*` has `2 ^ (n + 1) + 2` states. -/
theorem PathCtx.deep_states_exact {a : Str} {n : Nat} {c : SCtx} (h : PathCtx (deepPath a n) c) :
    (tableOf c).statesNum = 2 ^ (n + 1) + 2 := by
  have hup := h.desc_states (B := []) (d := .descProp a) (R := List.replicate n .dotAll) (by simp) rfl
  have hsum : ((Step.descProp a :: List.replicate n Step.dotAll).map stepItems).sum = n + 2 := by
    simp [stepItems]; omega
  rw [hsum] at hup
  have hlow : 2 ^ (n + 1) + 2 ≤ (tableOf c).statesNum := by
    have e : (tableOf c).statesNum = c.dfa.rows.length + 1 := rfl
    have hstop := h.deep_stop
    have hne0 : ∀ u ∈ allBools (n + 1), c.run ((bitLoc a u).map c.col) ≠ 0 := by
      intro u hu h0
      have h1 : c.run ((bitLoc a u ++ (Label.key a :: List.replicate n (Label.elem 0))).map c.col) = 0 := by
        rw [run_app, h0]
        have hz : ∀ w : List Nat, w.foldl c.dfa.next 0 = 0 := by
          intro w
          induction w with
          | nil => rfl
          | cons b w ih =>
            have : c.dfa.next 0 b = 0 := by simp [SDfa.next, rowsNext]
            rw [List.foldl_cons, this, ih]
        exact hz _
      have h2 : c.dfa.stop (c.run ((bitLoc a u ++ (Label.key a :: List.replicate n (Label.elem 0))).map c.col)) ≠ 0 := by
        rw [hstop, matches_deep]
        have : (bitLoc a u).length = n + 1 := by simp [bitLoc, allBools_mem hu]
        constructor
        · simp; omega
        · rw [List.getElem?_append_right (by simp)]
          simp [this]
      rw [h1] at h2
      exact h2 rfl
    have hne1 : ∀ u ∈ allBools (n + 1), c.run ((bitLoc a u).map c.col) ≠ 1 := by
      intro u hu
      have hl := c.letters_map (bitLoc a u)
      have := allBools_mem hu
      cases u with
      | nil => simp at this
      | cons b u => exact c.run_start h.ok.rules hl
    have hnd : (0 :: 1 :: (allBools (n + 1)).map fun u => c.run ((bitLoc a u).map c.col)).Nodup := by
      rw [List.nodup_cons, List.nodup_cons]
      refine ⟨?_, ?_, ?_⟩
      · intro hm
        rcases List.mem_cons.1 hm with hm | hm
        · cases hm
        · obtain ⟨u, hu, h0⟩ := List.mem_map.1 hm
          exact hne0 u hu h0
      · intro hm
        obtain ⟨u, hu, h0⟩ := List.mem_map.1 hm
        exact hne1 u hu h0
      · exact List.pairwise_map.2 ((allBools_nodup (n + 1)).imp_of_mem fun hu ht hne he => hne (h.deep_inj _ hu _ ht he))
    have hrun1 : c.run [] = 1 := rfl
    have := hnd.length_le_of_subset (l₂ := List.range (c.dfa.rows.length + 1)) (by
      intro s hs
      rw [List.mem_range]
      rcases List.mem_cons.1 hs with rfl | hs
      · omega
      · rcases List.mem_cons.1 hs with rfl | hs
        · exact hrun1 ▸ c.run_lt _ (c.letters_map [])
        · obtain ⟨u, _, rfl⟩ := List.mem_map.1 hs
          exact c.run_lt _ (c.letters_map _))
    simp [allBools_length] at this
    omega
  simp at hup
  omega

end JPS
