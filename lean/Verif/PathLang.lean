import Verif.PathCtx
/-!
# The items of a path accept exactly the matching locations
-/

namespace Spec

theorem matches_nil {p : List Step} : Matches p [] ↔ p = [] := by
  constructor
  · intro h; cases h; rfl
  · rintro rfl; exact .nil

theorem matches_nil_left {l : Loc} : Matches [] l ↔ l = [] := by
  constructor
  · intro h; cases h; rfl
  · rintro rfl; exact .nil

theorem matches_dotAll {p : List Step} {x : Label} {l : Loc} :
    Matches (.dotAll :: p) (x :: l) ↔ Matches p l :=
  ⟨fun h => by cases h; assumption, .dotAll x⟩

theorem matches_descAll {p : List Step} {x : Label} {l : Loc} :
    Matches (.descAll :: p) (x :: l) ↔ Matches p l ∨ Matches (.descAll :: p) l :=
  ⟨fun h => by cases h with
    | descAll _ h => exact .inl h
    | descAllMore _ h => exact .inr h, fun h => h.elim (.descAll x) (.descAllMore x)⟩

theorem matches_prop {p : List Step} {k : List Char} {x : Label} {l : Loc} :
    Matches (.prop k :: p) (x :: l) ↔ x = .key k ∧ Matches p l :=
  ⟨fun h => by cases h; exact ⟨rfl, by assumption⟩, by rintro ⟨rfl, h⟩; exact .prop k h⟩

theorem matches_descProp {p : List Step} {k : List Char} {x : Label} {l : Loc} :
    Matches (.descProp k :: p) (x :: l) ↔ (x = .key k ∧ Matches p l) ∨ Matches (.descProp k :: p) l :=
  ⟨fun h => by cases h with
    | descProp _ h => exact .inl ⟨rfl, h⟩
    | descPropMore _ h => exact .inr h,
   fun h => h.elim (by rintro ⟨rfl, h'⟩; exact .descProp k h') (.descPropMore x)⟩

theorem matches_all {p : List Step} {x : Label} {l : Loc} :
    Matches (.all :: p) (x :: l) ↔ (∃ i, x = .elem i) ∧ Matches p l :=
  ⟨fun h => by cases h with | all i h => exact ⟨⟨i, rfl⟩, h⟩, by rintro ⟨⟨i, rfl⟩, h⟩; exact .all i h⟩

theorem matches_slice {p : List Step} {a b : Option Int} {x : Label} {l : Loc} :
    Matches (.slice a b :: p) (x :: l) ↔ (∃ i, x = .elem i ∧ inSlice a b i) ∧ Matches p l :=
  ⟨fun h => by cases h with | slice _ _ i h1 h2 => exact ⟨⟨i, rfl, h1⟩, h2⟩,
   by rintro ⟨⟨i, rfl, h1⟩, h⟩; exact .slice a b i h1 h⟩

end Spec

namespace JPS
open Spec

/-- Forget the bounds of slices. -/
def unslice : Step → Step
  | .slice _ _ => .all
  | s => s

theorem lang_one {ch : Option Nat} {r : List Item} {a : Nat} {w : List Nat} :
    Lang (⟨ch, .none⟩ :: r) (a :: w) ↔ (⟨ch, .none⟩ : Item).edge a = true ∧ Lang r w := by
  rw [lang_cons]; simp [Item.nullable, Item.after, Item.rep]

theorem lang_plus {ch : Option Nat} {r : List Item} {a : Nat} {w : List Nat} :
    Lang (⟨ch, .plus⟩ :: r) (a :: w) ↔
      (⟨ch, .plus⟩ : Item).edge a = true ∧ (Lang r w ∨ Lang (⟨ch, .plus⟩ :: r) w) := by
  rw [lang_cons]
  simp only [Item.nullable, Item.after, Item.rep]
  constructor
  · rintro (⟨h, _⟩ | ⟨h1, h2⟩)
    · cases h
    · exact ⟨h1, lang_star_cases (it := ⟨ch, .plus⟩) h2⟩
  · rintro ⟨h1, h2⟩
    refine .inr ⟨h1, ?_⟩
    rcases h2 with h2 | h2
    · exact .skip rfl h2
    · exact lang_plus_star rfl h2

theorem lang_star {ch : Option Nat} {r : List Item} {a : Nat} {w : List Nat} :
    Lang (⟨ch, .star⟩ :: r) (a :: w) ↔
      Lang r (a :: w) ∨ ((⟨ch, .star⟩ : Item).edge a = true ∧ Lang (⟨ch, .star⟩ :: r) w) := by
  rw [lang_cons]; simp [Item.nullable, Item.after, Item.rep]

theorem not_lang_nil {it : Item} {r : List Item} (h : it.nullable = false) : ¬ Lang (it :: r) [] := by
  rw [lang_nil]; simp [h]

theorem SCtx.edge_any (c : SCtx) (hf : c.names.length ≤ 253) (o : Opt) (x : Label) :
    (⟨none, o⟩ : Item).edge (c.col x) = true := by
  have := c.col_ok x
  simp only [Item.edge, decide_eq_true_eq]; omega

theorem SCtx.edge_key (c : SCtx) {k : Str} (hk : k ∈ c.names) (o : Opt) (x : Label) :
    (⟨some (nameCol c.names k), o⟩ : Item).edge (c.col x) = true ↔ x = .key k := by
  simp only [Item.edge, beq_iff_eq]
  have hlt := List.idxOf_lt_length_of_mem hk
  cases x with
  | elem i => simp [SCtx.col, nameCol]
  | key k' =>
    simp only [SCtx.col]
    split
    · rename_i hk'
      have hlt' := List.idxOf_lt_length_of_mem hk'
      constructor
      · intro h
        have hi : c.names.idxOf k' = c.names.idxOf k := by simp only [nameCol] at h; omega
        have e1 := List.getElem_idxOf hlt
        have e2 := List.getElem_idxOf hlt'
        have : k' = k := by rw [← e1, ← e2]; simp only [hi]
        rw [this]
      · intro h; cases h; rfl
    · rename_i hk'
      constructor
      · intro h; simp [nameCol] at h
      · intro h; cases h; exact absurd hk hk'

theorem SCtx.edge_arr (c : SCtx) (o : Opt) (x : Label) :
    (⟨some 2, o⟩ : Item).edge (c.col x) = true ↔ ∃ i, x = .elem i := by
  simp only [Item.edge, beq_iff_eq]
  cases x with
  | elem i => simp [SCtx.col]
  | key k =>
    simp only [SCtx.col, nameCol]
    split <;> simp

theorem itemsOf_cons (names : List Str) (s : Step) (p : List Step) :
    itemsOf names (s :: p) = (seOf s).items names ++ itemsOf names p := by simp [itemsOf]

/-- Words of a path. -/
theorem SCtx.lang_matches (c : SCtx) (hf : c.names.length ≤ 253) (p : List Step)
    (hn : Named c.names p) (l : Loc) :
    Lang (itemsOf c.names p) (l.map c.col) ↔ Matches (p.map unslice) l := by
  induction p generalizing l with
  | nil =>
    cases l with
    | nil => exact ⟨fun _ => .nil, fun _ => .nil⟩
    | cons x l =>
      constructor
      · intro h; cases h
      · intro h; cases h
  | cons s p ih =>
    have ih := ih (fun s' hs' => hn s' (by simp [hs']))
    have hs := hn s (by simp)
    rw [itemsOf_cons, List.map_cons]
    cases l with
    | nil =>
      rw [matches_nil, List.map_nil]
      constructor
      · intro h
        rw [lang_nil] at h
        cases s <;> simp [seOf, SE.items, Item.nullable] at h
      · intro h; cases h
    | cons x l =>
      rw [List.map_cons]
      cases s with
      | dotAll =>
        simp only [seOf, SE.items, List.cons_append, List.nil_append, unslice]
        rw [lang_one, matches_dotAll, ih]
        simp [c.edge_any hf]
      | prop k =>
        simp only [seOf, SE.items, List.cons_append, List.nil_append, unslice]
        rw [lang_one, matches_prop, ih, c.edge_key (hs k rfl)]
      | all =>
        simp only [seOf, SE.items, List.cons_append, List.nil_append, unslice]
        rw [lang_one, matches_all, ih, c.edge_arr]
      | slice a b =>
        simp only [seOf, SE.items, List.cons_append, List.nil_append, unslice]
        rw [lang_one, matches_all, ih, c.edge_arr]
      | descAll =>
        simp only [seOf, SE.items, List.cons_append, List.nil_append, unslice]
        induction l generalizing x with
        | nil =>
          rw [lang_plus, matches_descAll, ih]
          simp [c.edge_any hf, not_lang_nil (it := ⟨none, .plus⟩) rfl, matches_nil]
        | cons y l ihl =>
          rw [lang_plus, matches_descAll, ih, List.map_cons, propext (ihl y)]
          simp [c.edge_any hf]
      | descProp k =>
        simp only [seOf, SE.items, List.cons_append, List.nil_append, unslice]
        induction l generalizing x with
        | nil =>
          rw [lang_star, lang_one, matches_descProp, ih, c.edge_key (hs k rfl)]
          have : ¬ Lang (⟨none, .star⟩ :: ⟨some (nameCol c.names k), .none⟩ :: itemsOf c.names p)
              [] := by
            rw [lang_nil]; simp [Item.nullable]
          simp [this, matches_nil]
        | cons y l ihl =>
          rw [lang_star, lang_one, matches_descProp, ih, List.map_cons, propext (ihl y), c.edge_key (hs k rfl)]
          simp [c.edge_any hf]

/-! ### Shape of matches -/

/-- No descendant step. -/
def isDesc : Step → Bool
  | .descAll => true
  | .descProp _ => true
  | _ => false

theorem matches_length_le {p : List Step} {l : Loc} (h : Matches p l) : p.length ≤ l.length := by
  induction h <;> simp_all <;> omega

theorem matches_length {p : List Step} {l : Loc} (h : Matches p l) (hp : ∀ s ∈ p, isDesc s = false) :
    p.length = l.length := by
  induction h with
  | nil => rfl
  | descAll | descAllMore | descProp | descPropMore => have := hp _ (List.mem_cons_self ..); simp [isDesc] at this
  | dotAll _ _ ih | prop _ _ ih | all _ _ ih | slice _ _ _ _ _ ih =>
    have := ih (fun s hs => hp s (List.mem_cons_of_mem _ hs))
    simp [this]

theorem matches_append {p q : List Step} {l m : Loc} (h1 : Matches p l) (h2 : Matches q m) :
    Matches (p ++ q) (l ++ m) := by
  induction h1 with
  | nil => exact h2
  | dotAll x _ ih => exact .dotAll x ih
  | descAll x _ ih => exact .descAll x ih
  | descAllMore x _ ih => exact .descAllMore x ih
  | prop k _ ih => exact .prop k ih
  | descProp k _ ih => exact .descProp k ih
  | descPropMore x _ ih => exact .descPropMore x ih
  | all i _ ih => exact .all i ih
  | slice a b i h _ ih => exact .slice a b i h ih

theorem matches_split {p q : List Step} {l : Loc} (h : Matches (p ++ q) l) :
    ∃ l1 l2, l = l1 ++ l2 ∧ Matches p l1 ∧ Matches q l2 := by
  generalize hr : p ++ q = r at h
  induction h generalizing p with
  | nil => simp at hr; obtain ⟨rfl, rfl⟩ := hr; exact ⟨[], [], rfl, .nil, .nil⟩
  | dotAll x h ih =>
    cases p with
    | nil => simp at hr; subst hr; exact ⟨[], _, rfl, .nil, .dotAll x h⟩
    | cons s p =>
      simp at hr; obtain ⟨rfl, hr⟩ := hr
      obtain ⟨l1, l2, rfl, h1, h2⟩ := ih hr
      exact ⟨x :: l1, l2, rfl, .dotAll x h1, h2⟩
  | descAll x h ih =>
    cases p with
    | nil => simp at hr; subst hr; exact ⟨[], _, rfl, .nil, .descAll x h⟩
    | cons s p =>
      simp at hr; obtain ⟨rfl, hr⟩ := hr
      obtain ⟨l1, l2, rfl, h1, h2⟩ := ih hr
      exact ⟨x :: l1, l2, rfl, .descAll x h1, h2⟩
  | descAllMore x h ih =>
    cases p with
    | nil => simp at hr; subst hr; exact ⟨[], _, rfl, .nil, .descAllMore x h⟩
    | cons s p =>
      simp at hr; obtain ⟨rfl, rfl⟩ := hr
      obtain ⟨l1, l2, rfl, h1, h2⟩ := ih (p := .descAll :: p) rfl
      exact ⟨x :: l1, l2, rfl, .descAllMore x h1, h2⟩
  | prop k h ih =>
    cases p with
    | nil => simp at hr; subst hr; exact ⟨[], _, rfl, .nil, .prop k h⟩
    | cons s p =>
      simp at hr; obtain ⟨rfl, hr⟩ := hr
      obtain ⟨l1, l2, rfl, h1, h2⟩ := ih hr
      exact ⟨_ :: l1, l2, rfl, .prop k h1, h2⟩
  | descProp k h ih =>
    cases p with
    | nil => simp at hr; subst hr; exact ⟨[], _, rfl, .nil, .descProp k h⟩
    | cons s p =>
      simp at hr; obtain ⟨rfl, hr⟩ := hr
      obtain ⟨l1, l2, rfl, h1, h2⟩ := ih hr
      exact ⟨_ :: l1, l2, rfl, .descProp k h1, h2⟩
  | descPropMore x h ih =>
    cases p with
    | nil => simp at hr; subst hr; exact ⟨[], _, rfl, .nil, .descPropMore x h⟩
    | cons s p =>
      simp at hr; obtain ⟨rfl, rfl⟩ := hr
      obtain ⟨l1, l2, rfl, h1, h2⟩ := ih (p := .descProp _ :: p) rfl
      exact ⟨x :: l1, l2, rfl, .descPropMore x h1, h2⟩
  | all i h ih =>
    cases p with
    | nil => simp at hr; subst hr; exact ⟨[], _, rfl, .nil, .all i h⟩
    | cons s p =>
      simp at hr; obtain ⟨rfl, hr⟩ := hr
      obtain ⟨l1, l2, rfl, h1, h2⟩ := ih hr
      exact ⟨_ :: l1, l2, rfl, .all i h1, h2⟩
  | slice a b i hi h ih =>
    cases p with
    | nil => simp at hr; subst hr; exact ⟨[], _, rfl, .nil, .slice a b i hi h⟩
    | cons s p =>
      simp at hr; obtain ⟨rfl, hr⟩ := hr
      obtain ⟨l1, l2, rfl, h1, h2⟩ := ih hr
      exact ⟨_ :: l1, l2, rfl, .slice a b i hi h1, h2⟩

theorem isDesc_unslice (s : Step) : isDesc (unslice s) = isDesc s := by cases s <;> rfl

theorem matches_unslice {p : List Step} {l : Loc} (h : Matches p l) : Matches (p.map unslice) l := by
  induction h with
  | nil => exact .nil
  | dotAll x _ ih => exact .dotAll x ih
  | descAll x _ ih => exact .descAll x ih
  | descAllMore x _ ih => exact .descAllMore x ih
  | prop k _ ih => exact .prop k ih
  | descProp k _ ih => exact .descProp k ih
  | descPropMore x _ ih => exact .descPropMore x ih
  | all i _ ih => exact .all i ih
  | slice a b i h _ ih => exact .all i ih

/-! ### The last matching rule -/

/-- Characterisation of `lastMatch`. -/
theorem lastMatch_spec (rules : List (List Item)) (w : List Nat) (i : Nat) :
    (lastMatch rules w i = 0 ∧ ∀ r ∈ rules, ¬ Lang r w) ∨
    (∃ k r, rules[k]? = some r ∧ lastMatch rules w i = i + k + 1 ∧ Lang r w ∧
      ∀ k' r', k < k' → rules[k']? = some r' → ¬ Lang r' w) := by
  induction rules generalizing i with
  | nil => exact .inl ⟨rfl, by simp⟩
  | cons r0 rs ih =>
    rcases ih (i + 1) with ⟨h1, h2⟩ | ⟨k, r, h1, h2, h3, h4⟩
    · by_cases h : Lang r0 w
      · refine .inr ⟨0, r0, rfl, ?_, h, ?_⟩
        · simp [lastMatch, h1, h]
        · intro k' r' hk hr'
          obtain ⟨k'', rfl⟩ : ∃ k'', k' = k'' + 1 := ⟨k' - 1, by omega⟩
          exact h2 r' (List.mem_of_getElem? (by simpa using hr'))
      · refine .inl ⟨by simp [lastMatch, h1, h], ?_⟩
        intro r hr
        rcases List.mem_cons.1 hr with rfl | hr
        · exact h
        · exact h2 r hr
    · refine .inr ⟨k + 1, r, by simpa using h1, ?_, h3, ?_⟩
      · simp only [lastMatch, h2]
        rw [if_pos (by omega)]; omega
      · intro k' r' hk hr'
        obtain ⟨k'', rfl⟩ : ∃ k'', k' = k'' + 1 := ⟨k' - 1, by omega⟩
        exact h4 k'' r' (by omega) (by simpa using hr')

end JPS
