import Verif.Spec.FilterSlice
import Verif.Spec.Text
/-!
# Slices as smaller documents

A path with slices selects in a document what the path with `[*]` for every slice selects in the document without
the elements outside the slices.
-/

set_option autoImplicit false

namespace Spec

variable {N L : Type}

/-! ### Documents without the elements outside the slices -/

mutual
/-- The document without the elements a path passes over because of their index. -/
def J.prune : J → List (SStep L) → J
  | v, [] => v
  | .obj w ms, .prop k :: p => .obj w (ms.prune k p)
  | .arr w es, .all :: p => .arr w (es.prune (.all : SStep L) 0 p)
  | .arr w es, .slice a b :: p => .arr w (es.prune (.slice a b) 0 p)
  | .arr w es, .filter e :: p => .arr w (es.prune (.filter e) 0 p)
  | v, _ :: _ => v
def Elems.prune : Elems → SStep L → Nat → List (SStep L) → Elems
  | .nil, _, _, _ => .nil
  | .cons pre v post rest, s, i, p =>
    if s.takes i then .cons pre (v.prune p) post (rest.prune s (i + 1) p) else rest.prune s (i + 1) p
def Members.prune : Members → List Char → List (SStep L) → Members
  | .nil, _, _ => .nil
  | .cons pre m mid pre2 v post rest, k, p =>
    .cons pre m mid pre2 (if m = k then v.prune p else v) post (rest.prune k p)
end

theorem prune_nil (v : J) : v.prune ([] : List (SStep L)) = v := by cases v <;> simp [J.prune]

theorem prune_lit (t : List Char) (p : List (SStep L)) : (J.lit t).prune p = .lit t := by
  cases p with
  | nil => simp [J.prune]
  | cons s p => cases s <;> simp [J.prune]
theorem prune_str (t : List Char) (p : List (SStep L)) : (J.str t).prune p = .str t := by
  cases p with
  | nil => simp [J.prune]
  | cons s p => cases s <;> simp [J.prune]

theorem wholes_prop (k : List Char) (p : List (SStep L)) : wholes (.prop k :: p) = .prop k :: wholes p := rfl
theorem wholes_all (p : List (SStep L)) : wholes (.all :: p) = .all :: wholes p := rfl
theorem wholes_slice (a b : Option Int) (p : List (SStep L)) : wholes (.slice a b :: p) = .all :: wholes p := rfl
theorem wholes_filter (e : Expr L) (p : List (SStep L)) : wholes (.filter e :: p) = .filter e :: wholes p := rfl

/-! ### Filters do not see the difference -/

/-- What a filter sees of a value. -/
def J.face (num : List Char → N) (x : J) : SV N := if x.isContainer then .bool true else (x.scalar num).getD .null

theorem face_prune (num : List Char → N) (v : J) (p : List (SStep L)) : (v.prune p).face num = v.face num := by
  cases p with
  | nil => rw [prune_nil]
  | cons s p => cases v <;> cases s <;> simp [J.prune, J.face, J.isContainer]

theorem lookup_self (v : J) : v.lookup [] = some v := by cases v <;> simp [J.lookup]

mutual
theorem lookup_prune (num : List Char → N) : ∀ (v : J) (p : List (SStep L)) (c : List (List Char)),
    ((v.prune p).lookup c).map (·.face num) = (v.lookup c).map (·.face num)
  | .lit t, p, c => by rw [prune_lit]
  | .str t, p, c => by rw [prune_str]
  | .arr w es, p, c => by
    cases c with
    | nil => simp [lookup_self, face_prune]
    | cons k c =>
      cases p with
      | nil => rw [prune_nil]
      | cons s p => cases s <;> simp [J.prune, J.lookup]
  | .obj w ms, p, c => by
    cases c with
    | nil => simp [lookup_self, face_prune]
    | cons k c =>
      cases p with
      | nil => rw [prune_nil]
      | cons s p =>
        cases s with
        | prop k' => simp only [J.prune, J.lookup]; exact lookup_pruneM num ms k' p k c
        | all => simp [J.prune]
        | slice a b => simp [J.prune]
        | filter e => simp [J.prune]
theorem lookup_pruneM (num : List Char → N) : ∀ (ms : Members) (k' : List Char) (p : List (SStep L)) (k : List Char)
    (c : List (List Char)), ((ms.prune k' p).lookup k c).map (·.face num) = (ms.lookup k c).map (·.face num)
  | .nil, _, _, _, _ => by simp [Members.prune]
  | .cons pre m mid pre2 v post rest, k', p, k, c => by
    have ih := lookup_pruneM num rest k' p k c
    have iv : ((if m = k' then v.prune p else v).lookup c).map (·.face num) = (v.lookup c).map (·.face num) := by
      split
      · exact lookup_prune num v p c
      · rfl
    simp only [Members.prune, Members.lookup]
    cases h1 : (rest.prune k' p).lookup k c <;> cases h2 : rest.lookup k c <;> rw [h1, h2] at ih
    · simp only [Option.orElse_none]
      split
      · exact iv
      · rfl
    · simp at ih
    · simp at ih
    · simpa using ih
end

theorem property_prune (num : List Char → N) (v : J) (p : List (SStep L)) (c : List (List Char)) :
    (v.prune p).property num c = v.property num c := by
  have h := lookup_prune num v p c
  unfold J.property
  cases h1 : (v.prune p).lookup c <;> cases h2 : v.lookup c <;> rw [h1, h2] at h
  · simp at h
  · simp at h
  · exact Option.some.inj h

theorem on_prune (A : Arith N L) (num : List Char → N) (e : Expr L) (v : J) (p : List (SStep L)) :
    e.on A num (v.prune p) = e.on A num v := by
  unfold Expr.on
  have : (v.prune p).property num = v.property num := by funext c; exact property_prune num v p c
  rw [this]

mutual
theorem signs_prune : ∀ (v : J) (p : List (SStep L)) (c : List (List Char)),
    ((v.prune p).lookup c).map J.negative = (v.lookup c).map J.negative
  | .lit t, p, c => by rw [prune_lit]
  | .str t, p, c => by rw [prune_str]
  | .arr w es, p, c => by
    cases p with
    | nil => rw [prune_nil]
    | cons s p =>
      cases c with
      | nil => cases s <;> simp [J.prune, J.lookup, J.negative]
      | cons k c => cases s <;> simp [J.prune, J.lookup]
  | .obj w ms, p, c => by
    cases p with
    | nil => rw [prune_nil]
    | cons s p =>
      cases c with
      | nil => cases s <;> simp [J.prune, J.lookup, J.negative]
      | cons k c =>
        cases s with
        | prop k' => simp only [J.prune, J.lookup]; exact signs_pruneM ms k' p k c
        | all => simp [J.prune]
        | slice a b => simp [J.prune]
        | filter e => simp [J.prune]
theorem signs_pruneM : ∀ (ms : Members) (k' : List Char) (p : List (SStep L)) (k : List Char)
    (c : List (List Char)), ((ms.prune k' p).lookup k c).map J.negative = (ms.lookup k c).map J.negative
  | .nil, _, _, _, _ => by simp [Members.prune]
  | .cons pre m mid pre2 v post rest, k', p, k, c => by
    have ih := signs_pruneM rest k' p k c
    have iv : ((if m = k' then v.prune p else v).lookup c).map J.negative = (v.lookup c).map J.negative := by
      split
      · exact signs_prune v p c
      · rfl
    simp only [Members.prune, Members.lookup]
    cases h1 : (rest.prune k' p).lookup k c <;> cases h2 : rest.lookup k c <;> rw [h1, h2] at ih
    · simp only [Option.orElse_none]
      split
      · exact iv
      · rfl
    · simp at ih
    · simp at ih
    · simpa using ih
end

theorem judges_prune (A : Arith N L) (num : List Char → N) (e : Expr L) (v : J) (p : List (SStep L)) :
    e.judges A num (v.prune p) = e.judges A num v := by
  unfold Expr.judges Expr.unsigned
  rw [on_prune]
  congr 2
  funext c
  have := signs_prune v p c
  cases h1 : (v.prune p).lookup c <;> cases h2 : v.lookup c <;> rw [h1, h2] at this
  · simp at this
  · simp at this
  · have := Option.some.inj this
    simp only [this]

theorem holds_prune (A : Arith N L) (num : List Char → N) (e : Expr L) (v : J) (p : List (SStep L)) :
    e.holds A num (v.prune p) = e.holds A num v := by
  unfold Expr.holds; rw [on_prune]

/-! ### Selection -/

/-- The test of a step. -/
def SStep.test : SStep L → Option (Expr L)
  | .filter e => some e
  | _ => none

theorem choose_props (A : Arith N L) (num : List Char → N) (k : List Char) (p : List (SStep L)) : ∀ (es : Elems) (i : Nat),
    es.choose A num (.prop k) i p = []
  | .nil, _ => by simp [Elems.choose]
  | .cons _ _ _ rest, i => by simp [Elems.choose, SStep.keeps, choose_props A num k p rest]

theorem keeps_eq (A : Arith N L) (num : List Char → N) (s : SStep L) (hs : ∀ k, s ≠ .prop k) (i : Nat) (v : J) (p : List (SStep L)) :
    s.keeps A num i v = (s.takes i && passes A num s.test (v.prune p)) := by
  cases s with
  | prop k => exact absurd rfl (hs k)
  | all => rfl
  | slice a b => simp [SStep.keeps, SStep.takes, SStep.test, passes]
  | filter e => simp [SStep.keeps, SStep.takes, SStep.test, passes, holds_prune]

section
variable (A : Arith N L) (num : List Char → N)

mutual
theorem select_prune : ∀ (v : J) (p : List (SStep L)), (v.prune p).select A num (wholes p) = v.choose A num p
  | v, [] => by rw [prune_nil]; cases v <;> simp [wholes, J.select, J.choose]
  | .lit t, s :: p => by cases s <;> simp [J.prune, wholes, SStep.whole, J.select, J.choose]
  | .str t, s :: p => by cases s <;> simp [J.prune, wholes, SStep.whole, J.select, J.choose]
  | .obj w ms, s :: p => by
    cases s with
    | prop k => simp only [J.prune, wholes_prop, J.select, J.choose]; exact select_pruneM ms k p
    | all => simp [J.prune, wholes, SStep.whole, J.select, J.choose]
    | slice a b => simp [J.prune, wholes, SStep.whole, J.select, J.choose]
    | filter e => simp [J.prune, wholes, SStep.whole, J.select, J.choose]
  | .arr w es, s :: p => by
    cases s with
    | prop k => simp [J.prune, wholes_prop, J.select, J.choose, choose_props]
    | all => simp only [J.prune, wholes_all, J.select, J.choose]; exact select_pruneE es .all (by simp) 0 p
    | slice a b => simp only [J.prune, wholes_slice, J.select, J.choose]; exact select_pruneE es (.slice a b) (by simp) 0 p
    | filter e => simp only [J.prune, wholes_filter, J.select, J.choose]; exact select_pruneE es (.filter e) (by simp) 0 p
theorem select_pruneE : ∀ (es : Elems) (s : SStep L), (∀ k, s ≠ .prop k) → ∀ (i : Nat) (p : List (SStep L)),
    (es.prune s i p).select A num s.test (wholes p) = es.choose A num s i p
  | .nil, _, _, _, _ => by simp [Elems.prune, Elems.select, Elems.choose]
  | .cons pre v post rest, s, hs, i, p => by
    have ih := select_pruneE rest s hs (i + 1) p
    have iv := select_prune v p
    simp only [Elems.prune, Elems.choose, keeps_eq A num s hs i v p]
    cases ht : s.takes i with
    | true => simp only [if_true, Elems.select, ih, iv, Bool.true_and]
    | false => simp [ih]
theorem select_pruneM : ∀ (ms : Members) (k : List Char) (p : List (SStep L)),
    (ms.prune k p).select A num k (wholes p) = ms.choose A num k p
  | .nil, _, _ => by simp [Members.prune, Members.select, Members.choose]
  | .cons pre m mid pre2 v post rest, k, p => by
    simp only [Members.prune, Members.select, Members.choose, select_pruneM rest k p]
    split
    · rw [select_prune v p]
    · rfl
end

mutual
theorem decided_prune : ∀ (v : J) (p : List (SStep L)), (v.prune p).decided A num (wholes p) = v.settled A num p
  | v, [] => by rw [prune_nil]; cases v <;> simp [wholes, J.decided, J.settled]
  | .lit t, s :: p => by cases s <;> simp [J.prune, wholes, SStep.whole, J.decided, J.settled]
  | .str t, s :: p => by cases s <;> simp [J.prune, wholes, SStep.whole, J.decided, J.settled]
  | .obj w ms, s :: p => by
    cases s with
    | prop k => simp only [J.prune, wholes_prop, J.decided, J.settled]; exact decided_pruneM ms k p
    | all => simp [J.prune, wholes, SStep.whole, J.decided, J.settled]
    | slice a b => simp [J.prune, wholes, SStep.whole, J.decided, J.settled]
    | filter e => simp [J.prune, wholes, SStep.whole, J.decided, J.settled]
  | .arr w es, s :: p => by
    cases s with
    | prop k => simp [J.prune, wholes_prop, J.decided, J.settled]
    | all => simp only [J.prune, wholes_all, J.decided, J.settled]; exact decided_pruneE es .all 0 p
    | slice a b => simp only [J.prune, wholes_slice, J.decided, J.settled]; exact decided_pruneE es (.slice a b) 0 p
    | filter e => simp only [J.prune, wholes_filter, J.decided, J.settled]; exact decided_pruneE es (.filter e) 0 p
theorem decided_pruneE : ∀ (es : Elems) (s : SStep L) (i : Nat) (p : List (SStep L)),
    (es.prune s i p).decided A num s.test (wholes p) = es.settled A num s i p
  | .nil, _, _, _ => by simp [Elems.prune, Elems.decided, Elems.settled]
  | .cons pre v post rest, s, i, p => by
    have ih := decided_pruneE rest s (i + 1) p
    have iv := decided_prune v p
    simp only [Elems.prune, Elems.settled]
    cases ht : s.takes i with
    | true =>
      simp only [if_true, Elems.decided, ih, iv, Bool.not_true, Bool.false_or]
      congr 1; congr 1
      clear ih iv ht
      cases s with
      | prop k => rfl
      | all => rfl
      | slice a b => rfl
      | filter e =>
        cases v with
        | lit t => rw [prune_lit]; rfl
        | str t => rw [prune_str]; rfl
        | arr w es =>
          cases p with
          | nil => simp [SStep.test, J.prune]
          | cons s p => cases s <;> simp [SStep.test, J.prune]
        | obj w ms =>
          have h := judges_prune A num e (.obj w ms) p
          cases p with
          | nil => simp [SStep.test, J.prune]
          | cons s p =>
            cases s with
            | prop k => simp only [J.prune] at h; simp only [SStep.test, J.prune, h]
            | all => simp [SStep.test, J.prune]
            | slice a b => simp [SStep.test, J.prune]
            | filter e => simp [SStep.test, J.prune]
    | false => simp [ih]
theorem decided_pruneM : ∀ (ms : Members) (k : List Char) (p : List (SStep L)),
    (ms.prune k p).decided A num k (wholes p) = ms.settled A num k p
  | .nil, _, _ => by simp [Members.prune, Members.decided, Members.settled]
  | .cons pre m mid pre2 v post rest, k, p => by
    simp only [Members.prune, Members.decided, Members.settled, decided_pruneM rest k p]
    by_cases h : m = k
    · rw [if_pos h, decided_prune v p]
    · have : (m != k) = true := by simpa using h
      simp [this]
end

end

/-! ### Properties kept by leaving out elements -/


theorem tidyPost_prune (v : J) (p : List (SStep L)) (post : List Char) : tidyPost (v.prune p) post = tidyPost v post := by
  cases p with
  | nil => rw [prune_nil]
  | cons s p => cases v <;> cases s <;> simp [J.prune, tidyPost]

theorem tidyPre_prune (v : J) (p : List (SStep L)) (pre2 post : List Char) (rest : Members) (k : List Char) (q : List (SStep L)) :
    tidyPre pre2 (v.prune p) post (rest.prune k q) = tidyPre pre2 v post rest := by
  have hr : (match rest.prune k q with | .nil => false | .cons .. => true) = (match rest with | .nil => false | .cons .. => true) := by
    cases rest <;> simp [Members.prune]
  cases p with
  | nil =>
    rw [prune_nil]
    cases v <;> simp only [tidyPre]
    cases rest <;> simp [Members.prune]
  | cons s p =>
    cases v <;> cases s <;> simp only [J.prune, tidyPre] <;> cases rest <;> simp [Members.prune]

mutual
theorem prune_kept (n : Nat) : ∀ (v : J) (p : List (SStep L)),
    (v.wf = true → (v.prune p).wf = true) ∧ (v.tidy = true → (v.prune p).tidy = true) ∧ (v.prune p).depth ≤ v.depth ∧
    (v.within n = true → (v.prune p).within n = true)
  | .lit t, p => by rw [prune_lit]; exact ⟨id, id, Nat.le_refl _, id⟩
  | .str t, p => by rw [prune_str]; exact ⟨id, id, Nat.le_refl _, id⟩
  | .arr w es, p => by
    cases p with
    | nil => rw [prune_nil]; exact ⟨id, id, Nat.le_refl _, id⟩
    | cons s p =>
      obtain ⟨h1, h2, h3, h4⟩ := prune_keptE n es s 0 p
      cases s with
      | prop k => simp [J.prune]
      | all | slice _ _ | filter _ =>
        simp only [J.prune, J.wf, J.tidy, J.depth, J.within, Bool.and_eq_true]
        exact ⟨fun h => ⟨h.1, h1 h.2⟩, h2, by omega, h4⟩
  | .obj w ms, p => by
    cases p with
    | nil => rw [prune_nil]; exact ⟨id, id, Nat.le_refl _, id⟩
    | cons s p =>
      cases s with
      | prop k =>
        obtain ⟨h1, h2, h3, h4⟩ := prune_keptM n ms k p
        simp only [J.prune, J.wf, J.tidy, J.depth, J.within, Bool.and_eq_true]
        exact ⟨fun h => ⟨h.1, h1 h.2⟩, h2, by omega, h4⟩
      | all | slice _ _ | filter _ => simp [J.prune]
theorem prune_keptE (n : Nat) : ∀ (es : Elems) (s : SStep L) (i : Nat) (p : List (SStep L)),
    (es.wf = true → (es.prune s i p).wf = true) ∧ (es.tidy = true → (es.prune s i p).tidy = true) ∧
    (es.prune s i p).depth ≤ es.depth ∧ (es.within n = true → (es.prune s i p).within n = true)
  | .nil, _, _, _ => by simp [Elems.prune]
  | .cons pre v post rest, s, i, p => by
    obtain ⟨a1, a2, a3, a4⟩ := prune_kept n v p
    obtain ⟨b1, b2, b3, b4⟩ := prune_keptE n rest s (i + 1) p
    simp only [Elems.prune]
    cases s.takes i with
    | true =>
      simp only [if_true, Elems.wf, Elems.tidy, Elems.depth, Elems.within, Bool.and_eq_true, tidyPost_prune]
      exact ⟨fun h => ⟨⟨⟨h.1.1.1, a1 h.1.1.2⟩, h.1.2⟩, b1 h.2⟩, fun h => ⟨⟨h.1.1, a2 h.1.2⟩, b2 h.2⟩, by omega,
        fun h => ⟨a4 h.1, b4 h.2⟩⟩
    | false =>
      simp only [Bool.false_eq_true, if_false, Elems.wf, Elems.tidy, Elems.depth, Elems.within, Bool.and_eq_true]
      exact ⟨fun h => b1 h.2, fun h => b2 h.2, by omega, fun h => b4 h.2⟩
theorem prune_keptM (n : Nat) : ∀ (ms : Members) (k : List Char) (p : List (SStep L)),
    (ms.wf = true → (ms.prune k p).wf = true) ∧ (ms.tidy = true → (ms.prune k p).tidy = true) ∧
    (ms.prune k p).depth ≤ ms.depth ∧ (ms.within n = true → (ms.prune k p).within n = true)
  | .nil, _, _ => by simp [Members.prune]
  | .cons pre m mid pre2 v post rest, k, p => by
    obtain ⟨b1, b2, b3, b4⟩ := prune_keptM n rest k p
    have hv : ∃ q : List (SStep L), (if m = k then v.prune p else v) = v.prune q := by
      split
      · exact ⟨p, rfl⟩
      · exact ⟨[], (prune_nil v).symm⟩
    obtain ⟨q, hq⟩ := hv
    obtain ⟨a1, a2, a3, a4⟩ := prune_kept n v q
    simp only [Members.prune, hq, Members.wf, Members.tidy, Members.depth, Members.within, Bool.and_eq_true, tidyPost_prune,
      tidyPre_prune]
    exact ⟨fun h => ⟨⟨⟨h.1.1.1, a1 h.1.1.2⟩, h.1.2⟩, b1 h.2⟩, fun h => ⟨⟨h.1.1, a2 h.1.2⟩, b2 h.2⟩, by omega,
      fun h => ⟨⟨h.1.1, a4 h.1.2⟩, b4 h.2⟩⟩
end

theorem wholes_unfiltered : ∀ (p : List (SStep L)), wholes (unfilteredS p) = unfiltered (wholes p)
  | [] => rfl
  | .prop k :: p => by simp [unfilteredS, wholes_prop, unfiltered, wholes_unfiltered p]
  | .all :: p => by simp [unfilteredS, wholes_all, unfiltered, wholes_unfiltered p]
  | .slice a b :: p => by simp [unfilteredS, wholes_slice, unfiltered, wholes_unfiltered p]
  | .filter e :: p => by simp [unfilteredS, wholes_filter, wholes_all, unfiltered, wholes_unfiltered p]

theorem takes_filter (e : Expr L) (i : Nat) : (SStep.filter e).takes i = (SStep.all : SStep L).takes i := rfl

mutual
theorem prune_unfiltered : ∀ (v : J) (p : List (SStep L)), v.prune (unfilteredS p) = v.prune p
  | v, [] => rfl
  | .lit t, s :: p => by cases s <;> simp [unfilteredS, J.prune]
  | .str t, s :: p => by cases s <;> simp [unfilteredS, J.prune]
  | .arr w es, s :: p => by
    cases s with
    | prop k => simp [unfilteredS, J.prune]
    | all => simp only [unfilteredS, J.prune, prune_unfilteredE es .all .all (fun _ => rfl) 0 p]
    | slice a b => simp only [unfilteredS, J.prune, prune_unfilteredE es (.slice a b) (.slice a b) (fun _ => rfl) 0 p]
    | filter e => simp only [unfilteredS, J.prune, prune_unfilteredE es .all (.filter e) (fun _ => rfl) 0 p]
  | .obj w ms, s :: p => by
    cases s with
    | prop k => simp only [unfilteredS, J.prune, prune_unfilteredM ms k p]
    | all | slice _ _ | filter _ => simp [unfilteredS, J.prune]
theorem prune_unfilteredE : ∀ (es : Elems) (s t : SStep L), (∀ i, s.takes i = t.takes i) → ∀ (i : Nat) (p : List (SStep L)),
    es.prune s i (unfilteredS p) = es.prune t i p
  | .nil, _, _, _, _, _ => by simp [Elems.prune]
  | .cons pre v post rest, s, t, h, i, p => by
    simp only [Elems.prune, h i, prune_unfiltered v p, prune_unfilteredE rest s t h (i + 1) p]
theorem prune_unfilteredM : ∀ (ms : Members) (k : List Char) (p : List (SStep L)),
    ms.prune k (unfilteredS p) = ms.prune k p
  | .nil, _, _ => by simp [Members.prune]
  | .cons pre m mid pre2 v post rest, k, p => by
    simp only [Members.prune, prune_unfiltered v p, prune_unfilteredM rest k p]
end

end Spec
