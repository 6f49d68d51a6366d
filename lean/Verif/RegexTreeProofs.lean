import Verif.Spec.Regex
/-!
# The position sets of a regular expression describe its language
-/

set_option autoImplicit false

namespace JPS
open Spec

/-- A path through positions from `p` to `q` that reads a word, a character at each position. -/
inductive PPath (Φ : Nat → Nat → Prop) (E : Nat → Nat → Prop) : Nat → Nat → List Nat → Prop
  | one {p x} : E p x → PPath Φ E p p [x]
  | cons {p p' q x w} : E p x → Φ p p' → PPath Φ E p' q w → PPath Φ E p q (x :: w)

/-- The words read from a first to a last position. -/
def PAcc (F La : Nat → Prop) (Φ E : Nat → Nat → Prop) (w : List Nat) : Prop :=
  ∃ p q, F p ∧ La q ∧ PPath Φ E p q w

section
variable {Φ Ψ E : Nat → Nat → Prop}

theorem PPath.ne_nil {p q : Nat} {w : List Nat} (h : PPath Φ E p q w) : w ≠ [] := by
  cases h <;> simp

theorem PPath.mono {p q : Nat} {w : List Nat} (h : PPath Φ E p q w) (hm : ∀ a b, Φ a b → Ψ a b) :
    PPath Ψ E p q w := by
  induction h with
  | one h => exact .one h
  | cons h1 h2 _ ih => exact .cons h1 (hm _ _ h2) ih

theorem PPath.join {p q p' q' : Nat} {u v : List Nat} (h : PPath Φ E p q u) (hs : Φ q p')
    (h' : PPath Φ E p' q' v) : PPath Φ E p q' (u ++ v) := by
  induction h with
  | one h => exact .cons h hs h'
  | cons h1 h2 _ ih => exact .cons h1 h2 (ih hs)

theorem PAcc.mono {F La : Nat → Prop} {w : List Nat} (h : PAcc F La Φ E w)
    (hm : ∀ a b, Φ a b → Ψ a b) : PAcc F La Ψ E w := by
  obtain ⟨p, q, h1, h2, h3⟩ := h
  exact ⟨p, q, h1, h2, h3.mono hm⟩

theorem PAcc.congr {F F' La La' : Nat → Prop} {w : List Nat} (hF : ∀ p, F p ↔ F' p)
    (hL : ∀ p, La p ↔ La' p) (hm : ∀ a b, Φ a b ↔ Ψ a b) : PAcc F La Φ E w ↔ PAcc F' La' Ψ E w := by
  constructor
  · rintro ⟨p, q, h1, h2, h3⟩
    exact ⟨p, q, (hF p).1 h1, (hL q).1 h2, h3.mono fun a b => (hm a b).1⟩
  · rintro ⟨p, q, h1, h2, h3⟩
    exact ⟨p, q, (hF p).2 h1, (hL q).2 h2, h3.mono fun a b => (hm a b).2⟩

/-! ### Repetition -/

/-- A path with jumps from last to first positions is a path without jumps, followed by words. -/
theorem PPath.unloop {F La : Nat → Prop} {p q : Nat} {w : List Nat}
    (h : PPath (fun a b => Φ a b ∨ (La a ∧ F b)) E p q w) (hq : La q) :
    ∃ r u v, w = u ++ v ∧ PPath Φ E p r u ∧ La r ∧ Star (PAcc F La Φ E) v := by
  induction h with
  | @one p x h => exact ⟨p, [x], [], by simp, .one h, hq, .nil⟩
  | @cons p p' q x w h1 h2 _ ih =>
    obtain ⟨r, u, v, rfl, i1, i2, i3⟩ := ih hq
    rcases h2 with h2 | ⟨h2, h3⟩
    · exact ⟨r, x :: u, v, rfl, .cons h1 h2 i1, i2, i3⟩
    · exact ⟨p, [x], u ++ v, rfl, .one h1, h2, .app ⟨p', r, h3, i2, i1⟩ i3⟩

theorem star_mono {L L' : List Nat → Prop} (h : ∀ w, L w → L' w) {w : List Nat} (hs : Star L w) :
    Star L' w := by
  induction hs with
  | nil => exact .nil
  | app h1 _ ih => exact .app (h _ h1) ih

/-- The language with an operator, from the language without. -/
theorem opt_acc {L : List Nat → Prop} {F La : Nat → Prop} {n : Bool}
    (hL : ∀ w, w ≠ [] → (L w ↔ PAcc F La Φ E w)) (hn : L [] ↔ n = true) (o : ROpt) :
    (∀ w, w ≠ [] → (withOpt o L w ↔
      PAcc F La (fun a b => Φ a b ∨ (o.loops = true ∧ La a ∧ F b)) E w)) ∧
    (withOpt o L [] ↔ (o.skips || n) = true) := by
  have hacc : ∀ w, PAcc F La Φ E w → L w := by
    intro w h
    obtain ⟨p, q, h1, h2, h3⟩ := h
    exact (hL w h3.ne_nil).2 ⟨p, q, h1, h2, h3⟩
  have hfrom : ∀ w, PAcc F La (fun a b => Φ a b ∨ (La a ∧ F b)) E w →
      ∃ u v, w = u ++ v ∧ L u ∧ Star L v := by
    rintro w ⟨p, q, h1, h2, h3⟩
    obtain ⟨r, u, v, rfl, i1, i2, i3⟩ := h3.unloop h2
    exact ⟨u, v, rfl, hacc u ⟨p, r, h1, i2, i1⟩, star_mono hacc i3⟩
  have hto : ∀ w, Star L w → w ≠ [] → PAcc F La (fun a b => Φ a b ∨ (La a ∧ F b)) E w := by
    intro w h
    induction h with
    | nil => intro h; exact absurd rfl h
    | @app u v h1 h2 ih =>
      intro hw
      by_cases hu : u = []
      · subst hu; exact ih (by simpa using hw)
      · have au := ((hL u hu).1 h1).mono (Ψ := fun a b => Φ a b ∨ (La a ∧ F b))
          (fun a b h => .inl h)
        by_cases hv : v = []
        · subst hv; simpa using au
        · obtain ⟨p, q, j1, j2, j3⟩ := au
          obtain ⟨p', q', k1, k2, k3⟩ := ih hv
          exact ⟨p, q', j1, k2, j3.join (.inr ⟨j2, k1⟩) k3⟩
  have hplain : ∀ w, PAcc F La (fun a b => Φ a b ∨ (false = true ∧ La a ∧ F b)) E w ↔
      PAcc F La Φ E w := fun w =>
    PAcc.congr (fun _ => .rfl) (fun _ => .rfl) (fun a b => by simp)
  have hloop : ∀ w, PAcc F La (fun a b => Φ a b ∨ (true = true ∧ La a ∧ F b)) E w ↔
      PAcc F La (fun a b => Φ a b ∨ (La a ∧ F b)) E w := fun w =>
    PAcc.congr (fun _ => .rfl) (fun _ => .rfl) (fun a b => by simp)
  cases o with
  | none =>
    refine ⟨fun w hw => ?_, by simpa [withOpt, ROpt.skips] using hn⟩
    exact (hL w hw).trans (hplain w).symm
  | optional =>
    refine ⟨fun w hw => ?_, by simp [withOpt, ROpt.skips]⟩
    refine Iff.trans ?_ (hplain w).symm
    rw [← hL w hw]
    simp [withOpt, hw]
  | star =>
    refine ⟨fun w hw => ?_, by simp [withOpt, ROpt.skips, Star.nil]⟩
    refine Iff.trans ?_ (hloop w).symm
    constructor
    · intro h; exact hto w h hw
    · intro h
      obtain ⟨u, v, rfl, h1, h2⟩ := hfrom w h
      exact .app h1 h2
  | plus =>
    refine ⟨fun w hw => ?_, ?_⟩
    · refine Iff.trans ?_ (hloop w).symm
      constructor
      · rintro ⟨u, v, rfl, h1, h2⟩
        exact hto _ (.app h1 h2) hw
      · exact hfrom w
    · show (∃ u v, [] = u ++ v ∧ L u ∧ Star L v) ↔ _
      simp only [ROpt.skips, Bool.false_or]
      rw [← hn]
      constructor
      · rintro ⟨u, v, h, h1, _⟩
        have : u = [] := by
          cases u with
          | nil => rfl
          | cons a u => cases h
        rw [this] at h1; exact h1
      · intro h; exact ⟨[], [], rfl, h, .nil⟩

/-! ### Two expressions side by side -/

/-- Positions below and from a bound on. -/
structure Apart (m : Nat) (F1 L1 F2 L2 : Nat → Prop) (Φ1 Φ2 : Nat → Nat → Prop) : Prop where
  f1 : ∀ p, F1 p → p < m
  l1 : ∀ p, L1 p → p < m
  s1 : ∀ a b, Φ1 a b → a < m ∧ b < m
  f2 : ∀ p, F2 p → m ≤ p
  l2 : ∀ p, L2 p → m ≤ p
  s2 : ∀ a b, Φ2 a b → m ≤ a ∧ m ≤ b

variable {F1 L1 F2 L2 : Nat → Prop} {Φ1 Φ2 : Nat → Nat → Prop} {m : Nat}

theorem Apart.right (h : Apart m F1 L1 F2 L2 Φ1 Φ2) {p q : Nat} {w : List Nat}
    (hp : PPath (fun a b => Φ1 a b ∨ Φ2 a b ∨ (L1 a ∧ F2 b)) E p q w) (hm : m ≤ p) :
    PPath Φ2 E p q w ∧ m ≤ q := by
  induction hp with
  | one h1 => exact ⟨.one h1, hm⟩
  | cons h1 h2 _ ih =>
    rcases h2 with h2 | h2 | h2
    · have := h.s1 _ _ h2; omega
    · obtain ⟨i1, i2⟩ := ih (h.s2 _ _ h2).2
      exact ⟨.cons h1 h2 i1, i2⟩
    · have := h.l1 _ h2.1; omega

theorem Apart.left (h : Apart m F1 L1 F2 L2 Φ1 Φ2) {p q : Nat} {w : List Nat}
    (hp : PPath (fun a b => Φ1 a b ∨ Φ2 a b ∨ (L1 a ∧ F2 b)) E p q w) (hm : p < m) :
    (PPath Φ1 E p q w ∧ q < m) ∨ ∃ r s u v, w = u ++ v ∧ PPath Φ1 E p r u ∧ L1 r ∧ F2 s ∧
      PPath Φ2 E s q v := by
  induction hp with
  | one h1 => exact .inl ⟨.one h1, hm⟩
  | @cons p p' q x w h1 h2 h3 ih =>
    rcases h2 with h2 | h2 | h2
    · rcases ih (h.s1 _ _ h2).2 with ⟨i1, i2⟩ | ⟨r, s, u, v, rfl, i1, i2, i3, i4⟩
      · exact .inl ⟨.cons h1 h2 i1, i2⟩
      · exact .inr ⟨r, s, x :: u, v, rfl, .cons h1 h2 i1, i2, i3, i4⟩
    · have := h.s2 _ _ h2; omega
    · exact .inr ⟨p, p', [x], w, rfl, .one h1, h2.1, h2.2, (h.right h3 (h.f2 _ h2.2)).1⟩

/-- One expression after the other. -/
theorem and_join {A B : List Nat → Prop} {n1 n2 : Bool} (h : Apart m F1 L1 F2 L2 Φ1 Φ2)
    (hA : ∀ w, w ≠ [] → (A w ↔ PAcc F1 L1 Φ1 E w)) (hA0 : A [] ↔ n1 = true)
    (hB : ∀ w, w ≠ [] → (B w ↔ PAcc F2 L2 Φ2 E w)) (hB0 : B [] ↔ n2 = true) :
    (∀ w, w ≠ [] → ((∃ u v, w = u ++ v ∧ A u ∧ B v) ↔
      PAcc (fun p => F1 p ∨ (n1 = true ∧ F2 p)) (fun p => L2 p ∨ (n2 = true ∧ L1 p))
        (fun a b => Φ1 a b ∨ Φ2 a b ∨ (L1 a ∧ F2 b)) E w)) ∧
    ((∃ u v, [] = u ++ v ∧ A u ∧ B v) ↔ (n1 && n2) = true) := by
  refine ⟨fun w hw => ⟨?_, ?_⟩, ?_⟩
  · rintro ⟨u, v, rfl, h1, h2⟩
    by_cases hu : u = []
    · subst hu
      have hv : v ≠ [] := by simpa using hw
      obtain ⟨p, q, i1, i2, i3⟩ := (hB v hv).1 h2
      exact ⟨p, q, .inr ⟨hA0.1 h1, i1⟩, .inl i2, i3.mono fun a b h => .inr (.inl h)⟩
    · obtain ⟨p, q, i1, i2, i3⟩ := (hA u hu).1 h1
      have i3' := i3.mono (Ψ := fun a b => Φ1 a b ∨ Φ2 a b ∨ (L1 a ∧ F2 b)) (fun a b h => .inl h)
      by_cases hv : v = []
      · subst hv
        rw [List.append_nil]
        exact ⟨p, q, .inl i1, .inr ⟨hB0.1 h2, i2⟩, i3'⟩
      · obtain ⟨p', q', j1, j2, j3⟩ := (hB v hv).1 h2
        exact ⟨p, q', .inl i1, .inl j2, i3'.join (.inr (.inr ⟨i2, j1⟩))
          (j3.mono fun a b h => .inr (.inl h))⟩
  · rintro ⟨p, q, h1, h2, h3⟩
    rcases h1 with h1 | ⟨h1, h1'⟩
    · rcases h.left h3 (h.f1 p h1) with ⟨i1, i2⟩ | ⟨r, s, u, v, rfl, i1, i2, i3, i4⟩
      · rcases h2 with h2 | ⟨h2, h2'⟩
        · have := h.l2 q h2; omega
        · exact ⟨w, [], by simp, (hA w hw).2 ⟨p, q, h1, h2', i1⟩, hB0.2 h2⟩
      · rcases h2 with h2 | ⟨h2, h2'⟩
        · exact ⟨u, v, rfl, (hA u i1.ne_nil).2 ⟨p, r, h1, i2, i1⟩,
            (hB v i4.ne_nil).2 ⟨s, q, i3, h2, i4⟩⟩
        · have h4 := h.l1 q h2'
          have h5 := (h.right (i4.mono fun a b h => .inr (.inl h)) (h.f2 s i3)).2
          omega
    · obtain ⟨i1, i2⟩ := h.right h3 (h.f2 p h1')
      rcases h2 with h2 | ⟨h2, h2'⟩
      · exact ⟨[], w, rfl, hA0.2 h1, (hB w hw).2 ⟨p, q, h1', h2, i1⟩⟩
      · have := h.l1 q h2'; omega
  · constructor
    · rintro ⟨u, v, e, h1, h2⟩
      have hu : u = [] := by
        cases u with
        | nil => rfl
        | cons => cases e
      subst hu
      have hv : v = [] := by simpa using e.symm
      subst hv
      rw [hA0.1 h1, hB0.1 h2]; rfl
    · intro h
      rw [Bool.and_eq_true] at h
      exact ⟨[], [], rfl, hA0.2 h.1, hB0.2 h.2⟩

/-- One expression or the other. -/
theorem or_join {A B : List Nat → Prop} (h : Apart m F1 L1 F2 L2 Φ1 Φ2)
    (hA : ∀ w, w ≠ [] → (A w ↔ PAcc F1 L1 Φ1 E w))
    (hB : ∀ w, w ≠ [] → (B w ↔ PAcc F2 L2 Φ2 E w)) :
    ∀ w, w ≠ [] → ((A w ∨ B w) ↔
      PAcc (fun p => F1 p ∨ F2 p) (fun p => L1 p ∨ L2 p) (fun a b => Φ1 a b ∨ Φ2 a b) E w) := by
  intro w hw
  rw [hA w hw, hB w hw]
  constructor
  · rintro (⟨p, q, h1, h2, h3⟩ | ⟨p, q, h1, h2, h3⟩)
    · exact ⟨p, q, .inl h1, .inl h2, h3.mono fun a b h => .inl h⟩
    · exact ⟨p, q, .inr h1, .inr h2, h3.mono fun a b h => .inr h⟩
  · have lft : ∀ {p q w}, PPath (fun a b => Φ1 a b ∨ Φ2 a b) E p q w → p < m →
        PPath Φ1 E p q w ∧ q < m := by
      intro p q w hp
      induction hp with
      | one h1 => exact fun hm => ⟨.one h1, hm⟩
      | cons h1 h2 _ ih =>
        intro hm
        rcases h2 with h2 | h2
        · obtain ⟨i1, i2⟩ := ih (h.s1 _ _ h2).2
          exact ⟨.cons h1 h2 i1, i2⟩
        · have := h.s2 _ _ h2; omega
    rintro ⟨p, q, h1, h2, h3⟩
    rcases h1 with h1 | h1
    · obtain ⟨i1, i2⟩ := lft h3 (h.f1 p h1)
      rcases h2 with h2 | h2
      · exact .inl ⟨p, q, h1, h2, i1⟩
      · have := h.l2 q h2; omega
    · obtain ⟨i1, i2⟩ := h.right (h3.mono (Ψ := fun a b => Φ1 a b ∨ Φ2 a b ∨ (L1 a ∧ F2 b))
        (fun a b h => h.elim .inl (fun h => .inr (.inl h)))) (h.f2 p h1)
      rcases h2 with h2 | h2
      · have := h.l1 q h2; omega
      · exact .inr ⟨p, q, h1, h2, i1⟩

end

/-! ### The bounds of the positions -/

section
variable {α : Type}

theorem mem_pairs {xs ys : List Nat} {a b : Nat} :
    (a, b) ∈ pairs xs ys ↔ a ∈ xs ∧ b ∈ ys := by
  simp only [pairs, List.mem_flatMap, List.mem_map, Prod.mk.injEq]
  constructor
  · rintro ⟨x, h1, y, h2, rfl, rfl⟩; exact ⟨h1, h2⟩
  · rintro ⟨h1, h2⟩; exact ⟨a, h1, b, h2, rfl, rfl⟩

theorem RTree.size_node {or : Bool} {o : ROpt} {items : RList α} {g : Bool} :
    (RTree.node or o items g).size = items.size := by
  simp [RTree.size, RList.size, RTree.letters]

theorem RList.size_cons {t : RTree α} {r : RList α} :
    (RList.cons t r).size = t.size + r.size := by
  simp [RTree.size, RList.size, RList.letters]

mutual
theorem RTree.bounds : ∀ (t : RTree α) (i : Nat),
    (∀ p ∈ t.first i, i ≤ p ∧ p < i + t.size) ∧ (∀ p ∈ t.last i, i ≤ p ∧ p < i + t.size) ∧
    (∀ a b, (a, b) ∈ t.follow i → (i ≤ a ∧ a < i + t.size) ∧ i ≤ b ∧ b < i + t.size)
  | .leaf a o g, i => by
    have hs : (RTree.leaf a o g).size = 1 := rfl
    refine ⟨fun p hp => ?_, fun p hp => ?_, fun a b h => ?_⟩
    · simp [RTree.first] at hp; omega
    · simp [RTree.last] at hp; omega
    · unfold RTree.follow at h
      split at h
      · simp at h; omega
      · simp at h
  | .node or o items g, i => by
    obtain ⟨f1, f2, l1, l2, s1, s2⟩ := RList.bounds items i
    rw [RTree.size_node]
    refine ⟨fun p hp => ?_, fun p hp => ?_, fun a b h => ?_⟩
    · unfold RTree.first at hp
      split at hp
      · exact f1 p hp
      · exact f2 p hp
    · unfold RTree.last at hp
      split at hp
      · exact l1 p hp
      · exact l2 p hp
    · unfold RTree.follow at h
      simp only [List.mem_append] at h
      rcases h with (h | h) | h
      · exact s1 a b h
      · split at h
        · split at h
          · have := mem_pairs.1 h
            exact ⟨l1 _ this.1, f1 _ this.2⟩
          · have := mem_pairs.1 h
            exact ⟨l2 _ this.1, f2 _ this.2⟩
        · simp at h
      · split at h
        · simp at h
        · exact s2 a b h
theorem RList.bounds : ∀ (r : RList α) (i : Nat),
    (∀ p ∈ r.firstOr i, i ≤ p ∧ p < i + r.size) ∧ (∀ p ∈ r.firstAnd i, i ≤ p ∧ p < i + r.size) ∧
    (∀ p ∈ r.lastOr i, i ≤ p ∧ p < i + r.size) ∧ (∀ p ∈ r.lastAnd i, i ≤ p ∧ p < i + r.size) ∧
    (∀ a b, (a, b) ∈ r.follow i → (i ≤ a ∧ a < i + r.size) ∧ i ≤ b ∧ b < i + r.size) ∧
    (∀ a b, (a, b) ∈ r.seq i → (i ≤ a ∧ a < i + r.size) ∧ i ≤ b ∧ b < i + r.size)
  | .nil, i => by
    simp [RList.firstOr, RList.firstAnd, RList.lastOr, RList.lastAnd, RList.follow, RList.seq]
  | .cons t r, i => by
    obtain ⟨tf, tl, ts⟩ := RTree.bounds t i
    obtain ⟨f1, f2, l1, l2, s1, s2⟩ := RList.bounds r (i + t.size)
    rw [RList.size_cons]
    refine ⟨fun p hp => ?_, fun p hp => ?_, fun p hp => ?_, fun p hp => ?_, fun a b h => ?_,
      fun a b h => ?_⟩
    · simp only [RList.firstOr, List.mem_append] at hp
      rcases hp with hp | hp
      · have := tf p hp; omega
      · have := f1 p hp; omega
    · simp only [RList.firstAnd, List.mem_append] at hp
      rcases hp with hp | hp
      · have := tf p hp; omega
      · split at hp
        · have := f2 p hp; omega
        · simp at hp
    · simp only [RList.lastOr, List.mem_append] at hp
      rcases hp with hp | hp
      · have := tl p hp; omega
      · have := l1 p hp; omega
    · simp only [RList.lastAnd, List.mem_append] at hp
      rcases hp with hp | hp
      · have := l2 p hp; omega
      · split at hp
        · have := tl p hp; omega
        · simp at hp
    · simp only [RList.follow, List.mem_append] at h
      rcases h with h | h
      · have := ts a b h; omega
      · have := s1 a b h; omega
    · simp only [RList.seq, List.mem_append] at h
      rcases h with h | h
      · have := mem_pairs.1 h
        have := tl a this.1
        have := f2 b (mem_pairs.1 h).2
        omega
      · have := s2 a b h; omega
end

mutual
theorem RTree.keep_bounds : ∀ (t : RTree α) (i : Nat), ∀ p ∈ t.keep i, i ≤ p ∧ p < i + t.size
  | .leaf a o g, i => by simp [RTree.keep]
  | .node or o items g, i => by
    intro p hp
    rw [RTree.size_node]
    unfold RTree.keep at hp
    rcases List.mem_append.1 hp with hp | hp
    · exact RList.keep_bounds items i p hp
    · split at hp
      · simp at hp
      · split at hp
        · exact (RList.bounds items i).2.2.2.1 p hp
        · simp at hp
theorem RList.keep_bounds : ∀ (r : RList α) (i : Nat), ∀ p ∈ r.keep i, i ≤ p ∧ p < i + r.size
  | .nil, i => by simp [RList.keep]
  | .cons t r, i => by
    intro p hp
    rw [RList.size_cons]
    unfold RList.keep at hp
    rcases List.mem_append.1 hp with hp | hp
    · have := RTree.keep_bounds t i p hp; omega
    · have := RList.keep_bounds r _ p hp; omega
end

mutual
theorem RTree.keep_nil : ∀ (t : RTree α) {i : Nat}, noMarks t → t.keep i = []
  | .leaf a o g, i, _ => rfl
  | .node true o items g, i, h => by
    rw [noMarks] at h
    rw [RTree.keep, (RList.keep_nil items h).1]
    simp
  | .node false o items g, i, h => by
    rw [noMarks] at h
    rw [RTree.keep, (RList.keep_nil items h).1, (RList.keep_nil (i := 0) items h).2 rfl]
    simp
theorem RList.keep_nil : ∀ (r : RList α) {i : Nat} {or : Bool}, itemsNoMarks or r →
    r.keep i = [] ∧ (or = false → r.anyMarked = false)
  | .nil, i, or, _ => ⟨rfl, fun _ => rfl⟩
  | .cons t r, i, or, h => by
    rw [itemsNoMarks] at h
    refine ⟨?_, fun e => ?_⟩
    · rw [RList.keep, RTree.keep_nil t h.2.1, (RList.keep_nil r h.2.2).1]; rfl
    · rw [RList.anyMarked, h.1 e, (RList.keep_nil (i := 0) r h.2.2).2 e]; rfl
end

theorem RList.anyMarked_iff : ∀ (r : RList α), r.anyMarked = true ↔ someMark r
  | .nil => by simp [RList.anyMarked, someMark]
  | .cons t r => by rw [RList.anyMarked, someMark, Bool.or_eq_true, RList.anyMarked_iff r]

theorem RList.keep_inner : ∀ (r : RList α) {i : Nat}, innerNoMarks r → r.keep i = []
  | .nil, i, _ => rfl
  | .cons t r, i, h => by
    rw [RList.keep, RTree.keep_nil t h.1, RList.keep_inner r h.2]; rfl

/-! ### The language of the positions -/

/-- `E` tells which characters the letters of an expression accept that are numbered from `i`
on. -/
def Agree (edge : α → Nat → Bool) (ls : List α) (i : Nat) (E : Nat → Nat → Prop) : Prop :=
  ∀ (k : Nat) (a : α), ls[k]? = some a → ∀ x, E (i + k) x ↔ edge a x = true

theorem Agree.left {edge : α → Nat → Bool} {ls ls' : List α} {i : Nat} {E : Nat → Nat → Prop}
    (h : Agree edge (ls ++ ls') i E) : Agree edge ls i E := by
  intro k a hk
  have hlt := (List.getElem?_eq_some_iff.1 hk).1
  exact h k a (by rw [List.getElem?_append_left hlt]; exact hk)

theorem Agree.right {edge : α → Nat → Bool} {ls ls' : List α} {i : Nat} {E : Nat → Nat → Prop}
    (h : Agree edge (ls ++ ls') i E) : Agree edge ls' (i + ls.length) E := by
  intro k a hk x
  have := h (ls.length + k) a (by
    rw [List.getElem?_append_right (by omega), Nat.add_sub_cancel_left]; exact hk) x
  rwa [← Nat.add_assoc] at this

variable {edge : α → Nat → Bool} {E : Nat → Nat → Prop}

theorem apart_cons (t : RTree α) (i : Nat) {F2 L2 : Nat → Prop} {Φ2 : Nat → Nat → Prop}
    (f2 : ∀ p, F2 p → i + t.size ≤ p) (l2 : ∀ p, L2 p → i + t.size ≤ p)
    (s2 : ∀ a b, Φ2 a b → i + t.size ≤ a ∧ i + t.size ≤ b) :
    Apart (i + t.size) (· ∈ t.first i) (· ∈ t.last i) F2 L2
      (fun a b => (a, b) ∈ t.follow i) Φ2 := by
  obtain ⟨tf, tl, ts⟩ := RTree.bounds t i
  exact ⟨fun p hp => (tf p hp).2, fun p hp => (tl p hp).2,
    fun a b h => ⟨(ts a b h).1.2, (ts a b h).2.2⟩, f2, l2, s2⟩

mutual
theorem RTree.acc : ∀ (t : RTree α) (i : Nat), Agree edge t.letters i E →
    (∀ w, w ≠ [] → (reLang edge t w ↔
      PAcc (· ∈ t.first i) (· ∈ t.last i) (fun a b => (a, b) ∈ t.follow i) E w)) ∧
    (reLang edge t [] ↔ t.nullable = true)
  | .leaf a o g, i, hE => by
    have hE : ∀ x, E i x ↔ edge a x = true := hE 0 a rfl
    have core : ∀ w, w ≠ [] → ((∃ x, w = [x] ∧ edge a x = true) ↔
        PAcc (· ∈ [i]) (· ∈ [i]) (fun _ _ => False) E w) := by
      intro w _
      constructor
      · rintro ⟨x, rfl, hx⟩
        exact ⟨i, i, by simp, by simp, .one ((hE x).2 hx)⟩
      · rintro ⟨p, q, h1, h2, h3⟩
        simp at h1; subst h1
        cases h3 with
        | one h => exact ⟨_, rfl, (hE _).1 h⟩
        | cons _ h _ => exact h.elim
    have core0 : (∃ x, ([] : List Nat) = [x] ∧ edge a x = true) ↔ false = true := by simp
    obtain ⟨h1, h2⟩ := opt_acc core core0 o
    refine ⟨fun w hw => ?_, ?_⟩
    · refine (show reLang edge (.leaf a o g) w ↔ withOpt o _ w from ?_).trans ((h1 w hw).trans ?_)
      · rw [reLang]
      · refine PAcc.congr (fun _ => .rfl) (fun _ => .rfl) (fun x y => ?_)
        unfold RTree.follow
        cases o.loops <;> simp
    · rw [reLang, h2]; simp [RTree.nullable]
  | .node true o items g, i, hE => by
    have hE : Agree edge items.letters i E := by rwa [RTree.letters] at hE
    obtain ⟨g1, g2⟩ := RList.accOr items i hE
    obtain ⟨h1, h2⟩ := opt_acc g1 g2 o
    refine ⟨fun w hw => ?_, ?_⟩
    · refine (show reLang edge (.node true o items g) w ↔ withOpt o (orLang edge items) w from ?_).trans
        ((h1 w hw).trans ?_)
      · rw [reLang]; rfl
      · refine PAcc.congr (fun _ => by rw [RTree.first]; rfl) (fun _ => by rw [RTree.last]; rfl)
          (fun x y => ?_)
        unfold RTree.follow
        simp only [if_true, List.append_nil, List.mem_append]
        cases o.loops with
        | false => simp
        | true => simp [mem_pairs]
    · rw [reLang]
      simp only [if_true]
      rw [show withOpt o (fun w => orLang edge items w) [] ↔ _ from h2]; simp [RTree.nullable]
  | .node false o items g, i, hE => by
    have hE : Agree edge items.letters i E := by rwa [RTree.letters] at hE
    obtain ⟨g1, g2⟩ := RList.accAnd items i hE
    obtain ⟨h1, h2⟩ := opt_acc g1 g2 o
    refine ⟨fun w hw => ?_, ?_⟩
    · refine (show reLang edge (.node false o items g) w ↔ withOpt o (andLang edge items) w from
        ?_).trans ((h1 w hw).trans ?_)
      · rw [reLang]; rfl
      · refine PAcc.congr (fun _ => by rw [RTree.first]; rfl) (fun _ => by rw [RTree.last]; rfl)
          (fun x y => ?_)
        unfold RTree.follow
        simp only [Bool.false_eq_true, if_false, List.mem_append]
        cases o.loops with
        | false => simp
        | true =>
          simp only [if_true, mem_pairs]
          constructor
          · rintro ((h | h) | h)
            · exact .inl (.inl h)
            · exact .inr h
            · exact .inl (.inr h.2)
          · rintro ((h | h) | h)
            · exact .inl (.inl h)
            · exact .inr ⟨trivial, h⟩
            · exact .inl (.inr h)
    · rw [reLang]
      simp only [Bool.false_eq_true, if_false]
      rw [show withOpt o (fun w => andLang edge items w) [] ↔ _ from h2]; simp [RTree.nullable]
theorem RList.accOr : ∀ (r : RList α) (i : Nat), Agree edge r.letters i E →
    (∀ w, w ≠ [] → (orLang edge r w ↔
      PAcc (· ∈ r.firstOr i) (· ∈ r.lastOr i) (fun a b => (a, b) ∈ r.follow i) E w)) ∧
    (orLang edge r [] ↔ r.anyNullable = true)
  | .nil, i, _ => by
    refine ⟨fun w _ => ?_, by simp [orLang, RList.anyNullable]⟩
    constructor
    · intro h; simp [orLang] at h
    · rintro ⟨p, q, h, _⟩; simp [RList.firstOr] at h
  | .cons t r, i, hE => by
    have hE : Agree edge (t.letters ++ r.letters) i E := by rwa [RList.letters] at hE
    obtain ⟨t1, t2⟩ := RTree.acc t i hE.left
    obtain ⟨r1, r2⟩ := RList.accOr r (i + t.size) hE.right
    obtain ⟨f1, f2, l1, l2, s1, s2⟩ := RList.bounds r (i + t.size)
    have hap := apart_cons t i (F2 := (· ∈ r.firstOr (i + t.size)))
      (L2 := (· ∈ r.lastOr (i + t.size))) (Φ2 := fun a b => (a, b) ∈ r.follow (i + t.size))
      (fun p hp => (f1 p hp).1) (fun p hp => (l1 p hp).1)
      (fun a b h => ⟨(s1 a b h).1.1, (s1 a b h).2.1⟩)
    refine ⟨fun w hw => ?_, ?_⟩
    · refine (show orLang edge (.cons t r) w ↔ (reLang edge t w ∨ orLang edge r w) from ?_).trans
        ((or_join hap t1 r1 w hw).trans ?_)
      · rw [orLang]
      · exact PAcc.congr (fun _ => by simp [RList.firstOr]) (fun _ => by simp [RList.lastOr])
          (fun _ _ => by simp [RList.follow])
    · rw [orLang]
      simp only [RList.anyNullable, Bool.or_eq_true]
      rw [t2, r2]
theorem RList.accAnd : ∀ (r : RList α) (i : Nat), Agree edge r.letters i E →
    (∀ w, w ≠ [] → (andLang edge r w ↔
      PAcc (· ∈ r.firstAnd i) (· ∈ r.lastAnd i)
        (fun a b => (a, b) ∈ r.follow i ∨ (a, b) ∈ r.seq i) E w)) ∧
    (andLang edge r [] ↔ r.allNullable = true)
  | .nil, i, _ => by
    refine ⟨fun w hw => ?_, by simp [andLang, RList.allNullable]⟩
    constructor
    · intro h; simp [andLang] at h; exact absurd h hw
    · rintro ⟨p, q, h, _⟩; simp [RList.firstAnd] at h
  | .cons t r, i, hE => by
    have hE : Agree edge (t.letters ++ r.letters) i E := by rwa [RList.letters] at hE
    obtain ⟨t1, t2⟩ := RTree.acc t i hE.left
    obtain ⟨r1, r2⟩ := RList.accAnd r (i + t.size) hE.right
    obtain ⟨f1, f2, l1, l2, s1, s2⟩ := RList.bounds r (i + t.size)
    have hap := apart_cons t i (F2 := (· ∈ r.firstAnd (i + t.size)))
      (L2 := (· ∈ r.lastAnd (i + t.size)))
      (Φ2 := fun a b => (a, b) ∈ r.follow (i + t.size) ∨ (a, b) ∈ r.seq (i + t.size))
      (fun p hp => (f2 p hp).1) (fun p hp => (l2 p hp).1)
      (fun a b h => h.elim (fun h => ⟨(s1 a b h).1.1, (s1 a b h).2.1⟩)
        (fun h => ⟨(s2 a b h).1.1, (s2 a b h).2.1⟩))
    obtain ⟨j1, j2⟩ := and_join hap t1 t2 r1 r2
    refine ⟨fun w hw => ?_, ?_⟩
    · refine (show andLang edge (.cons t r) w ↔
        (∃ u v, w = u ++ v ∧ reLang edge t u ∧ andLang edge r v) from ?_).trans
        ((j1 w hw).trans ?_)
      · rw [andLang]
      · refine PAcc.congr (fun p => ?_) (fun p => ?_) (fun a b => ?_)
        · simp only [RList.firstAnd, List.mem_append]
          cases t.nullable <;> simp
        · simp only [RList.lastAnd, List.mem_append]
          cases r.allNullable <;> simp
        · simp only [RList.follow, RList.seq, List.mem_append, mem_pairs]
          constructor
          · rintro (h | (h | h) | h)
            · exact .inl (.inl h)
            · exact .inl (.inr h)
            · exact .inr (.inr h)
            · exact .inr (.inl h)
          · rintro ((h | h) | h | h)
            · exact .inl h
            · exact .inr (.inl (.inl h))
            · exact .inr (.inr h)
            · exact .inr (.inl (.inr h))
    · rw [andLang]
      exact j2.trans (by simp [RList.allNullable])
end

end

end JPS
