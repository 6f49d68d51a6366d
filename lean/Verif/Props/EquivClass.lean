import Verif.EquivClassProofs
import Verif.Props.CharClass
/-!
# C47: equivalence classes of characters
-/

set_option autoImplicit false

namespace JPS
open Spec

/-- The letter in the model. -/
def ltr : CLetter → Letter
  | .chr c => .chr c
  | .set t => .set t.text

/-- A character that fits into the table, or a correctly written set with its ranges apart. -/
def letterOk (lf : Bool) : CLetter → Prop
  | .chr c => c < 256
  | .set t => t.ok = true ∧ rangesApart lf [] t.parts

theorem parts_lt {t : CText} (hok : t.ok = true) {x : Nat} (hx : partsHave t.parts x = true) :
    x < 256 := by
  simp only [CText.ok, Bool.and_eq_true, List.all_eq_true] at hok
  simp only [partsHave, List.any_eq_true] at hx
  obtain ⟨p, hp, hx⟩ := hx
  have hpk := hok.1 p hp
  cases p with
  | one c =>
    simp [CPart.has] at hx; subst hx
    exact Spell.val_lt hpk
  | range p q =>
    simp [CPart.ok] at hpk
    simp [CPart.has] at hx
    have := Spell.val_lt hpk.1.2
    omega

theorem prescan_refines {lf : Bool} {l : CLetter} (hl : letterOk lf l) {e : EClass} (he : e.Ok) :
    ∃ e', (ltr l).prescan lf e = some e' ∧ e'.Ok ∧ ∀ x y, x < 256 → y < 256 →
      (e'.at x = e'.at y ↔ e.at x = e.at y ∧ l.has x = l.has y) := by
  cases l with
  | chr c => exact addChar_refines he hl
  | set t =>
    obtain ⟨s, h1, h2, h3⟩ := ofString_text hl.1 hl.2
    obtain ⟨e', g1, g2, g3⟩ := addSet_refines he (c := ⟨s, t.neg⟩) h2
      (fun x hx => parts_lt hl.1 (by rw [← h3]; exact hx))
    refine ⟨e', by simp [ltr, Letter.prescan, h1, g1], g2, fun x y hx hy => ?_⟩
    rw [g3 x y hx hy]
    simp only [h3, CLetter.has, CText.has]
    cases partsHave t.parts x <;> cases partsHave t.parts y <;> cases t.neg <;> simp

theorem prescanAll_refines {lf : Bool} : ∀ {ls : List CLetter} {e : EClass},
    (∀ l ∈ ls, letterOk lf l) → e.Ok →
    ∃ e', prescanAll lf (ls.map ltr) e = some e' ∧ e'.Ok ∧ ∀ x y, x < 256 → y < 256 →
      (e'.at x = e'.at y ↔ e.at x = e.at y ∧ ∀ l ∈ ls, l.has x = l.has y) := by
  intro ls
  induction ls with
  | nil => intro e _ he; exact ⟨e, rfl, he, by simp⟩
  | cons l ls ih =>
    intro e hl he
    obtain ⟨e1, h1, h2, h3⟩ := prescan_refines (hl l (by simp)) he
    obtain ⟨e2, g1, g2, g3⟩ := ih (fun l h => hl l (by simp [h])) h2
    refine ⟨e2, by simp [prescanAll, h1, g1], g2, fun x y hx hy => ?_⟩
    rw [g3 x y hx hy, h3 x y hx hy]
    simp [and_assoc]

/-- **C47.**  After the first pass over all letters of a model, two characters other than NUL have
the same class exactly if no letter tells them apart; the classes are numbered from 1 to `sum`.
After the second pass, every letter stands for exactly the classes of its characters. -/
theorem c47_classes (lf : Bool) (ls : List CLetter) (hok : ∀ l ∈ ls, letterOk lf l) :
    ∃ e, ecClasses lf (ls.map ltr) = some e ∧
      (∀ x y, 0 < x → x < 256 → 0 < y → y < 256 →
        (e.getClass x = e.getClass y ↔ ∀ l ∈ ls, l.has x = l.has y)) ∧
      (∀ x, 0 < x → x < 256 → 1 ≤ e.getClass x ∧ e.getClass x ≤ e.sum) ∧
      ∀ l ∈ ls, ∃ cs, (ltr l).convert lf e = some cs ∧
        ∀ x, 0 < x → x < 256 → cs.contains (e.getClass x) = l.has x := by
  obtain ⟨e, h1, h2, h3⟩ := prescanAll_refines hok init_ok
  obtain ⟨r1, r2, r3, r4⟩ := rearrage_spec h2
  have hget : ∀ x, x < 256 → e.rearrage.getClass x = e.rearrage.at x := by
    intro x hx
    rw [EClass.getClass, if_neg (by rw [r1]; omega)]
  have hinit : ∀ x y, x < 256 → y < 256 → EClass.init.at x = EClass.init.at y := by
    intro x y hx hy
    have key : ∀ x, x < 256 → EClass.init.at x = 1 := by
      intro x hx
      have := init_ok.2 x hx
      simp only [EClass.init] at this ⊢
      omega
    rw [key x hx, key y hy]
  have hsame : ∀ x y, 0 < x → x < 256 → 0 < y → y < 256 →
      (e.rearrage.at x = e.rearrage.at y ↔ ∀ l ∈ ls, l.has x = l.has y) := by
    intro x y hx0 hx hy0 hy
    rw [r4 x y hx0 hx hy0 hy, h3 x y hx hy]
    exact ⟨fun h => h.2, fun h => ⟨hinit x y hx hy, h⟩⟩
  refine ⟨e.rearrage, by simp [ecClasses, h1], ?_, ?_, ?_⟩
  · intro x y hx0 hx hy0 hy
    rw [hget x hx, hget y hy]
    exact hsame x y hx0 hx hy0 hy
  · intro x hx0 hx
    rw [hget x hx]
    exact r3 x hx0 hx
  · intro l hl
    have hlk := hok l hl
    cases l with
    | chr c =>
      refine ⟨_, rfl, fun x hx0 hx => ?_⟩
      have hc : c < 256 := hlk
      rw [hget x hx, hget c hc, Bool.eq_iff_iff, List.contains_iff_mem, List.mem_singleton]
      simp only [CLetter.has, beq_iff_eq]
      constructor
      · intro h
        rcases Nat.eq_zero_or_pos c with rfl | hc0
        · rw [r2] at h
          have := r3 x hx0 hx
          omega
        · have := (hsame x c hx0 hx hc0 hc).1 h _ hl
          simpa [CLetter.has] using this
      · rintro rfl; rfl
    | set t =>
      obtain ⟨s, g1, g2, g3⟩ := ofString_text hlk.1 hlk.2
      obtain ⟨cs, i1, i2⟩ := makeSet_spec r1 r3 r2 (c := ⟨s, t.neg⟩) g2
        (fun x hx => parts_lt hlk.1 (by rw [← g3]; exact hx))
        (fun x y hx0 hx hy0 hy h => by
          have := (hsame x y hx0 hx hy0 hy).1 h _ hl
          simp only [CLetter.has, CText.has] at this
          simp only [g3]
          revert this
          cases partsHave t.parts x <;> cases partsHave t.parts y <;> cases t.neg <;> simp)
      refine ⟨cs, by simp [ltr, Letter.convert, g1, i1], fun x hx0 hx => ?_⟩
      rw [hget x hx, i2 x hx0 hx]
      simp only [g3, CLetter.has, CText.has]

/-- The letters `a`, `[a-f]`, `[^0-9]` meet the hypotheses: four classes. -/
def exLetters : List CLetter :=
  [.chr 97, .set ⟨false, [.range (.plain 97) (.plain 102)]⟩,
    .set ⟨true, [.range (.plain 48) (.plain 57)]⟩]

theorem exLetters_ok (lf : Bool) : ∀ l ∈ exLetters, letterOk lf l := by
  intro l hl
  simp only [exLetters, List.mem_cons, List.not_mem_nil, or_false] at hl
  rcases hl with rfl | rfl | rfl
  · exact (by decide : (97 : Nat) < 256)
  · exact ⟨by decide, fun _ x hx => by simp [partsHave] at hx, trivial⟩
  · exact ⟨by decide, fun _ x hx => by simp [partsHave] at hx, trivial⟩

example : ((ecClasses true (exLetters.map ltr)).map fun e =>
    (e.sum, [97, 98, 102, 103, 48, 57, 65].map e.getClass)) =
    some (4, [2, 3, 3, 1, 4, 4, 1]) := by decide +kernel

end JPS
