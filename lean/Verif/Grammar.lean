import Verif.PieceSim
/-!
# Well-formed token sequences

Which tokens may follow in a JSON text, told by the syntax stack and the last token.
-/

set_option autoImplicit false

namespace JPS
open Spec

/-- What the last token was: nothing or a key (a value must follow), an opening bracket, a comma, the end of a value. -/
inductive Mode where
  | val | fst | com | post
deriving DecidableEq, Repr

/-- The mode after a token. -/
def Tok.mode : Tok → Mode
  | .lcb _ => .fst
  | .lb _ => .fst
  | .ky _ => .val
  | .com => .com
  | .rcb _ => .post
  | .rb _ => .post
  | .pri _ => .post

/-- A value may begin. -/
def valueAt (ss : List Sym) (m : Mode) : Prop := m = .val ∨ (top ss = some .lb ∧ (m = .fst ∨ m = .com))

/-- The token may come next. -/
def fits (ss : List Sym) (m : Mode) : Tok → Prop
  | .lcb _ => valueAt ss m ∧ ss.length < MAX_STACK
  | .lb _ => valueAt ss m ∧ ss.length < MAX_STACK
  | .pri _ => valueAt ss m ∧ ss ≠ []
  | .ky _ => top ss = some .lcb ∧ (m = .fst ∨ m = .com) ∧ ss.length < MAX_STACK
  | .rcb _ => top ss = some .lcb ∧ (m = .fst ∨ m = .post)
  | .rb _ => top ss = some .lb ∧ (m = .fst ∨ m = .post)
  | .com => m = .post ∧ ss ≠ []

/-- All tokens come in order. -/
def fitsAll : List Sym → Mode → List Tok → Prop
  | _, _, [] => True
  | ss, m, t :: ts => fits ss m t ∧ fitsAll (ssStep ss t) t.mode ts

/-- The mode after some tokens. -/
def modeAfter (m : Mode) (ts : List Tok) : Mode := ts.foldl (fun _ t => t.mode) m

/-- A syntax stack of a JSON text: a key lies on a brace, anything else not. -/
def wfStack : List Sym → Prop
  | [] => True
  | .ky :: r => top r = some .lcb ∧ wfStack r
  | .lcb :: r => top r ≠ some .lcb ∧ wfStack r
  | .lb :: r => top r ≠ some .lcb ∧ wfStack r

/-- The mode belongs to the stack. -/
def modeOK (ss : List Sym) (m : Mode) : Prop :=
  (m = .val → ss = [] ∨ top ss = some .ky) ∧ (top ss = some .ky → m = .val)

/-- Number of entries of the query stack that belong to a syntax stack. -/
def nk : List Sym → Nat
  | [] => 0
  | .lcb :: r => nk r
  | .lb :: r => nk r + 1
  | .ky :: r => nk r + 1

theorem nk_le : ∀ ss : List Sym, nk ss ≤ ss.length
  | [] => Nat.le_refl _
  | .lcb :: r => Nat.le_succ_of_le (nk_le r)
  | .lb :: r => Nat.succ_le_succ (nk_le r)
  | .ky :: r => Nat.succ_le_succ (nk_le r)

theorem nk_append : ∀ a b : List Sym, nk (a ++ b) = nk a + nk b
  | [], b => by simp [nk]
  | .lcb :: r, b => by simp [nk, nk_append r b]
  | .lb :: r, b => by simp [nk, nk_append r b]; omega
  | .ky :: r, b => by simp [nk, nk_append r b]; omega

theorem fitsAll_append : ∀ (a b : List Tok) (ss : List Sym) (m : Mode),
    fitsAll ss m (a ++ b) ↔ fitsAll ss m a ∧ fitsAll (a.foldl ssStep ss) (modeAfter m a) b
  | [], _, _, _ => by simp [fitsAll, modeAfter]
  | t :: a, b, ss, m => by
    have h : modeAfter m (t :: a) = modeAfter t.mode a := rfl
    simp only [List.cons_append, fitsAll, fitsAll_append a b, List.foldl_cons, and_assoc, h]

theorem wf_pop {x : Sym} {r : List Sym} (h : wfStack (x :: r)) : wfStack r := by
  cases x <;> exact h.2

/-- What lies below a closed bracket. -/
theorem wf_below {x : Sym} {r : List Sym} (h : wfStack (x :: r)) (hx : x ≠ .ky) :
    r = [] ∨ (∃ q, r = .lb :: q) ∨ ∃ q, r = .ky :: .lcb :: q := by
  have h1 : top r ≠ some .lcb := by cases x <;> first | exact h.1 | exact absurd rfl hx
  have h2 := wf_pop h
  cases r with
  | nil => exact .inl rfl
  | cons y r =>
    cases y with
    | lcb => exact absurd rfl h1
    | lb => exact .inr (.inl ⟨r, rfl⟩)
    | ky =>
      cases r with
      | nil => exact absurd h2.1 (by simp [top])
      | cons z q =>
        have : z = .lcb := by simpa [top] using h2.1
        exact .inr (.inr ⟨q, by rw [this]⟩)

/-- Well-formedness is kept. -/
theorem wf_step {ss : List Sym} {m : Mode} {t : Tok} (hw : wfStack ss) (hm : modeOK ss m) (hf : fits ss m t) :
    wfStack (ssStep ss t) ∧ modeOK (ssStep ss t) t.mode := by
  have hval : ∀ x : Sym, x ≠ .ky → valueAt ss m → ss.length < MAX_STACK → wfStack (push ss x) ∧ modeOK (push ss x) .fst := by
    intro x hx hv hl
    have h1 : top ss ≠ some .lcb := by
      rcases hv with hv | hv
      · rcases hm.1 hv with h | h
        · rw [h]; simp [top]
        · rw [h]; simp
      · rw [hv.1]; simp
    rw [push, if_pos hl]
    constructor
    · cases x with
      | ky => exact absurd rfl hx
      | lcb => exact ⟨h1, hw⟩
      | lb => exact ⟨h1, hw⟩
    · refine ⟨fun h => (by cases h), fun h => ?_⟩
      simp only [top, List.head?_cons, Option.some.injEq] at h
      exact absurd h hx
  have hcl : ∀ x : Sym, x ≠ .ky → top ss = some x →
      wfStack (ssStep ss (.rcb 0)) ∧ modeOK (ssStep ss (.rcb 0)) .post := by
    intro x hx ht
    cases ss with
    | nil => simp [top] at ht
    | cons y r =>
      have : y = x := by simpa [top] using ht
      subst this
      rcases wf_below hw hx with rfl | ⟨q, rfl⟩ | ⟨q, rfl⟩
      · exact ⟨by simp [ssStep, pop, wfStack], by simp [ssStep, modeOK, pop, top]⟩
      · exact ⟨by simpa [ssStep, secondTop, pop] using wf_pop hw, by simp [ssStep, secondTop, modeOK, pop, top]⟩
      · exact ⟨by simpa [ssStep, secondTop, pop] using wf_pop (wf_pop hw), by simp [ssStep, secondTop, modeOK, pop, top]⟩
  cases t with
  | lcb p => exact hval .lcb (by simp) hf.1 hf.2
  | lb p => exact hval .lb (by simp) hf.1 hf.2
  | rcb p => exact hcl .lcb (by simp) hf.1
  | rb p => exact hcl .lb (by simp) hf.1
  | com =>
    refine ⟨hw, fun h => (by cases h), fun h => ?_⟩
    have h1 := hm.2 h
    rw [hf.1] at h1; cases h1
  | ky k =>
    simp only [ssStep, push, if_pos hf.2.2]
    exact ⟨⟨hf.1, hw⟩, fun _ => .inr rfl, fun _ => rfl⟩
  | pri x =>
    simp only [ssStep]
    cases ss with
    | nil => exact absurd rfl hf.2
    | cons y r =>
      by_cases hy : y = .ky
      · subst hy
        rw [if_pos (by rfl)]
        refine ⟨wf_pop hw, fun h => (by cases h), fun h => ?_⟩
        have h1 : top r = some .ky := h
        rw [hw.1] at h1; cases h1
      · rw [if_neg (by simpa [top] using hy)]
        refine ⟨hw, fun h => (by cases h), fun h => ?_⟩
        simp [top] at h; exact absurd h hy

theorem modeAfter_cons (m : Mode) (t : Tok) (ts : List Tok) : modeAfter m (t :: ts) = modeAfter t.mode ts := rfl

/-- A token sequence may stop here: not in the middle of a document just after a value or a key. -/
def stopsAt (ss : List Sym) (m : Mode) : Prop := ss = [] ∨ m = .fst ∨ m = .com

end JPS
