import Verif.ParStep
import Verif.Combine
import Verif.Props.Chain
/-!
# From one chunk to the next, and the real `combine`

`combine` (`Verif/Combine.lean`) keeps one node per level; as long as the entries that are open where chunks begin are
not selected it does what `Comb` does.
-/

set_option autoImplicit false

namespace JPS
open Spec

/-! ### Begin and end of a chunk -/

/-- What is assumed where a chunk ends and the next begins: before a member or an element, no entry has a slice, no
selected container is open. -/
structure CutOK (d : QDfa) (m : Mode) (S : SA) : Prop where
  mode : m = .fst ∨ m = .com
  elt : NoIdx d S.elt.st
  qs : ∀ e ∈ S.qs, NoIdx d e.st ∧ d.accept e.st ≠ .output
  cur : top S.ss = some .lcb → d.accept S.elt.st ≠ .output

theorem Joint.init {E : WEnv} {n : Nat} {C0 : Comb} {S : SA} {m : Mode} (u : UState) (hr : CRel E.d C0.tl C0 S)
    (hc : CInv E.d n C0) (hw : wfStack S.ss) (hm : modeOK S.ss m) :
    Joint E n C0 C0.ss.length m S (fun s => P.init s u) [] C0 where
  alike _ := ⟨rfl, rfl, rfl, rfl, rfl⟩
  units _ := rfl
  inv s := PInv.new E n s rfl rfl
  comb := rfl
  ok := hc
  rel := hr.new hc ⟨rfl, rfl, rfl, rfl⟩
  fresh _ _ := ⟨rfl, rfl, rfl, rfl⟩
  shad := .inl rfl
  wf := hw
  mode := hm
  low := rfl
  uok := trivial
  sok := trivial
  closed _ := ⟨rfl, rfl⟩

/-- The state of `combine` after the chunk (parallel_automata_execution.h:348-352): the entries and symbols of the worker on
top. -/
def Comb.next (s : Str) (C : Comb) (v : P) : Comb := ⟨v.p.dropLast ++ C.p, v.ss ++ C.ss, C.tl ++ v.out.map (resolve s)⟩

section
variable {E : WEnv} {n lo : Nat} {C0 C : Comb} {m : Mode} {S : SA} {f : Nat → P}
  {us : List (List (USym × Nat) × (Nat → List MTuple))}

theorem all2_mem_right {α β : Type} {R : α → β → Prop} {a : List α} {b : List β} (h : All2 R a b) :
    ∀ y ∈ b, ∃ x ∈ a, R x y := by
  induction h with
  | nil => simp
  | cons hxy _ ih =>
    intro y hy
    rcases List.mem_cons.1 hy with rfl | hy
    · exact ⟨_, List.mem_cons_self, hxy⟩
    · obtain ⟨x, hx, h1⟩ := ih y hy
      exact ⟨x, List.mem_cons_of_mem _ hx, h1⟩

theorem all2_split_right {α β : Type} {R : α → β → Prop} : ∀ {b c : List β} {a : List α}, All2 R a (b ++ c) →
    ∃ a1 a2, a = a1 ++ a2 ∧ All2 R a1 b ∧ All2 R a2 c
  | [], _, a, h => ⟨[], a, rfl, .nil, h⟩
  | _ :: b, c, _, .cons h1 h2 => by
    obtain ⟨a1, a2, rfl, h3, h4⟩ := all2_split_right (b := b) (c := c) h2
    exact ⟨_ :: a1, a2, rfl, .cons h1 h3, h4⟩

/-- At the end of a chunk the combined state is that of the serial automaton. -/
theorem Joint.cut (h : Joint E n C0 lo m S f us C) (hcut : CutOK E.d m S) :
    CRel E.d C0.tl (C.next E.s (f C.st)) S ∧ CInv E.d n (C.next E.s (f C.st)) := by
  have hrel := h.rel
  obtain ⟨e, t, hp, he, hms, hq⟩ := hrel.path
  obtain ⟨l, cc, ms, hr⟩ := (h.inv C.st).root
  have hcl := h.ok.len
  cases hC : C.p with
  | nil => rw [hC] at hcl; simp at hcl
  | cons c kp =>
    have hcs : C.st = c.st := by simp [Comb.st, hC]
    have hci : NoIdx E.d c.st := h.ok.idx c (by rw [hC]; exact List.mem_cons_self)
    have hcb : c.st < n := h.ok.bnd c (by rw [hC]; exact List.mem_cons_self)
    have hpb : ∀ x ∈ (f C.st).p, x.st < n := (h.inv C.st).bnd (by rw [hcs]; exact hcb)
    have hC' : C.p.tail = kp := by rw [hC]; rfl
    rw [hC'] at hq
    have hkb : ∀ x ∈ kp, x.st < n := fun x hx => h.ok.bnd x (by rw [hC]; exact List.mem_cons_of_mem _ hx)
    have hdl : (f C.st).p.dropLast = l := by rw [hr]; simp
    have hss : S.ss = (f C.st).ss ++ C.ss := hrel.ss
    have hrp : CRel E.d C0.tl (C.next E.s (f C.st)) S := by
      refine ⟨hss, ?_, hrel.tl⟩
      show ∃ c' kp', (f C.st).p.dropLast ++ C.p = c' :: kp' ∧ _
      rw [hdl, hC]
      cases l with
      | nil =>
        rw [hp] at hr
        simp at hr
        obtain ⟨rfl, rfl⟩ := hr
        refine ⟨c, kp, rfl, ⟨he.st.trans hcs, .inr ?_⟩, hq⟩
        rw [he.st]; show NoIdx E.d C.st; rw [hcs]; exact hci
      | cons x l =>
        rw [hp] at hr
        simp only [List.cons_append, List.cons.injEq] at hr
        obtain ⟨rfl, rfl⟩ := hr
        refine ⟨e, l ++ c :: kp, rfl, he, ?_⟩
        rw [List.append_assoc] at hq
        obtain ⟨a1, a2, e1, h1, h2⟩ := all2_split_right hq
        cases h2 with
        | cons h3 h4 =>
          rename_i q1 Q
          rw [e1]
          refine Spec.All2.append h1 (.cons ⟨⟨h3.1.st.trans hcs, .inr ?_⟩, fun hm => ?_⟩ h4)
          · rw [h3.1.st]; show NoIdx E.d C.st; rw [hcs]; exact hci
          · have h5 := hcut.qs q1 (by rw [e1]; simp)
            rw [h5.1.matchedType] at hm
            exact absurd hm h5.2
    refine ⟨hrp, ?_⟩
    obtain ⟨_, ⟨c', kp', hp', he', hq'⟩, _⟩ := hrp
    have hst' : ∀ C1 : Comb, C1.p = c' :: kp' → C1.st = c'.st := fun C1 h1 => by unfold Comb.st; rw [h1]
    refine ⟨?_, ?_, ?_, ?_, ?_, ?_⟩
    · show ((f C.st).p.dropLast ++ C.p).length = nk ((f C.st).ss ++ C.ss) + 1
      rw [nk_append, List.length_append, hcl, List.length_dropLast, hrel.len]
      omega
    · intro x hx
      rw [hp'] at hx
      rcases List.mem_cons.1 hx with rfl | hx
      · rw [← he'.st]; exact hcut.elt
      · obtain ⟨y, hy, h1⟩ := all2_mem_right hq' x hx
        rw [← h1.1.st]; exact (hcut.qs y hy).1
    · intro x hx
      rcases List.mem_append.1 hx with hx | hx
      · exact hpb x (List.dropLast_subset _ hx)
      · exact h.ok.bnd x hx
    · intro x hx
      rw [hp'] at hx
      obtain ⟨y, hy, h1⟩ := all2_mem_right hq' x hx
      rw [← h1.1.st]; exact (hcut.qs y hy).2
    · intro ht
      rw [hst' _ hp', ← he'.st]
      exact hcut.cur (by rw [hss]; exact ht)
    · intro ht
      have := h.mode.2 (by rw [hss]; exact ht)
      rcases hcut.mode with h1 | h1 <;> rw [this] at h1 <;> cases h1

end

end JPS
