import Verif.CtlSim
import Verif.Spec.Spans
/-!
# The automaton in the middle of a document

Which containers are on the stacks after part of the tokens of a document.
-/

set_option autoImplicit false

namespace JPS
open Spec

/-- A value may begin: after a key, in an array, at the top. -/
def Ctl.atVal (C : Ctl) : Prop := C.ss = [] ∨ (∃ ss e q, C.ss = .ky :: ss ∧ C.q = e :: q) ∨ ∃ ss, C.ss = .lb :: ss

/-- The control after a value. -/
def Ctl.after (C : Ctl) : Ctl :=
  match C.ss with
  | .ky :: ss => { C.popQ with ss := ss, g := pop C.g }
  | .lb :: _ => { C with e := (C.e.1, C.e.2 + 1) }
  | _ => C

theorem ctl_lb {d : QDfa} {C : Ctl} {p : Nat} (h1 : C.ss.length < MAX_STACK) (h2 : C.q.length < MAX_STACK)
    (h3 : C.g.length < MAX_STACK) :
    ctlStep d C (.lb p) = ⟨(d.go C.e.1 C.e.2 none, 0), .lb :: C.ss, C.e :: C.q, p :: C.g⟩ := by
  simp only [ctlStep, push_lt h1, push_lt h2, push_lt h3]

theorem ctl_ky {d : QDfa} {C : Ctl} {k : Str} (h1 : C.ss.length < MAX_STACK) (h2 : C.q.length < MAX_STACK)
    (h3 : C.g.length < MAX_STACK) :
    ctlStep d C (.ky k) = ⟨(d.go C.e.1 C.e.2 (some k), 0), .ky :: C.ss, C.e :: C.q, 0 :: C.g⟩ := by
  simp only [ctlStep, push_lt h1, push_lt h2, push_lt h3]

theorem ctl_lcb {d : QDfa} {C : Ctl} {p : Nat} (h1 : C.ss.length < MAX_STACK) (h3 : C.g.length < MAX_STACK) :
    ctlStep d C (.lcb p) = { C with ss := .lcb :: C.ss, g := p :: C.g } := by
  simp only [ctlStep, push_lt h1, push_lt h3]

theorem ctl_pri {d : QDfa} {C : Ctl} (x : Str) (h : C.atVal) : ctlStep d C (.pri x) = C.after := by
  rcases h with h | ⟨ss, e, q, h, hq⟩ | ⟨ss, h⟩ <;> simp [ctlStep, Ctl.after, h, top, pop, Ctl.popQ]

theorem ctl_rcb {d : QDfa} {C : Ctl} (p b : Nat) (h : C.atVal) :
    ctlStep d { C with ss := .lcb :: C.ss, g := b :: C.g } (.rcb p) = C.after := by
  obtain ⟨e0, ss0, q0, g0⟩ := C
  rcases h with h | ⟨ss, e, q, h, hq⟩ | ⟨ss, h⟩ <;> simp only at h <;> subst h
  · simp [ctlStep, Ctl.after, pop]
  · simp only at hq; subst hq
    simp [ctlStep, Ctl.after, pop, secondTop, Ctl.popQ]
  · simp [ctlStep, Ctl.after, pop, secondTop]

theorem ctl_rb {d : QDfa} {C : Ctl} (p b : Nat) (x : Nat × Nat) (h : C.atVal) :
    ctlStep d ⟨x, .lb :: C.ss, C.e :: C.q, b :: C.g⟩ (.rb p) = C.after := by
  obtain ⟨e0, ss0, q0, g0⟩ := C
  rcases h with h | ⟨ss, e, q, h, hq⟩ | ⟨ss, h⟩ <;> simp only at h <;> subst h
  · simp [ctlStep, Ctl.after, pop, Ctl.popQ]
  · simp only at hq; subst hq
    simp [ctlStep, Ctl.after, pop, secondTop, Ctl.popQ]
  · simp [ctlStep, Ctl.after, pop, secondTop, Ctl.popQ]

mutual
theorem ctl_value (d : QDfa) : ∀ (v : J) (obs : Str → Str) (off : Nat) (C : Ctl), C.atVal →
    C.ss.length + v.depth ≤ MAX_STACK → C.q.length + v.depth ≤ MAX_STACK → C.g.length + v.depth ≤ MAX_STACK → ctlRun d C (toks obs off v) = C.after
  | .lit t, obs, off, C, h, _, _, _ => by simp only [toks, ctlRun, List.foldl_cons, List.foldl_nil, ctl_pri _ h]
  | .str t, obs, off, C, h, _, _, _ => by simp only [toks, ctlRun, List.foldl_cons, List.foldl_nil, ctl_pri _ h]
  | .arr w es, obs, off, C, h, h1, h2, h3 => by
    rw [J.depth] at h1 h2 h3
    obtain ⟨i, hi⟩ := ctl_elems d es (off + 1 + w.length) ⟨(d.go C.e.1 C.e.2 none, 0), .lb :: C.ss, C.e :: C.q, (off + 1) :: C.g⟩ C.ss rfl
      (by simp; omega) (by simp; omega) (by simp; omega)
    rw [toks, List.cons_append]
    show ctlRun d (ctlStep d C _) _ = _
    rw [ctl_lb (by omega) (by omega) (by omega), ctlRun_append, hi]
    rw [ctlRun, List.foldl_cons, List.foldl_nil]
    exact ctl_rb (d := d) (off + (J.arr w es).render.length) _ _ h
  | .obj w ms, obs, off, C, h, h1, h2, h3 => by
    rw [J.depth] at h1 h2 h3
    have hi := ctl_members d ms (off + 1 + w.length) { C with ss := .lcb :: C.ss, g := (off + 1) :: C.g } C.ss rfl
      (by simp; omega) (by simp; omega) (by simp; omega)
    rw [toks, List.cons_append]
    show ctlRun d (ctlStep d C _) _ = _
    rw [ctl_lcb (by omega) (by omega), ctlRun_append, hi]
    rw [ctlRun, List.foldl_cons, List.foldl_nil]
    exact ctl_rcb (d := d) (off + (J.obj w ms).render.length) _ h
theorem ctl_elems (d : QDfa) : ∀ (es : Elems) (off : Nat) (C : Ctl) (ss : List Sym), C.ss = .lb :: ss →
    C.ss.length + es.depth ≤ MAX_STACK → C.q.length + es.depth ≤ MAX_STACK → C.g.length + es.depth ≤ MAX_STACK →
    ∃ i, ctlRun d C (toksE off es) = { C with e := (C.e.1, i) }
  | .nil, _, C, _, _, _, _, _ => ⟨C.e.2, rfl⟩
  | .cons pre v post rest, off, C, ss, h, h1, h2, h3 => by
    rw [Elems.depth] at h1 h2 h3
    have hv := ctl_value d v (litObs false post (nextE rest)) (off + pre.length) C (.inr (.inr ⟨ss, h⟩)) (by omega) (by omega) (by omega)
    have ha : C.after = { C with e := (C.e.1, C.e.2 + 1) } := by simp [Ctl.after, h]
    rw [toksE, ctlRun_append, hv, ha]
    match rest, h1, h2, h3 with
    | .nil, _, _, _ => exact ⟨_, rfl⟩
    | .cons p' v' q' r', h1, h2, h3 =>
      obtain ⟨i, hi⟩ := ctl_elems d (.cons p' v' q' r') (off + pre.length + v.render.length + post.length + 1)
        { C with e := (C.e.1, C.e.2 + 1) } ss h (by simp only; omega) (by simp only; omega) (by simp only; omega)
      exact ⟨i, hi⟩
theorem ctl_members (d : QDfa) : ∀ (ms : Members) (off : Nat) (C : Ctl) (ss : List Sym), C.ss = .lcb :: ss →
    C.ss.length + ms.depth ≤ MAX_STACK → C.q.length + ms.depth ≤ MAX_STACK → C.g.length + ms.depth ≤ MAX_STACK →
    ctlRun d C (toksM off ms) = C
  | .nil, _, C, _, _, _, _, _ => rfl
  | .cons pre k mid pre2 v post rest, off, C, ss, h, h1, h2, h3 => by
    rw [Members.depth] at h1 h2 h3
    have hv := ctl_value d v (litObs pre2.isEmpty post (nextM rest))
      (off + pre.length + (k.length + 2) + mid.length + 1 + pre2.length)
      ⟨(d.go C.e.1 C.e.2 (some k), 0), .ky :: C.ss, C.e :: C.q, 0 :: C.g⟩ (.inr (.inl ⟨_, _, _, rfl, rfl⟩))
      (by simp; omega) (by simp; omega) (by simp; omega)
    rw [toksM, List.cons_append]
    show ctlRun d (ctlStep d C _) _ = _
    rw [ctl_ky (by omega) (by omega) (by omega), ctlRun_append, hv]
    have ha : Ctl.after ⟨(d.go C.e.1 C.e.2 (some k), 0), .ky :: C.ss, C.e :: C.q, 0 :: C.g⟩ = C := rfl
    rw [ha]
    match rest, h1, h2, h3 with
    | .nil, _, _, _ => rfl
    | .cons p' k' m' n' v' q' r', h1, h2, h3 =>
      exact ctl_members d (.cons p' k' m' n' v' q' r') _ C ss h (by omega) (by omega) (by omega)
end

/-- The tokens of the opening and of the closing bracket of a container at offset `b`. -/
def openTok (v : J) (b : Nat) : Tok :=
  match v with
  | .arr _ _ => .lb (b + 1)
  | _ => .lcb (b + 1)
def closeTok (v : J) (b : Nat) : Tok :=
  match v with
  | .arr _ _ => .rb (b + v.render.length)
  | _ => .rcb (b + v.render.length)

/-- All containers of `L` opened in `ts1` and closed in `ts2` satisfy `G`. -/
def Opn (f : Loc → Nat × Nat) (G : Nat × Nat → Prop) (ts1 ts2 : List Tok) (L : List (Loc × J × Nat)) : Prop :=
  ∀ y ∈ L, y.2.1.isContainer = true → openTok y.2.1 y.2.2 ∈ ts1 → closeTok y.2.1 y.2.2 ∈ ts2 → G (f y.1)

/-- All scalar elements of arrays of `L` opened in `ts1` and closed in `ts2` satisfy `H`. -/
def Scl (f : Loc → Nat × Nat) (H : Nat × Nat → Nat → Prop) (ts1 ts2 : List Tok) (L : List (Loc × J × Nat)) : Prop :=
  ∀ y ∈ L, ∀ w es, y.2.1 = .arr w es → openTok y.2.1 y.2.2 ∈ ts1 → closeTok y.2.1 y.2.2 ∈ ts2 →
    ∀ j x, es.values[j]? = some x → x.isContainer = false → H (f (y.1 ++ [.elem j])) (y.2.2 + 1)

/-- The entries of `C'` are those of `C` or satisfy `G`; a scalar that is the next token and an element satisfies `H`. -/
structure Mid (G : Nat × Nat → Prop) (H : Nat × Nat → Nat → Prop) (C C' : Ctl) (ts2 : List Tok) : Prop where
  q : ∀ e ∈ C'.q, e ∈ C.q ∨ G e
  pri : ∀ x t, ts2 = .pri x :: t → top C'.ss = some .lb → ∀ b, C'.g.head? = some b → H C'.e b

theorem snoc_split {α : Type} {l a b : List α} {x : α} (h : l ++ [x] = a ++ b) (hb : b ≠ []) :
    ∃ y, b = y ++ [x] ∧ l = a ++ y := by
  rcases List.append_eq_append_iff.1 h with ⟨y, h1, h2⟩ | ⟨y, h1, h2⟩
  · cases y with
    | nil => exact ⟨[], by simpa using h2.symm, by simpa using h1.symm⟩
    | cons z y =>
      simp only [List.cons_append, List.cons.injEq] at h2
      exact absurd (List.append_eq_nil_iff.1 h2.2.symm).2 hb
  · exact ⟨y, h2, h1⟩

theorem Opn.sub {f : Loc → Nat × Nat} {G : Nat × Nat → Prop} {ts1 ts2 us1 us2 : List Tok} {L M : List (Loc × J × Nat)}
    (h : Opn f G ts1 ts2 L) (hM : ∀ y ∈ M, y ∈ L) (h1 : ∀ t ∈ us1, t ∈ ts1) (h2 : ∀ t ∈ us2, t ∈ ts2) : Opn f G us1 us2 M :=
  fun y hy hc ho hcl => h y (hM y hy) hc (h1 _ ho) (h2 _ hcl)

theorem Scl.sub {f : Loc → Nat × Nat} {H : Nat × Nat → Nat → Prop} {ts1 ts2 us1 us2 : List Tok} {L M : List (Loc × J × Nat)}
    (h : Scl f H ts1 ts2 L) (hM : ∀ y ∈ M, y ∈ L) (h1 : ∀ t ∈ us1, t ∈ ts1) (h2 : ∀ t ∈ us2, t ∈ ts2) : Scl f H us1 us2 M :=
  fun y hy w es hc ho hcl => h y (hM y hy) w es hc (h1 _ ho) (h2 _ hcl)

/-- States of parts: `f` follows the automaton. -/
def Tracked (d : QDfa) (f : Loc → Nat × Nat) : Prop :=
  ∀ l x, f (l ++ [x]) = (d.go (f l).1 (f l).2 (labelKey x), labelIdx x)

theorem tracked_locState (d : QDfa) (s c : Nat) : Tracked d (locState d s c) := by
  intro l x
  rw [locState_append]; rfl

section
variable (d : QDfa) (f : Loc → Nat × Nat) (hf : Tracked d f) (G : Nat × Nat → Prop)
  (H : Nat × Nat → Nat → Prop)
include hf

mutual
theorem split_value : ∀ (v : J) (obs : Str → Str) (off : Nat) (loc : Loc) (C : Ctl) (ts1 ts2 : List Tok), C.atVal →
    C.e = f loc → ((∃ ss, C.ss = .lb :: ss) → v.isContainer = false → ∀ b, C.g.head? = some b → H C.e b) →
    C.ss.length + v.depth ≤ MAX_STACK → C.q.length + v.depth ≤ MAX_STACK → C.g.length + v.depth ≤ MAX_STACK → toks obs off v = ts1 ++ ts2 →
    Opn f G ts1 ts2 ((loc, v, off) :: v.spans loc off) → Scl f H ts1 ts2 ((loc, v, off) :: v.spans loc off) →
    Mid G H C (ctlRun d C ts1) ts2 ∧ (top (ctlRun d C ts1).ss = some .lcb → G (ctlRun d C ts1).e ∨ ts2 = [])
  | .lit t, obs, off, loc, C, ts1, ts2, h, he, hl, _, _, _, ht, _, hS => by
    cases ts1 with
    | nil =>
      refine ⟨⟨fun e h => .inl h, fun _ _ _ h1 b hb => ?_⟩, fun h1 => ?_⟩
      · rcases h with h | ⟨_, _, _, h, _⟩ | h
        · change top C.ss = _ at h1; rw [h] at h1; cases h1
        · change top C.ss = _ at h1; rw [h] at h1; cases h1
        · exact hl h rfl b hb
      · change top C.ss = _ at h1
        rcases h with h | ⟨_, _, _, h, _⟩ | ⟨_, h⟩ <;> (rw [h] at h1; cases h1)
    | cons t ts1 =>
      simp only [toks, List.cons_append, List.cons.injEq] at ht
      obtain ⟨rfl, ht⟩ := ht
      obtain ⟨rfl, rfl⟩ := List.append_eq_nil_iff.1 ht.symm
      refine ⟨⟨fun e h' => .inl ?_, fun _ _ h1 => by cases h1⟩, fun _ => .inr rfl⟩
      simp only [ctlRun, List.foldl_cons, List.foldl_nil, ctl_pri _ h] at h'
      rcases h with h | ⟨_, _, _, h, hq⟩ | ⟨_, h⟩
      · simpa [Ctl.after, h] using h'
      · simp [Ctl.after, h, Ctl.popQ, hq] at h'; rw [hq]; exact List.mem_cons_of_mem _ h'
      · simpa [Ctl.after, h] using h'
  | .str r, obs, off, loc, C, ts1, ts2, h, he, hl, _, _, _, ht, _, hS => by
    cases ts1 with
    | nil =>
      refine ⟨⟨fun e h => .inl h, fun _ _ _ h1 b hb => ?_⟩, fun h1 => ?_⟩
      · rcases h with h | ⟨_, _, _, h, _⟩ | h
        · change top C.ss = _ at h1; rw [h] at h1; cases h1
        · change top C.ss = _ at h1; rw [h] at h1; cases h1
        · exact hl h rfl b hb
      · change top C.ss = _ at h1
        rcases h with h | ⟨_, _, _, h, _⟩ | ⟨_, h⟩ <;> (rw [h] at h1; cases h1)
    | cons t ts1 =>
      simp only [toks, List.cons_append, List.cons.injEq] at ht
      obtain ⟨rfl, ht⟩ := ht
      obtain ⟨rfl, rfl⟩ := List.append_eq_nil_iff.1 ht.symm
      refine ⟨⟨fun e h' => .inl ?_, fun _ _ h1 => by cases h1⟩, fun _ => .inr rfl⟩
      simp only [ctlRun, List.foldl_cons, List.foldl_nil, ctl_pri _ h] at h'
      rcases h with h | ⟨_, _, _, h, hq⟩ | ⟨_, h⟩
      · simpa [Ctl.after, h] using h'
      · simp [Ctl.after, h, Ctl.popQ, hq] at h'; rw [hq]; exact List.mem_cons_of_mem _ h'
      · simpa [Ctl.after, h] using h'
  | .arr w es, obs, off, loc, C, ts1, ts2, h, he, hl, h1, h2, h3, ht, hG, hS => by
    by_cases h0 : ts2 = []
    · subst h0
      rw [List.append_nil] at ht
      rw [← ht, ctl_value d _ obs off C h h1 h2 h3]
      refine ⟨⟨fun e h' => .inl ?_, fun _ _ h1 => by cases h1⟩, fun _ => .inr rfl⟩
      rcases h with h | ⟨_, _, _, h, hq⟩ | ⟨_, h⟩
      · simpa [Ctl.after, h] using h'
      · simp [Ctl.after, h, Ctl.popQ, hq] at h'; rw [hq]; exact List.mem_cons_of_mem _ h'
      · simpa [Ctl.after, h] using h'
    cases ts1 with
    | nil =>
      rw [List.nil_append] at ht
      refine ⟨⟨fun e h => .inl h, fun _ _ h1 => ?_⟩, fun h1 => ?_⟩
      · rw [← ht] at h1; simp [toks] at h1
      · change top C.ss = _ at h1
        rcases h with h | ⟨_, _, _, h, _⟩ | ⟨_, h⟩ <;> (rw [h] at h1; cases h1)
    | cons t ts1 =>
      simp only [toks, List.cons_append, List.cons.injEq] at ht
      obtain ⟨rfl, ht⟩ := ht
      obtain ⟨y, rfl, hy⟩ := snoc_split ht h0
      rw [J.depth] at h1 h2 h3
      have hrun : ctlRun d C (.lb (off + 1) :: ts1) =
          ctlRun d ⟨(d.go C.e.1 C.e.2 none, 0), .lb :: C.ss, C.e :: C.q, (off + 1) :: C.g⟩ ts1 := by
        show ctlRun d (ctlStep d C _) _ = _
        rw [ctl_lb (by omega) (by omega) (by omega)]
      obtain ⟨i1, i2⟩ := split_elems es (off + 1 + w.length) 0 loc ⟨(d.go C.e.1 C.e.2 none, 0), .lb :: C.ss, C.e :: C.q, (off + 1) :: C.g⟩
        ts1 y C.ss rfl (by rw [hf, he]; rfl) (fun j x hx hc b hb => by
          cases hb
          rw [Nat.zero_add]
          exact hS (loc, .arr w es, off) List.mem_cons_self w es rfl List.mem_cons_self
            (List.mem_append_right _ (List.mem_singleton.2 rfl)) j x hx hc)
        (by simp; omega) (by simp; omega) (by simp; omega) hy
        (hG.sub (fun y hy => List.mem_cons_of_mem _ hy) (fun t ht => List.mem_cons_of_mem _ ht)
          (fun t ht => List.mem_append_left _ ht)) (hS.sub (fun y hy => List.mem_cons_of_mem _ hy)
          (fun t ht => List.mem_cons_of_mem _ ht) (fun t ht => List.mem_append_left _ ht))
      rw [hrun]
      refine ⟨⟨fun e h' => ?_, fun x t h9 h4 => ?_⟩, fun h9 => .inl (i2 h9)⟩
      · rcases i1.q e h' with h5 | h5
        · rcases List.mem_cons.1 h5 with rfl | h5
          · right
            rw [he]
            exact hG (loc, .arr w es, off) List.mem_cons_self rfl List.mem_cons_self
              (List.mem_append_right _ (List.mem_singleton.2 rfl))
          · exact .inl h5
        · exact .inr h5
      · cases y with
        | nil => cases h9
        | cons z y =>
          simp only [List.cons_append, List.cons.injEq] at h9
          exact i1.pri x y (by rw [h9.1]) h4
  | .obj w ms, obs, off, loc, C, ts1, ts2, h, he, hl, h1, h2, h3, ht, hG, hS => by
    by_cases h0 : ts2 = []
    · subst h0
      rw [List.append_nil] at ht
      rw [← ht, ctl_value d _ obs off C h h1 h2 h3]
      refine ⟨⟨fun e h' => .inl ?_, fun _ _ h1 => by cases h1⟩, fun _ => .inr rfl⟩
      rcases h with h | ⟨_, _, _, h, hq⟩ | ⟨_, h⟩
      · simpa [Ctl.after, h] using h'
      · simp [Ctl.after, h, Ctl.popQ, hq] at h'; rw [hq]; exact List.mem_cons_of_mem _ h'
      · simpa [Ctl.after, h] using h'
    cases ts1 with
    | nil =>
      rw [List.nil_append] at ht
      refine ⟨⟨fun e h => .inl h, fun _ _ h1 => ?_⟩, fun h1 => ?_⟩
      · rw [← ht] at h1; simp [toks] at h1
      · change top C.ss = _ at h1
        rcases h with h | ⟨_, _, _, h, _⟩ | ⟨_, h⟩ <;> (rw [h] at h1; cases h1)
    | cons t ts1 =>
      simp only [toks, List.cons_append, List.cons.injEq] at ht
      obtain ⟨rfl, ht⟩ := ht
      obtain ⟨y, rfl, hy⟩ := snoc_split ht h0
      rw [J.depth] at h1 h2 h3
      have hrun : ctlRun d C (.lcb (off + 1) :: ts1) = ctlRun d { C with ss := .lcb :: C.ss, g := (off + 1) :: C.g } ts1 := by
        show ctlRun d (ctlStep d C _) _ = _
        rw [ctl_lcb (by omega) (by omega)]
      have hg : G C.e := by
        rw [he]
        exact hG (loc, .obj w ms, off) List.mem_cons_self rfl List.mem_cons_self
          (List.mem_append_right _ (List.mem_singleton.2 rfl))
      obtain ⟨i1, i2⟩ := split_members ms (off + 1 + w.length) loc { C with ss := .lcb :: C.ss, g := (off + 1) :: C.g }
        ts1 y C.ss rfl he hg (by simp; omega) (by simp; omega) (by simp; omega) hy
        (hG.sub (fun y hy => List.mem_cons_of_mem _ hy) (fun t ht => List.mem_cons_of_mem _ ht)
          (fun t ht => List.mem_append_left _ ht)) (hS.sub (fun y hy => List.mem_cons_of_mem _ hy)
          (fun t ht => List.mem_cons_of_mem _ ht) (fun t ht => List.mem_append_left _ ht))
      rw [hrun]
      refine ⟨⟨i1.q, fun x t h9 h4 => ?_⟩, fun h9 => .inl (i2 h9)⟩
      cases y with
      | nil => cases h9
      | cons z y =>
        simp only [List.cons_append, List.cons.injEq] at h9
        exact i1.pri x y (by rw [h9.1]) h4
theorem split_elems : ∀ (es : Elems) (off i : Nat) (loc : Loc) (C : Ctl) (ts1 ts2 : List Tok) (ss : List Sym),
    C.ss = .lb :: ss → C.e = f (loc ++ [.elem i]) →
    (∀ j x, es.values[j]? = some x → x.isContainer = false → ∀ b, C.g.head? = some b → H (f (loc ++ [.elem (i + j)])) b) →
    C.ss.length + es.depth ≤ MAX_STACK → C.q.length + es.depth ≤ MAX_STACK → C.g.length + es.depth ≤ MAX_STACK → toksE off es = ts1 ++ ts2 →
    Opn f G ts1 ts2 (es.spans loc off i) → Scl f H ts1 ts2 (es.spans loc off i) →
    Mid G H C (ctlRun d C ts1) ts2 ∧ (top (ctlRun d C ts1).ss = some .lcb → G (ctlRun d C ts1).e)
  | .nil, off, i, loc, C, ts1, ts2, ss, h, he, _, _, _, _, ht, _, _ => by
    obtain ⟨rfl, rfl⟩ := List.append_eq_nil_iff.1 ht.symm
    refine ⟨⟨fun e h => .inl h, fun _ _ h1 => by cases h1⟩, fun h1 => ?_⟩
    change top C.ss = _ at h1
    rw [h] at h1; cases h1
  | .cons pre v post rest, off, i, loc, C, ts1, ts2, ss, h, he, hE, h1, h2, h3, ht, hG, hS => by
    rw [Elems.depth] at h1 h2 h3
    have hat : C.atVal := .inr (.inr ⟨ss, h⟩)
    have ha : C.after = { C with e := (C.e.1, C.e.2 + 1) } := by simp [Ctl.after, h]
    have hv := fun obs o => ctl_value d v obs o C hat (by omega) (by omega) (by omega)
    rw [toksE] at ht
    rcases List.append_eq_append_iff.1 ht with ⟨y, rfl, h4⟩ | ⟨y, h8, rfl⟩
    · rw [ctlRun_append, hv, ha]
      cases y with
      | nil =>
        rw [List.nil_append] at h4
        refine ⟨⟨fun e h => .inl h, fun _ _ h5 => ?_⟩, fun h5 => ?_⟩
        · rw [← h4] at h5
          cases rest <;> simp [Elems.sep] at h5
        · change top C.ss = _ at h5
          rw [h] at h5; cases h5
      | cons t y =>
        have ih := fun o j C' => split_elems rest o j loc C' y ts2 ss
        cases rest with
        | nil => simp [Elems.sep] at h4
        | cons p' v' q' r' =>
          simp only [Elems.sep, List.cons_append, List.cons.injEq] at h4
          obtain ⟨rfl, h4⟩ := h4
          have hrun : ctlRun d { C with e := (C.e.1, C.e.2 + 1) } (.com :: y) = ctlRun d { C with e := (C.e.1, C.e.2 + 1) } y := rfl
          rw [hrun]
          obtain ⟨i1, i2⟩ := ih (off + pre.length + v.render.length + post.length + 1) (i + 1) { C with e := (C.e.1, C.e.2 + 1) }
            h (by rw [he, hf, hf]; rfl) (fun j x hx hc b hb => by
              have := hE (j + 1) x (by rw [Elems.values]; exact hx) hc b hb
              rwa [show i + 1 + j = i + (j + 1) by omega])
            (by simp only; omega) (by simp only; omega) (by simp only; omega) h4
            (hG.sub (fun y hy => by rw [Elems.spans]; exact List.mem_append_right _ hy)
              (fun t ht => List.mem_append_right _ (List.mem_cons_of_mem _ ht)) (fun t ht => ht))
            (hS.sub (fun y hy => by rw [Elems.spans]; exact List.mem_append_right _ hy)
              (fun t ht => List.mem_append_right _ (List.mem_cons_of_mem _ ht)) (fun t ht => ht))
          exact ⟨⟨i1.q, i1.pri⟩, i2⟩
    · have hsub : ∀ z ∈ (loc ++ [Label.elem i], v, off + pre.length) :: v.spans (loc ++ [.elem i]) (off + pre.length),
          z ∈ (Elems.cons pre v post rest).spans loc off i := by
        intro z hz
        rw [Elems.spans]
        rcases List.mem_cons.1 hz with rfl | hz
        · simp
        · exact List.mem_append_left _ (List.mem_append_left _ hz)
      obtain ⟨i1, i2⟩ := split_value v _ (off + pre.length) (loc ++ [.elem i]) C ts1 y hat he
        (fun _ hc b hb => by rw [he]; exact hE 0 v rfl hc b hb)
        (by omega) (by omega) (by omega) h8 (hG.sub hsub (fun t ht => ht) (fun t ht => List.mem_append_left _ ht)) (hS.sub hsub (fun t ht => ht) (fun t ht => List.mem_append_left _ ht))
      refine ⟨⟨i1.q, fun x t h5 h6 => ?_⟩, fun h5 => ?_⟩
      · cases y with
        | nil => cases rest <;> simp [Elems.sep] at h5
        | cons z y =>
          simp only [List.cons_append, List.cons.injEq] at h5
          exact i1.pri x y (by rw [h5.1]) h6
      · rcases i2 h5 with h6 | h6
        · exact h6
        · exfalso
          subst h6
          rw [List.append_nil] at h8
          rw [← h8, hv, ha] at h5
          change top C.ss = _ at h5
          rw [h] at h5; cases h5
theorem split_members : ∀ (ms : Members) (off : Nat) (loc : Loc) (C : Ctl) (ts1 ts2 : List Tok) (ss : List Sym),
    C.ss = .lcb :: ss → C.e = f loc → G C.e →
    C.ss.length + ms.depth ≤ MAX_STACK → C.q.length + ms.depth ≤ MAX_STACK → C.g.length + ms.depth ≤ MAX_STACK → toksM off ms = ts1 ++ ts2 →
    Opn f G ts1 ts2 (ms.spans loc off) → Scl f H ts1 ts2 (ms.spans loc off) →
    Mid G H C (ctlRun d C ts1) ts2 ∧ (top (ctlRun d C ts1).ss = some .lcb → G (ctlRun d C ts1).e)
  | .nil, off, loc, C, ts1, ts2, ss, h, he, hg, _, _, _, ht, _, _ => by
    obtain ⟨rfl, rfl⟩ := List.append_eq_nil_iff.1 ht.symm
    exact ⟨⟨fun e h => .inl h, fun _ _ h1 => by cases h1⟩, fun h1 => hg⟩
  | .cons pre k mid pre2 v post rest, off, loc, C, ts1, ts2, ss, h, he, hg, h1, h2, h3, ht, hG, hS => by
    rw [Members.depth] at h1 h2 h3
    cases ts1 with
    | nil =>
      refine ⟨⟨fun e h => .inl h, fun _ _ h9 => ?_⟩, fun _ => hg⟩
      rw [List.nil_append] at ht
      rw [← ht] at h9; simp [toksM] at h9
    | cons t ts1 =>
    rw [toksM, List.cons_append, List.cons_append] at ht
    injection ht with ht0 ht
    subst ht0
    have hrun : ctlRun d C (.ky k :: ts1) = ctlRun d ⟨(d.go C.e.1 C.e.2 (some k), 0), .ky :: C.ss, C.e :: C.q, 0 :: C.g⟩ ts1 := by
      show ctlRun d (ctlStep d C _) _ = _
      rw [ctl_ky (by omega) (by omega) (by omega)]
    rw [hrun]
    generalize hD : (⟨(d.go C.e.1 C.e.2 (some k), 0), .ky :: C.ss, C.e :: C.q, 0 :: C.g⟩ : Ctl) = D
    have hat : D.atVal := by rw [← hD]; exact .inr (.inl ⟨_, _, _, rfl, rfl⟩)
    have ha : D.after = C := by rw [← hD]; rfl
    have hDs : D.ss.length = C.ss.length + 1 := by rw [← hD]; rfl
    have hDq : D.q.length = C.q.length + 1 := by rw [← hD]; rfl
    have hDg : D.g.length = C.g.length + 1 := by rw [← hD]; rfl
    have hv := fun obs o => ctl_value d v obs o D hat (by omega) (by omega) (by omega)
    rcases List.append_eq_append_iff.1 ht with ⟨y, rfl, h4⟩ | ⟨y, h8, rfl⟩
    · rw [ctlRun_append, hv, ha]
      cases y with
      | nil =>
        rw [List.nil_append] at h4
        refine ⟨⟨fun e h => .inl h, fun _ _ h5 => ?_⟩, fun _ => hg⟩
        rw [← h4] at h5
        cases rest <;> simp [Members.sep] at h5
      | cons t y =>
        have ih := fun o C' => split_members rest o loc C' y ts2 ss
        cases rest with
        | nil => simp [Members.sep] at h4
        | cons p' k' m' n' v' q' r' =>
          simp only [Members.sep, List.cons_append, List.cons.injEq] at h4
          obtain ⟨rfl, h4⟩ := h4
          have hrun : ctlRun d C (.com :: y) = ctlRun d C y := rfl
          rw [hrun]
          exact ih _ C h he hg (by omega) (by omega) (by omega) h4
            (hG.sub (fun y hy => by rw [Members.spans]; exact List.mem_append_right _ hy)
              (fun t ht => List.mem_cons_of_mem _ (List.mem_append_right _ (List.mem_cons_of_mem _ ht))) (fun t ht => ht))
            (hS.sub (fun y hy => by rw [Members.spans]; exact List.mem_append_right _ hy)
              (fun t ht => List.mem_cons_of_mem _ (List.mem_append_right _ (List.mem_cons_of_mem _ ht))) (fun t ht => ht))
    · have hsub : ∀ z ∈ (loc ++ [Label.key k], v, off + pre.length + (k.length + 2) + mid.length + 1 + pre2.length) ::
          v.spans (loc ++ [.key k]) (off + pre.length + (k.length + 2) + mid.length + 1 + pre2.length),
          z ∈ (Members.cons pre k mid pre2 v post rest).spans loc off := by
        intro z hz
        rw [Members.spans]
        rcases List.mem_cons.1 hz with rfl | hz
        · simp
        · exact List.mem_append_left _ (List.mem_append_left _ hz)
      obtain ⟨i1, i2⟩ := split_value v _ _ (loc ++ [.key k]) D ts1 y hat (by rw [hf, ← hD, he]; rfl)
        (by rintro ⟨_, h⟩; rw [← hD] at h; cases h)
        (by omega) (by omega) (by omega) h8 (hG.sub hsub (fun t ht => List.mem_cons_of_mem _ ht) (fun t ht => List.mem_append_left _ ht))
        (hS.sub hsub (fun t ht => List.mem_cons_of_mem _ ht) (fun t ht => List.mem_append_left _ ht))
      refine ⟨⟨fun e h' => ?_, fun x t h5 h6 => ?_⟩, fun h5 => ?_⟩
      · rcases i1.q e h' with h5 | h5
        · rw [← hD] at h5
          rcases List.mem_cons.1 h5 with rfl | h5
          · exact .inr hg
          · exact .inl h5
        · exact .inr h5
      · cases y with
        | nil => cases rest <;> simp [Members.sep] at h5
        | cons z y =>
          simp only [List.cons_append, List.cons.injEq] at h5
          exact i1.pri x y (by rw [h5.1]) h6
      · rcases i2 h5 with h6 | h6
        · exact h6
        · subst h6
          rw [List.append_nil] at h8
          rw [← h8, hv, ha]
          exact hg
end
end

end JPS
