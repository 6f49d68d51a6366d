import Verif.DocCuts
import Verif.InChunk
import Verif.ParSafeAll
/-!
# Where the arrays on the stacks begin

The entries of the query stack at a cut, each with the position of the array its state was made for.  With it the condition of the
safety proof on filters (`ChunksPred`) is turned into one on the document: filtered arrays that lie across a later cut begin before
the first one.
-/

set_option autoImplicit false

namespace JPS
open Spec

/-- For each entry of the query stack below the syntax stack `ss` the position of the `[` it was made for (`none`: a key); `g` are
the positions of the brackets on the syntax stack. -/
def lbPos : List Sym → List Nat → List (Option Nat)
  | .lcb :: ss, _ :: g => lbPos ss g
  | .lb :: ss, b :: g => some b :: lbPos ss g
  | .ky :: ss, _ :: g => none :: lbPos ss g
  | _, _ => []

/-- The states of the current element and of the entries of the query stack with their positions. -/
def Ctl.frs (C : Ctl) : List (Nat × Option Nat) := ((C.e :: C.q).map Prod.fst).zip (lbPos C.ss C.g)

/-- All of them satisfy `Q`. -/
def Fr (Q : Nat × Option Nat → Prop) (C : Ctl) : Prop := ∀ x ∈ C.frs, Q x

theorem lbPos_nil (ss : List Sym) : lbPos ss [] = [] := by
  cases ss with
  | nil => rfl
  | cons x ss => cases x <;> rfl

theorem Fr.after {Q : Nat × Option Nat → Prop} {C : Ctl} (h : Fr Q C) (ha : C.atVal) : Fr Q C.after := by
  obtain ⟨e, ss, q, g⟩ := C
  rcases ha with ha | ⟨ss', e', q', ha, hq⟩ | ⟨ss', ha⟩ <;> simp only at ha <;> subst ha
  · exact h
  · simp only at hq; subst hq
    cases g with
    | nil =>
      intro x hx
      simp [Ctl.after, Ctl.popQ, Ctl.frs, pop, lbPos_nil] at hx
    | cons b g =>
      intro x hx
      refine h x ?_
      simp only [Ctl.frs, lbPos, List.map_cons, List.zip_cons_cons]
      exact List.mem_cons_of_mem _ hx
  · exact h

theorem Fr.lb {Q : Nat × Option Nat → Prop} {C : Ctl} (h : Fr Q C) {s n b : Nat} (hq : Q (s, some b)) :
    Fr Q ⟨(s, n), .lb :: C.ss, C.e :: C.q, b :: C.g⟩ := by
  intro x hx
  simp only [Ctl.frs, lbPos, List.map_cons, List.zip_cons_cons, List.mem_cons] at hx
  rcases hx with rfl | hx
  · exact hq
  · exact h x hx

theorem Fr.ky {Q : Nat × Option Nat → Prop} {C : Ctl} (h : Fr Q C) {s n b : Nat} (hq : Q (s, none)) :
    Fr Q ⟨(s, n), .ky :: C.ss, C.e :: C.q, b :: C.g⟩ := by
  intro x hx
  simp only [Ctl.frs, lbPos, List.map_cons, List.zip_cons_cons, List.mem_cons] at hx
  rcases hx with rfl | hx
  · exact hq
  · exact h x hx

theorem Fr.lcb {Q : Nat × Option Nat → Prop} {C : Ctl} (h : Fr Q C) {b : Nat} :
    Fr Q { C with ss := .lcb :: C.ss, g := b :: C.g } := h

/-- The elements of the arrays of `L` opened in `ts1` and closed in `ts2` satisfy `Q`. -/
def Fra (f : Loc → Nat × Nat) (Q : Nat × Option Nat → Prop) (ts1 ts2 : List Tok) (L : List (Loc × J × Nat)) : Prop :=
  ∀ y ∈ L, ∀ w es, y.2.1 = .arr w es → openTok y.2.1 y.2.2 ∈ ts1 → closeTok y.2.1 y.2.2 ∈ ts2 →
    Q ((f (y.1 ++ [.elem 0])).1, some (y.2.2 + 1))

theorem Fra.sub {f : Loc → Nat × Nat} {Q : Nat × Option Nat → Prop} {ts1 ts2 us1 us2 : List Tok} {L M : List (Loc × J × Nat)}
    (h : Fra f Q ts1 ts2 L) (hM : ∀ y ∈ M, y ∈ L) (h1 : ∀ t ∈ us1, t ∈ ts1) (h2 : ∀ t ∈ us2, t ∈ ts2) : Fra f Q us1 us2 M :=
  fun y hy w es hc ho hcl => h y (hM y hy) w es hc (h1 _ ho) (h2 _ hcl)

section
variable (d : QDfa) (f : Loc → Nat × Nat) (hf : Tracked d f) (Q : Nat × Option Nat → Prop)
  (hk : ∀ l k, Q ((f (l ++ [.key k])).1, none))
include hf hk

mutual
theorem frames_value : ∀ (v : J) (obs : Str → Str) (off : Nat) (loc : Loc) (C : Ctl) (ts1 ts2 : List Tok), C.atVal →
    C.e = f loc → C.ss.length + v.depth ≤ MAX_STACK → C.q.length + v.depth ≤ MAX_STACK → C.g.length + v.depth ≤ MAX_STACK →
    toks obs off v = ts1 ++ ts2 → Fra f Q ts1 ts2 ((loc, v, off) :: v.spans loc off) → Fr Q C → Fr Q (ctlRun d C ts1)
  | .lit t, obs, off, loc, C, ts1, ts2, h, he, _, _, _, ht, _, hC => by
    cases ts1 with
    | nil => exact hC
    | cons t ts1 =>
      simp only [toks, List.cons_append, List.cons.injEq] at ht
      obtain ⟨rfl, ht⟩ := ht
      obtain ⟨rfl, rfl⟩ := List.append_eq_nil_iff.1 ht.symm
      simp only [ctlRun, List.foldl_cons, List.foldl_nil, ctl_pri _ h]
      exact hC.after h
  | .str r, obs, off, loc, C, ts1, ts2, h, he, _, _, _, ht, _, hC => by
    cases ts1 with
    | nil => exact hC
    | cons t ts1 =>
      simp only [toks, List.cons_append, List.cons.injEq] at ht
      obtain ⟨rfl, ht⟩ := ht
      obtain ⟨rfl, rfl⟩ := List.append_eq_nil_iff.1 ht.symm
      simp only [ctlRun, List.foldl_cons, List.foldl_nil, ctl_pri _ h]
      exact hC.after h
  | .arr w es, obs, off, loc, C, ts1, ts2, h, he, h1, h2, h3, ht, hG, hC => by
    by_cases h0 : ts2 = []
    · subst h0
      rw [List.append_nil] at ht
      rw [← ht, ctl_value d _ obs off C h h1 h2 h3]
      exact hC.after h
    cases ts1 with
    | nil => exact hC
    | cons t ts1 =>
      simp only [toks, List.cons_append, List.cons.injEq] at ht
      obtain ⟨rfl, ht⟩ := ht
      obtain ⟨y, rfl, hy⟩ := snoc_split ht h0
      rw [J.depth] at h1 h2 h3
      have hrun : ctlRun d C (.lb (off + 1) :: ts1) =
          ctlRun d ⟨(d.go C.e.1 C.e.2 none, 0), .lb :: C.ss, C.e :: C.q, (off + 1) :: C.g⟩ ts1 := by
        show ctlRun d (ctlStep d C _) _ = _
        rw [ctl_lb (by omega) (by omega) (by omega)]
      rw [hrun]
      have hq := hG (loc, .arr w es, off) List.mem_cons_self w es rfl List.mem_cons_self
        (List.mem_append_right _ (List.mem_singleton.2 rfl))
      have hs : (f (loc ++ [.elem 0])).1 = d.go C.e.1 C.e.2 none := by rw [hf, he]; rfl
      rw [hs] at hq
      exact frames_elems es (off + 1 + w.length) 0 loc ⟨(d.go C.e.1 C.e.2 none, 0), .lb :: C.ss, C.e :: C.q, (off + 1) :: C.g⟩
        ts1 y C.ss rfl (by rw [hf, he]; rfl) (by simp; omega) (by simp; omega) (by simp; omega) hy
        (hG.sub (fun y hy => List.mem_cons_of_mem _ hy) (fun t ht => List.mem_cons_of_mem _ ht)
          (fun t ht => List.mem_append_left _ ht)) (hC.lb hq)
  | .obj w ms, obs, off, loc, C, ts1, ts2, h, he, h1, h2, h3, ht, hG, hC => by
    by_cases h0 : ts2 = []
    · subst h0
      rw [List.append_nil] at ht
      rw [← ht, ctl_value d _ obs off C h h1 h2 h3]
      exact hC.after h
    cases ts1 with
    | nil => exact hC
    | cons t ts1 =>
      simp only [toks, List.cons_append, List.cons.injEq] at ht
      obtain ⟨rfl, ht⟩ := ht
      obtain ⟨y, rfl, hy⟩ := snoc_split ht h0
      rw [J.depth] at h1 h2 h3
      have hrun : ctlRun d C (.lcb (off + 1) :: ts1) = ctlRun d { C with ss := .lcb :: C.ss, g := (off + 1) :: C.g } ts1 := by
        show ctlRun d (ctlStep d C _) _ = _
        rw [ctl_lcb (by omega) (by omega)]
      rw [hrun]
      exact frames_members ms (off + 1 + w.length) loc { C with ss := .lcb :: C.ss, g := (off + 1) :: C.g }
        ts1 y C.ss rfl he (by simp; omega) (by simp; omega) (by simp; omega) hy
        (hG.sub (fun y hy => List.mem_cons_of_mem _ hy) (fun t ht => List.mem_cons_of_mem _ ht)
          (fun t ht => List.mem_append_left _ ht)) hC.lcb
theorem frames_elems : ∀ (es : Elems) (off i : Nat) (loc : Loc) (C : Ctl) (ts1 ts2 : List Tok) (ss : List Sym),
    C.ss = .lb :: ss → C.e = f (loc ++ [.elem i]) →
    C.ss.length + es.depth ≤ MAX_STACK → C.q.length + es.depth ≤ MAX_STACK → C.g.length + es.depth ≤ MAX_STACK → toksE off es = ts1 ++ ts2 →
    Fra f Q ts1 ts2 (es.spans loc off i) → Fr Q C → Fr Q (ctlRun d C ts1)
  | .nil, off, i, loc, C, ts1, ts2, ss, h, he, _, _, _, ht, _, hC => by
    obtain ⟨rfl, rfl⟩ := List.append_eq_nil_iff.1 ht.symm
    exact hC
  | .cons pre v post rest, off, i, loc, C, ts1, ts2, ss, h, he, h1, h2, h3, ht, hG, hC => by
    rw [Elems.depth] at h1 h2 h3
    have hat : C.atVal := .inr (.inr ⟨ss, h⟩)
    have ha : C.after = { C with e := (C.e.1, C.e.2 + 1) } := by simp [Ctl.after, h]
    have hv := fun obs o => ctl_value d v obs o C hat (by omega) (by omega) (by omega)
    have hC' : Fr Q { C with e := (C.e.1, C.e.2 + 1) } := hC
    rw [toksE] at ht
    rcases List.append_eq_append_iff.1 ht with ⟨y, rfl, h4⟩ | ⟨y, h8, rfl⟩
    · rw [ctlRun_append, hv, ha]
      cases y with
      | nil => exact hC'
      | cons t y =>
        have ih := fun o j C' => frames_elems rest o j loc C' y ts2 ss
        cases rest with
        | nil => simp [Elems.sep] at h4
        | cons p' v' q' r' =>
          simp only [Elems.sep, List.cons_append, List.cons.injEq] at h4
          obtain ⟨rfl, h4⟩ := h4
          have hrun : ctlRun d { C with e := (C.e.1, C.e.2 + 1) } (.com :: y) = ctlRun d { C with e := (C.e.1, C.e.2 + 1) } y := rfl
          rw [hrun]
          exact ih (off + pre.length + v.render.length + post.length + 1) (i + 1) { C with e := (C.e.1, C.e.2 + 1) }
            h (by rw [he, hf, hf]; rfl)
            (by simp only; omega) (by simp only; omega) (by simp only; omega) h4
            (hG.sub (fun y hy => by rw [Elems.spans]; exact List.mem_append_right _ hy)
              (fun t ht => List.mem_append_right _ (List.mem_cons_of_mem _ ht)) (fun t ht => ht)) hC'
    · have hsub : ∀ z ∈ (loc ++ [Label.elem i], v, off + pre.length) :: v.spans (loc ++ [.elem i]) (off + pre.length),
          z ∈ (Elems.cons pre v post rest).spans loc off i := by
        intro z hz
        rw [Elems.spans]
        rcases List.mem_cons.1 hz with rfl | hz
        · simp
        · exact List.mem_append_left _ (List.mem_append_left _ hz)
      exact frames_value v _ (off + pre.length) (loc ++ [.elem i]) C ts1 y hat he
        (by omega) (by omega) (by omega) h8 (hG.sub hsub (fun t ht => ht) (fun t ht => List.mem_append_left _ ht)) hC
theorem frames_members : ∀ (ms : Members) (off : Nat) (loc : Loc) (C : Ctl) (ts1 ts2 : List Tok) (ss : List Sym),
    C.ss = .lcb :: ss → C.e = f loc →
    C.ss.length + ms.depth ≤ MAX_STACK → C.q.length + ms.depth ≤ MAX_STACK → C.g.length + ms.depth ≤ MAX_STACK → toksM off ms = ts1 ++ ts2 →
    Fra f Q ts1 ts2 (ms.spans loc off) → Fr Q C → Fr Q (ctlRun d C ts1)
  | .nil, off, loc, C, ts1, ts2, ss, h, he, _, _, _, ht, _, hC => by
    obtain ⟨rfl, rfl⟩ := List.append_eq_nil_iff.1 ht.symm
    exact hC
  | .cons pre k mid pre2 v post rest, off, loc, C, ts1, ts2, ss, h, he, h1, h2, h3, ht, hG, hC => by
    rw [Members.depth] at h1 h2 h3
    cases ts1 with
    | nil => exact hC
    | cons t ts1 =>
    rw [toksM, List.cons_append, List.cons_append] at ht
    injection ht with ht0 ht
    subst ht0
    have hrun : ctlRun d C (.ky k :: ts1) = ctlRun d ⟨(d.go C.e.1 C.e.2 (some k), 0), .ky :: C.ss, C.e :: C.q, 0 :: C.g⟩ ts1 := by
      show ctlRun d (ctlStep d C _) _ = _
      rw [ctl_ky (by omega) (by omega) (by omega)]
    rw [hrun]
    have hq := hk loc k
    have hs : (f (loc ++ [.key k])).1 = d.go C.e.1 C.e.2 (some k) := by rw [hf, he]; rfl
    rw [hs] at hq
    have hCD := hC.ky (n := 0) (b := 0) hq
    generalize hD : (⟨(d.go C.e.1 C.e.2 (some k), 0), .ky :: C.ss, C.e :: C.q, 0 :: C.g⟩ : Ctl) = D at hCD ⊢
    have hat : D.atVal := by rw [← hD]; exact .inr (.inl ⟨_, _, _, rfl, rfl⟩)
    have ha : D.after = C := by rw [← hD]; rfl
    have hDs : D.ss.length = C.ss.length + 1 := by rw [← hD]; rfl
    have hDq : D.q.length = C.q.length + 1 := by rw [← hD]; rfl
    have hDg : D.g.length = C.g.length + 1 := by rw [← hD]; rfl
    have hv := fun obs o => ctl_value d v obs o D hat (by omega) (by omega) (by omega)
    rcases List.append_eq_append_iff.1 ht with ⟨y, rfl, h4⟩ | ⟨y, h8, rfl⟩
    · rw [ctlRun_append, hv, ha]
      cases y with
      | nil => exact hC
      | cons t y =>
        have ih := fun o C' => frames_members rest o loc C' y ts2 ss
        cases rest with
        | nil => simp [Members.sep] at h4
        | cons p' k' m' n' v' q' r' =>
          simp only [Members.sep, List.cons_append, List.cons.injEq] at h4
          obtain ⟨rfl, h4⟩ := h4
          have hrun : ctlRun d C (.com :: y) = ctlRun d C y := rfl
          rw [hrun]
          exact ih _ C h he (by omega) (by omega) (by omega) h4
            (hG.sub (fun y hy => by rw [Members.spans]; exact List.mem_append_right _ hy)
              (fun t ht => List.mem_cons_of_mem _ (List.mem_append_right _ (List.mem_cons_of_mem _ ht))) (fun t ht => ht)) hC
    · have hsub : ∀ z ∈ (loc ++ [Label.key k], v, off + pre.length + (k.length + 2) + mid.length + 1 + pre2.length) ::
          v.spans (loc ++ [.key k]) (off + pre.length + (k.length + 2) + mid.length + 1 + pre2.length),
          z ∈ (Members.cons pre k mid pre2 v post rest).spans loc off := by
        intro z hz
        rw [Members.spans]
        rcases List.mem_cons.1 hz with rfl | hz
        · simp
        · exact List.mem_append_left _ (List.mem_append_left _ hz)
      exact frames_value v _ _ (loc ++ [.key k]) D ts1 y hat (by rw [hf, ← hD, he]; rfl)
        (by omega) (by omega) (by omega) h8 (hG.sub hsub (fun t ht => List.mem_cons_of_mem _ ht) (fun t ht => List.mem_append_left _ ht)) hCD
end
end

/-! ### Brackets above the lowest height are new -/

/-- The `[` above height `lo` of the syntax stack begin behind `k`. -/
def TopNew (lo k : Nat) (C : Ctl) : Prop :=
  ∀ i b, i < C.ss.length - lo → C.ss[i]? = some .lb → C.g[i]? = some b → k < b

theorem push_shape {ss : List Sym} {g : List Nat} (hl : ss.length = g.length) (x : Sym) (p : Nat) :
    ∃ n, push ss x = (x :: ss).drop n ∧ push g p = (p :: g).drop n := by
  unfold push
  rw [hl]
  split
  · exact ⟨0, rfl, rfl⟩
  · exact ⟨1, rfl, rfl⟩

theorem ctlStep_shape (d : QDfa) (C : Ctl) (t : Tok) (hl : C.ss.length = C.g.length) :
    ∃ n x p, (ctlStep d C t).ss = (x :: C.ss).drop n ∧ (ctlStep d C t).g = (p :: C.g).drop n ∧
      (x = .lb → t.bracket = some p) := by
  cases t with
  | lcb p =>
    obtain ⟨n, h1, h2⟩ := push_shape hl .lcb p
    exact ⟨n, .lcb, p, h1, h2, fun h => by cases h⟩
  | lb p =>
    obtain ⟨n, h1, h2⟩ := push_shape hl .lb p
    exact ⟨n, .lb, p, h1, h2, fun _ => rfl⟩
  | ky k =>
    obtain ⟨n, h1, h2⟩ := push_shape hl .ky 0
    exact ⟨n, .ky, 0, h1, h2, fun h => by cases h⟩
  | com => exact ⟨1, .lcb, 0, rfl, rfl, fun h => by cases h⟩
  | pri s =>
    simp only [ctlStep]
    split
    · exact ⟨2, .lcb, 0, by simp [pop], by simp [pop], fun h => by cases h⟩
    split
    · exact ⟨1, .lcb, 0, rfl, rfl, fun h => by cases h⟩
    · exact ⟨1, .lcb, 0, rfl, rfl, fun h => by cases h⟩
  | rcb p =>
    simp only [ctlStep]
    split
    · exact ⟨2, .lcb, 0, by simp [pop], by simp [pop], fun h => by cases h⟩
    split
    · exact ⟨3, .lcb, 0, by cases C.ss <;> simp [pop], by cases C.g <;> simp [pop], fun h => by cases h⟩
    split
    · exact ⟨2, .lcb, 0, by simp [pop], by simp [pop], fun h => by cases h⟩
    · exact ⟨1, .lcb, 0, rfl, rfl, fun h => by cases h⟩
  | rb p =>
    simp only [ctlStep]
    split
    · exact ⟨2, .lcb, 0, by simp [pop], by simp [pop], fun h => by cases h⟩
    split
    · exact ⟨3, .lcb, 0, by cases C.ss <;> simp [pop], by cases C.g <;> simp [pop], fun h => by cases h⟩
    split
    · exact ⟨2, .lcb, 0, by simp [pop], by simp [pop], fun h => by cases h⟩
    · exact ⟨1, .lcb, 0, rfl, rfl, fun h => by cases h⟩

theorem TopNew.run {d : QDfa} {k : Nat} : ∀ (ts : List Tok) {lo : Nat} {C : Ctl}, C.ss.length = C.g.length →
    (∀ t ∈ ts, ∀ p, t.bracket = some p → k < p) → TopNew lo k C → TopNew (lowSs lo C.ss ts) k (ctlRun d C ts)
  | [], _, _, _, _, h => h
  | t :: ts, lo, C, hl, ht, h => by
    have hss := ctlStep_ss d C t
    rw [lowSs, ← hss]
    refine TopNew.run ts (C := ctlStep d C t) (ctlStep_g d C t hl).2 (fun u hu => ht u (List.mem_cons_of_mem _ hu)) ?_
    obtain ⟨n, x, p, h1, h2, h3⟩ := ctlStep_shape d C t hl
    intro i b hi hs hg
    have hlen : (ctlStep d C t).ss.length = C.ss.length + 1 - n := by rw [h1]; simp
    rw [h1, List.getElem?_drop] at hs
    rw [h2, List.getElem?_drop] at hg
    cases hn : n + i with
    | zero =>
      rw [hn] at hs hg
      simp only [List.getElem?_cons_zero, Option.some.injEq] at hs hg
      subst hg
      exact ht t List.mem_cons_self _ (h3 hs)
    | succ j =>
      rw [hn] at hs hg
      rw [List.getElem?_cons_succ] at hs hg
      exact h j b (by omega) hs hg

theorem lowSs_shift (k : Nat) : ∀ (ts : List Tok) (lo : Nat) (ss : List Sym), lowSs lo ss (ts.map (Tok.shift k)) = lowSs lo ss ts
  | [], _, _ => rfl
  | t :: ts, lo, ss => by
    rw [List.map_cons, lowSs, lowSs, ssStep_shift, lowSs_shift k ts]

theorem lbPos_get : ∀ (ss : List Sym) (g : List Nat) (t m : Nat), ss.length = g.length → t < nk (ss.take m) →
    ∃ o, (lbPos ss g)[t]? = some o ∧ (∀ b, o = some b → ∃ i, i < m ∧ ss[i]? = some .lb ∧ g[i]? = some b)
  | [], g, t, m, _, h => by simp [nk] at h
  | x :: ss, [], t, m, hl, _ => by simp at hl
  | x :: ss, b :: g, t, 0, _, h => by simp [nk] at h
  | x :: ss, b :: g, t, m + 1, hl, h => by
    have hl' : ss.length = g.length := by simpa using hl
    rw [List.take_succ_cons] at h
    have lift : ∀ {t'}, t' < nk (ss.take m) → ∃ o, (lbPos ss g)[t']? = some o ∧
        (∀ b', o = some b' → ∃ i, i < m + 1 ∧ (x :: ss)[i]? = some .lb ∧ (b :: g)[i]? = some b') := by
      intro t' ht'
      obtain ⟨o, h1, h2⟩ := lbPos_get ss g t' m hl' ht'
      refine ⟨o, h1, fun b' hb => ?_⟩
      obtain ⟨i, a1, a2, a3⟩ := h2 b' hb
      exact ⟨i + 1, by omega, by simpa using a2, by simpa using a3⟩
    cases x with
    | lcb => exact lift (by simpa [nk] using h)
    | lb =>
      cases t with
      | zero => exact ⟨some b, rfl, fun b' hb => by cases hb; exact ⟨0, by omega, rfl, rfl⟩⟩
      | succ t => exact lift (by simpa [nk] using h)
    | ky =>
      cases t with
      | zero => exact ⟨none, rfl, fun b' hb => by cases hb⟩
      | succ t => exact lift (by simpa [nk] using h)

theorem nk_bot (ss : List Sym) (lo : Nat) : nk ss = nk (ss.take (ss.length - lo)) + nk (bot lo ss) := by
  rw [bot, ← nk_append, List.take_append_drop]

/-- If entries accepting a filter were made for arrays that begin up to `k` and the brackets above `lo` begin behind it, these
entries are low. -/
theorem predLow_of {d : QDfa} {C : Ctl} {lo k : Nat} (hl : C.ss.length = C.g.length) (hq : C.q.length = nk C.ss)
    (hn : TopNew lo k C)
    (hf : Fr (fun x => d.accept x.1 = .predicate → ∃ b, x.2 = some b ∧ b ≤ k) C) :
    PredLow d (nk (bot lo C.ss) + 1) ((C.e :: C.q).map Prod.fst) := by
  intro i s hs hp
  apply Classical.byContradiction
  intro hi
  have hlen : ((C.e :: C.q).map Prod.fst).length = nk C.ss + 1 := by simp [hq]
  have hil : i < nk C.ss + 1 := by
    rcases Nat.lt_or_ge i (nk C.ss + 1) with h | h
    · exact h
    · rw [List.getElem?_eq_none (by simpa [hq] using h)] at hs; cases hs
  rw [List.getElem?_reverse (by rw [hlen]; exact hil), hlen] at hs
  have hb := nk_bot C.ss lo
  obtain ⟨o, h1, h2⟩ := lbPos_get C.ss C.g (nk C.ss + 1 - 1 - i) (C.ss.length - lo) hl (by omega)
  have hm : (s, o) ∈ C.frs := by
    refine List.mem_of_getElem? (i := nk C.ss + 1 - 1 - i) ?_
    rw [Ctl.frs, List.getElem?_zip_eq_some]
    exact ⟨hs, h1⟩
  obtain ⟨b, hb1, hb2⟩ := hf _ hm hp
  obtain ⟨j, a1, a2, a3⟩ := h2 b hb1
  have := hn j b a1 a2 a3
  omega

section
variable {pre trail : Str} {v : J} {ps : List Str}

/-- From the document to `ChunksPred`: no entry made for a key accepts a filter, and arrays across a cut whose elements are filtered
begin in the first chunk `x0`. -/
theorem doc_chunksPred {d : QDfa} {n : Nat} (hd : Dead d n) (h1n : 1 < n) (h : DocOK pre trail v)
    (hps : ps.flatten = pre ++ v.render ++ trail) (hne : [] ∉ ps) (hcut : CutsAtStrings pre v ps)
    (hkey : ∀ l k, d.accept (locState d 1 0 (l ++ [.key k])).1 ≠ .predicate) {b0 : Nat}
    (harr : ∀ xs ys, ps = xs ++ ys → xs ≠ [] → ys ≠ [] → ∀ y ∈ allSpans pre v, ∀ w es, y.2.1 = .arr w es →
      across y xs.flatten.length → d.accept (locState d 1 0 (y.1 ++ [.elem 0])).1 = .predicate → y.2.2 < b0) :
    ∀ (cs xs : List Str) (a : SA) (lo : Nat), ps = xs ++ cs → xs ≠ [] → b0 ≤ xs.flatten.length →
      a.Is (ctlRun d Ctl.init (pieceToks 0 xs)) → lo ≤ a.ss.length → TopNew lo b0 (ctlRun d Ctl.init (pieceToks 0 xs)) →
      ChunksPred d lo a cs
  | [], _, _, _, _, _, _, _, _, _ => trivial
  | c :: cs, xs, a, lo, e, hx, hb, ha, hlo, hn => by
    obtain ⟨h1, h2, hadj⟩ := doc_pieceToks h hps hne hcut
    have hspl : toks id pre.length v = pieceToks 0 xs ++ pieceToks xs.flatten.length (c :: cs) := by
      rw [← h2, e, pieceToks_append, Nat.zero_add]
    have hfit := (fits_value v id pre.length [] .val (.inl rfl) (.inl rfl) (fun hc => by rw [h.container] at hc; cases hc)
      (by simpa using h.depth)).1
    rw [hspl, fitsAll_append] at hfit
    have hok : CtlOK n (ctlRun d Ctl.init (pieceToks 0 xs)) :=
      CtlOK.run hd (pieceToks 0 xs) (C := Ctl.init) (m := .val) ⟨rfl, h1n, by simp [Ctl.init]⟩ trivial
        ⟨fun _ => .inl rfl, fun hz => by simp [top, Ctl.init] at hz⟩ hfit.1
    have hg := (ctlRun_g d (pieceToks 0 xs) (0 + xs.flatten.length) Ctl.init rfl (by simp [Ctl.init])
      (fun t ht p hp => (pieceToks_pos xs 0 ht hp).2)).1
    have hfr := frames_value d (locState d 1 0) (tracked_locState d 1 0)
      (fun x => d.accept x.1 = .predicate → ∃ b, x.2 = some b ∧ b ≤ b0) (fun l k hp => absurd hp (hkey l k))
      v id pre.length [] Ctl.init (pieceToks 0 xs) (pieceToks xs.flatten.length (c :: cs)) (.inl rfl) rfl
      (by simpa [Ctl.init] using h.depth) (by simpa [Ctl.init] using h.depth) (by simpa [Ctl.init] using h.depth) hspl
      (by
        intro y hy w es hw ho hcl hp
        have p1 := pieceToks_pos xs 0 ho (openTok_bracket _ _)
        have p2 := pieceToks_pos (c :: cs) _ hcl (closeTok_bracket _ _)
        have := harr xs (c :: cs) e hx (by simp) y hy w es hw ⟨by omega, by omega⟩ hp
        exact ⟨_, rfl, by omega⟩)
      (by intro x hx; simp [Ctl.frs, Ctl.init, lbPos] at hx)
    have hlow := predLow_of hg hok.len hn hfr
    have hxc : pieceToks 0 (xs ++ [c]) = pieceToks 0 xs ++ (lexAll c).map (Tok.shift xs.flatten.length) := by
      rw [pieceToks_append]; simp [pieceToks]
    have ha' : ({ a with tl := [] } : SA).Is (ctlRun d Ctl.init (pieceToks 0 xs)) := ⟨ha.e, ha.ss, ha.q⟩
    have hex := ha'.exec (d := d) (s := c) xs.flatten.length
    rw [← ctlRun_append, ← hxc] at hex
    refine ⟨hlo, ?_, ?_⟩
    · have e1 : (a.elt :: a.qs).map Elt.st = ((ctlRun d Ctl.init (pieceToks 0 xs)).e :: (ctlRun d Ctl.init (pieceToks 0 xs)).q).map Prod.fst := by
        rw [ha.e, ha.q]; simp [Elt.key]
      rw [e1, ← ha.ss]
      exact hlow
    · refine doc_chunksPred hd h1n h hps hne hcut hkey harr cs (xs ++ [c]) _ _ (by rw [e]; simp) (by simp)
        (by rw [List.flatten_append, List.length_append]; omega) hex ?_ ?_
      · obtain ⟨_, f2, _, _⟩ := execAutomaton_fields d c { a with tl := [] }
        rw [f2, runToks_ss]
        exact lowSs_le _ hlo
      · have := hn.run (d := d) ((lexAll c).map (Tok.shift xs.flatten.length)) hg (fun t ht p hp => by
          have := pieceToks_pos [c] xs.flatten.length (t := t) (by simpa [pieceToks] using ht) hp
          omega)
        rw [lowSs_shift, ha.ss, ← ctlRun_append, ← hxc] at this
        exact this

end

end JPS
