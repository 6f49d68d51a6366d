import Verif.ParMerge
/-!
# Units and chunks of `combine`
-/

set_option autoImplicit false

namespace JPS
open Spec

theorem KC.syms {d : QDfa} {n : Nat} {left right : Str} : ∀ (xs : List (USym × Nat)) {k : K} {C : Comb}, KC k C → symsOK d n C xs →
    (xs.foldl (K.sym d left right) k).bad = false → KC (xs.foldl (K.sym d left right) k) (xs.foldl (csym d) C)
  | [], _, _, h, _, _ => h
  | x :: xs, k, C, h, hs, hb => by
    have hb1 : (k.sym d left right x).bad = false := by
      cases e : (k.sym d left right x).bad with
      | false => rfl
      | true =>
        have := foldl_bad (f := K.sym d left right) (fun k x => K.sym_bad) xs e
        rw [List.foldl_cons] at hb
        rw [this] at hb; cases hb
    exact KC.syms xs (h.sym hs.1.1 hs.1.2 hb1) hs.2 hb

theorem resolve_strip (s : Str) (t : MTuple) : resolve s t.strip = resolve s t := rfl

theorem KC.addTuple {k : K} {C : Comb} (h : KC k C) (s : Str) (t : MTuple) :
    KC (k.addTuple s t) { C with tl := C.tl ++ [resolve s t] } := by
  have hk : k.q.tl.map (fun t => (⟨t.st, t.text.getD []⟩ : Tuple)) = C.tl := h.tl
  unfold K.addTuple resolve
  cases t.span with
  | none => exact ⟨h.lv, h.p, h.ss, by simp [K.tuples, K.orUb, hk, MTuple.ofText], h.roots⟩
  | some p => exact ⟨h.lv, h.p, h.ss, by simp [K.tuples, K.orUb, hk, MTuple.ofText], h.roots⟩

theorem KC.collect {k : K} {C : Comb} {d : QDfa} (h : KC k C) (hidx : NoIdx d C.st) (s : Str) (t : MTuple) :
    KC (k.collect d s t) { C with tl := C.tl ++ (if C.st = 0 then [] else [resolve s t]) } := by
  obtain ⟨ns, c, _, _, _, h6, h7, _⟩ := h.last
  unfold K.collect
  rw [h6]
  dsimp only
  rw [h7]
  by_cases h0 : C.st = 0
  · rw [if_pos h0, if_pos h0, List.append_nil]; exact h
  · rw [if_neg h0, if_neg h0, if_pos (show d.lower C.st = 0 ∧ d.upper C.st = 0 from hidx)]; exact h.addTuple s t

theorem KC.collects {d : QDfa} {s : Str} : ∀ (ts : List MTuple) {k : K} {C : Comb}, KC k C → NoIdx d C.st →
    KC (ts.foldl (K.collect d s) k) { C with tl := C.tl ++ (if C.st = 0 then [] else ts.map (resolve s)) }
  | [], _, C, h, _ => by simpa using h
  | t :: ts, k, C, h, hi => by
    have := KC.collects (s := s) ts (h.collect hi s t) hi
    rw [List.foldl_cons]
    by_cases h0 : C.st = 0
    · have h0' : ∀ l, Comb.st { C with tl := l } = 0 := fun _ => h0
      simp only [h0, if_true] at this ⊢
      simpa [h0'] using this
    · have h0' : ∀ l, Comb.st { C with tl := l } ≠ 0 := fun _ => h0
      simp only [h0, if_false] at this ⊢
      simpa [h0', List.append_assoc] using this

theorem K.sym_re {d : QDfa} {left right : Str} (k : K) (x : USym × Nat) : (k.sym d left right x).re = k.re := by
  unfold K.sym
  cases x.1 with
  | rcb =>
    show (k.rcb d left right x.2).re = k.re
    unfold K.rcb
    cases k.cur with
    | none => rfl
    | some c =>
      have h1 : (k.rcbOut d left right x.2 c).re = k.re := by
        unfold K.rcbOut
        split
        · split <;> rfl
        · rfl
      dsimp only
      rw [← h1]
      generalize k.rcbOut d left right x.2 c = k1
      unfold K.rcbEnd
      repeat' (first | rfl | split)
  | rb =>
    show (k.rb d left right x.2).re = k.re
    unfold K.rb
    have h1 : (k.rbOut d left right x.2).re = k.re := by
      unfold K.rbOut
      repeat' (first | rfl | split)
    rw [← h1]
    generalize k.rbOut d left right x.2 = k1
    unfold K.rbEnd
    repeat' (first | rfl | split)
  | object => rfl
  | array => rfl
  | pri => rfl

theorem K.addTuple_re {s : Str} (k : K) (t : MTuple) : (k.addTuple s t).re = k.re := by
  unfold K.addTuple; split <;> rfl

theorem K.expire_re {d : QDfa} (st : Nat) (k : K) : (k.expire d st).re = k.re := by
  unfold K.expire
  repeat' (first | rfl | split)

theorem K.collect_re {d : QDfa} {s : Str} (k : K) (t : MTuple) : (k.collect d s t).re = k.re := by
  unfold K.collect
  split
  · rfl
  · split
    · rfl
    · split
      · exact K.addTuple_re _ _
      · dsimp only
        split
        · exact K.expire_re _ _
        · split
          · exact K.expire_re _ _
          · rw [K.addTuple_re]; split <;> rfl

/-- The first root of a state. -/
theorem find_root {l : List (Nat × Head)} {c : List Nat} {s : Nat} {h : Head} (hl : (l.take c.length).map (·.1) = c) (hs : s ∈ c)
    (hg : l[c.idxOf s]? = some (s, h)) : l.find? (fun r => r.1 == s) = some (s, h) := by
  rw [List.find?_eq_some_iff_getElem]
  obtain ⟨h1, h2⟩ := List.getElem?_eq_some_iff.1 hg
  have hlt := List.idxOf_lt_length_iff.2 hs
  refine ⟨by simp, c.idxOf s, h1, h2, fun j hj => ?_⟩
  have h3 : ((l.take c.length).map (·.1))[j]? = some (c[j]'(by omega)) := by rw [hl]; exact List.getElem?_eq_getElem _
  rw [List.getElem?_map, List.getElem?_take_of_lt (by omega), List.getElem?_eq_getElem (by omega)] at h3
  simp at h3
  have := List.not_of_lt_findIdx (p := fun x => x == s) (xs := c) (i := j) hj
  simp at this
  simp [h3, this]

theorem getElem?_idxOf {c : List Nat} {s : Nat} (hs : s ∈ c) : c[c.idxOf s]? = some s := by
  rw [List.getElem?_eq_getElem (List.idxOf_lt_length_iff.2 hs)]
  simp

/-- A unit as seen from all start states; `c` are the states left in it. -/
def UnitAll (n : Nat) (tl : List MTuple) (c : List Nat) (u : PUnit) (x : List (USym × Nat) × (Nat → List MTuple)) : Prop :=
  ∀ s, s < n → PUnitOK True (List.range n) s tl c u (x.1, x.2 s)

theorem K.syms_re {d : QDfa} {left right : Str} : ∀ (xs : List (USym × Nat)) (k : K), (xs.foldl (K.sym d left right) k).re = k.re
  | [], _ => rfl
  | x :: xs, k => by
    rw [List.foldl_cons, K.syms_re xs]
    exact K.sym_re k x

theorem K.collects_re {d : QDfa} {s : Str} : ∀ (ts : List MTuple) (k : K), (ts.foldl (K.collect d s) k).re = k.re
  | [], _ => rfl
  | t :: ts, k => by
    rw [List.foldl_cons, K.collects_re ts]
    exact K.collect_re k t

theorem K.unit_re {d : QDfa} {left right : Str} {tl : List MTuple} {k : K} {u : PUnit} (h : k.re = true) :
    (k.unit d left right tl u).re = true := by
  have h1 : (u.syms.foldl (K.sym d left right) k).re = true := by rw [K.syms_re]; exact h
  unfold K.unit
  dsimp only
  split
  · exact h1
  · split
    · simp [h1]
    · exact h1
    · exact h1
    · split
      · exact h1
      · rw [K.collects_re]; exact h1

/-- One unit after its symbols: the tuples of the current state are collected. -/
theorem KC.unit_of {k : K} {C : Comb} {d : QDfa} {n : Nat} (h : KC k C) {left right : Str} {tl : List MTuple} {c : List Nat} {u : PUnit}
    {x : List (USym × Nat) × (Nat → List MTuple)} (hn : 0 < n) (hu : UnitAll n tl c u x) (hs : symsOK d n C x.1)
    (hc : CInv d n (x.1.foldl (csym d) C)) (hb1 : (u.syms.foldl (K.sym d left right) k).bad = false)
    (hin : (x.1.foldl (csym d) C).st ∈ c ∨ (k.unit d left right tl u).re = false) :
    KC (k.unit d left right tl u) (cunit d right C x) ∧ (x.1.foldl (csym d) C).st ∈ c ∧ (k.unit d left right tl u).re = k.re ∧
      KC (u.syms.foldl (K.sym d left right) k) (x.1.foldl (csym d) C) ∧
      ∃ ts : List MTuple, ts.map MTuple.strip = x.2 (x.1.foldl (csym d) C).st ∧
        k.unit d left right tl u = ts.foldl (K.collect d right) (u.syms.foldl (K.sym d left right) k) := by
  have hsy : u.syms = x.1 := (hu 0 hn).syms
  have h1 := h.syms (d := d) (n := n) (left := left) (right := right) u.syms (by rw [hsy]; exact hs) hb1
  have hre := K.syms_re (d := d) (left := left) (right := right) u.syms k
  unfold K.unit cunit Comb.take at *
  rw [hsy] at h1 hin hre ⊢
  generalize x.1.foldl (K.sym d left right) k = k1 at h1 hin hre
  generalize x.1.foldl (csym d) C = C1 at h1 hc hin
  obtain ⟨ns, cn, _, _, _, h6, h7, _⟩ := h1.last
  have hC : ∃ e ∈ C1.p, e.st = C1.st := by
    have := hc.len
    cases hC : C1.p with
    | nil => rw [hC] at this; simp at this
    | cons e t => exact ⟨e, by simp, by simp [Comb.st, hC]⟩
  obtain ⟨e, he, hes⟩ := hC
  have hidx : NoIdx d C1.st := by rw [← hes]; exact hc.idx e he
  have hlt : C1.st < n := by rw [← hes]; exact hc.bnd e he
  have hou := hu C1.st hlt
  have hst := hou.states
  have hmem : C1.st ∈ c := by
    refine Classical.byContradiction fun hm => ?_
    have hin := hin.resolve_left hm
    have hk := hou.kind.resolve_left (by rintro rfl; exact hm (List.mem_range.2 hlt))
    have hfull := hou.full trivial
    rw [List.take_of_length_le (by omega)] at hst
    have hf : u.roots.find? (fun r => r.1 == C1.st) = none := by
      rw [List.find?_eq_none]
      intro r hr
      simp only [beq_iff_eq]
      rintro e
      apply hm
      rw [← hst, ← e]
      exact List.mem_map_of_mem hr
    dsimp only at hin
    rw [h6] at hin
    dsimp only at hin
    rw [h7, hf] at hin
    have hne : u.roots ≠ [] := by
      intro e0
      rw [e0] at hfull
      exact hk.2 (List.length_eq_zero_iff.1 hfull.symm)
    simp [hne, hk.1] at hin
  obtain ⟨hd, g1, g2⟩ := hou.root _ (getElem?_idxOf hmem)
  have hf := find_root hst hmem g1
  dsimp only
  rw [h6]
  dsimp only
  rw [h7, hf]
  rcases g2 tl (List.take_length) with ⟨rfl, h0⟩ | ⟨f, l, ts, rfl, h0, h2⟩
  · dsimp only at h0 ⊢
    rw [h0]
    exact ⟨by simpa using h1, hmem, hre, h1, [], rfl, rfl⟩
  · dsimp only at h0 h2 ⊢
    rw [h0]
    dsimp only
    rw [← h2, List.map_map]
    exact ⟨h1.collects ts hidx, hmem, by rw [K.collects_re, hre], h1, ts, rfl, rfl⟩

theorem KC.unit {k : K} {C : Comb} {d : QDfa} {n : Nat} (h : KC k C) {left right : Str} {tl : List MTuple} {c : List Nat} {u : PUnit}
    {x : List (USym × Nat) × (Nat → List MTuple)} (hn : 0 < n) (hu : UnitAll n tl c u x) (hs : symsOK d n C x.1)
    (hc : CInv d n (x.1.foldl (csym d) C)) (hb : (k.unit d left right tl u).bad = false)
    (hin : (x.1.foldl (csym d) C).st ∈ c ∨ (k.unit d left right tl u).re = false) :
    KC (k.unit d left right tl u) (cunit d right C x) ∧ (x.1.foldl (csym d) C).st ∈ c ∧ (k.unit d left right tl u).re = k.re := by
  have hb1 : (u.syms.foldl (K.sym d left right) k).bad = false := by
    cases e : (u.syms.foldl (K.sym d left right) k).bad with
    | false => rfl
    | true =>
      refine absurd hb ?_
      rw [Bool.not_eq_false]
      unfold K.unit
      dsimp only
      split
      · exact K.orUb_true _
      · split
        · exact e
        · exact K.orUb_true _
        · exact e
        · split
          · exact K.orUb_true _
          · exact foldl_bad (fun k x => K.collect_bad) _ e
  obtain ⟨g1, g2, g3, _⟩ := h.unit_of hn hu hs hc hb1 hin
  exact ⟨g1, g2, g3⟩

/-- The state in which `combine` meets each unit is among those left in it. -/
def unitsIn (d : QDfa) (s : Str) : Comb → List (List Nat × List (USym × Nat) × (Nat → List MTuple)) → Prop
  | _, [] => True
  | C, y :: ys => (y.2.1.foldl (csym d) C).st ∈ y.1 ∧ unitsIn d s (cunit d s C y.2) ys

theorem unitsIn_snoc {d : QDfa} {s : Str} {y : List Nat × List (USym × Nat) × (Nat → List MTuple)} :
    ∀ {ys : List (List Nat × List (USym × Nat) × (Nat → List MTuple))} {C : Comb}, unitsIn d s C ys →
    (y.2.1.foldl (csym d) ((ys.map (·.2)).foldl (cunit d s) C)).st ∈ y.1 → unitsIn d s C (ys ++ [y])
  | [], _, _, h1 => ⟨h1, trivial⟩
  | _ :: _, _, h, h1 => ⟨h.1, unitsIn_snoc h.2 h1⟩

theorem unitsIn_last {d : QDfa} {s : Str} {y : List Nat × List (USym × Nat) × (Nat → List MTuple)} :
    ∀ {ys : List (List Nat × List (USym × Nat) × (Nat → List MTuple))} {C : Comb}, unitsIn d s C (ys ++ [y]) →
    (y.2.1.foldl (csym d) ((ys.map (·.2)).foldl (cunit d s) C)).st ∈ y.1
  | [], _, h => h.1
  | _ :: ys, _, h => unitsIn_last (ys := ys) h.2

theorem KC.units {d : QDfa} {n : Nat} {left right : Str} {tl : List MTuple} (hn : 0 < n) {us : List PUnit}
    {ys : List (List Nat × List (USym × Nat) × (Nat → List MTuple))} (hu : All2 (fun u y => UnitAll n tl y.1 u y.2) us ys) :
    ∀ {k : K} {C : Comb}, KC k C →
    unitsOK d n right C (ys.map (·.2)) → (us.foldl (K.unit d left right tl) k).bad = false →
    (unitsIn d right C ys ∨ (us.foldl (K.unit d left right tl) k).re = false) →
    KC (us.foldl (K.unit d left right tl) k) ((ys.map (·.2)).foldl (cunit d right) C) ∧ unitsIn d right C ys ∧
      (us.foldl (K.unit d left right tl) k).re = k.re := by
  induction hu with
  | nil => intro k C h _ _ _; exact ⟨h, trivial, rfl⟩
  | cons h1 _ ih =>
    rename_i u y us ys _
    intro k C h hs hb hin
    have hb1 : (k.unit d left right tl u).bad = false := by
      cases e : (k.unit d left right tl u).bad with
      | false => rfl
      | true =>
        have := foldl_bad (f := K.unit d left right tl) (fun k x => K.unit_bad) us e
        rw [List.foldl_cons] at hb
        rw [this] at hb; cases hb
    have hin1 : (y.2.1.foldl (csym d) C).st ∈ y.1 ∨ (k.unit d left right tl u).re = false := by
      rcases hin with hin | hin
      · exact .inl hin.1
      · right
        cases e : (k.unit d left right tl u).re with
        | false => rfl
        | true =>
          have : ∀ (us : List PUnit) {k : K}, k.re = true → (us.foldl (K.unit d left right tl) k).re = true := by
            intro us
            induction us with
            | nil => intro k h; exact h
            | cons u us ih => intro k h; exact ih (K.unit_re h)
          rw [List.foldl_cons, this us e] at hin; cases hin
    obtain ⟨a1, a2, a3⟩ := h.unit hn h1 hs.1 hs.2.1 hb1 hin1
    obtain ⟨b1, b2, b3⟩ := ih a1 hs.2.2 hb (by
      rcases hin with hin | hin
      · exact .inl hin.2
      · exact .inr hin)
    exact ⟨b1, ⟨a2, b2⟩, by rw [List.foldl_cons, b3, a3]⟩

/-! ### The stacks of a worker on top -/

theorem all2_reverse {α β : Type} {R : α → β → Prop} {a : List α} {b : List β} (h : All2 R a b) : All2 R a.reverse b.reverse := by
  induction h with
  | nil => exact .nil
  | cons h1 _ ih =>
    rw [List.reverse_cons, List.reverse_cons]
    exact Spec.All2.append ih (.cons h1 .nil)

theorem levels_length : ∀ N : Nat, (levels N).length = N
  | 0 => rfl
  | N + 1 => by simp [levels, levels_length N]

theorem copyLevels {src : List Node} {r : Nat} {L : List Rng} {E : List Elt}
    (hL : All2 (fun rng e => ∃ n, findNode src r rng = some n ∧ n.st = e.st) L E) : ∀ (p : QS × Rng),
    p.2 :: p.1.items = levels p.1.nodes.length →
    ∃ new : List Node, (L.foldl (copyLevel src r) p).1.nodes = p.1.nodes ++ new ∧ new.map Node.st = E.map Elt.st ∧
      (∀ n ∈ new, n.roots = none) ∧ (L.foldl (copyLevel src r) p).1.tl = p.1.tl ∧
      (L.foldl (copyLevel src r) p).2 :: (L.foldl (copyLevel src r) p).1.items =
        levels (L.foldl (copyLevel src r) p).1.nodes.length ∧
      (p.1.ub = false → p.1.nodes.length + E.length ≤ MAX_STACK → (L.foldl (copyLevel src r) p).1.ub = false) := by
  induction hL with
  | nil => intro p h; exact ⟨[], by simp, rfl, by simp, rfl, h, fun hu _ => hu⟩
  | cons h1 _ ih =>
    rename_i rng e L E _
    intro p h
    obtain ⟨n, h2, h3⟩ := h1
    have h4 : copyLevel src r p rng =
        ({ p.1 with
           items := p.2 :: p.1.items
           nodes := p.1.nodes ++ [⟨n.st, n.count, n.ms, none⟩]
           ub := p.1.ub || decide (p.1.items.length ≥ MAX_STACK) || decide (p.1.nodes.length ≥ MAX_NODE) },
         ⟨p.1.nodes.length, p.1.nodes.length + 1⟩) := by
      unfold copyLevel; rw [h2]
    obtain ⟨new, g1, g2, g3, g4, g5, g6⟩ := ih (copyLevel src r p rng) (by rw [h4]; simp [h, levels])
    refine ⟨⟨n.st, n.count, n.ms, none⟩ :: new, ?_, ?_, ?_, ?_, g5, fun hu hl => g6 ?_ ?_⟩
    · rw [List.foldl_cons, g1, h4]; simp
    · simp [g2, h3]
    · intro m hm
      rcases List.mem_cons.1 hm with rfl | hm
      · rfl
      · exact g3 m hm
    · rw [List.foldl_cons, g4, h4]
    · have hlen := congrArg List.length h
      simp only [List.length_cons, levels_length] at hlen
      simp only [List.length_cons] at hl
      have e1 : ¬ p.1.items.length ≥ MAX_STACK := by omega
      have e2 : ¬ p.1.nodes.length ≥ MAX_NODE := by simp only [MAX_STACK, MAX_NODE] at *; omega
      rw [h4]; simp [hu, e1, e2]
    · rw [h4]; simp only [List.length_append, List.length_cons, List.length_nil] at hl ⊢; omega

theorem findNode_own {sts : List Nat} {q : QS} {elt : Rng} (h : QInv sts q elt) {rng : Rng} (hr : rng ∈ elt :: q.items)
    {r : Nat} {n : Node} (ho : Own q.nodes rng r n)
    (hall : ∀ i ∈ rng.list, ∀ m, q.nodes[i]? = some m → m.roots ≠ some []) : findNode q.nodes r rng = some n := by
  have horg : ∀ (m : Node) (i : Nat), m.roots ≠ some [] → m.org i = m.roots.getD [] := by
    intro m i hm
    simp [Node.org, Node.origins, hm]
  unfold findNode
  cases hf : (rng.list.filterMap fun i => q.nodes[i]?).find? fun n => decide (r ∈ n.roots.getD []) with
  | none =>
    exfalso
    rw [List.find?_eq_none] at hf
    obtain ⟨i, h1, h2, h3⟩ := ho
    have h4 : n ∈ rng.list.filterMap fun i => q.nodes[i]? := List.mem_filterMap.2 ⟨i, h1, h2⟩
    refine hf n h4 ?_
    rw [horg n i (hall i h1 n h2)] at h3
    simpa using h3
  | some m =>
    have h1 := List.find?_some hf
    have h2 := List.mem_of_find?_eq_some hf
    obtain ⟨i, h3, h4⟩ := List.mem_filterMap.1 h2
    have h5 : Own q.nodes rng r m := by
      refine ⟨i, h3, h4, ?_⟩
      rw [horg m i (hall i h3 m h4)]
      simpa using h1
    rw [h.own_unique hr h5 ho]

theorem push_eq {α : Type} {s : List α} {x : α} (h : s.length < MAX_STACK) : push s x = x :: s := by
  unfold push; rw [if_pos h]

theorem combine_ss {α : Type} : ∀ (src dst : List α), (src ++ dst).length ≤ MAX_STACK → combineSyntaxStack dst src = src ++ dst
  | [], _, _ => rfl
  | x :: src, dst, h => by
    have ih := combine_ss src dst (by simp at h ⊢; omega)
    unfold combineSyntaxStack at ih ⊢
    rw [List.reverse_cons, List.foldl_append, ih]
    exact push_eq (by simp at h ⊢; omega)

theorem KC.merge {k : K} {C : Comb} (h : KC k C) {E : WEnv} {F : Prop} {sts : List Nat} {cs : List (List Nat)} {cur : List Nat}
    (hmem : C.st ∈ cur) {w : W} {v : P} (ht : PTracks E F sts cs cur C.st w v) (hroot : ∃ l e, v.p = l ++ [e]) (hmax : (v.ss ++ C.ss).length ≤ MAX_STACK) :
    KC (k.merge w) ⟨v.p.dropLast ++ C.p, v.ss ++ C.ss, C.tl⟩ ∧
      (k.q.ub = false → (v.p.dropLast ++ C.p).length ≤ MAX_STACK → (k.merge w).q.ub = false) := by
  obtain ⟨ns, c, h3, h4, h5, h6, h7, h8⟩ := h.last
  obtain ⟨l, e, hp⟩ := hroot
  have hi := ht.inv
  have hget := getElem?_idxOf hmem
  have hlt := List.idxOf_lt_length_iff.2 hmem
  have hfirst : ∀ j, j < cur.idxOf C.st → cur[j]? ≠ some C.st := by
    intro j hj
    have := List.not_of_lt_findIdx (p := fun x => x == C.st) (xs := cur) (i := j) hj
    rw [List.getElem?_eq_getElem (by omega)]
    simpa using this
  generalize cur.idxOf C.st = r at hget hlt hfirst
  have hv : All2 (fun rng e => ∃ n, Own w.q.nodes rng r n ∧ n.elt = e) (w.elt :: w.q.items).reverse v.p.reverse :=
    all2_reverse (ht.view r hget)
  have hlast := hi.contig.roots
  obtain ⟨L, hL⟩ : ∃ L, (w.elt :: w.q.items).reverse = ⟨0, cur.length⟩ :: L := by
    rw [List.getLast?_eq_head?_reverse] at hlast
    cases hr : (w.elt :: w.q.items).reverse with
    | nil => rw [hr] at hlast; cases hlast
    | cons x L => rw [hr] at hlast; simp at hlast; exact ⟨L, by rw [hlast]⟩
  have hL' : w.elt :: w.q.items = L.reverse ++ [⟨0, cur.length⟩] := by
    have := congrArg List.reverse hL
    simpa using this
  rw [hL, hp, List.reverse_append] at hv
  cases hv with
  | cons _ hv =>
    have hfr : findRoot w.q.nodes C.st ⟨0, cur.length⟩ = some r := by
      unfold findRoot
      rw [List.find?_eq_some_iff_getElem]
      have hle := hi.roots_le
      have hat : ∀ j, j < cur.length → ∃ m, w.q.nodes[j]? = some m ∧ cur[j]? = some m.st := by
        intro j hj
        exact ⟨w.q.nodes[j]'(by omega), List.getElem?_eq_getElem (by omega),
          (hi.root j (w.q.nodes[j]'(by omega)) hj (List.getElem?_eq_getElem (by omega))).2⟩
      refine ⟨?_, r, by simp [Rng.list]; exact hlt, by simp [Rng.list], fun j hj => ?_⟩
      · obtain ⟨m, m1, m2⟩ := hat r hlt
        rw [hget] at m2
        simp [m1, Option.some.inj m2]
      · obtain ⟨m, m1, m2⟩ := hat j (by omega)
        have := hfirst j hj
        rw [m2] at this
        simp [Rng.list, m1]
        simpa using this
    have hcp : All2 (fun rng e => ∃ m, findNode w.q.nodes r rng = some m ∧ m.st = e.st) L l.reverse := by
      refine hv.imp_mem fun rng hr e ⟨m, m1, m2⟩ => ⟨m, ?_, by rw [← m2]; rfl⟩
      have hmem : rng ∈ w.elt :: w.q.items := by rw [hL']; simp [hr]
      obtain ⟨L1, L2, hs⟩ := List.append_of_mem hr
      have hsplit : w.elt :: w.q.items = L2.reverse ++ rng :: (L1.reverse ++ [⟨0, cur.length⟩]) := by rw [hL', hs]; simp
      have hall : ∀ i ∈ rng.list, ∀ m, w.q.nodes[i]? = some m → m.roots ≠ some [] := by
        intro i hi' m hm
        have hoo : ∃ r', r' ∈ m.org i := by
          cases hmr : m.roots with
          | none => exact absurd hmr (hi.roots_some hm)
          | some rs =>
            cases rs with
            | nil => exact ⟨i, by simp [Node.org, Node.origins, hmr]⟩
            | cons x xs => exact ⟨x, by simp [Node.org, Node.origins, hmr]⟩
        obtain ⟨r', hro⟩ := hoo
        have := hi.root_level hsplit (r := r') (n := m) ⟨i, hi', hm, hro⟩
        simpa using this
      exact findNode_own hi hmem m1 hall
    have hcomb : k.q.combine k.elt w.q w.elt =
        L.foldl (copyLevel w.q.nodes r) (k.q.orUb (decide (w.q.items.length ≥ MAX_STACK)), k.elt) := by
      unfold QS.combine
      unfold K.cur at h6
      rw [h6]
      dsimp only
      rw [hL]
      dsimp only
      rw [h7, hfr]
    obtain ⟨new, g1, g2, g3, g4, g5, g6⟩ := copyLevels hcp (k.q.orUb (decide (w.q.items.length ≥ MAX_STACK)), k.elt) h.lv
    unfold K.merge
    dsimp only
    rw [hcomb]
    refine ⟨⟨g5, ?_, ?_, ?_, ?_⟩, fun hu hl => g6 ?_ ?_⟩
    · dsimp only [QS.orUb] at g1 ⊢
      rw [g1, hp]
      simp [g2, ← h.p]
    · dsimp only
      rw [h.ss, ht.ss]
      exact combine_ss _ _ hmax
    · show List.map _ (L.foldl (copyLevel w.q.nodes r) (k.q.orUb (decide (w.q.items.length ≥ MAX_STACK)), k.elt)).1.tl = _
      rw [g4]; exact h.tl
    · dsimp only [QS.orUb] at g1 ⊢
      rw [g1]
      intro m hm
      rcases List.mem_append.1 hm with hm | hm
      · exact h.roots m hm
      · exact .inl (g3 m hm)
    · have h9 := congrArg List.length h.p
      have h10 := ht.lev
      rw [hp] at hl h10
      simp at hl h9 h10
      rw [h3] at h9
      simp at h9
      simp [QS.orUb, hu]
      omega
    · have h9 := congrArg List.length h.p
      rw [hp] at hl
      simp [QS.orUb] at hl h9 ⊢
      omega

end JPS
