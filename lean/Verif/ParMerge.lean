import Verif.ParComb
/-!
# `combine` does what `Comb` does
-/

set_option autoImplicit false

namespace JPS
open Spec

/-- One node per level. -/
def levels : Nat → List Rng
  | 0 => []
  | n + 1 => ⟨n, n + 1⟩ :: levels n

/-- The variables of `combine` and `Comb`: one node per level; states, symbols and tuples agree (counts and starts do not
matter where chunks begin). -/
structure KC (k : K) (C : Comb) : Prop where
  lv : k.elt :: k.q.items = levels k.q.nodes.length
  p : k.q.nodes.reverse.map Node.st = C.p.map Elt.st
  ss : k.ss = C.ss
  tl : k.tuples = C.tl
  roots : ∀ n ∈ k.q.nodes, n.roots = none ∨ n.roots = some [] ∨ ∃ x, n.roots = some [x]

/-- Something went wrong. -/
def K.bad (k : K) : Bool := k.ub || k.q.ub

theorem KC.last {k : K} {C : Comb} (h : KC k C) : ∃ ns c, k.q.nodes = ns ++ [c] ∧ k.elt = ⟨ns.length, ns.length + 1⟩ ∧
    k.q.items = levels ns.length ∧ k.cur = some c ∧ c.st = C.st ∧ ns.reverse.map Node.st = C.p.tail.map Elt.st := by
  have hl := h.lv
  cases hn : k.q.nodes.reverse with
  | nil =>
    rw [List.reverse_eq_nil_iff] at hn
    rw [hn] at hl; cases hl
  | cons c ns =>
    have hn' : k.q.nodes = ns.reverse ++ [c] := by
      have := congrArg List.reverse hn
      simpa using this
    have hp := h.p
    rw [hn] at hp
    rw [hn'] at hl
    simp only [List.length_append, List.length_cons, List.length_nil, Nat.zero_add, levels, List.cons.injEq] at hl
    refine ⟨ns.reverse, c, hn', hl.1, hl.2, ?_, ?_, ?_⟩
    · unfold K.cur; rw [hl.1, hn']; simp
    · cases hC : C.p with
      | nil => rw [hC] at hp; cases hp
      | cons e t => rw [hC] at hp; simp at hp; simp [Comb.st, hC, hp.1]
    · cases hC : C.p with
      | nil => rw [hC] at hp; cases hp
      | cons e t => rw [hC] at hp; simp at hp; simp [hp.2]

theorem KC.popQ {k : K} {C : Comb} (h : KC k C) (h2 : 2 ≤ C.p.length) : KC k.popQ { C with p := C.p.tail } := by
  obtain ⟨ns, c, h3, h4, h5, _, _, h6⟩ := h.last
  have hlen := congrArg List.length h6
  simp only [List.length_map, List.length_reverse, List.length_tail] at hlen
  obtain ⟨m, hm⟩ : ∃ m, ns.length = m + 1 := ⟨ns.length - 1, by omega⟩
  rw [hm] at h5
  have hq : k.popQ = { k with q := { k.q with nodes := ns, items := levels m }, elt := ⟨m, m + 1⟩ } := by
    unfold K.popQ QS.pop
    rw [h5]
    simp only [levels]
    rw [h3, ← hm, List.take_left']
    rfl
  rw [hq]
  refine ⟨?_, h6, h.ss, h.tl, fun n hn => h.roots n (by rw [h3]; exact List.mem_append_left _ hn)⟩
  show _ = levels ns.length
  rw [hm]; rfl

theorem KC.setSs {k : K} {C : Comb} (h : KC k C) {s s' : List Sym} (hs : s = s') :
    KC { k with ss := s } { C with ss := s' } := ⟨h.lv, h.p, hs, h.tl, h.roots⟩

theorem KC.incr {k : K} {C : Comb} (h : KC k C) : KC k.incr C.incr := by
  obtain ⟨ns, c, h3, h4, h5, h6, h7, h8⟩ := h.last
  have hq : k.incr = { k with q := { k.q with nodes := ns ++ [{ c with count := c.count + 1 }] } } := by
    unfold K.incr QS.incr
    unfold K.cur at h6
    rw [h6]
    dsimp only
    rw [h3, h4, List.set_append_right _ _ (Nat.le_refl _)]
    simp
  rw [hq]
  have hl := h.lv
  refine ⟨?_, ?_, h.ss, h.tl, ?_⟩
  · rw [h3] at hl; simpa using hl
  · have hp := h.p
    rw [h3] at hp
    show _ = (match C.p with
      | e :: t => { e with count := e.count + 1 } :: t
      | [] => []).map Elt.st
    cases hC : C.p with
    | nil => rw [hC] at hp; simp at hp
    | cons e t => rw [hC] at hp; simpa using hp
  · intro n hn
    simp only [List.mem_append, List.mem_singleton] at hn
    rcases hn with hn | rfl
    · exact h.roots n (by rw [h3]; exact List.mem_append_left _ hn)
    · exact h.roots c (by rw [h3]; simp)

theorem tuples_link (tl : List MTuple) (i n : Nat) :
    (linkTuples tl i n).map (fun t => (⟨t.st, t.text.getD []⟩ : Tuple)) = tl.map fun t => ⟨t.st, t.text.getD []⟩ := by
  unfold linkTuples
  cases h : tl[i]? with
  | none => rfl
  | some t =>
    obtain ⟨hi, rfl⟩ := List.getElem?_eq_some_iff.1 h
    simp only [List.map_set]
    apply List.ext_getElem
    · simp
    · intro j h1 h2
      simp only [List.getElem_set]
      split
      · rename_i e; subst e; simp
      · simp

theorem addTo_tuples (q : QS) (t : MTuple) (r : Nat) :
    (q.addTo t r).tl.map (fun t => (⟨t.st, t.text.getD []⟩ : Tuple)) =
      q.tl.map (fun t => ⟨t.st, t.text.getD []⟩) ++ [⟨t.st, t.text.getD []⟩] := by
  unfold QS.addTo
  cases q.heads r <;> simp [tuples_link]

/-- A text for the current node. -/
theorem KC.addText {k : K} {C : Comb} (h : KC k C) {s : Nat} {t : Str} (hb : K.bad { k with q := k.q.addText k.elt.s s t } = false) :
    KC { k with q := k.q.addText k.elt.s s t } { C with tl := C.tl ++ [⟨s, t⟩] } := by
  obtain ⟨ns, c, h3, h4, h5, h6, h7, h8⟩ := h.last
  have hr := h.roots c (by rw [h3]; simp)
  have hn := addInfo_nodes k.q k.elt.s (.ofText s t)
  refine ⟨?_, ?_, h.ss, ?_, ?_⟩
  · show k.elt :: (k.q.addInfo _ _).items = levels (k.q.addInfo _ _).nodes.length
    rw [hn.1, hn.2]; exact h.lv
  · show (k.q.addInfo _ _).nodes.reverse.map _ = _
    rw [hn.1]; exact h.p
  · have hq : (k.q.addInfo k.elt.s (.ofText s t)).ub = false := by
      simp only [K.bad, QS.addText, QS.orUb, Bool.or_eq_false_iff] at hb
      exact hb.2.1
    show (k.q.addInfo k.elt.s (.ofText s t)).tl.map _ = _
    have hk : k.q.tl.map (fun t => (⟨t.st, t.text.getD []⟩ : Tuple)) = C.tl := h.tl
    unfold K.cur at h6
    unfold QS.addInfo at hq ⊢
    rw [h6] at hq ⊢
    rcases hr with hr | hr | ⟨x, hr⟩
    · simp [hr] at hq
    · simp only [hr]; rw [addTo_tuples, hk]; rfl
    · simp only [hr, List.foldl_cons, List.foldl_nil]; rw [addTo_tuples, hk]; rfl
  · show ∀ n ∈ (k.q.addInfo _ _).nodes, _
    rw [hn.1]; exact h.roots

/-- An unmatched `}` without selected object. -/
theorem rcb_quiet {d : QDfa} {left right : Str} {i : Nat} {k : K} {c : Node} (hc : k.cur = some c)
    (hno : d.matchedType c.st c.count ≠ .output) : k.rcb d left right i = k.rcbEnd d c := by
  have : k.rcbOut d left right i c = k := by
    unfold K.rcbOut
    split
    · exact if_neg fun h => hno h.2
    · rfl
  unfold K.rcb
  rw [hc]
  dsimp only
  rw [this]

theorem KC.rcb {k : K} {C : Comb} {d : QDfa} {n : Nat} (h : KC k C) (hc : CInv d n C) (ht : top C.ss = some .lcb)
    {left right : Str} {i : Nat} (hb : (k.rcb d left right i).bad = false) :
    KC (k.rcb d left right i) (csym d C (.rcb, i)) := by
  obtain ⟨ns, c, h3, h4, h5, h6, h7, h8⟩ := h.last
  have hC : ∃ e t, C.p = e :: t := by
    have := hc.len
    cases hC : C.p with
    | nil => rw [hC] at this; simp at this
    | cons e t => exact ⟨e, t, rfl⟩
  obtain ⟨e, t, hC⟩ := hC
  have hst : C.st = e.st := by simp [Comb.st, hC]
  have hidx : NoIdx d C.st := by rw [hst]; exact hc.idx e (by rw [hC]; exact List.mem_cons_self)
  have hm : d.matchedType c.st c.count = d.accept C.st := by rw [h7]; exact hidx.matchedType _
  have hno : d.matchedType c.st c.count ≠ .output := by rw [hm]; exact hc.cur ht
  have hlen := hc.len
  cases hss : C.ss with
  | nil => rw [hss] at ht; cases ht
  | cons x r =>
    have hks := h.ss
    rw [hss] at hks ht hlen
    have hx : x = .lcb := Option.some.inj ht
    subst hx
    rw [rcb_quiet h6 hno] at hb ⊢
    unfold K.rcbEnd at hb ⊢
    unfold csym
    dsimp only
    rw [hks] at hb ⊢
    rw [hss]
    cases r with
    | nil => exact h.setSs rfl
    | cons y r =>
      cases y with
      | lcb => simpa [secondTop] using h
      | ky => 
        have := (h.popQ (by rw [hlen]; simp [nk])).setSs (s := pop (pop k.popQ.ss)) (s' := pop (pop (.lcb :: .ky :: r)))
          (by show pop (pop k.ss) = _; rw [hks])
        simpa [secondTop] using this
      | lb =>
        have h9 : KC (K.incr { k with ss := pop (.lcb :: .lb :: r) }) { C.incr with ss := pop (.lcb :: .lb :: r) } := h.incr.setSs rfl
        by_cases hp : d.accept C.st = .predicate
        · have hp' : d.matchedType c.st c.count = .predicate := by rw [hm, hp]
          simp only [secondTop, List.length_cons, hp, hp', if_true] at hb ⊢
          rw [h7] at hb ⊢
          exact h9.addText hb
        · have hp' : d.matchedType c.st c.count ≠ .predicate := by rw [hm]; exact hp
          simp only [secondTop, List.length_cons, hp, hp', if_true, if_false] at hb ⊢
          rw [List.append_nil]
          exact h9

/-- An unmatched `]` without selected array. -/
theorem rb_quiet {d : QDfa} {left right : Str} {i : Nat} {k : K} {r : Rng} {rs : List Rng} {c : Node}
    (hi : k.q.items = r :: rs) (hc : k.q.nodes[r.s]? = some c)
    (hno : d.matchedType c.st c.count ≠ .output) : k.rb d left right i = k.rbEnd := by
  have : k.rbOut d left right i = k := by
    unfold K.rbOut
    rw [hi]
    dsimp only
    rw [hc]
    dsimp only
    split
    · split
      · simp [hno]
      · simp
    · rfl
  unfold K.rb
  rw [this]

theorem KC.rb {k : K} {C : Comb} {d : QDfa} {n : Nat} (h : KC k C) (hc : CInv d n C) (ht : top C.ss = some .lb)
    {left right : Str} {i : Nat} : KC (k.rb d left right i) (csym d C (.rb, i)) := by
  obtain ⟨ns, c, h3, h4, h5, h6, h7, h8⟩ := h.last
  have hlen := hc.len
  cases hss : C.ss with
  | nil => rw [hss] at ht; cases ht
  | cons x r =>
    have hks := h.ss
    rw [hss] at hks ht hlen
    have hx : x = .lb := Option.some.inj ht
    subst hx
    have hl := congrArg List.length h8
    simp only [List.length_map, List.length_reverse, List.length_tail, nk] at hl hlen
    obtain ⟨m, hm⟩ : ∃ m, ns.length = m + 1 := ⟨ns.length - 1, by omega⟩
    have hp := h.popQ (by rw [hlen]; omega)
    obtain ⟨ns', c', g3, g4, g5, g6, g7, g8⟩ := hp.last
    have hq : k.popQ.q.nodes = ns := by
      unfold K.popQ QS.pop
      rw [h5, hm]
      simp only [levels]
      rw [h3, ← hm, List.take_left']
      rfl
    have hn' : ns = ns' ++ [c'] := hq.symm.trans g3
    have hm' : m = ns'.length := by rw [hn'] at hm; simp at hm; exact hm.symm
    have hi : k.q.items = ⟨m, m + 1⟩ :: levels m := by rw [h5, hm]; rfl
    have hcc : k.q.nodes[m]? = some c' := by rw [h3, hn', hm']; simp
    have hct : ∃ e, C.p.tail.head? = some e ∧ e.st = c'.st := by
      cases ht : C.p.tail with
      | nil =>
        have := congrArg List.length ht
        simp at this; omega
      | cons e t =>
        refine ⟨e, rfl, ?_⟩
        rw [g7]; simp [Comb.st, ht]
    obtain ⟨e, he, hes⟩ := hct
    have hem : e ∈ C.p.tail := List.mem_of_mem_head? (by rw [he]; rfl)
    have hno : d.matchedType c'.st c'.count ≠ .output := by
      rw [← hes, (hc.idx e (List.mem_of_mem_tail hem)).matchedType]
      exact hc.low e hem
    rw [rb_quiet hi hcc hno]
    unfold K.rbEnd
    unfold csym
    dsimp only
    rw [hks, hss]
    cases r with
    | nil => exact hp.setSs (s := pop k.popQ.ss) (by show pop k.ss = _; rw [hks])
    | cons y r =>
      cases y with
      | lcb => simpa [secondTop] using h
      | ky =>
        have := (hp.popQ (by simp only [List.length_tail, hlen, nk]; omega)).setSs (s := pop (pop (.lb :: .ky :: r)))
          (s' := pop (pop (.lb :: .ky :: r))) rfl
        exact this
      | lb =>
        have := (hp.setSs (s := pop k.popQ.ss) (s' := pop (.lb :: .lb :: r)) (by show pop k.ss = _; rw [hks])).incr
        simpa [secondTop] using this

theorem KC.sym {k : K} {C : Comb} {d : QDfa} {n : Nat} (h : KC k C) (hc : CInv d n C) {x : USym × Nat}
    (hx : (x.1 = .rcb ∧ top C.ss = some .lcb) ∨ (x.1 = .rb ∧ top C.ss = some .lb))
    {left right : Str} (hb : (k.sym d left right x).bad = false) :
    KC (k.sym d left right x) (csym d C x) := by
  obtain ⟨x, i⟩ := x
  rcases hx with ⟨hx, ht⟩ | ⟨hx, ht⟩
  · cases hx; exact h.rcb hc ht hb
  · cases hx; exact h.rb hc ht

/-! ### Failures are kept -/

theorem K.orUb_bad {k : K} {b : Bool} (h : k.bad = true) : (k.orUb b).bad = true := by
  simp only [K.bad, K.orUb, Bool.or_eq_true] at *
  exact h.imp Or.inl id

theorem K.orUb_true (k : K) : (k.orUb true).bad = true := by simp [K.bad, K.orUb]

theorem K.setQ_bad {k : K} {q : QS} {e : Rng} {s : List Sym} {r : Bool} (h : k.bad = true) (hq : k.q.ub = true → q.ub = true) :
    K.bad ⟨s, q, e, k.ub, r⟩ = true := by
  simp only [K.bad, Bool.or_eq_true] at *
  exact h.imp id hq

theorem pop_ub {q : QS} (h : q.ub = true) : q.pop.1.ub = true := by
  unfold QS.pop; cases q.items <;> simp [h]

theorem K.popQ_bad {k : K} (h : k.bad = true) : k.popQ.bad = true := K.setQ_bad h pop_ub

theorem K.incr_bad {k : K} (h : k.bad = true) : k.incr.bad = true := K.setQ_bad h incr_ub

theorem K.setSs_bad {k : K} {s : List Sym} (h : k.bad = true) : K.bad { k with ss := s } = true := h

theorem K.rcb_bad {d : QDfa} {left right : Str} {i : Nat} {k : K} (h : k.bad = true) : (k.rcb d left right i).bad = true := by
  have h1 : ∀ c, (k.rcbOut d left right i c).bad = true := by
    intro c
    unfold K.rcbOut
    split
    · split
      · exact K.orUb_bad (K.setQ_bad h fun hq => setMs_ub (addText_ub hq))
      · exact h
    · exact h
  have h2 : ∀ (k : K) c, k.bad = true → (k.rcbEnd d c).bad = true := by
    intro k c h
    unfold K.rcbEnd
    split
    · exact h
    · split
      · split
        · exact K.popQ_bad h
        · split
          · have h2 := K.incr_bad (K.setSs_bad (s := pop k.ss) h)
            dsimp only
            split
            · exact K.setQ_bad h2 addText_ub
            · exact h2
          · exact h
      · exact h
  unfold K.rcb
  split
  · exact K.orUb_true k
  · exact h2 _ _ (h1 _)

theorem K.rb_bad {d : QDfa} {left right : Str} {i : Nat} {k : K} (h : k.bad = true) : (k.rb d left right i).bad = true := by
  have h1 : (k.rbOut d left right i).bad = true := by
    unfold K.rbOut
    split
    · split
      · exact K.orUb_true k
      · split
        · exact K.orUb_true k
        · split
          · split
            · exact K.orUb_true _
            · exact h
          · exact h
    · exact h
  unfold K.rb K.rbEnd
  split
  · exact K.popQ_bad h1
  · split
    · split
      · exact K.setSs_bad (K.popQ_bad (k := { k.rbOut d left right i with q := (k.rbOut d left right i).q.pop.1 }) (K.setQ_bad h1 pop_ub))
      · split
        · exact K.incr_bad (K.setSs_bad (K.popQ_bad h1))
        · exact h1
    · exact h1

theorem K.sym_bad {d : QDfa} {left right : Str} {x : USym × Nat} {k : K} (h : k.bad = true) : (k.sym d left right x).bad = true := by
  obtain ⟨x, i⟩ := x
  cases x with
  | rcb => exact K.rcb_bad h
  | rb => exact K.rb_bad h
  | object => exact K.popQ_bad h
  | array => exact K.popQ_bad h
  | pri => exact h

theorem K.addTuple_bad {right : Str} {t : MTuple} {k : K} (h : k.bad = true) : (k.addTuple right t).bad = true := by
  unfold K.addTuple
  split
  · exact K.orUb_bad (K.setQ_bad h id)
  · exact K.orUb_bad (K.setQ_bad h id)

theorem K.expire_bad {d : QDfa} {st : Nat} {k : K} (h : k.bad = true) : (k.expire d st).bad = true := by
  unfold K.expire
  split
  · exact K.orUb_true k
  · split
    · exact K.setQ_bad h id
    · exact h

theorem K.collect_bad {d : QDfa} {right : Str} {t : MTuple} {k : K} (h : k.bad = true) : (k.collect d right t).bad = true := by
  unfold K.collect
  split
  · exact K.orUb_true k
  · split
    · exact h
    · split
      · exact K.addTuple_bad h
      · dsimp only
        split
        · exact K.expire_bad (K.incr_bad (K.orUb_bad h))
        · split
          · exact K.expire_bad (K.orUb_bad h)
          · refine K.addTuple_bad ?_
            split
            · exact K.incr_bad (K.orUb_bad h)
            · exact K.orUb_bad h

theorem foldl_bad {α : Type} {f : K → α → K} (hf : ∀ k x, k.bad = true → (f k x).bad = true) : ∀ (l : List α) {k : K},
    k.bad = true → (l.foldl f k).bad = true
  | [], _, h => h
  | x :: l, k, h => foldl_bad hf l (hf k x h)

theorem K.unit_bad {d : QDfa} {left right : Str} {tl : List MTuple} {u : PUnit} {k : K} (h : k.bad = true) :
    (k.unit d left right tl u).bad = true := by
  have h1 := foldl_bad (f := K.sym d left right) (fun k x => K.sym_bad) u.syms h
  unfold K.unit
  dsimp only
  split
  · exact K.orUb_true _
  · split
    · exact h1
    · exact K.orUb_true _
    · exact h1
    · split
      · exact K.orUb_true _
      · exact foldl_bad (fun k x => K.collect_bad) _ h1

theorem copyLevel_ub {src : List Node} {r : Nat} {p : QS × Rng} {level : Rng} (h : p.1.ub = true) :
    (copyLevel src r p level).1.ub = true := by
  unfold copyLevel
  dsimp only
  split <;> simp [h]

theorem copyLevels_ub {src : List Node} {r : Nat} : ∀ (l : List Rng) {p : QS × Rng}, p.1.ub = true →
    (l.foldl (copyLevel src r) p).1.ub = true
  | [], _, h => h
  | _ :: l, _, h => copyLevels_ub l (copyLevel_ub h)

theorem combine_ub {dst src : QS} {elt selt : Rng} (h : dst.ub = true) : (dst.combine elt src selt).1.ub = true := by
  have h' : (dst.orUb (decide (src.items.length ≥ MAX_STACK))).ub = true := by simp [QS.orUb, h]
  unfold QS.combine
  split
  · rfl
  · dsimp only
    split
    · exact h'
    · split
      · exact copyLevels_ub _ h'
      · exact h'

theorem K.merge_bad {w : W} {k : K} (h : k.bad = true) : (k.merge w).bad = true := K.setQ_bad h combine_ub

theorem K.chunk_bad {d : QDfa} {left right : Str} {w : W} {k : K} (h : k.bad = true) : (k.chunk d left right w).bad = true :=
  K.orUb_bad (K.merge_bad (foldl_bad (fun _ _ => K.unit_bad) _ h))

theorem combineLoop_bad {d : QDfa} : ∀ (l : List (Str × W)) {k : K} {left : Str}, k.bad = true → (combineLoop d k left l).bad = true
  | [], _, _, h => h
  | (_, _) :: l, _, _, h => combineLoop_bad l (K.chunk_bad h)

end JPS
