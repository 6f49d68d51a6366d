import Verif.ParRooted
/-!
# Combining the workers stays within the buffers
-/

set_option autoImplicit false

namespace JPS
open Spec

theorem K.bad_parts {k : K} (h : k.bad = false) : k.ub = false ∧ k.q.ub = false := by simpa [K.bad] using h

theorem KC.len {k : K} {C : Comb} (h : KC k C) : k.q.nodes.length = C.p.length := by
  have := congrArg List.length h.p
  simpa using this

theorem KC.popQ_safe {k : K} {C : Comb} (h : KC k C) (h2 : 2 ≤ C.p.length) : k.popQ.bad = k.bad := by
  obtain ⟨ns, c, h3, h4, h5, _, _, h6⟩ := h.last
  have hlen := congrArg List.length h6
  simp only [List.length_map, List.length_reverse, List.length_tail] at hlen
  obtain ⟨m, hm⟩ : ∃ m, ns.length = m + 1 := ⟨ns.length - 1, by omega⟩
  rw [hm] at h5
  unfold K.popQ QS.pop K.bad
  rw [h5]
  simp only [levels]

theorem KC.incr_safe {k : K} {C : Comb} (h : KC k C) : k.incr.bad = k.bad := by
  obtain ⟨ns, c, h3, h4, h5, h6, _, _⟩ := h.last
  unfold K.cur at h6
  unfold K.incr QS.incr K.bad
  rw [h6]

theorem KC.rcb_safe {k : K} {C : Comb} {d : QDfa} {n b : Nat} (h : KC k C) (hc : CInv d n C) (hro : Rooted b k.q)
    (hpl : PredLow d b (C.p.map Elt.st)) (ht : top C.ss = some .lcb) {left right : Str} {i : Nat}
    (hroom : (csym d C (.rcb, i)).tl.length ≤ MAX_TUPLE_LIST) (hb : k.bad = false) : (k.rcb d left right i).bad = false := by
  obtain ⟨ns, c, h3, h4, h5, h6, h7, h8⟩ := h.last
  have hC : ∃ e t, C.p = e :: t := by
    have := hc.len
    cases hC : C.p with
    | nil => rw [hC] at this; simp at this
    | cons e t => exact ⟨e, t, rfl⟩
  obtain ⟨e, t, hC⟩ := hC
  have hst : C.st = e.st := by simp [Comb.st, hC]
  have hidx : NoIdx d C.st := by rw [hst]; exact hc.idx e (by rw [hC]; exact List.mem_cons_self)
  have hm : d.matchedType c.st c.count = d.accept C.st := by rw [h7]; exact hidx.matchedType _
  have hno : d.matchedType c.st c.count ≠ .output := by rw [hm]; exact hc.cur ht
  have hlen := hc.len
  rw [rcb_quiet h6 hno]
  unfold K.rcbEnd
  cases hss : C.ss with
  | nil => rw [hss] at ht; cases ht
  | cons x r =>
    have hks := h.ss
    rw [hss] at hks ht hlen
    have hx : x = .lcb := Option.some.inj ht
    subst hx
    rw [hks]
    cases r with
    | nil => exact hb
    | cons y r =>
      cases y with
      | lcb => simp [secondTop]; exact hb
      | ky =>
        have := h.popQ_safe (by rw [hlen]; simp [nk])
        rw [hb] at this
        simp [secondTop, pop]
        exact this
      | lb =>
        have h1 := (h.setSs (s := pop (.lcb :: .lb :: r)) rfl).incr_safe
        have h2 : K.bad { k with ss := pop (.lcb :: .lb :: r) } = false := hb
        rw [h2] at h1
        by_cases hp : d.accept C.st = .predicate
        · have hp' : d.matchedType c.st c.count = .predicate := by rw [hm, hp]
          simp only [secondTop, List.length_cons, hp', if_true]
          obtain ⟨b1, b2⟩ := K.bad_parts h1
          have hi : ns.length < b := by
            refine hpl _ C.st ?_ hp
            have hl8 := congrArg List.length h8
            simp only [List.length_map, List.length_reverse, List.length_tail] at hl8
            rw [hst, hC] at *
            rw [List.map_cons, List.reverse_cons, List.getElem?_append_right (by simp [hl8])]
            simp [hl8]
          have hnode : ∃ m, (k.q.incr k.elt.s).nodes[ns.length]? = some m := by
            unfold K.cur at h6
            unfold QS.incr
            rw [h6, h4, h3]
            simp
          obtain ⟨m, hnode⟩ := hnode
          have htl : (k.q.incr k.elt.s).tl.length < MAX_TUPLE_LIST := by
            have e1 : (k.q.incr k.elt.s).tl = k.q.tl := by
              unfold QS.incr
              split <;> rfl
            have e2 : k.q.tl.length = C.tl.length := by rw [← h.tl]; simp [K.tuples]
            have e3 : (csym d C (.rcb, i)).tl = C.tl ++ [⟨C.st, ['}']⟩] := by
              unfold csym
              dsimp only
              rw [hss]
              simp [secondTop, hp]
            rw [e3, List.length_append] at hroom
            rw [e1, e2]
            simp only [List.length_cons, List.length_nil] at hroom
            omega
          have hq := (hro.keep (keep_incr k.q k.elt.s)).addText (s := c.st) hi hnode b2 htl
          simp only [K.bad, Bool.or_eq_false_iff]
          refine ⟨b1, ?_⟩
          rw [← hq, show ns.length = k.elt.s by rw [h4]]
          rfl
        · have hp' : d.matchedType c.st c.count ≠ .predicate := by rw [hm]; exact hp
          simp only [secondTop, List.length_cons, hp', if_false]
          simpa using h1

theorem KC.rb_safe {k : K} {C : Comb} {d : QDfa} {n : Nat} (h : KC k C) (hc : CInv d n C) (ht : top C.ss = some .lb)
    {left right : Str} {i : Nat} : (k.rb d left right i).bad = k.bad := by
  obtain ⟨ns, c, h3, h4, h5, h6, h7, h8⟩ := h.last
  have hlen := hc.len
  cases hss : C.ss with
  | nil => rw [hss] at ht; cases ht
  | cons x r =>
    have hks := h.ss
    rw [hss] at hks ht hlen
    have hx : x = .lb := Option.some.inj ht
    subst hx
    have hl := congrArg List.length h8
    simp only [List.length_map, List.length_reverse, List.length_tail, nk] at hl hlen
    obtain ⟨m, hm⟩ : ∃ m, ns.length = m + 1 := ⟨ns.length - 1, by omega⟩
    have hp := h.popQ (by rw [hlen]; omega)
    have hps := h.popQ_safe (by rw [hlen]; omega)
    obtain ⟨ns', c', g3, g4, g5, g6, g7, g8⟩ := hp.last
    have hq : k.popQ.q.nodes = ns := by
      unfold K.popQ QS.pop
      rw [h5, hm]
      simp only [levels]
      rw [h3, ← hm, List.take_left']
      rfl
    have hn' : ns = ns' ++ [c'] := hq.symm.trans g3
    have hm' : m = ns'.length := by rw [hn'] at hm; simp at hm; exact hm.symm
    have hi : k.q.items = ⟨m, m + 1⟩ :: levels m := by rw [h5, hm]; rfl
    have hcc : k.q.nodes[m]? = some c' := by rw [h3, hn', hm']; simp
    have hct : ∃ e, C.p.tail.head? = some e ∧ e.st = c'.st := by
      cases ht : C.p.tail with
      | nil =>
        have := congrArg List.length ht
        simp at this; omega
      | cons e t =>
        refine ⟨e, rfl, ?_⟩
        rw [g7]; simp [Comb.st, ht]
    obtain ⟨e, he, hes⟩ := hct
    have hem : e ∈ C.p.tail := List.mem_of_mem_head? (by rw [he]; rfl)
    have hno : d.matchedType c'.st c'.count ≠ .output := by
      rw [← hes, (hc.idx e (List.mem_of_mem_tail hem)).matchedType]
      exact hc.low e hem
    rw [rb_quiet hi hcc hno]
    unfold K.rbEnd
    rw [hks]
    cases r with
    | nil => exact hps
    | cons y r =>
      cases y with
      | lcb => simp [secondTop]
      | ky =>
        have h2 := hp.popQ_safe (by simp only [List.length_tail, hlen, nk]; omega)
        rw [hps] at h2
        exact h2
      | lb =>
        have h2 := (hp.setSs (s := pop k.popQ.ss) (s' := pop (.lb :: .lb :: r)) (by show pop k.ss = _; rw [hks])).incr_safe
        have h3 : K.bad { k.popQ with ss := pop k.popQ.ss } = k.bad := hps
        rw [h3] at h2
        simpa [secondTop] using h2

theorem KC.sym_safe {k : K} {C : Comb} {d : QDfa} {n : Nat} (h : KC k C) (hc : CInv d n C) {b : Nat} (hro : Rooted b k.q) (hpl : PredLow d b (C.p.map Elt.st)) {x : USym × Nat}
    (hx : (x.1 = .rcb ∧ top C.ss = some .lcb) ∨ (x.1 = .rb ∧ top C.ss = some .lb))
    {left right : Str} (hroom : (csym d C x).tl.length ≤ MAX_TUPLE_LIST) (hb : k.bad = false) : (k.sym d left right x).bad = false := by
  obtain ⟨x, i⟩ := x
  rcases hx with ⟨hx, ht⟩ | ⟨hx, ht⟩
  · cases hx; exact h.rcb_safe hc hro hpl ht hroom hb
  · cases hx; rw [← hb]; exact h.rb_safe hc ht

theorem csym_tl (d : QDfa) (C : Comb) (x : USym × Nat) : ∃ l, (csym d C x).tl = C.tl ++ l := by
  have h0 : ∃ l, C.tl = C.tl ++ l := ⟨[], by simp⟩
  unfold csym
  split
  · split
    · exact h0
    · split
      · split
        · exact h0
        · split
          · exact ⟨_, rfl⟩
          · exact h0
      · exact h0
  · split
    · exact h0
    · split
      · split
        · exact h0
        · split
          · exact h0
          · exact h0
      · exact h0
  · exact h0
  · exact h0
  · exact h0

theorem csyms_tl (d : QDfa) : ∀ (xs : List (USym × Nat)) (C : Comb), ∃ l, (xs.foldl (csym d) C).tl = C.tl ++ l
  | [], C => ⟨[], by simp⟩
  | x :: xs, C => by
    obtain ⟨l, h1⟩ := csym_tl d C x
    obtain ⟨l', h2⟩ := csyms_tl d xs (csym d C x)
    exact ⟨l ++ l', by rw [List.foldl_cons, h2, h1, List.append_assoc]⟩

theorem KC.syms_safe {d : QDfa} {n b : Nat} {left right : Str} : ∀ (xs : List (USym × Nat)) {k : K} {C : Comb},
    KC k C → symsOK d n C xs → Rooted b k.q → PredLow d b (C.p.map Elt.st) → (xs.foldl (csym d) C).tl.length ≤ MAX_TUPLE_LIST →
    k.bad = false → (xs.foldl (K.sym d left right) k).bad = false
  | [], _, _, _, _, _, _, _, hb => hb
  | x :: xs, k, C, h, hs, hro, hpl, hroom, hb => by
    have hb1 : (k.sym d left right x).bad = false := by
      refine h.sym_safe hs.1.1 hro hpl hs.1.2 ?_ hb
      obtain ⟨l, hl⟩ := csyms_tl d xs (csym d C x)
      rw [List.foldl_cons, hl, List.length_append] at hroom
      omega
    exact KC.syms_safe xs (h.sym hs.1.1 hs.1.2 hb1) hs.2 (hro.keep (keep_sym d left right k x)) (hpl.suffix (csym_path d C x)) hroom hb1

/-- A tuple of the chunk: a text, or a span that ends within the chunk. -/
def GoodIn (s : Str) (x : MTuple) : Prop := (x.span = none ∧ x.text ≠ none) ∨ ∃ b e, x.span = some (b, e) ∧ e ≤ s.length

theorem KC.tlen {k : K} {C : Comb} (h : KC k C) : k.q.tl.length = C.tl.length := by
  rw [← h.tl]; simp [K.tuples]

theorem K.addTuple_safe {k : K} {s : Str} {t : MTuple} (hl : lead s = 0) (hg : GoodIn s t)
    (hs : strcopyBytes (resolve s t).text.length ≤ MAX_TEXT) (hr : k.q.tl.length < MAX_TUPLE_LIST) (hb : k.bad = false) :
    (k.addTuple s t).bad = false := by
  obtain ⟨b1, b2⟩ := K.bad_parts hb
  unfold K.addTuple
  unfold resolve at hs
  rcases hg with ⟨h1, h2⟩ | ⟨b, e, h1, h2⟩
  · simp only [h1] at hs ⊢
    have h3 : ¬ strcopyBytes (t.text.getD []).length > MAX_TEXT := by omega
    have h4 : ¬ k.q.tl.length ≥ MAX_TUPLE_LIST := by omega
    simp [K.bad, K.orUb, b1, b2, h2, h3, h4]
  · simp only [h1] at hs ⊢
    have h3 : ¬ strcopyBytes (substring s b e).length > MAX_TEXT := by omega
    have h4 : ¬ k.q.tl.length ≥ MAX_TUPLE_LIST := by omega
    have h5 : substringOOB s e = false := by
      unfold substringOOB; rw [hl]; simp; omega
    have h6 : (substring s b e).length = e - b := by
      have hlt : ltrim s = s := by simp [ltrim, hl]
      unfold substring
      rw [hlt]
      simp only [List.length_drop, List.length_take]
      omega
    have h7 : ¬ e - b + 1 > MAX_TEXT := by
      rw [h6] at hs; simp only [strcopyBytes] at hs; omega
    simp [K.bad, K.orUb, b1, b2, h3, h4, h5, h7]

theorem KC.collects_safe {d : QDfa} {s : Str} (hl : lead s = 0) : ∀ (ts : List MTuple) {k : K} {C : Comb}, KC k C → NoIdx d C.st →
    (C.st ≠ 0 → ∀ t ∈ ts, GoodIn s t ∧ strcopyBytes (resolve s t).text.length ≤ MAX_TEXT) →
    (C.st ≠ 0 → C.tl.length + ts.length ≤ MAX_TUPLE_LIST) → k.bad = false → (ts.foldl (K.collect d s) k).bad = false
  | [], _, _, _, _, _, _, hb => hb
  | t :: ts, k, C, h, hi, hg, hr, hb => by
    have hk := h.collect hi s t
    by_cases h0 : C.st = 0
    · have hb1 : (k.collect d s t).bad = false := by
        obtain ⟨ns, c, _, _, _, h6, h7, _⟩ := h.last
        unfold K.collect
        rw [h6]
        dsimp only
        rw [h7, if_pos h0]; exact hb
      rw [if_pos h0, List.append_nil] at hk
      exact KC.collects_safe hl ts hk hi (fun hz => absurd h0 hz) (fun hz => absurd h0 hz) hb1
    · have hb1 : (k.collect d s t).bad = false := by
        obtain ⟨ns, c, _, _, _, h6, h7, _⟩ := h.last
        unfold K.collect
        rw [h6]
        dsimp only
        rw [h7, if_neg h0, if_pos (show d.lower C.st = 0 ∧ d.upper C.st = 0 from hi)]
        obtain ⟨g1, g2⟩ := hg h0 t List.mem_cons_self
        have := hr h0
        simp only [List.length_cons] at this
        exact K.addTuple_safe hl g1 g2 (by rw [h.tlen]; omega) hb
      rw [if_neg h0] at hk
      refine KC.collects_safe hl ts hk hi (fun hz x hx => hg h0 x (List.mem_cons_of_mem _ hx)) (fun hz => ?_) hb1
      have := hr h0
      simp only [List.length_cons, List.length_append, List.length_nil] at this ⊢
      omega

/-- The tuples of a chunk that `combine` looks at are good. -/
def goodUnits (s : Str) (ys : List (List Nat × List (USym × Nat) × (Nat → List MTuple))) : Prop :=
  ∀ y ∈ ys, ∀ st, ∀ t ∈ y.2.2 st, GoodIn s t

theorem cunit_tl {d : QDfa} {s : Str} (C : Comb) (u : List (USym × Nat) × (Nat → List MTuple)) :
    ∃ l, (cunit d s C u).tl = C.tl ++ l := by
  unfold cunit Comb.take
  dsimp only
  obtain ⟨l, hl⟩ := csyms_tl d u.1 C
  rw [hl, List.append_assoc]
  exact ⟨_, rfl⟩

theorem cunits_tl {d : QDfa} {s : Str} : ∀ (us : List (List (USym × Nat) × (Nat → List MTuple))) (C : Comb),
    ∃ l, (us.foldl (cunit d s) C).tl = C.tl ++ l
  | [], C => ⟨[], by simp⟩
  | u :: us, C => by
    obtain ⟨l, h1⟩ := cunit_tl (d := d) (s := s) C u
    obtain ⟨l', h2⟩ := cunits_tl (d := d) (s := s) us (cunit d s C u)
    exact ⟨l ++ l', by rw [List.foldl_cons, h2, h1, List.append_assoc]⟩

theorem KC.unit_safe {k : K} {C : Comb} {d : QDfa} {n b : Nat} (h : KC k C) (hro : Rooted b k.q) (hpl : PredLow d b (C.p.map Elt.st)) {left right : Str}
    (hlead : lead right = 0) {tl : List MTuple} {c : List Nat} {u : PUnit}
    {x : List (USym × Nat) × (Nat → List MTuple)} (hn : 0 < n) (hu : UnitAll n tl c u x) (hs : symsOK d n C x.1)
    (hc : CInv d n (x.1.foldl (csym d) C)) (hb : k.bad = false)
    (hin : (x.1.foldl (csym d) C).st ∈ c ∨ (k.unit d left right tl u).re = false) (hg : ∀ st, ∀ t ∈ x.2 st, GoodIn right t)
    (hst : shortTl (cunit d right C x).tl) (hr : (cunit d right C x).tl.length ≤ MAX_TUPLE_LIST) :
    (k.unit d left right tl u).bad = false := by
  have hsy : u.syms = x.1 := (hu 0 hn).syms
  have hb1 : (u.syms.foldl (K.sym d left right) k).bad = false := by
    rw [hsy]
    refine KC.syms_safe _ h hs hro hpl ?_ hb
    unfold cunit Comb.take at hr
    dsimp only at hr
    rw [List.length_append] at hr
    omega
  obtain ⟨_, _, _, h1, ts, h2, h3⟩ := h.unit_of hn hu hs hc hb1 hin
  rw [h3]
  have hC : ∃ e ∈ (x.1.foldl (csym d) C).p, e.st = (x.1.foldl (csym d) C).st := by
    have := hc.len
    cases hC : (x.1.foldl (csym d) C).p with
    | nil => rw [hC] at this; simp at this
    | cons e t => exact ⟨e, by simp, by simp [Comb.st, hC]⟩
  obtain ⟨e, he, hes⟩ := hC
  have hidx : NoIdx d (x.1.foldl (csym d) C).st := by rw [← hes]; exact hc.idx e he
  unfold cunit Comb.take at hst hr
  dsimp only at hst hr
  refine KC.collects_safe hlead ts h1 hidx (fun h0 t ht => ?_) (fun h0 => ?_) hb1
  · have h4 : t.strip ∈ x.2 (x.1.foldl (csym d) C).st := by rw [← h2]; exact List.mem_map_of_mem ht
    refine ⟨(hg _ _ h4 : GoodIn right t.strip), ?_⟩
    rw [if_neg h0] at hst
    exact hst (resolve right t.strip) (List.mem_append_right _ (List.mem_map_of_mem h4))
  · rw [if_neg h0] at hr
    have := congrArg List.length h2
    simp only [List.length_map, List.length_append] at this hr
    omega

theorem KC.units_safe {d : QDfa} {n b : Nat} {left right : Str} (hlead : lead right = 0) {tl : List MTuple} (hn : 0 < n)
    {us : List PUnit} {ys : List (List Nat × List (USym × Nat) × (Nat → List MTuple))}
    (hu : All2 (fun u y => UnitAll n tl y.1 u y.2) us ys) :
    ∀ {k : K} {C : Comb}, KC k C →
    unitsOK d n right C (ys.map (·.2)) → Rooted b k.q → PredLow d b (C.p.map Elt.st) → k.bad = false →
    (unitsIn d right C ys ∨ (us.foldl (K.unit d left right tl) k).re = false) → goodUnits right ys →
    shortTl ((ys.map (·.2)).foldl (cunit d right) C).tl → ((ys.map (·.2)).foldl (cunit d right) C).tl.length ≤ MAX_TUPLE_LIST →
    (us.foldl (K.unit d left right tl) k).bad = false := by
  induction hu with
  | nil => intro k C h _ _ _ hb _ _ _ _; exact hb
  | cons h1 _ ih =>
    rename_i u y us ys _
    intro k C h hs hro hpl hb hin hg hst hr
    have hin1 : (y.2.1.foldl (csym d) C).st ∈ y.1 ∨ (k.unit d left right tl u).re = false := by
      rcases hin with hin | hin
      · exact .inl hin.1
      · right
        cases e : (k.unit d left right tl u).re with
        | false => rfl
        | true =>
          rw [List.foldl_cons, K.units_re us e] at hin; cases hin
    obtain ⟨l, hl⟩ := cunits_tl (d := d) (s := right) (ys.map (·.2)) (cunit d right C y.2)
    have hst' := hst
    have hr' := hr
    rw [List.map_cons, List.foldl_cons, hl] at hst' hr'
    have hb1 := h.unit_safe hro hpl (left := left) hlead hn h1 hs.1 hs.2.1 hb hin1 (hg y List.mem_cons_self)
      (fun t ht => hst' t (List.mem_append_left _ ht)) (by simp only [List.length_append] at hr'; omega)
    obtain ⟨a1, a2, a3⟩ := h.unit hn h1 hs.1 hs.2.1 hb1 hin1
    exact ih a1 hs.2.2 (hro.keep (keep_unit d left right tl k u)) (hpl.suffix (cunit_path d right C y.2)) hb1 (by
      rcases hin with hin | hin
      · exact .inl hin.2
      · exact .inr hin) (fun y hy => hg y (List.mem_cons_of_mem _ hy)) hst hr

/-! ### One chunk -/

theorem shallow_end {D : Nat} : ∀ {ts : List Tok} {ss : List Sym}, shallow D ss ts → nk (ts.foldl ssStep ss) < D
  | [], _, h => h
  | _ :: ts, _, h => shallow_end (ts := ts) h.2

/-- What `combine` does with one chunk stays within the buffers. -/
theorem chunk_safe {d : QDfa} {ct : Option CTable} (hnd : ct.NodupOK) {left right : Str} {u : UState} {i D : Nat} (hi : i ≠ 0) (hd : Dead d d.statesNum)
    {k : K} {C0 : Comb} {b : Nat} (hro : Rooted b k.q) (hpl : PredLow d b (C0.p.map Elt.st))
    {S : SA} {m : Mode} (hk : KC k C0) (hr : CRel d C0.tl C0 S) (hc : CInv d d.statesNum C0) (hw : wfStack S.ss) (hm : modeOK S.ss m)
    (hmax : S.ss.length ≤ MAX_STACK) (hfit : fitsAll S.ss m (lexAll right))
    (hstop : stopsAt ((lexAll right).foldl ssStep S.ss) (modeAfter m (lexAll right)))
    (hcl : noClob d right S.ss.length S (lexAll right))
    (hre : ctSound d right ct S (lexAll right) ∨ (k.chunk d left right (runWorker d ct u i right)).re = false)
    (hwb : (runWorker d ct u i right).bad = false) (hkbad : k.bad = false) (hlead : lead right = 0) (hsh : shallow D S.ss (lexAll right))
    (hD : D ≤ MAX_STACK) (hst0 : shortTl (C0.tl ++ (runToks d right S (lexAll right)).tl))
    (hr0 : (C0.tl ++ (runToks d right S (lexAll right)).tl).length ≤ MAX_TUPLE_LIST) :
    (k.chunk d left right (runWorker d ct u i right)).bad = false ∧
      ∃ l, l.length = lowSs S.ss.length S.ss (lexAll right) ∧ l <:+ S.ss ∧ l <:+ (runToks d right S (lexAll right)).ss ∧
        Rooted (min b (nk l + 1)) (k.chunk d left right (runWorker d ct u i right)).q := by
  have hi0 : (i == 0) = false := by simpa using hi
  have hst : startStates d i = List.range d.statesNum := by simp [startStates, hi]
  have hrun := runWorker_bad (hwb : ((runWorker d ct u i right).ub || (runWorker d ct u i right).q.ub) = false)
  rw [hi0, hst] at hrun
  generalize hE : (⟨d, false, right, ct, some (List.range d.statesNum)⟩ : WEnv) = E at hrun
  have hE1 : E.d = d := by rw [← hE]
  have hE2 : E.s = right := by rw [← hE]
  have hTab : TableOK E (List.range d.statesNum) := by
    intro c hc _
    refine ⟨by simp, fun k ks hk => hnd c ?_ k ks hk⟩
    rw [← hE] at hc; exact hc
  have hEs : E.starts = some (List.range d.statesNum) := by rw [← hE]
  have hE3 : E.ct = ct := by rw [← hE]
  have hne : List.range d.statesNum ≠ [] := by
    intro e
    have := congrArg List.length e
    have := hd.pos
    simp at *; omega
  have hJ0 : Joint E d.statesNum C0 C0.ss.length m S (fun s => P.init s u) [] C0 := by
    apply Joint.init u _ _ hw hm <;> rw [hE1] <;> assumption
  have hss : S.ss = C0.ss := hr.ss
  obtain ⟨us, C, cs, cur, hJ, htr, hsound⟩ := Joint.prunes (by rw [hE1]; exact hd) hEs hTab (lexAll right) hJ0
    (fun s => PTracks.init u hne) hfit hstop (by rw [hE1, hE2, ← hss]; exact hcl) hrun
  rw [hE1, hE2] at hJ
  have hsound' : ctSound d right ct S (lexAll right) → C.st ∈ cur ∧ unitsIn d right C0 (cs.zip us) := by
    intro h1
    rw [hE1, hE2, hE3] at hsound
    exact hsound (List.mem_range.2 (Comb.st_lt hc)) trivial h1
  generalize hS' : runToks d right S (lexAll right) = S' at hJ hst0 hr0
  have hcC := hJ.ok
  rw [hE1] at hcC
  have hCl : C.st < d.statesNum := by
    have := hcC.len
    cases hC : C.p with
    | nil => rw [hC] at this; simp at this
    | cons e t =>
      have h1 : C.st = e.st := by simp [Comb.st, hC]
      rw [h1]; exact hcC.bnd e (by rw [hC]; simp)
  -- the units
  have hcount : cs.length = us.length := by
    have := (htr 0).count
    have hu := hJ.units 0
    rw [hu] at this; simpa using this
  have hmapys : ((cs ++ [cur]).zip (us ++ [((P.run E 0 (P.init 0 u) (lexAll right)).syms, fun s => (P.run E s (P.init s u) (lexAll right)).out)])).map (·.2) =
      us ++ [((P.run E 0 (P.init 0 u) (lexAll right)).syms, fun s => (P.run E s (P.init s u) (lexAll right)).out)] := by
    rw [show (fun x : List Nat × List (USym × Nat) × (Nat → List MTuple) => x.2) = Prod.snd from rfl, List.map_snd_zip (by simp; omega)]
  have hu : All2 (fun x y => UnitAll d.statesNum (W.run E (W.init (List.range d.statesNum) u) (lexAll right)).q.tl y.1 x y.2)
      (W.run E (W.init (List.range d.statesNum) u) (lexAll right)).finish.units
      ((cs ++ [cur]).zip (us ++ [((P.run E 0 (P.init 0 u) (lexAll right)).syms, fun s => (P.run E s (P.init s u) (lexAll right)).out)])) := by
    refine all2_family (R := fun s x z => PUnitOK True (List.range d.statesNum) s _ z.1 x z.2)
      (g := fun s (y : List Nat × List (USym × Nat) × (Nat → List MTuple)) => (y.1, (y.2.1, y.2.2 s))) hd.pos fun s hs => ?_
    have h1 := htr s
    rw [W.finish_units h1.inv h1.ne]
    have h4 := h1.unitsNow (n := cur.length) h1.inv.roots_le (Nat.le_refl _) (fun _ => rfl) (by
      cases e : (W.run E (W.init (List.range d.statesNum) u) (lexAll right)).unit.pruned with
      | false => exact .inr rfl
      | true => exact .inl (h1.mat e))
    have h2 := hJ.units s
    have h3 := (hJ.alike s).syms
    rw [h2, h3] at h4
    have h5 : (us.map fun x => (x.1, x.2 s)) ++ [((P.run E 0 (P.init 0 u) (lexAll right)).syms, (P.run E s (P.init s u) (lexAll right)).out)] =
        (us ++ [((P.run E 0 (P.init 0 u) (lexAll right)).syms, fun s => (P.run E s (P.init s u) (lexAll right)).out)]).map fun x => (x.1, x.2 s) := by simp
    rw [h5, List.zip_map_right] at h4
    exact h4
  have hwq : (runWorker d ct u i right).q = (W.run E (W.init (List.range d.statesNum) u) (lexAll right)).q := by
    simp only [runWorker, hi0, hst, hE]; rfl
  have hwe : (runWorker d ct u i right).elt = (W.run E (W.init (List.range d.statesNum) u) (lexAll right)).elt := by
    simp only [runWorker, hi0, hst, hE]; rfl
  have hws : (runWorker d ct u i right).ss = (W.run E (W.init (List.range d.statesNum) u) (lexAll right)).ss := by
    simp only [runWorker, hi0, hst, hE]; rfl
  have hwu : (runWorker d ct u i right).units = (W.run E (W.init (List.range d.statesNum) u) (lexAll right)).finish.units := by
    simp only [runWorker, hi0, hst, hE]; rfl
  have huok := hJ.uok
  have hsok := hJ.sok
  have hcomb := hJ.comb
  rw [hE1, hE2] at huok hsok hcomb
  have hcc : CInv d d.statesNum ((P.run E 0 (P.init 0 u) (lexAll right)).syms.foldl (csym d) (us.foldl (cunit d right) C0)) := by
    rw [← hcomb]; exact hcC
  have hkre : (k.chunk d left right (runWorker d ct u i right)).re =
      ((runWorker d ct u i right).units.foldl (K.unit d left right (runWorker d ct u i right).q.tl) k).re := rfl
  rw [hkre, hwu, hwq] at hre
  have hin0 : unitsIn d right C0 ((cs ++ [cur]).zip (us ++ [((P.run E 0 (P.init 0 u) (lexAll right)).syms, fun s => (P.run E s (P.init s u) (lexAll right)).out)])) ∨
      ((W.run E (W.init (List.range d.statesNum) u) (lexAll right)).finish.units.foldl
        (K.unit d left right (W.run E (W.init (List.range d.statesNum) u) (lexAll right)).q.tl) k).re = false := by
    rcases hre with hre | hre
    · left
      obtain ⟨a1, a2⟩ := hsound' hre
      rw [List.zip_append hcount]
      refine unitsIn_snoc a2 ?_
      rw [show (fun x : List Nat × List (USym × Nat) × (Nat → List MTuple) => x.2) = Prod.snd from rfl, List.map_snd_zip (by omega), ← hcomb]
      exact a1
    · exact .inr hre
  have hcu : cunit d right (us.foldl (cunit d right) C0)
      ((P.run E 0 (P.init 0 u) (lexAll right)).syms, fun s => (P.run E s (P.init s u) (lexAll right)).out) =
      { C with tl := C.tl ++ (P.run E C.st (P.init C.st u) (lexAll right)).out.map (resolve right) } := by
    rw [cunit]
    dsimp only
    rw [← hcomb]
    unfold Comb.take
    by_cases h0 : C.st = 0
    · rw [if_pos h0, ((hJ.inv C.st).dead h0).2]; rfl
    · rw [if_neg h0]
  have hrel := hJ.rel
  have htlS : C.tl ++ (P.run E C.st (P.init C.st u) (lexAll right)).out.map (resolve right) = C0.tl ++ S'.tl := by
    have := hrel.tl
    rw [hE2] at this
    exact this.symm
  have htlU : (((cs ++ [cur]).zip (us ++ [((P.run E 0 (P.init 0 u) (lexAll right)).syms, fun s => (P.run E s (P.init s u) (lexAll right)).out)])).map (·.2)
      |>.foldl (cunit d right) C0).tl = C0.tl ++ S'.tl := by
    rw [hmapys, List.foldl_append]
    simp only [List.foldl_cons, List.foldl_nil]
    rw [hcu, ← htlS]
  have hgood : goodUnits right ((cs ++ [cur]).zip (us ++ [((P.run E 0 (P.init 0 u) (lexAll right)).syms, fun s => (P.run E s (P.init s u) (lexAll right)).out)])) := by
    intro y hy st t ht
    have hy2 := (List.of_mem_zip (a := y.1) (b := y.2) hy).2
    have hall : t ∈ (P.run E st (P.init st u) (lexAll right)).all := by
      unfold P.all
      have hus := hJ.units st
      rw [hus]
      rcases List.mem_append.1 hy2 with hy2 | hy2
      · refine List.mem_append_left _ (List.mem_flatten.2 ⟨y.2.2 st, ?_, ht⟩)
        rw [List.map_map]
        exact List.mem_map.2 ⟨y.2, hy2, rfl⟩
      · simp only [List.mem_singleton] at hy2
        rw [hy2] at ht
        exact List.mem_append_right _ ht
    rcases (P.all_run E st (lexAll right) (P.init st u)).2 t hall with hz | ⟨tk, hz, hz2⟩
    · simp [P.all, P.init] at hz
    · rcases hz2 with hz2 | ⟨b, hz2⟩
      · exact .inl hz2
      · exact .inr ⟨b, tk.pos, hz2, (lexAll_pos _ _ hz).2⟩
  have hkb := KC.units_safe (d := d) (left := left) (right := right) hlead hd.pos hu hk
    (by rw [hmapys]; exact unitsOK_snoc huok hsok hcc) hro hpl hkbad hin0 hgood (by rw [htlU]; exact hst0) (by rw [htlU]; exact hr0)
  obtain ⟨hku, hin, hres⟩ := KC.units (d := d) (left := left) (right := right) hd.pos hu hk
    (by rw [hmapys]; exact unitsOK_snoc huok hsok hcc) hkb hin0
  have hmem : C.st ∈ cur := by
    rw [List.zip_append hcount] at hin
    have := unitsIn_last hin
    rw [show (fun x : List Nat × List (USym × Nat) × (Nat → List MTuple) => x.2) = Prod.snd from rfl, List.map_snd_zip (by omega), ← hcomb] at this
    exact this
  rw [hmapys] at hku
  rw [List.foldl_append] at hku
  simp only [List.foldl_cons, List.foldl_nil] at hku
  rw [hcu] at hku
  have hS'm : S'.ss.length ≤ MAX_STACK := by
    rw [← hS', runToks_ss]; exact ssRun_max _ hmax
  have hmerge0 := hku.merge hmem (w := W.run E (W.init (List.range d.statesNum) u) (lexAll right)) (htr C.st)
    (by obtain ⟨l, c, ms, hl⟩ := (hJ.inv C.st).root; exact ⟨l, _, hl⟩) (by
      have := hrel.ss
      dsimp only at this ⊢
      rw [← this]; exact hS'm)
  have hwp : K.bad ((((runWorker d ct u i right).units.foldl (K.unit d left right (runWorker d ct u i right).q.tl) k).merge (runWorker d ct u i right))) = false := by
    have hh : ∀ k' : K, (k'.merge (runWorker d ct u i right)) = k'.merge (W.run E (W.init (List.range d.statesNum) u) (lexAll right)) := by
      intro k'
      simp only [K.merge, hwq, hwe, hws]
    rw [hh, hwu, hwq]
    obtain ⟨b1, b2⟩ := K.bad_parts hkb
    have hq := hmerge0.2 b2 (by
      have l1 := hJ.rel.len
      have l2 := hcC.len
      have l3 := hJ.rel.ss
      have l4 := shallow_end hsh
      rw [← runToks_ss d right, hS', l3, nk_append] at l4
      simp only [List.length_append, List.length_dropLast]
      omega)
    simp only [K.bad, Bool.or_eq_false_iff]
    exact ⟨b1, hq⟩
  obtain ⟨c1, c2⟩ := W.bad_parts hwb
  obtain ⟨b1, b2⟩ := K.bad_parts hwp
  refine ⟨by simp only [K.chunk, K.orUb, K.bad, b1, b2, c1, c2, Bool.or_false], C.ss, ?_, ?_, ?_, ?_⟩
  · rw [hJ.low, hss]
  · rw [hss, hcomb]
    exact (csyms_ss d _ _).trans (cunits_ss d right _ _)
  · rw [hrel.ss]
    exact List.suffix_append _ _
  · have hlen := hku.len
    have := hcC.len
    rw [← hwu, ← hwq] at hlen
    have h9 := hro.chunk (d := d) (left := left) (right := right) (w := runWorker d ct u i right)
    rw [hlen, this] at h9
    exact h9

end JPS
