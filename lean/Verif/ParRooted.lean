import Verif.ParSafe
/-!
# Which nodes of the combined stacks still know their root

Nodes of worker 0 keep their range of roots through the whole combination; nodes put on top of them by `combineQueryStacks`
have none.
-/

set_option autoImplicit false

namespace JPS
open Spec

/-- The lowest `b` nodes know their root, which is node 0, and its chain is in order. -/
def Rooted (b : Nat) (q : QS) : Prop :=
  (∀ i n, i < b → q.nodes[i]? = some n → n.roots = some [0] ∨ (i = 0 ∧ n.roots = some [])) ∧ (0 < b → q.heads 0 ≠ .junk)

/-- No node appears, the roots stay, and the chain of node 0 stays in order. -/
structure Keep (q q' : QS) : Prop where
  node : ∀ (i : Nat) (n' : Node), q'.nodes[i]? = some n' → ∃ n, q.nodes[i]? = some n ∧ n.roots = n'.roots
  head : q.heads 0 ≠ .junk → q'.heads 0 ≠ .junk

theorem Keep.refl (q : QS) : Keep q q := ⟨fun _ n h => ⟨n, h, rfl⟩, id⟩

theorem Keep.trans {q q' q'' : QS} (h : Keep q q') (h' : Keep q' q'') : Keep q q'' := by
  refine ⟨fun i n hn => ?_, fun hh => h'.head (h.head hh)⟩
  obtain ⟨n1, h1, h2⟩ := h'.node i n hn
  obtain ⟨n2, h3, h4⟩ := h.node i n1 h1
  exact ⟨n2, h3, h4.trans h2⟩

theorem Keep.same {q q' : QS} (hn : q'.nodes = q.nodes) (hh : q'.heads = q.heads) : Keep q q' :=
  ⟨fun _ n h => ⟨n, by rw [← hn]; exact h, rfl⟩, fun h => by rw [hh]; exact h⟩

theorem Rooted.keep {b : Nat} {q q' : QS} (h : Rooted b q) (hk : Keep q q') : Rooted b q' := by
  refine ⟨fun i n hi hn => ?_, fun hb => hk.head (h.2 hb)⟩
  obtain ⟨n1, h1, h2⟩ := hk.node i n hn
  rw [← h2]
  exact h.1 i n1 hi h1

theorem Rooted.le {b b' : Nat} {q : QS} (h : Rooted b q) (hb : b' ≤ b) : Rooted b' q :=
  ⟨fun i n hi => h.1 i n (by omega), fun h0 => h.2 (by omega)⟩

theorem Rooted.zero (q : QS) : Rooted 0 q := ⟨fun i n hi => by omega, fun h => by omega⟩

theorem keep_set {q : QS} {i : Nat} {n n' : Node} (hn : q.nodes[i]? = some n) (hr : n'.roots = n.roots) :
    Keep q { q with nodes := q.nodes.set i n' } := by
  refine ⟨fun j m hm => ?_, id⟩
  by_cases e : i = j
  · subst e
    have hlt : i < q.nodes.length := (List.getElem?_eq_some_iff.1 hn).1
    simp only [List.getElem?_set_self hlt, Option.some.injEq] at hm
    exact ⟨n, hn, by rw [← hm, hr]⟩
  · simp only [List.getElem?_set_ne e] at hm
    exact ⟨m, hm, rfl⟩

theorem keep_pop (q : QS) : Keep q q.pop.1 := by
  unfold QS.pop
  cases q.items with
  | nil => exact Keep.same rfl rfl
  | cons r rs =>
    refine ⟨fun i n hn => ⟨n, ?_, rfl⟩, id⟩
    simp only [List.getElem?_take] at hn
    split at hn
    · exact hn
    · cases hn

theorem keep_incr (q : QS) (i : Nat) : Keep q (q.incr i) := by
  unfold QS.incr
  cases h : q.nodes[i]? with
  | none => exact Keep.same rfl rfl
  | some n => exact keep_set h rfl

theorem keep_setMs (q : QS) (i : Nat) (m : Option Nat) : Keep q (q.setMs i m) := by
  unfold QS.setMs
  cases h : q.nodes[i]? with
  | none => exact Keep.same rfl rfl
  | some n => exact keep_set h rfl

theorem keep_addTo (q : QS) (t : MTuple) (r : Nat) : Keep q (q.addTo t r) := by
  unfold QS.addTo
  cases h : q.heads r with
  | junk => exact Keep.same rfl rfl
  | empty =>
    refine ⟨fun _ n h => ⟨n, h, rfl⟩, fun h => ?_⟩
    dsimp only
    split
    · intro h'; cases h'
    · exact h
  | chain f l =>
    refine ⟨fun _ n h => ⟨n, h, rfl⟩, fun h => ?_⟩
    dsimp only
    split
    · intro h'; cases h'
    · exact h

theorem keep_addTos (t : MTuple) : ∀ (rs : List Nat) (q : QS), Keep q (rs.foldl (fun q r => q.addTo t r) q)
  | [], q => Keep.refl q
  | r :: rs, q => (keep_addTo q t r).trans (keep_addTos t rs _)

theorem keep_addInfo (q : QS) (i : Nat) (t : MTuple) : Keep q (q.addInfo i t) := by
  unfold QS.addInfo
  split
  · exact Keep.same rfl rfl
  · split
    · exact Keep.same rfl rfl
    · exact keep_addTo _ _ _
    · exact keep_addTos _ _ _

theorem keep_addText (q : QS) (i s : Nat) (t : Str) : Keep q (q.addText i s t) :=
  (keep_addInfo q i _).trans (Keep.same rfl rfl)

theorem keep_addTuple (s : Str) (k : K) (t : MTuple) : Keep k.q (k.addTuple s t).q := by
  unfold K.addTuple
  split <;> exact Keep.same rfl rfl

theorem keep_expire (d : QDfa) (st : Nat) (k : K) : Keep k.q (k.expire d st).q := by
  unfold K.expire
  cases h : k.cur with
  | none => exact Keep.same rfl rfl
  | some c =>
    dsimp only
    split
    · exact keep_set (q := k.q) h rfl
    · exact Keep.refl _

theorem keep_collect (d : QDfa) (s : Str) (k : K) (t : MTuple) : Keep k.q (k.collect d s t).q := by
  unfold K.collect
  cases h : k.cur with
  | none => exact Keep.same rfl rfl
  | some c =>
    dsimp only
    split
    · exact Keep.refl _
    · split
      · exact keep_addTuple _ _ _
      · split
        · exact (keep_incr k.q _).trans (keep_expire d c.st (K.incr (k.orUb _)))
        · split
          · exact keep_expire d c.st (k.orUb _)
          · refine Keep.trans ?_ (keep_addTuple _ _ _)
            split
            · exact keep_incr k.q _
            · exact Keep.refl _

theorem keep_collects (d : QDfa) (s : Str) : ∀ (ts : List MTuple) (k : K), Keep k.q (ts.foldl (K.collect d s) k).q
  | [], _ => Keep.refl _
  | t :: ts, k => (keep_collect d s k t).trans (keep_collects d s ts _)

theorem keep_rcbOut (d : QDfa) (left right : Str) (i : Nat) (c : Node) (k : K) : Keep k.q (k.rcbOut d left right i c).q := by
  unfold K.rcbOut
  split
  · split
    · exact (keep_addText k.q _ _ _).trans (keep_setMs _ _ _)
    · exact Keep.refl _
  · exact Keep.refl _

theorem keep_rcbEnd (d : QDfa) (c : Node) (k : K) : Keep k.q (k.rcbEnd d c).q := by
  unfold K.rcbEnd
  split
  · exact Keep.refl _
  · split
    · split
      · exact keep_pop k.q
      · split
        · dsimp only
          split
          · exact (keep_incr k.q _).trans (keep_addText _ _ _ _)
          · exact keep_incr k.q _
        · exact Keep.refl _
    · exact Keep.refl _

theorem keep_rbOut (d : QDfa) (left right : Str) (i : Nat) (k : K) : Keep k.q (k.rbOut d left right i).q := by
  unfold K.rbOut
  split
  · split
    · exact Keep.refl _
    · split
      · exact Keep.refl _
      · split
        · split
          · exact (keep_addText k.q _ _ _).trans (keep_setMs _ _ _)
          · exact Keep.refl _
        · exact Keep.refl _
  · exact Keep.refl _

theorem keep_rbEnd (k : K) : Keep k.q k.rbEnd.q := by
  unfold K.rbEnd
  split
  · exact keep_pop k.q
  · split
    · split
      · exact (keep_pop k.q).trans (keep_pop _)
      · split
        · exact (keep_pop k.q).trans (keep_incr _ _)
        · exact Keep.refl _
    · exact Keep.refl _

theorem keep_sym (d : QDfa) (left right : Str) (k : K) (x : USym × Nat) : Keep k.q (k.sym d left right x).q := by
  unfold K.sym
  split
  · unfold K.rcb
    split
    · exact Keep.refl _
    · exact (keep_rcbOut d left right _ _ k).trans (keep_rcbEnd d _ _)
  · exact (keep_rbOut d left right _ k).trans (keep_rbEnd _)
  · exact keep_pop k.q
  · exact keep_pop k.q
  · exact Keep.refl _

theorem keep_syms (d : QDfa) (left right : Str) : ∀ (xs : List (USym × Nat)) (k : K), Keep k.q (xs.foldl (K.sym d left right) k).q
  | [], _ => Keep.refl _
  | x :: xs, k => (keep_sym d left right k x).trans (keep_syms d left right xs _)

theorem keep_unit (d : QDfa) (left right : Str) (tl : List MTuple) (k : K) (u : PUnit) : Keep k.q (k.unit d left right tl u).q := by
  refine (keep_syms d left right u.syms k).trans ?_
  unfold K.unit
  dsimp only
  split
  · exact Keep.refl _
  · split
    · exact Keep.refl _
    · exact Keep.refl _
    · exact Keep.refl _
    · split
      · exact Keep.refl _
      · exact keep_collects _ _ _ _

theorem keep_units (d : QDfa) (left right : Str) (tl : List MTuple) : ∀ (us : List PUnit) (k : K),
    Keep k.q (us.foldl (K.unit d left right tl) k).q
  | [], _ => Keep.refl _
  | u :: us, k => (keep_unit d left right tl k u).trans (keep_units d left right tl us _)

/-! ### Merging -/

theorem copyLevel_grows (src : List Node) (r : Nat) : ∀ (ls : List Rng) (p : QS × Rng),
    (∃ l, (ls.foldl (copyLevel src r) p).1.nodes = p.1.nodes ++ l) ∧ (ls.foldl (copyLevel src r) p).1.heads = p.1.heads
  | [], p => ⟨⟨[], by simp⟩, rfl⟩
  | x :: ls, p => by
    have h1 : (∃ l, (copyLevel src r p x).1.nodes = p.1.nodes ++ l) ∧ (copyLevel src r p x).1.heads = p.1.heads := by
      unfold copyLevel
      dsimp only
      split
      · exact ⟨⟨_, rfl⟩, rfl⟩
      · exact ⟨⟨[], by simp⟩, rfl⟩
    obtain ⟨⟨l, h1⟩, h2⟩ := h1
    obtain ⟨⟨l', h3⟩, h4⟩ := copyLevel_grows src r ls (copyLevel src r p x)
    exact ⟨⟨l ++ l', by rw [List.foldl_cons, h3, h1, List.append_assoc]⟩, by rw [List.foldl_cons, h4, h2]⟩

theorem Rooted.merge {b : Nat} {k : K} (h : Rooted b k.q) (hb : b ≤ k.q.nodes.length) (w : W) : Rooted b (k.merge w).q := by
  have hg : (∃ l, (k.merge w).q.nodes = k.q.nodes ++ l) ∧ (k.merge w).q.heads = k.q.heads := by
    unfold K.merge QS.combine
    dsimp only
    split
    · exact ⟨⟨[], by simp⟩, rfl⟩
    · split
      · exact ⟨⟨[], by simp [QS.orUb]⟩, rfl⟩
      · split
        · exact copyLevel_grows _ _ _ _
        · exact ⟨⟨[], by simp [QS.orUb]⟩, rfl⟩
  obtain ⟨⟨l, h1⟩, h2⟩ := hg
  refine ⟨fun i n hi hn => ?_, fun h0 => by rw [h2]; exact h.2 h0⟩
  rw [h1, List.getElem?_append_left (by omega)] at hn
  exact h.1 i n hi hn

/-- One chunk: the nodes of worker 0 that are left. -/
theorem Rooted.chunk {b : Nat} {d : QDfa} {left right : Str} {k : K} {w : W} (h : Rooted b k.q) :
    Rooted (min b (w.units.foldl (K.unit d left right w.q.tl) k).q.nodes.length) (k.chunk d left right w).q :=
  ((h.keep (keep_units d left right w.q.tl w.units k)).le (Nat.min_le_left _ _)).merge (Nat.min_le_right _ _) w

/-! ### A `}` added for such a node -/

theorem Rooted.addText {b : Nat} {q : QS} (h : Rooted b q) {i s : Nat} {n : Node} (hi : i < b) (hn : q.nodes[i]? = some n)
    (hub : q.ub = false) (hr : q.tl.length < MAX_TUPLE_LIST) : (q.addText i s ['}']).ub = false := by
  have hh := h.2 (by omega)
  have h2 : ¬ q.tl.length ≥ MAX_TUPLE_LIST := by omega
  have h1 : ∀ t, (q.addTo t 0).ub = false := by
    intro t
    unfold QS.addTo
    cases e : q.heads 0 with
    | junk => exact absurd e hh
    | empty => simp [hub, h2]
    | chain f l => simp [hub, h2]
  have h3 : (q.addInfo i (.ofText s ['}'])).ub = false := by
    unfold QS.addInfo
    rw [hn]
    dsimp only
    rcases h.1 i n hi hn with e | ⟨e0, e⟩
    · rw [e]; exact h1 _
    · rw [e]; subst e0; exact h1 _
  show ((q.addInfo i (.ofText s ['}'])).ub || _) = false
  rw [h3]; rfl

/-- Entries with a filter are among the lowest `b`; the states are listed from the top. -/
def PredLow (d : QDfa) (b : Nat) (sts : List Nat) : Prop :=
  ∀ i s, sts.reverse[i]? = some s → d.accept s = .predicate → i < b

theorem PredLow.suffix {d : QDfa} {b : Nat} {a c : List Nat} (h : PredLow d b a) (hs : c <:+ a) : PredLow d b c := by
  obtain ⟨t, rfl⟩ := hs
  intro i s hi
  refine h i s ?_
  rw [List.reverse_append, List.getElem?_append_left (List.getElem?_eq_some_iff.1 hi).1]
  exact hi

theorem csym_path (d : QDfa) (C : Comb) (x : USym × Nat) : (csym d C x).p.map Elt.st <:+ C.p.map Elt.st := by
  have ht : ∀ p : List Elt, p.tail.map Elt.st <:+ p.map Elt.st := by
    intro p; cases p with
    | nil => exact List.suffix_refl _
    | cons e p => exact List.suffix_cons _ _
  have hi : ∀ C : Comb, C.incr.p.map Elt.st = C.p.map Elt.st := by
    intro C
    unfold Comb.incr
    dsimp only
    cases C.p <;> rfl
  unfold csym
  split
  · split
    · exact List.suffix_refl _
    · split
      · split
        · exact ht _
        · split
          · exact (hi C) ▸ List.suffix_refl _
          · exact List.suffix_refl _
      · exact List.suffix_refl _
  · split
    · exact ht _
    · split
      · split
        · exact (ht _).trans (ht _)
        · split
          · rw [hi]; exact ht _
          · exact List.suffix_refl _
      · exact List.suffix_refl _
  · exact ht _
  · exact ht _
  · exact List.suffix_refl _

theorem csyms_path (d : QDfa) : ∀ (xs : List (USym × Nat)) (C : Comb), (xs.foldl (csym d) C).p.map Elt.st <:+ C.p.map Elt.st
  | [], _ => List.suffix_refl _
  | x :: xs, C => (csyms_path d xs (csym d C x)).trans (csym_path d C x)

theorem cunit_path (d : QDfa) (s : Str) (C : Comb) (u : List (USym × Nat) × (Nat → List MTuple)) :
    (cunit d s C u).p.map Elt.st <:+ C.p.map Elt.st := csyms_path d u.1 C

theorem csym_ss (d : QDfa) (C : Comb) (x : USym × Nat) : (csym d C x).ss <:+ C.ss := by
  have ht : ∀ p : List Sym, pop p <:+ p := by
    intro p; cases p with
    | nil => exact List.suffix_refl _
    | cons e p => exact List.suffix_cons _ _
  unfold csym
  split
  · split
    · exact ht _
    · split
      · split
        · exact (ht _).trans (ht _)
        · split
          · exact ht _
          · exact List.suffix_refl _
      · exact List.suffix_refl _
  · split
    · exact ht _
    · split
      · split
        · exact (ht _).trans (ht _)
        · split
          · exact ht _
          · exact List.suffix_refl _
      · exact List.suffix_refl _
  · exact ht _
  · exact ht _
  · exact List.suffix_refl _

theorem csyms_ss (d : QDfa) : ∀ (xs : List (USym × Nat)) (C : Comb), (xs.foldl (csym d) C).ss <:+ C.ss
  | [], _ => List.suffix_refl _
  | x :: xs, C => (csyms_ss d xs (csym d C x)).trans (csym_ss d C x)

theorem cunits_ss (d : QDfa) (s : Str) : ∀ (us : List (List (USym × Nat) × (Nat → List MTuple))) (C : Comb),
    (us.foldl (cunit d s) C).ss <:+ C.ss
  | [], _ => List.suffix_refl _
  | u :: us, C => (cunits_ss d s us (cunit d s C u)).trans (csyms_ss d u.1 C)

/-- The lowest `n` entries of a stack. -/
def bot {α : Type} (n : Nat) (l : List α) : List α := l.drop (l.length - n)

theorem bot_suffix {α : Type} (n : Nat) (l : List α) : bot n l <:+ l := List.drop_suffix _ _

theorem bot_length {α : Type} {n : Nat} {l : List α} (h : n ≤ l.length) : (bot n l).length = n := by
  simp [bot]; omega

theorem suffix_eq_bot {α : Type} {a l : List α} (h : a <:+ l) : a = bot a.length l := by
  obtain ⟨t, rfl⟩ := h
  simp [bot]

theorem bot_of_suffix {α : Type} {n : Nat} {a l : List α} (h : a <:+ l) (hn : n ≤ a.length) : bot n l = bot n a := by
  have h1 : bot n a <:+ l := (bot_suffix n a).trans h
  have h2 := suffix_eq_bot h1
  rw [bot_length hn] at h2
  exact h2.symm

theorem nk_suffix {a l : List Sym} (h : a <:+ l) : nk a ≤ nk l := by
  obtain ⟨t, rfl⟩ := h
  rw [nk_append]; omega

/-- The stretch between two cuts: what is left of the lowest entries. -/
theorem Rooted.next {lo : Nat} {ss ss' l : List Sym} {q : QS} (h1 : l <:+ ss) (h2 : l <:+ ss') (hlo : lo ≤ ss.length)
    (h : Rooted (min (nk (bot lo ss) + 1) (nk l + 1)) q) : Rooted (nk (bot (min lo l.length) ss') + 1) q := by
  refine h.le ?_
  rcases Nat.le_total lo l.length with hc | hc
  · rw [Nat.min_eq_left hc, bot_of_suffix h2 hc, ← bot_of_suffix h1 hc]
    have := nk_suffix (bot_suffix lo l)
    rw [← bot_of_suffix h1 hc] at this
    omega
  · rw [Nat.min_eq_right hc, ← suffix_eq_bot h2]
    have : l <:+ bot lo ss := by
      refine List.suffix_of_suffix_length_le h1 (bot_suffix _ _) ?_
      rw [bot_length hlo]; exact hc
    have := nk_suffix this
    omega

end JPS
