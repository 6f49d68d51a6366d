import Verif.CharSet
/-!
# The map of a character set: which characters it holds
-/

set_option autoImplicit false

namespace JPS

/-- A map made of single characters and intervals in increasing order, from `lo` on. -/
inductive CWf : Nat → CMap → Prop
  | nil {lo} : CWf lo []
  | solo {lo k r} : lo ≤ k → CWf (k + 1) r → CWf lo ((k, .solo) :: r)
  | range {lo p q r} : lo ≤ p → p < q → CWf (q + 1) r → CWf lo ((p, .beg) :: (q, .fin) :: r)

/-- The characters of a list of intervals. -/
def spansHave (sp : List (Nat × Nat)) (x : Nat) : Bool :=
  sp.any fun e => decide (e.1 ≤ x) && decide (x ≤ e.2)

/-- The characters of a map. -/
def CMap.has : CMap → Nat → Bool
  | [], _ => false
  | (k, .solo) :: r, x => x == k || has r x
  | (p, .beg) :: (q, .fin) :: r, x => (decide (p ≤ x) && decide (x ≤ q)) || has r x
  | _ :: r, x => has r x

theorem CWf.mono {lo lo' : Nat} {s : CMap} (h : CWf lo s) (hl : lo' ≤ lo) : CWf lo' s := by
  cases h with
  | nil => exact .nil
  | solo h1 h2 => exact .solo (by omega) h2
  | range h1 h2 h3 => exact .range (by omega) h2 h3

theorem CWf.lo {lo : Nat} {s : CMap} (h : CWf lo s) : ∀ e ∈ s, lo ≤ e.1 := by
  induction h with
  | nil => simp
  | solo h1 _ ih =>
    intro e he
    rcases List.mem_cons.1 he with rfl | he
    · exact h1
    · have := ih e he; omega
  | range h1 h2 _ ih =>
    intro e he
    rcases List.mem_cons.1 he with rfl | he
    · exact h1
    · rcases List.mem_cons.1 he with rfl | he
      · simp; omega
      · have := ih e he; omega

theorem CWf.has_lo {lo : Nat} {s : CMap} (h : CWf lo s) {x : Nat} (hx : s.has x = true) :
    lo ≤ x := by
  induction h with
  | nil => simp [CMap.has] at hx
  | solo h1 _ ih =>
    simp [CMap.has] at hx
    rcases hx with rfl | hx
    · exact h1
    · have := ih hx; omega
  | range h1 h2 _ ih =>
    simp [CMap.has] at hx
    rcases hx with hx | hx
    · omega
    · have := ih hx; omega

theorem below_lo {lo : Nat} {s : CMap} (h : CWf lo s) {c : Nat} (hc : c ≤ lo) :
    s.below c = [] := by
  rw [CMap.below, List.filter_eq_nil_iff]
  intro e he
  have := h.lo e he
  simp; omega

theorem above_lo {lo : Nat} {s : CMap} (h : CWf lo s) {c : Nat} (hc : c < lo) :
    s.above c = s := by
  rw [CMap.above, List.filter_eq_self]
  intro e he
  have := h.lo e he
  simp; omega

theorem any_lo {lo : Nat} {s : CMap} (h : CWf lo s) {c : Nat} (hc : c < lo) :
    (s.any fun e => e.1 == c) = false := by
  rw [List.any_eq_false]
  intro e he
  have := h.lo e he
  simp; omega

theorem getLast?_cons_of_ne {α : Type} {a : α} {l : List α} (h : l ≠ []) :
    (a :: l).getLast? = l.getLast? := by
  cases l with
  | nil => exact absurd rfl h
  | cons b l => rfl

theorem joinNext_append (x b a : CMap) (c : Nat) :
    joinNext (x ++ b) a c = x ++ joinNext b a c := by
  unfold joinNext
  split
  · split <;> simp
  · simp

/-- A single character before the place of insertion does not matter. -/
theorem insert_solo_cons {k c : Nat} {r : CMap} (hk : k < c) :
    CMap.insert ((k, .solo) :: r) c = (k, .solo) :: r.insert c := by
  have hb : CMap.below ((k, .solo) :: r) c = [(k, .solo)] ++ r.below c := by
    simp [CMap.below, hk]
  have ha : CMap.above ((k, .solo) :: r) c = r.above c := by
    have : ¬ c < k := by omega
    simp [CMap.above, this]
  have hn : ((k, CTy.solo) :: r).any (fun e => e.1 == c) = r.any fun e => e.1 == c := by
    have : (k == c) = false := by simp; omega
    simp [this]
  unfold CMap.insert
  rw [hn, hb, ha]
  split
  · rfl
  · by_cases he : r.below c = []
    · rw [he]
      simp only [List.append_nil, List.getLast?_singleton, List.getLast?_nil]
      exact joinNext_append [(k, .solo)] [] _ _
    · rw [show ([(k, CTy.solo)] ++ r.below c).getLast? = (r.below c).getLast? from
        getLast?_cons_of_ne he]
      split
      · simp
      · split
        · rw [List.cons_append, List.nil_append, List.dropLast_cons_of_ne_nil he]; rfl
        · rw [joinNext_append]; rfl
      · rw [joinNext_append]; rfl

/-- An interval before the place of insertion: it either grows or does not matter. -/
theorem insert_range_cons {p q c : Nat} {r : CMap} (hpq : p < q) (hq : q < c)
    (hw : CWf (q + 1) r) :
    CMap.insert ((p, .beg) :: (q, .fin) :: r) c = (p, .beg) :: (q, .fin) :: r.insert c ∨
    (c = q + 1 ∧ (r.any fun e => e.1 == c) = false ∧
      CMap.insert ((p, .beg) :: (q, .fin) :: r) c = (p, .beg) :: (c, .fin) :: r) := by
  have hb : CMap.below ((p, .beg) :: (q, .fin) :: r) c =
      [(p, .beg), (q, .fin)] ++ r.below c := by
    have : p < c := by omega
    simp [CMap.below, hq, this]
  have ha : CMap.above ((p, .beg) :: (q, .fin) :: r) c = r.above c := by
    have h1 : ¬ c < p := by omega
    have h2 : ¬ c < q := by omega
    simp [CMap.above, h1, h2]
  have hn : ((p, CTy.beg) :: (q, .fin) :: r).any (fun e => e.1 == c) =
      r.any fun e => e.1 == c := by
    have h1 : (p == c) = false := by simp; omega
    have h2 : (q == c) = false := by simp; omega
    simp [h1, h2]
  cases hany : r.any fun e => e.1 == c with
  | true =>
    left
    unfold CMap.insert
    rw [hn, hany]; rfl
  | false =>
    unfold CMap.insert
    rw [hn, hb, ha, hany]
    simp only [Bool.false_eq_true, if_false]
    by_cases he : r.below c = []
    · rw [he]
      simp only [List.append_nil, List.getLast?_cons_cons, List.getLast?_singleton,
        List.getLast?_nil]
      by_cases hc : c = q + 1
      · right
        refine ⟨hc, trivial, ?_⟩
        have h2 : r.above c = r := by
          rw [CMap.above, List.filter_eq_self]
          intro e hr
          have h3 := hw.lo e hr
          have h4 := List.any_eq_false.1 hany e hr
          simp at h4 ⊢; omega
        rw [if_pos (by omega), h2]
        rfl
      · left
        rw [if_neg (by omega)]
        exact joinNext_append [(p, .beg), (q, .fin)] [] _ _
    · left
      rw [show ([(p, CTy.beg), (q, .fin)] ++ r.below c).getLast? = (r.below c).getLast? by
        rw [List.cons_append, List.cons_append, List.nil_append, List.getLast?_cons_cons,
          getLast?_cons_of_ne he]]
      split
      · simp
      · split
        · rw [List.cons_append, List.cons_append, List.nil_append, List.dropLast_cons_cons,
            List.dropLast_cons_of_ne_nil he]; rfl
        · rw [joinNext_append]; rfl
      · rw [joinNext_append]; rfl

/-- Insertion before all entries. -/
theorem insert_front {lo c : Nat} {s : CMap} (h : CWf lo s) (hc : c < lo) :
    CMap.insert s c = (c, .solo) :: s ∨
    (∃ k r, s = (k, .beg) :: r ∧ k = c + 1 ∧ CMap.insert s c = (c, .beg) :: r) := by
  have hb := below_lo h (c := c) (by omega)
  have ha := above_lo h hc
  have hn := any_lo h hc
  unfold CMap.insert
  rw [hn, hb, ha]
  simp only [Bool.false_eq_true, if_false, List.getLast?_nil]
  unfold joinNext
  split
  · rename_i k r
    split
    · rename_i hk
      right
      exact ⟨k, r, rfl, by omega, by simp⟩
    · left; simp
  · left; simp

/-- `insert(c)` adds exactly `c`. -/
theorem insert_has {lo : Nat} {s : CMap} (h : CWf lo s) {c : Nat} (hc : lo ≤ c) :
    CWf lo (s.insert c) ∧ ∀ x, (s.insert c).has x = (x == c || s.has x) := by
  induction h with
  | nil =>
    refine ⟨.solo hc .nil, fun x => ?_⟩
    simp [CMap.insert, joinNext, CMap.below, CMap.above, CMap.has]
  | @solo lo k r h1 h2 ih =>
    rcases Nat.lt_trichotomy k c with hk | hk | hk
    · rw [insert_solo_cons hk]
      obtain ⟨i1, i2⟩ := ih (by omega)
      refine ⟨.solo h1 i1, fun x => ?_⟩
      simp only [CMap.has, i2]
      cases x == k <;> cases x == c <;> simp
    · subst hk
      have : CMap.insert ((k, .solo) :: r) k = (k, .solo) :: r := by
        unfold CMap.insert; simp
      rw [this]
      refine ⟨.solo h1 h2, fun x => ?_⟩
      simp [CMap.has]
    · rcases insert_front (s := (k, .solo) :: r) (.solo (Nat.le_refl k) h2) hk with h | ⟨_, _, h, _⟩
      · rw [h]
        refine ⟨.solo hc (.solo (by omega) h2), fun x => ?_⟩
        rfl
      · cases h
  | @range lo p q r h1 h2 h3 ih =>
    rcases Nat.lt_trichotomy c p with hp | hp | hp
    · rcases insert_front (s := (p, .beg) :: (q, .fin) :: r) (.range (Nat.le_refl p) h2 h3) hp
        with h | ⟨k, r', h, h4, h5⟩
      · rw [h]
        exact ⟨.solo hc (.range (by omega) h2 h3), fun x => rfl⟩
      · cases h
        rw [h5]
        refine ⟨.range hc (by omega) h3, fun x => ?_⟩
        simp only [CMap.has]
        rw [← Bool.or_assoc]
        congr 1
        rw [Bool.eq_iff_iff]
        simp; omega
    · subst hp
      have : CMap.insert ((c, .beg) :: (q, .fin) :: r) c = (c, .beg) :: (q, .fin) :: r := by
        unfold CMap.insert; simp
      rw [this]
      refine ⟨.range h1 h2 h3, fun x => ?_⟩
      simp only [CMap.has]
      rw [← Bool.or_assoc]
      congr 1
      rw [Bool.eq_iff_iff]
      simp; omega
    · rcases Nat.lt_trichotomy c q with hq | hq | hq
      · have hb : CMap.below ((p, .beg) :: (q, .fin) :: r) c = [(p, .beg)] := by
          have e1 := below_lo h3 (c := c) (by omega)
          have e2 : ¬ q < c := by omega
          rw [CMap.below] at e1 ⊢
          rw [List.filter_cons, List.filter_cons, e1]
          simp [hp, e2]
        have ha : CMap.above ((p, .beg) :: (q, .fin) :: r) c = (q, .fin) :: r := by
          have e1 := above_lo h3 (c := c) (by omega)
          have e2 : ¬ c < p := by omega
          rw [CMap.above] at e1 ⊢
          rw [List.filter_cons, List.filter_cons, e1]
          simp [hq, e2]
        have : CMap.insert ((p, .beg) :: (q, .fin) :: r) c = (p, .beg) :: (q, .fin) :: r := by
          unfold CMap.insert
          rw [hb, ha]
          split
          · rfl
          · simp
        rw [this]
        refine ⟨.range h1 h2 h3, fun x => ?_⟩
        simp only [CMap.has]
        rw [← Bool.or_assoc]
        congr 1
        rw [Bool.eq_iff_iff]
        simp; omega
      · subst hq
        have : CMap.insert ((p, .beg) :: (c, .fin) :: r) c = (p, .beg) :: (c, .fin) :: r := by
          unfold CMap.insert; simp
        rw [this]
        refine ⟨.range h1 h2 h3, fun x => ?_⟩
        simp only [CMap.has]
        rw [← Bool.or_assoc]
        congr 1
        rw [Bool.eq_iff_iff]
        simp; omega
      · rcases insert_range_cons h2 hq h3 with h | ⟨h4, h5, h6⟩
        · rw [h]
          obtain ⟨i1, i2⟩ := ih (by omega)
          refine ⟨.range h1 h2 i1, fun x => ?_⟩
          simp only [CMap.has, i2]
          cases x == c <;> cases decide (p ≤ x) <;> cases decide (x ≤ q) <;> simp
        · rw [h6]
          have hw : CWf (c + 1) r := by
            cases h3 with
            | nil => exact .nil
            | @solo _ k _ g1 g2 =>
              have : k ≠ c := by
                intro e; simp [e] at h5
              exact .solo (by omega) g2
            | @range _ k _ _ g1 g2 g3 =>
              have : k ≠ c := by
                intro e; simp [e] at h5
              exact .range (by omega) g2 g3
          refine ⟨.range h1 (by omega) hw, fun x => ?_⟩
          simp only [CMap.has]
          rw [← Bool.or_assoc]
          congr 1
          rw [Bool.eq_iff_iff]
          simp; omega

/-- Two maps one after the other. -/
theorem CWf.append {lo m : Nat} {b a : CMap} (hb : CWf lo b) (hk : ∀ e ∈ b, e.1 < m)
    (ha : CWf m a) (hl : lo ≤ m) :
    CWf lo (b ++ a) ∧ ∀ x, CMap.has (b ++ a) x = (b.has x || a.has x) := by
  induction hb with
  | nil => exact ⟨ha.mono hl, fun x => by simp [CMap.has]⟩
  | @solo lo k r h1 h2 ih =>
    have hk1 := hk (k, .solo) (by simp)
    obtain ⟨i1, i2⟩ := ih (fun e he => hk e (by simp [he])) hk1
    refine ⟨.solo h1 i1, fun x => ?_⟩
    simp [CMap.has, i2, Bool.or_assoc]
  | @range lo p q r h1 h2 h3 ih =>
    have hk1 := hk (q, .fin) (by simp)
    obtain ⟨i1, i2⟩ := ih (fun e he => hk e (by simp [he])) hk1
    refine ⟨.range h1 h2 i1, fun x => ?_⟩
    simp [CMap.has, i2, Bool.or_assoc]

theorem CWf.last_ne_beg {lo : Nat} {b : CMap} (hb : CWf lo b) {k : Nat} {t : CTy}
    (h : b.getLast? = some (k, t)) : t ≠ .beg := by
  induction hb with
  | nil => simp at h
  | @solo lo k r h1 h2 ih =>
    cases r with
    | nil => simp at h; simp [← h.2]
    | cons e r => exact ih (by simpa using h)
  | @range lo p q r h1 h2 h3 ih =>
    cases r with
    | nil => simp at h; simp [← h.2]
    | cons e r => exact ih (by simpa using h)

/-- A map without the characters from `p - 1` to `q` lies on both sides of them. -/
theorem CWf.gap {lo : Nat} {s : CMap} (h : CWf lo s) {p q : Nat} (hl : lo ≤ p) (hpq : p < q)
    (hc : ∀ x, s.has x = true → x + 1 < p ∨ q < x) :
    ∃ b a, s = b ++ a ∧ CWf lo b ∧ CWf (q + 1) a ∧ (∀ e ∈ b, e.1 + 1 < p ∧ s.has e.1 = true) := by
  induction h with
  | nil => exact ⟨[], [], rfl, .nil, .nil, by simp⟩
  | @solo lo k r h1 h2 ih =>
    rcases hc k (by simp [CMap.has]) with hk | hk
    · obtain ⟨b, a, rfl, i1, i2, i3⟩ := ih (by omega) (fun x hx => hc x (by simp [CMap.has, hx]))
      refine ⟨(k, .solo) :: b, a, rfl, .solo h1 i1, i2, fun e he => ?_⟩
      rcases List.mem_cons.1 he with rfl | he
      · exact ⟨hk, by simp [CMap.has]⟩
      · exact ⟨(i3 e he).1, by simp [CMap.has, (i3 e he).2]⟩
    · exact ⟨[], _, rfl, .nil, .solo (by omega) h2, by simp⟩
  | @range lo p' q' r h1 h2 h3 ih =>
    rcases hc p' (by simp [CMap.has]; omega) with hp | hp
    · rcases hc q' (by simp [CMap.has]; omega) with hq | hq
      · obtain ⟨b, a, rfl, i1, i2, i3⟩ :=
          ih (by omega) (fun x hx => hc x (by simp [CMap.has, hx]))
        refine ⟨(p', .beg) :: (q', .fin) :: b, a, rfl, .range h1 h2 i1, i2, fun e he => ?_⟩
        rcases List.mem_cons.1 he with rfl | he
        · exact ⟨hp, by simp [CMap.has]; omega⟩
        · rcases List.mem_cons.1 he with rfl | he
          · exact ⟨hq, by simp [CMap.has]; omega⟩
          · exact ⟨(i3 e he).1, by simp [CMap.has, (i3 e he).2]⟩
      · have := hc p (by simp [CMap.has]; omega)
        omega
    · exact ⟨[], _, rfl, .nil, .range (by omega) h2 h3, by simp⟩

/-- `insert(p, q)` adds exactly the characters from `p` to `q` when the set contains none of them
and not the one before.  If the right operand of `-` is evaluated first, all characters of the set
must come after the range. -/
theorem insertRange_has {lo : Nat} {s : CMap} (h : CWf lo s) {lf : Bool} {p q : Nat}
    (hl : lo ≤ p) (hpq : p ≤ q)
    (hc : p < q → ∀ x, s.has x = true → (x + 1 < p ∧ lf = true) ∨ q < x) :
    ∃ s', s.insertRange lf p q = some s' ∧ CWf lo s' ∧
      ∀ x, s'.has x = ((decide (p ≤ x) && decide (x ≤ q)) || s.has x) := by
  by_cases he : p = q
  · subst he
    obtain ⟨i1, i2⟩ := insert_has h hl
    refine ⟨_, if_pos rfl, i1, fun x => ?_⟩
    rw [i2]
    congr 1
    rw [Bool.eq_iff_iff]
    simp; omega
  · have hlt : p < q := by omega
    obtain ⟨b, a, rfl, h1, h2, h3⟩ := h.gap hl hlt (fun x hx => by
      have := hc hlt x hx; omega)
    have hbp : ∀ m, p ≤ m → CMap.below b m = b := by
      intro m hm
      rw [CMap.below, List.filter_eq_self]
      intro e he; have := (h3 e he).1; simp; omega
    have hba : ∀ m, p ≤ m → CMap.above b m = [] := by
      intro m hm
      rw [CMap.above, List.filter_eq_nil_iff]
      intro e he; have := (h3 e he).1; simp; omega
    have hab : ∀ m, m ≤ q → CMap.below a m = [] := fun m hm => below_lo h2 (by omega)
    have haa : ∀ m, m ≤ q → CMap.above a m = a := fun m hm => above_lo h2 (by omega)
    have e1 : CMap.put (b ++ a) p .beg = b ++ (p, .beg) :: a := by
      unfold CMap.put
      rw [show CMap.below (b ++ a) p = CMap.below b p ++ CMap.below a p from List.filter_append ..,
        show CMap.above (b ++ a) p = CMap.above b p ++ CMap.above a p from List.filter_append ..,
        hbp p (by omega), hba p (by omega), hab p (by omega), haa p (by omega)]
      simp
    have hs1b : ∀ m, CMap.below ((p, CTy.beg) :: a) m =
        (if p < m then [(p, CTy.beg)] else []) ++ CMap.below a m := by
      intro m; unfold CMap.below; rw [List.filter_cons]; split <;> simp_all
    have hs1a : ∀ m, CMap.above ((p, CTy.beg) :: a) m =
        (if m < p then [(p, CTy.beg)] else []) ++ CMap.above a m := by
      intro m; unfold CMap.above; rw [List.filter_cons]; split <;> simp_all
    have e2 : CMap.put (b ++ (p, .beg) :: a) q .fin = b ++ (p, .beg) :: (q, .fin) :: a := by
      unfold CMap.put
      rw [show CMap.below (b ++ (p, .beg) :: a) q = CMap.below b q ++ CMap.below ((p, .beg) :: a) q
          from List.filter_append ..,
        show CMap.above (b ++ (p, .beg) :: a) q = CMap.above b q ++ CMap.above ((p, .beg) :: a) q
          from List.filter_append ..,
        hbp q (by omega), hba q (by omega), hs1b, hs1a, hab q (by omega), haa q (by omega),
        if_pos hlt, if_neg (by omega)]
      simp
    have b1 : CMap.below (b ++ (p, .beg) :: (q, .fin) :: a) p = b := by
      rw [show CMap.below (b ++ (p, .beg) :: (q, .fin) :: a) p = CMap.below b p ++
        CMap.below ((p, .beg) :: (q, .fin) :: a) p from List.filter_append .., hbp p (by omega)]
      have := hab p (by omega)
      unfold CMap.below at this ⊢
      rw [List.filter_cons, List.filter_cons, this]
      have : ¬ q < p := by omega
      simp [this]
    have a1 : CMap.above (b ++ (p, .beg) :: (q, .fin) :: a) p = (q, .fin) :: a := by
      rw [show CMap.above (b ++ (p, .beg) :: (q, .fin) :: a) p = CMap.above b p ++
        CMap.above ((p, .beg) :: (q, .fin) :: a) p from List.filter_append .., hba p (by omega)]
      have := haa p (by omega)
      unfold CMap.above at this ⊢
      rw [List.filter_cons, List.filter_cons, this]
      simp [hlt]
    have a2 : CMap.above (b ++ (p, .beg) :: (q, .fin) :: a) q = a := by
      rw [show CMap.above (b ++ (p, .beg) :: (q, .fin) :: a) q = CMap.above b q ++
        CMap.above ((p, .beg) :: (q, .fin) :: a) q from List.filter_append .., hba q (by omega)]
      have := haa q (by omega)
      unfold CMap.above at this ⊢
      rw [List.filter_cons, List.filter_cons, this]
      have : ¬ q < p := by omega
      simp [this]
    have hF : CMap.rangeF lf (b ++ (p, .beg) :: (q, .fin) :: a) p = some q := by
      unfold CMap.rangeF
      rw [b1, a1]
      split
      · rfl
      · rename_i k t hk
        have hm : (k, t) ∈ b := List.mem_of_getLast? hk
        have := h3 _ hm
        rcases hc hlt k this.2 with ⟨h4, h5⟩ | h4
        · have h6 := h1.last_ne_beg hk
          have h7 : decide (p - k > 1) = true := by simp; omega
          simp [h5, h6, h7]
        · simp at this; omega
    have hL : CMap.rangeL lf (b ++ (p, .beg) :: (q, .fin) :: a) q = q := by
      unfold CMap.rangeL
      rw [a2]
      cases h2 with
      | nil => rfl
      | solo => simp
      | range => simp
    refine ⟨b ++ (p, .beg) :: (q, .fin) :: a, ?_, ?_⟩
    · unfold CMap.insertRange
      rw [if_neg he, e1, e2]
      simp only [hF, hL, gt_iff_lt, Nat.lt_irrefl, if_false]
    · have hk : ∀ e ∈ b, e.1 < p := fun e he => by have := (h3 e he).1; omega
      have hnew : CWf p ((p, .beg) :: (q, .fin) :: a) := .range (Nat.le_refl p) hlt h2
      obtain ⟨g1, g2⟩ := h1.append hk hnew hl
      refine ⟨g1, fun x => ?_⟩
      obtain ⟨_, g3⟩ := h1.append hk (h2.mono (by omega)) hl
      rw [g2, g3]
      simp only [CMap.has]
      cases CMap.has b x <;> simp

/-- The loops over a map of this shape visit exactly its characters, each once. -/
theorem CWf.spans {lo : Nat} {s : CMap} (h : CWf lo s) :
    ∃ sp, s.spans = some sp ∧ (∀ x, spansHave sp x = s.has x) ∧
      sp.Pairwise (fun e f => e.2 < f.1) ∧ (∀ e ∈ sp, e.1 ≤ e.2 ∧ lo ≤ e.1 ∧ s.has e.2 = true) := by
  induction h with
  | nil => exact ⟨[], rfl, fun x => rfl, .nil, by simp⟩
  | @solo lo k r h1 h2 ih =>
    obtain ⟨sp, i1, i2, i3, i4⟩ := ih
    refine ⟨(k, k) :: sp, by simp [CMap.spans, i1], fun x => ?_, ?_, ?_⟩
    · have := i2 x
      unfold spansHave at this ⊢
      rw [List.any_cons, this, CMap.has]
      congr 1
      rw [Bool.eq_iff_iff]; simp; omega
    · refine List.pairwise_cons.2 ⟨fun f hf => ?_, i3⟩
      have := (i4 f hf).2; simp; omega
    · intro e he
      rcases List.mem_cons.1 he with rfl | he
      · simp [CMap.has]; exact h1
      · have := i4 e he
        exact ⟨this.1, by omega, by simp [CMap.has, this.2.2]⟩
  | @range lo p q r h1 h2 h3 ih =>
    obtain ⟨sp, i1, i2, i3, i4⟩ := ih
    refine ⟨(p, q) :: sp, by simp [CMap.spans, i1], fun x => ?_, ?_, ?_⟩
    · have := i2 x
      unfold spansHave at this ⊢
      rw [List.any_cons, this, CMap.has]
    · refine List.pairwise_cons.2 ⟨fun f hf => ?_, i3⟩
      have := (i4 f hf).2; simp; omega
    · intro e he
      rcases List.mem_cons.1 he with rfl | he
      · simp [CMap.has]; omega
      · have := i4 e he
        exact ⟨this.1, by omega, by simp [CMap.has, this.2.2]⟩

end JPS
