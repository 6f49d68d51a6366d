import Verif.FilterBelow
import Verif.PathProofs
/-!
# The number of states of the automaton of a query
-/

set_option autoImplicit false

namespace JPS
open Spec

/-! ### States as functions of what the rules have read -/

theorem createDFA_run_eq (items : List Item) (m : Nat) {x y : List Nat} (hx : ∀ a ∈ x, 1 ≤ a ∧ a < m)
    (hy : ∀ a ∈ y, 1 ≤ a ∧ a < m)
    (h : optRun (bNext items) (some [items.length]) x = optRun (bNext items) (some [items.length]) y) :
    x.foldl (createDFA items m).next 1 = y.foldl (createDFA items m).next 1 := by
  have e : ∀ w : List Nat, w.foldl (createDFA items m).next 1 = w.foldl (rowsNext (createDFA items m).rows) 1 := fun _ => rfl
  rw [e, e, ((createDFA_explored items m).run1 x hx).2, ((createDFA_explored items m).run1 y hy).2, h]

theorem runVec_rules (m : Nat) (w : List Nat) : ∀ rules : List (List Item),
    runVec (rules.map (createDFA · m)) (List.replicate rules.length 1) w = rules.map fun r => w.foldl (createDFA r m).next 1
  | [] => runVec_nil _ _ rfl
  | r :: rs => by
    rw [List.map_cons, List.length_cons, List.replicate_succ, runVec_cons, runVec_rules m w rs, List.map_cons]

/-- Two words after which every rule has the same items lead to the same state. -/
theorem buildDfa_run_eq (rules : List (List Item)) (hr : rules ≠ []) (m : Nat) {x y : List Nat} (hx : ∀ a ∈ x, 1 ≤ a ∧ a < m)
    (hy : ∀ a ∈ y, 1 ≤ a ∧ a < m)
    (h : ∀ r ∈ rules, optRun (bNext r) (some [r.length]) x = optRun (bNext r) (some [r.length]) y) :
    x.foldl (buildDfa rules m).next 1 = y.foldl (buildDfa rules m).next 1 := by
  have hv : runVec (rules.map (createDFA · m)) (List.replicate (rules.map (createDFA · m)).length 1) x =
      runVec (rules.map (createDFA · m)) (List.replicate (rules.map (createDFA · m)).length 1) y := by
    rw [List.length_map, runVec_rules, runVec_rules]
    apply List.map_congr_left
    intro r hm
    exact createDFA_run_eq r m hx hy (h r hm)
  have zx := (combine_run (rules.map (createDFA · m)) m x hx).2 (by simpa using hr)
  have zy := (combine_run (rules.map (createDFA · m)) m y hy).2 (by simpa using hr)
  show x.foldl (combine (rules.map (createDFA · m)) m).next 1 = y.foldl (combine (rules.map (createDFA · m)) m).next 1
  rw [← hv] at zy
  have rx := ((combine_explored (rules.map (createDFA · m)) m).run1 x hx).2
  have ry := ((combine_explored (rules.map (createDFA · m)) m).run1 y hy).2
  have e : ∀ w : List Nat, w.foldl (combine (rules.map (createDFA · m)) m).next 1 =
      w.foldl (rowsNext (combine (rules.map (createDFA · m)) m).rows) 1 := fun _ => rfl
  by_cases hz : ∀ s ∈ runVec (rules.map (createDFA · m)) (List.replicate (rules.map (createDFA · m)).length 1) x, s = 0
  · rw [zx.2 hz, zy.2 hz]
  · rcases optRun_mix (ds := rules.map (createDFA · m)) x (some (List.replicate (rules.map (createDFA · m)).length 1)) _ (.inr rfl)
      with ⟨_, h0⟩ | h1
    · exact absurd h0 hz
    · rcases optRun_mix (ds := rules.map (createDFA · m)) y (some (List.replicate (rules.map (createDFA · m)).length 1)) _ (.inr rfl)
        with ⟨_, h0⟩ | h2
      · rw [← hv] at h0; exact absurd h0 hz
      · rw [e, e, rx, ry, h1, h2, hv]

/-! ### Rules without repetition -/

/-- The letters of `w` are read by the first items. -/
def along : List Item → List Nat → Bool
  | _, [] => true
  | [], _ :: _ => false
  | it :: r, a :: w => it.edge a && along r w

theorem filter_range_one (n k : Nat) : (List.range n).filter (fun f => f == k) = if k < n then [k] else [] := by
  rw [List.filter_beq]
  rw [List.nodup_range.count]
  by_cases h : k < n <;> simp [h]

/-- The items reached after `k` letters. -/
def at_ (items : List Item) (k : Nat) : List Nat := if k = 0 then [items.length] else [k - 1]

theorem nextSet_chain {items : List Item} (h : ∀ it ∈ items, it.opt = .none) {k : Nat} (hk : k ≤ items.length) (a : Nat) :
    nextSet items (at_ items k) a = if (items[k]?.any (·.edge a)) then [k] else [] := by
  have hfirst : ∀ j, firstLoop (items.drop j) j = if j < items.length then [j] else [] := by
    intro j
    cases hd : items.drop j with
    | nil =>
      have := congrArg List.length hd
      simp at this
      rw [if_neg (by omega)]; rfl
    | cons it r =>
      have hlt : j < items.length := by
        have := congrArg List.length hd
        simp at this; omega
      have hm : it ∈ items := List.mem_of_mem_drop (i := j) (by rw [hd]; simp)
      have := h it hm
      simp [firstLoop, Item.nullable, this, hlt]
  have hfol : (at_ items k).flatMap (followB items) = if k < items.length then [k] else [] := by
    unfold at_
    split
    · rename_i h0
      subst h0
      have := hfirst 0
      simp only [List.flatMap_cons, List.flatMap_nil, List.append_nil, followB, if_true]
      simpa using this
    · rename_i h0
      have e : k - 1 + 1 = k := by omega
      have hlt : k - 1 < items.length := by omega
      have hno := h items[k-1] (List.getElem_mem hlt)
      simp only [List.flatMap_cons, List.flatMap_nil, List.append_nil, followB]
      rw [if_neg (by omega), follow, List.getElem?_eq_getElem hlt]
      simp only [Item.rep, hno, e]
      simpa using hfirst k
  have hpred : nextSet items (at_ items k) a = (List.range items.length).filter fun f =>
      (f == k) && items[k]?.any (·.edge a) := by
    refine List.filter_congr ?_
    intro f _
    have e : ((at_ items k).any fun p => (followB items p).contains f) = (f == k && decide (k < items.length)) := by
      rw [Bool.eq_iff_iff]
      have : f ∈ (at_ items k).flatMap (followB items) ↔ f = k ∧ k < items.length := by
        rw [hfol]; split <;> simp_all
      simp only [List.any_eq_true, List.contains_iff_mem, Bool.and_eq_true, beq_iff_eq, decide_eq_true_eq]
      rw [← this, List.mem_flatMap]
    rw [e]
    by_cases hfk : f = k
    · subst hfk
      cases hf : items[f]? with
      | none => simp only [Bool.false_and, Option.any_none, Bool.and_false]
      | some it =>
        have := (List.getElem?_eq_some_iff.1 hf).1
        simp [this]
    · have h0 : (f == k) = false := by rw [beq_eq_false_iff_ne]; exact hfk
      rw [h0, Bool.false_and, Bool.false_and, Bool.and_false]
  rw [hpred]
  cases hb : items[k]?.any (·.edge a) with
  | false => simp
  | true =>
    have : k < items.length := by
      cases hf : items[k]? with
      | none => rw [hf] at hb; cases hb
      | some it => exact (List.getElem?_eq_some_iff.1 hf).1
    simp [filter_range_one, this]

theorem optRun_dead {σ : Type} [DecidableEq σ] (next : σ → Nat → Option σ) (w : List Nat) : optRun next none w = none := by
  induction w with
  | nil => rfl
  | cons a w ih => exact ih

theorem optRun_chain {items : List Item} (h : ∀ it ∈ items, it.opt = .none) : ∀ (w : List Nat) (k : Nat), k ≤ items.length →
    optRun (bNext items) (some (at_ items k)) w = if along (items.drop k) w then some (at_ items (k + w.length)) else none
  | [], k, hk => by simp [optRun, along]
  | a :: w, k, hk => by
    have hstep : optRun (bNext items) (some (at_ items k)) (a :: w) = optRun (bNext items) (bNext items (at_ items k) a) w := rfl
    rw [hstep]
    have hb : bNext items (at_ items k) a = if (items[k]?.any (·.edge a)) then some [k] else none := by
      unfold bNext
      rw [nextSet_chain h hk]
      cases items[k]?.any (·.edge a) <;> simp
    rw [hb]
    cases hf : items[k]? with
    | none =>
      have hge : items.length ≤ k := List.getElem?_eq_none_iff.1 hf
      rw [List.drop_eq_nil_of_le hge]
      simp [along, optRun_dead]
    | some it =>
      have hlt := (List.getElem?_eq_some_iff.1 hf).1
      have hd : items.drop k = it :: items.drop (k + 1) := by
        rw [List.drop_eq_getElem_cons hlt]
        rw [(List.getElem?_eq_some_iff.1 hf).2]
      rw [hd]
      cases he : it.edge a with
      | false => simp [along, he, optRun_dead]
      | true =>
        have ih := optRun_chain h w (k + 1) hlt
        have e1 : at_ items (k + 1) = [k] := by simp [at_]
        rw [e1] at ih
        simp only [Option.any_some, he, if_true, along, Bool.true_and, ih, List.length_cons]
        rw [show k + 1 + w.length = k + (w.length + 1) from by omega]

/-- Rules without repetition: the state is known from the number of letters and the rules still alive. -/
theorem chain_run_eq {c : SCtx} (hr : c.rules ≠ []) (h : ∀ r ∈ c.rules, ∀ it ∈ r, it.opt = .none) {x y : List Nat}
    (hx : c.letters x) (hy : c.letters y) (hl : x.length = y.length) (he : ∀ r ∈ c.rules, along r x = along r y) :
    c.run x = c.run y := by
  refine buildDfa_run_eq c.rules hr (c.names.length + 3) hx hy ?_
  intro r hm
  have e := optRun_chain (h r hm) x 0 (Nat.zero_le _)
  have e' := optRun_chain (h r hm) y 0 (Nat.zero_le _)
  simp only [at_, if_true, List.drop_zero, Nat.zero_add] at e e'
  rw [e, e', he r hm, hl]

/-- A state other than 0 keeps a rule alive. -/
theorem chain_alive {c : SCtx} (hr : c.rules ≠ []) (h : ∀ r ∈ c.rules, ∀ it ∈ r, it.opt = .none) {x : List Nat}
    (hx : c.letters x) (hne : c.run x ≠ 0) : ∃ r ∈ c.rules, along r x = true := by
  have hz := buildDfa_zero c.rules hr (c.names.length + 3) x hx
  apply Classical.byContradiction
  intro hno
  refine hne (hz.2 ?_)
  intro r hm
  rw [createDFA_zero _ _ x hx]
  have e := optRun_chain (h r hm) x 0 (Nat.zero_le _)
  simp only [at_, if_true, List.drop_zero, Nat.zero_add] at e
  rw [e, if_neg (fun ha => hno ⟨r, hm, ha⟩)]

theorem chain_nonzero {c : SCtx} (hr : c.rules ≠ []) (h : ∀ r ∈ c.rules, ∀ it ∈ r, it.opt = .none) {x : List Nat}
    (hx : c.letters x) {r : List Item} (hm : r ∈ c.rules) (ha : along r x = true) : c.run x ≠ 0 := by
  intro h0
  have hz := (buildDfa_zero c.rules hr (c.names.length + 3) x hx).1 h0 r hm
  rw [createDFA_zero _ _ x hx] at hz
  have e := optRun_chain (h r hm) x 0 (Nat.zero_le _)
  simp only [at_, if_true, List.drop_zero, Nat.zero_add] at e
  rw [e, if_pos ha] at hz
  cases hz

theorem along_length : ∀ {r : List Item} {x : List Nat}, along r x = true → x.length ≤ r.length
  | _, [], _ => Nat.zero_le _
  | [], _ :: _, h => by cases h
  | it :: r, a :: x, h => by
    simp only [along, Bool.and_eq_true] at h
    have := along_length h.2
    simpa using this

theorem along_short : ∀ (r s : List Item) (x : List Nat), x.length ≤ r.length → along (r ++ s) x = along r x
  | _, _, [], _ => by cases ‹List Item› <;> simp [along]
  | [], _, _ :: _, h => by simp at h
  | it :: r, s, a :: x, h => by
    simp only [List.cons_append, along]
    rw [along_short r s x (by simpa using h)]

theorem along_append : ∀ (r s : List Item) (y m : List Nat), y.length = r.length → along (r ++ s) (y ++ m) = (along r y && along s m)
  | [], s, [], m, _ => by simp [along]
  | it :: r, s, a :: y, m, h => by
    simp only [List.cons_append, along]
    rw [along_append r s y m (by simpa using h), Bool.and_assoc]
  | [], _, _ :: _, _, h => by simp at h
  | _ :: _, _, [], _, h => by simp at h

theorem along_take {r : List Item} {x : List Nat} (n : Nat) (h : along r x = true) : along r (x.take n) = true := by
  induction x generalizing r n with
  | nil => simp [along]
  | cons a x ih =>
    cases n with
    | zero => simp [along]
    | succ n =>
      cases r with
      | nil => cases h
      | cons it r =>
        simp only [along, Bool.and_eq_true, List.take_succ_cons] at h ⊢
        exact ⟨h.1, ih n h.2⟩

theorem along_lits : ∀ (v m : List Nat), along (v.map litItem) m = true ↔ m <+: v
  | _, [] => by simp [along]
  | [], _ :: _ => by simp [along]
  | b :: v, a :: m => by
    simp only [List.map_cons, along, Bool.and_eq_true, along_lits v m, List.cons_prefix_cons]
    simp [litItem, Item.edge]

theorem lang_along : ∀ {r : List Item}, (∀ it ∈ r, it.opt = .none) → ∀ w, Lang r w ↔ along r w = true ∧ w.length = r.length
  | [], _, [] => by simp [along]; exact .nil
  | [], _, a :: w => by
    simp only [along]
    constructor
    · intro h; cases h
    · rintro ⟨h, _⟩; cases h
  | it :: r, h, [] => by
    have h1 := h it (by simp)
    constructor
    · intro hl; exact absurd hl (not_lang_nil (by simp [Item.nullable, h1]))
    · rintro ⟨_, h2⟩; simp at h2
  | ⟨ch, o⟩ :: r, h, a :: w => by
    have h1 := h ⟨ch, o⟩ (by simp)
    simp only at h1
    subst h1
    rw [lang_one, lang_along (fun it hi => h it (by simp [hi])) w]
    simp [along, and_assoc]

/-! ### Paths without descendant steps -/

theorem itemsOf_levels {names : List Str} : ∀ {p : List Step}, (∀ s ∈ p, isDesc s = false) →
    (itemsOf names p).length = p.length ∧ ∀ it ∈ itemsOf names p, it.opt = .none
  | [], _ => by simp [itemsOf]
  | s :: p, h => by
    have ih := itemsOf_levels (names := names) (p := p) (fun s' hs => h s' (by simp [hs]))
    have hs := h s (by simp)
    have e : itemsOf names (s :: p) = SE.items names (seOf s) ++ itemsOf names p := by simp [itemsOf]
    rw [e]
    cases s <;> simp [isDesc] at hs <;> simp [seOf, SE.items, ih.1] <;> exact ih.2

theorem matches_lab : ∀ {p : List Step}, (∀ s ∈ p, isDesc s = false) → Matches (p.map unslice) (p.map lab)
  | [], _ => .nil
  | s :: p, h => by
    have ih := matches_lab (p := p) (fun s' hs => h s' (by simp [hs]))
    have hs := h s (by simp)
    cases s <;> simp [isDesc] at hs
    · exact .dotAll _ ih
    · exact .prop _ ih
    · exact .all _ ih
    · exact .all _ ih

theorem itemsOf_cat (names : List Str) (p q : List Step) : itemsOf names (p ++ q) = itemsOf names p ++ itemsOf names q := by
  simp [itemsOf]

/-- The states of the table of a path without descendant steps. -/
theorem PathCtx.levels_states {p : List Step} {c : SCtx} (h : PathCtx p c) (hd : ∀ s ∈ p, isDesc s = false) :
    (tableOf c).statesNum = p.length + 2 := by
  have e : (tableOf c).statesNum = c.dfa.rows.length + 1 := rfl
  have hpre : ∀ r ∈ c.rules, ∃ q s, p = q ++ s ∧ r = itemsOf c.names q := by
    intro r hr
    rw [h.inv.rules] at hr
    obtain ⟨q, hq, rfl⟩ := List.mem_map.1 hr
    obtain ⟨s, hs⟩ := h.inv.pre q hq
    exact ⟨q, s, hs, rfl⟩
  have hopt : ∀ r ∈ c.rules, ∀ it ∈ r, it.opt = .none := by
    intro r hr
    obtain ⟨q, s, hp, rfl⟩ := hpre r hr
    exact (itemsOf_levels (fun s' hs => hd s' (by rw [hp]; simp [hs]))).2
  obtain ⟨Q, hQ, _⟩ := prefsOf_last h.ne
  have hmem : p ∈ prefsOf p := by rw [hQ]; simp
  have hz : Lang (itemsOf c.names p) ((p.map lab).map c.col) :=
    (c.lang_matches h.names_le p (h.inv.named p hmem) _).2 (matches_lab hd)
  have hpa := itemsOf_levels (names := c.names) hd
  rw [lang_along hpa.2] at hz
  have hlet : ∀ l : Loc, c.letters (l.map c.col) := c.letters_map
  have htake : ∀ n, c.letters (((p.map lab).map c.col).take n) := fun n a ha => hlet _ a (List.mem_of_mem_take ha)
  rw [e]
  have hle : c.dfa.rows.length ≤ p.length + 1 := by
    have hsub : List.range' 1 c.dfa.rows.length ⊆ ((List.range (p.length + 1)).map fun n => c.run (((p.map lab).map c.col).take n)) := by
      intro j hj
      rw [List.mem_range'] at hj
      obtain ⟨i, hi, rfl⟩ := hj
      obtain ⟨x, hx, hr⟩ := c.reach (1 + 1 * i) (by omega) (by omega)
      obtain ⟨r, hrm, ha⟩ := chain_alive h.ok.rules hopt hx (by omega)
      obtain ⟨q, s, hp, rfl⟩ := hpre r hrm
      have hlq := along_length ha
      rw [(itemsOf_levels (fun s' hs => hd s' (by rw [hp]; simp [hs]))).1] at hlq
      have hlp : x.length ≤ p.length := by rw [hp]; simp; omega
      have hap : along (itemsOf c.names p) x = true := by
        rw [hp, itemsOf_cat, along_short _ _ _ (along_length ha)]; exact ha
      refine List.mem_map.2 ⟨x.length, List.mem_range.2 (by omega), ?_⟩
      rw [← hr]
      have hll : (((p.map lab).map c.col).take x.length).length = x.length := by simp; omega
      refine chain_run_eq h.ok.rules hopt (htake _) hx hll ?_
      intro r' hr'
      obtain ⟨q', s', hp', rfl⟩ := hpre r' hr'
      have hlen' := (itemsOf_levels (names := c.names) (p := q') (fun s hs => hd s (by rw [hp']; simp [hs]))).1
      by_cases hs : x.length ≤ q'.length
      · rw [← along_short _ (itemsOf c.names s') _ (by rw [hlen']; omega),
          ← along_short (itemsOf c.names q') (itemsOf c.names s') x (by rw [hlen']; omega), ← itemsOf_cat, ← hp', hap]
        exact along_take _ hz.1
      · have hno : ∀ y : List Nat, y.length = x.length → along (itemsOf c.names q') y = false := by
          intro y hy
          cases ha : along (itemsOf c.names q') y with
          | false => rfl
          | true => have := along_length ha; omega
        rw [hno _ hll, hno _ rfl]
    have := List.Nodup.length_le_of_subset List.nodup_range' hsub
    simpa using this
  have hge : p.length + 2 ≤ c.dfa.rows.length + 1 := by
    have hstop : ∀ l : Loc, (∃ k, c.dfa.stop (c.run (l.map c.col)) = k + 1 ∧ (prefsOf p)[k]? = some p) → l.length = p.length := by
      rintro l ⟨k, h1, h2⟩
      rcases h.stop_cases l with ⟨h3, _⟩ | ⟨k', q, h3, h4, h5, _⟩
      · omega
      · have : k' = k := by omega
        subst this
        rw [h2] at h3
        cases h3
        have := matches_length h5 (by
          intro s hs
          obtain ⟨s', hs', rfl⟩ := List.mem_map.1 hs
          rw [isDesc_unslice]; exact hd s' hs')
        simpa using this.symm
    have hlast : ∃ k, c.dfa.stop (c.run ((p.map lab).map c.col)) = k + 1 ∧ (prefsOf p)[k]? = some p := by
      have hlk : (prefsOf p)[Q.length]? = some p := by rw [hQ]; simp
      rcases h.stop_cases (p.map lab) with ⟨_, h3⟩ | ⟨k, q, h3, h4, h5, h6⟩
      · exact absurd (matches_lab hd) (h3 p hmem)
      · refine ⟨k, h4, ?_⟩
        have : ¬ k < Q.length := fun hk => h6 _ _ hk hlk (matches_lab hd)
        have hk : k < (prefsOf p).length := (List.getElem?_eq_some_iff.1 h3).1
        rw [hQ] at hk
        simp at hk
        have : k = Q.length := by omega
        rw [this]; exact hlk
    have hap : ∀ u v : Loc, c.run ((u ++ v).map c.col) = (v.map c.col).foldl c.dfa.next (c.run (u.map c.col)) := by
      intro u v; simp [SCtx.run]
    have hinj : ∀ i j, i ≤ p.length → j ≤ p.length →
        c.run (((p.map lab).take i).map c.col) = c.run (((p.map lab).take j).map c.col) → i = j := by
      intro i j hi hj he
      have h1 : c.run (((p.map lab).take i ++ (p.map lab).drop j).map c.col) = c.run ((p.map lab).map c.col) := by
        rw [hap, he, ← hap, List.take_append_drop]
      obtain ⟨k, hk, hk'⟩ := hlast
      have := hstop _ ⟨k, by rw [h1]; exact hk, hk'⟩
      simp at this
      omega
    have hne : ∀ i, c.run (((p.map lab).take i).map c.col) ≠ 0 := by
      intro i
      refine chain_nonzero h.ok.rules hopt (hlet _) (r := itemsOf c.names p) (by rw [h.inv.rules]; exact List.mem_map_of_mem hmem) ?_
      rw [List.map_take]
      exact along_take _ hz.1
    have hnd : (0 :: (List.range (p.length + 1)).map fun i => c.run (((p.map lab).take i).map c.col)).Nodup := by
      rw [List.nodup_cons]
      constructor
      · intro hm
        obtain ⟨i, _, hi⟩ := List.mem_map.1 hm
        exact hne i hi
      · refine List.pairwise_map.2 ((List.nodup_range (n := p.length + 1)).imp_of_mem ?_)
        intro i j hi hj hij he
        rw [List.mem_range] at hi hj
        exact hij (hinj i j (by omega) (by omega) he)
    have := hnd.length_le_of_subset (l₂ := List.range (c.dfa.rows.length + 1)) (by
      intro s hs
      rw [List.mem_range]
      rcases List.mem_cons.1 hs with rfl | hs
      · omega
      · obtain ⟨i, _, rfl⟩ := List.mem_map.1 hs
        exact c.run_lt _ (hlet _))
    simpa using this
  omega

/-- The states of the table of a path with filters below steps without descendant step; `D` has all beginnings of registered words. -/
theorem FPre.levels_states {B : List Step} {Q : List Reg} {c : SCtx} (h : FPre B Q c) (hd : ∀ s ∈ B, isDesc s = false)
    {D : List (List Step)} (hD : ∀ q ∈ Q, ∀ n, n < q.w.length → q.w.take (n + 1) ∈ D) :
    (tableOf c).statesNum ≤ B.length + 2 + D.length := by
  have e : (tableOf c).statesNum = c.dfa.rows.length + 1 := rfl
  have hB := itemsOf_levels (names := c.names) hd
  have hrule : ∀ r ∈ c.rules, ∃ q ∈ Q, r = itemsOf c.names B ++ (c.word q.w).map litItem := by
    intro r hr
    rw [h.inv.rules] at hr
    obtain ⟨w, hw, rfl⟩ := List.mem_map.1 hr
    have hw' := hw
    obtain ⟨q, hq, rfl⟩ := List.mem_map.1 hw'
    refine ⟨q, hq, ?_⟩
    rw [itemsOf_cat, itemsOf_clean c q.w (h.inv.clean _ hw)
      (fun s hs => h.inv.named _ hw s (List.mem_append_right _ hs))]
  have hopt : ∀ r ∈ c.rules, ∀ it ∈ r, it.opt = .none := by
    intro r hr it hi
    obtain ⟨q, _, rfl⟩ := hrule r hr
    rcases List.mem_append.1 hi with hi | hi
    · exact hB.2 it hi
    · obtain ⟨a, _, rfl⟩ := List.mem_map.1 hi; rfl
  have hlet : ∀ l : Loc, c.letters (l.map c.col) := c.letters_map
  have hnamed : Named c.names B := by
    obtain ⟨i, U, hQ, _⟩ := h.out
    exact fun s hs => h.inv.named _ (List.mem_map_of_mem (List.mem_of_getElem? hQ)) s (List.mem_append_left _ hs)
  have hz : Lang (itemsOf c.names B) ((B.map lab).map c.col) :=
    (c.lang_matches h.few B hnamed _).2 (matches_lab hd)
  rw [lang_along hB.2] at hz
  generalize hy : (B.map lab).map c.col = y at hz
  have hyl : y.length = B.length := by rw [← hy]; simp
  have hylet : c.letters y := by rw [← hy]; exact hlet _
  have hsub : List.range' 1 c.dfa.rows.length ⊆
      ((List.range (B.length + 1)).map fun n => c.run (y.take n)) ++
        D.map fun v => c.run (y ++ c.word v) := by
    intro j hj
    rw [List.mem_range'] at hj
    obtain ⟨i, hi, rfl⟩ := hj
    obtain ⟨x, hx, hr⟩ := c.reach (1 + 1 * i) (by omega) (by omega)
    obtain ⟨r, hrm, ha⟩ := chain_alive h.ok.rules hopt hx (by omega)
    obtain ⟨q, hq, rfl⟩ := hrule r hrm
    rw [← hr]
    by_cases hs : x.length ≤ B.length
    · rw [along_short _ _ _ (by rw [hB.1]; exact hs)] at ha
      refine List.mem_append_left _ (List.mem_map.2 ⟨x.length, List.mem_range.2 (by omega), ?_⟩)
      refine chain_run_eq h.ok.rules hopt (fun a ha => hylet a (List.mem_of_mem_take ha)) hx (by simp; omega) ?_
      intro r' hr'
      obtain ⟨q', _, rfl⟩ := hrule r' hr'
      rw [along_short _ _ _ (by rw [hB.1]; simp; omega), along_short _ _ _ (by rw [hB.1]; exact hs), ha]
      exact along_take _ hz.1
    · have hsp : x.take B.length ++ x.drop B.length = x := List.take_append_drop ..
      have htl : (x.take B.length).length = (itemsOf c.names B).length := by rw [hB.1]; simp; omega
      rw [← hsp, along_append _ _ _ _ htl, Bool.and_eq_true, along_lits] at ha
      obtain ⟨h1, h2⟩ := ha
      have hl2 := h2.length_le
      simp [SCtx.word] at hl2
      refine List.mem_append_right _ (List.mem_map.2 ⟨_, hD q hq (x.length - B.length - 1) (by omega), ?_⟩)
      have ed : c.word (q.w.take (x.length - B.length - 1 + 1)) = x.drop B.length := by
        rw [show c.word (q.w.take (x.length - B.length - 1 + 1)) = (c.word q.w).take (x.length - B.length - 1 + 1) by
          simp [SCtx.word, List.map_take]]
        have := List.prefix_iff_eq_take.1 h2
        rw [List.length_drop] at this
        rw [show x.length - B.length - 1 + 1 = x.length - B.length from by omega]
        exact this.symm
      rw [ed]
      refine chain_run_eq h.ok.rules hopt ?_ hx (by simp; omega) ?_
      · intro a ha
        rcases List.mem_append.1 ha with ha | ha
        · exact hylet a ha
        · exact hx a (List.mem_of_mem_drop ha)
      · intro r' hr'
        obtain ⟨q', _, rfl⟩ := hrule r' hr'
        conv => rhs; rw [← hsp]
        rw [along_append _ _ _ _ (by rw [hB.1]; exact hyl), along_append _ _ _ _ htl, h1, hz.1]
  have := List.Nodup.length_le_of_subset List.nodup_range' hsub
  rw [List.length_range', List.length_append, List.length_map, List.length_range, List.length_map] at this
  omega

end JPS
