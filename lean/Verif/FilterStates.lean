import Verif.PathStates
/-!
# An upper bound on the number of states of a path with filters below descendant steps

Helper lemmas for C58.  The words a filter query registers share their beginnings, so the sets of items of all rules together are one set of
items of the steps before the path and of beginnings of words.
-/

set_option autoImplicit false

namespace JPS
open Spec

/-! ### Sets in order -/

/-- A set of positions below `N` in order. -/
def Canon (N : Nat) (S : List Nat) : Prop := S = (List.range N).filter (S.contains ·)

theorem canon_filter (N : Nat) (P : Nat → Bool) : Canon N ((List.range N).filter P) := by
  unfold Canon
  refine List.filter_congr ?_
  intro f hf
  rw [Bool.eq_iff_iff, List.contains_iff_mem, List.mem_filter]
  exact ⟨fun h => ⟨hf, h⟩, fun h => h.2⟩

theorem Canon.lt {N : Nat} {S : List Nat} (h : Canon N S) : ∀ p ∈ S, p < N := by
  intro p hp
  rw [h, List.mem_filter] at hp
  exact List.mem_range.1 hp.1

theorem Canon.ext {N : Nat} {S T : List Nat} (h : Canon N S) (h' : Canon N T) (he : ∀ f, f < N → (f ∈ S ↔ f ∈ T)) : S = T := by
  rw [h, h']
  refine List.filter_congr ?_
  intro f hf
  rw [Bool.eq_iff_iff, List.contains_iff_mem, List.contains_iff_mem]
  exact he f (List.mem_range.1 hf)

/-- The items of a rule that are alive after a word. -/
def aliveAfter (I : List Item) (w : List Nat) : List Nat := (optRun (bNext I) (some [I.length]) w).getD []

theorem optRun_canon {I : List Item} : ∀ (w : List Nat) (S : List Nat), Canon I.length S →
    Canon I.length ((optRun (bNext I) (nonempty? S) w).getD []) ∧
    optRun (bNext I) (nonempty? S) w = nonempty? ((optRun (bNext I) (nonempty? S) w).getD [])
  | [], S, h => by
    show Canon I.length ((nonempty? S).getD []) ∧ nonempty? S = nonempty? ((nonempty? S).getD [])
    by_cases h0 : S = []
    · subst h0; exact ⟨h, rfl⟩
    · rw [show nonempty? S = some S by simp [nonempty?, h0]]
      exact ⟨h, by simp [nonempty?, h0]⟩
  | a :: w, S, h => by
    by_cases h0 : S = []
    · subst h0
      have : optRun (bNext I) (nonempty? []) (a :: w) = none := optRun_dead ..
      rw [this]
      exact ⟨by simp [Canon], rfl⟩
    · have e : optRun (bNext I) (nonempty? S) (a :: w) = optRun (bNext I) (nonempty? (nextSet I S a)) w := by
        rw [show nonempty? S = some S by simp [nonempty?, h0]]; rfl
      rw [e]
      exact optRun_canon w _ (canon_filter _ _)

theorem aliveAfter_canon (I : List Item) (a : Nat) (w : List Nat) : Canon I.length (aliveAfter I (a :: w)) ∧
    optRun (bNext I) (some [I.length]) (a :: w) = nonempty? (aliveAfter I (a :: w)) :=
  optRun_canon w (nextSet I [I.length] a) (canon_filter _ _)

theorem aliveAfter_prefix (P Q : List Item) (a : Nat) (w : List Nat) :
    aliveAfter P (a :: w) = (aliveAfter (P ++ Q) (a :: w)).filter fun f => decide (f < P.length) := by
  unfold aliveAfter
  rw [optRun_prefix_start (Q := Q)]
  cases optRun (bNext (P ++ Q)) (some [(P ++ Q).length]) (a :: w) with
  | none => rfl
  | some T =>
    show (nonempty? _).getD [] = List.filter _ T
    unfold nonempty?
    split
    · rename_i h; exact h.symm
    · rfl

theorem mem_aliveAfter_prefix {P Q : List Item} {a : Nat} {w : List Nat} {f : Nat} (hf : f < P.length) :
    f ∈ aliveAfter P (a :: w) ↔ f ∈ aliveAfter (P ++ Q) (a :: w) := by
  rw [aliveAfter_prefix P Q, List.mem_filter]
  simp [hf]

/-- With `k` items before the first repeated one: one item before it is alive, or it and some behind it. -/
theorem aliveAfter_cases {A R : List Item} {x : Item} (hA : ∀ it ∈ A, it.opt = .none) (hc : x.ch = none) (hx : x.rep = true)
    {a : Nat} {w : List Nat} (hw : ∀ b ∈ a :: w, b < 256) :
    aliveAfter (A ++ x :: R) (a :: w) = [] ∨ (∃ j, j < A.length ∧ aliveAfter (A ++ x :: R) (a :: w) = [j]) ∨
    (A.length ∈ aliveAfter (A ++ x :: R) (a :: w) ∧ ∀ p ∈ aliveAfter (A ++ x :: R) (a :: w), A.length ≤ p) := by
  have hlen : (A ++ x :: R).length = A.length + 1 + R.length := by simp; omega
  cases ho : optRun (bNext (A ++ x :: R)) (some [(A ++ x :: R).length]) (a :: w) with
  | none => left; unfold aliveAfter; rw [ho]; rfl
  | some S =>
    have e : aliveAfter (A ++ x :: R) (a :: w) = S := by unfold aliveAfter; rw [ho]; rfl
    have hm := aliveSets_run hA hc hx (a :: w) [(A ++ x :: R).length] (by rw [hlen]; exact List.mem_cons_self ..) hw S ho
    rw [e]
    unfold aliveSets at hm
    rcases List.mem_cons.1 hm with rfl | hm
    · rw [← hlen] at ho
      exact absurd ho optRun_start_only
    · rcases List.mem_append.1 hm with hm | hm
      · obtain ⟨j, hj, rfl⟩ := List.mem_map.1 hm
        exact .inr (.inl ⟨j, List.mem_range.1 hj, rfl⟩)
      · obtain ⟨T, hT, rfl⟩ := List.mem_map.1 hm
        refine .inr (.inr ⟨by simp, ?_⟩)
        intro p hp
        rcases List.mem_cons.1 hp with rfl | hp
        · exact Nat.le_refl _
        · have : ∀ (l T : List Nat), T ∈ subs l → ∀ p ∈ T, p ∈ l := by
            intro l
            induction l with
            | nil => intro T hT p hp; simp [subs] at hT; subst hT; cases hp
            | cons y ys ih =>
              intro T hT p hp
              rw [subs, List.mem_append] at hT
              rcases hT with hT | hT
              · exact List.mem_cons_of_mem _ (ih T hT p hp)
              · obtain ⟨T', hT', rfl⟩ := List.mem_map.1 hT
                rcases List.mem_cons.1 hp with rfl | hp
                · simp
                · exact List.mem_cons_of_mem _ (ih T' hT' p hp)
          have := this _ _ hT p hp
          rw [List.mem_range'] at this
          obtain ⟨i, _, h⟩ := this
          omega

/-! ### Counting -/

/-- If words are coded so that words with the same code lead to the same state, there are no more states than codes. -/
theorem SCtx.states_le_codes (c : SCtx) (code : List Nat → List Nat) (L : List (List Nat))
    (hmem : ∀ w, c.letters w → c.run w ≠ 0 → code w ∈ L)
    (hinj : ∀ w w', c.letters w → c.letters w' → c.run w ≠ 0 → c.run w' ≠ 0 → code w = code w' → c.run w = c.run w') :
    c.dfa.rows.length ≤ L.length := by
  have hch : ∀ j, ∃ w, 1 ≤ j → j < c.dfa.rows.length + 1 → c.letters w ∧ c.run w = j := by
    intro j
    by_cases h : 1 ≤ j ∧ j < c.dfa.rows.length + 1
    · obtain ⟨w, h1, h2⟩ := c.reach j (by omega) h.2
      exact ⟨w, fun _ _ => ⟨h1, h2⟩⟩
    · exact ⟨[], fun h1 h2 => absurd ⟨h1, h2⟩ h⟩
  have hr : ∀ {j}, j ∈ List.range' 1 c.dfa.rows.length → 1 ≤ j ∧ j < c.dfa.rows.length + 1 := by
    intro j hj
    rw [List.mem_range'] at hj
    obtain ⟨i, _, rfl⟩ := hj
    omega
  have hnd : ((List.range' 1 c.dfa.rows.length).map fun j => code (Classical.choose (hch j))).Nodup := by
    refine List.pairwise_map.2 ((List.nodup_range' (s := 1) (n := c.dfa.rows.length)).imp_of_mem ?_)
    intro i j hi hj hij he
    obtain ⟨i1, i2⟩ := Classical.choose_spec (hch i) (hr hi).1 (hr hi).2
    obtain ⟨j1, j2⟩ := Classical.choose_spec (hch j) (hr hj).1 (hr hj).2
    have hi0 := (hr hi).1
    have hj0 := (hr hj).1
    have := hinj _ _ i1 j1 (by omega) (by omega) he
    omega
  have := hnd.length_le_of_subset (l₂ := L) (by
    intro S hS
    obtain ⟨j, hj, rfl⟩ := List.mem_map.1 hS
    obtain ⟨j1, j2⟩ := Classical.choose_spec (hch j) (hr hj).1 (hr hj).2
    exact hmem _ j1 (by have := (hr hj).1; omega))
  simpa using this

/-- The states of the table of a path with filters below steps whose first descendant step is `d`; `D` has all beginnings of registered
words. -/
theorem FPre.desc_states {B R : List Step} {d : Step} {Q : List Reg} {c : SCtx} (h : FPre (B ++ d :: R) Q c)
    (hB : ∀ s ∈ B, isDesc s = false) (hd : isDesc d = true)
    {D : List (List Step)} (hD : ∀ q ∈ Q, ∀ n, n < q.w.length → q.w.take (n + 1) ∈ D) :
    (tableOf c).statesNum ≤ B.length + 2 + 2 ^ (((d :: R).map stepItems).sum - 1 + D.length) := by
  have e : (tableOf c).statesNum = c.dfa.rows.length + 1 := rfl
  obtain ⟨x, R0, hx, hch, hrep, hR0⟩ := desc_items c.names hd
  have hP : itemsOf c.names (B ++ d :: R) = itemsOf c.names B ++ x :: (R0 ++ itemsOf c.names R) := by
    rw [itemsOf_cat, show itemsOf c.names (d :: R) = SE.items c.names (seOf d) ++ itemsOf c.names R by simp [itemsOf], hx]
    simp
  have hA := itemsOf_levels (names := c.names) hB
  have hm : (R0 ++ itemsOf c.names R).length = ((d :: R).map stepItems).sum - 1 := by
    rw [List.length_append, length_itemsOf, List.map_cons, List.sum_cons]; omega
  rw [← hm]
  generalize hPe : itemsOf c.names (B ++ d :: R) = P at hP
  generalize R0 ++ itemsOf c.names R = R' at hP hm
  have hPl : P.length = B.length + 1 + R'.length := by rw [hP, List.length_append, hA.1]; simp; omega
  have hrule : ∀ r ∈ c.rules, ∃ q ∈ Q, r = P ++ (c.word q.w).map litItem := by
    intro r hr
    rw [h.inv.rules] at hr
    obtain ⟨w, hw, rfl⟩ := List.mem_map.1 hr
    have hw' := hw
    obtain ⟨q, hq, rfl⟩ := List.mem_map.1 hw'
    refine ⟨q, hq, ?_⟩
    rw [itemsOf_cat, itemsOf_clean c q.w (h.inv.clean _ hw)
      (fun s hs => h.inv.named _ hw s (List.mem_append_right _ hs)), hPe]
  have hIl : ∀ v : List Step, (P ++ (c.word v).map litItem).length = P.length + v.length := by
    intro v; simp [SCtx.word]
  have hcases : ∀ (v : List Step) (a : Nat) (w : List Nat), c.letters (a :: w) →
      aliveAfter (P ++ (c.word v).map litItem) (a :: w) = [] ∨
      (∃ j, j < B.length ∧ aliveAfter (P ++ (c.word v).map litItem) (a :: w) = [j]) ∨
      (B.length ∈ aliveAfter (P ++ (c.word v).map litItem) (a :: w) ∧
        ∀ p ∈ aliveAfter (P ++ (c.word v).map litItem) (a :: w), B.length ≤ p) := by
    intro v a w hw
    have hf := h.few
    have := aliveAfter_cases (R := R' ++ (c.word v).map litItem) hA.2 hch hrep (a := a) (w := w)
      (fun b hb => by have := (hw b hb).2; omega)
    rw [hA.1] at this
    rwa [hP, List.append_assoc, List.cons_append]
  have hcs : ∀ (a : Nat) (w : List Nat), c.letters (a :: w) →
      aliveAfter P (a :: w) = [] ∨ (∃ j, j < B.length ∧ aliveAfter P (a :: w) = [j]) ∨
      (B.length ∈ aliveAfter P (a :: w) ∧ ∀ p ∈ aliveAfter P (a :: w), B.length ≤ p) := by
    intro a w hw
    have := hcases [] a w hw
    simpa [SCtx.word] using this
  -- the code of a word
  let pred : List Nat → Nat → Bool := fun w f => if f < P.length then (aliveAfter P w).contains f else
    match D[f - P.length]? with
    | some v => (aliveAfter (P ++ (c.word v).map litItem) w).contains (P.length + v.length - 1)
    | none => false
  let code : List Nat → List Nat := fun w => match w with
    | [] => [P.length + D.length]
    | a :: w => (List.range (P.length + D.length)).filter (pred (a :: w))
  have hlen := length_aliveSets B.length (R'.length + D.length)
  have hcount := c.states_le_codes code (aliveSets B.length (R'.length + D.length)) (by
    intro w hw hne
    cases w with
    | nil =>
      show [P.length + D.length] ∈ _
      unfold aliveSets
      rw [show P.length + D.length = B.length + 1 + (R'.length + D.length) by omega]
      exact List.mem_cons_self ..
    | cons a w =>
      show (List.range (P.length + D.length)).filter (pred (a :: w)) ∈ _
      -- some rule is alive
      have hal : aliveAfter P (a :: w) ≠ [] := by
        intro h0
        refine hne ((buildDfa_zero c.rules h.ok.rules (c.names.length + 3) (a :: w) hw).2 ?_)
        intro r hr
        rw [createDFA_zero _ _ _ hw]
        obtain ⟨q, hq, rfl⟩ := hrule r hr
        rw [(aliveAfter_canon _ a w).2]
        have hpre := aliveAfter_prefix P ((c.word q.w).map litItem) a w
        rw [h0] at hpre
        rcases hcases q.w a w hw with h1 | ⟨j, h1, h2⟩ | ⟨h1, _⟩
        · rw [h1]; rfl
        · rw [h2] at hpre
          simp [show j < P.length by omega] at hpre
        · have : B.length ∈ ([] : List Nat) := by
            rw [hpre, List.mem_filter]
            exact ⟨h1, by simp; omega⟩
          cases this
      have hin : ∀ f, f < P.length → (pred (a :: w) f = true ↔ f ∈ aliveAfter P (a :: w)) := by
        intro f hf
        simp [pred, hf]
      have hout : ∀ f, ¬ f < P.length → pred (a :: w) f = true → B.length ∈ aliveAfter P (a :: w) := by
        intro f hf hp
        simp only [pred, if_neg hf] at hp
        split at hp
        · rename_i v _
          rw [List.contains_iff_mem] at hp
          rcases hcases v a w hw with h1 | ⟨j, h1, h2⟩ | ⟨h1, _⟩
          · rw [h1] at hp; cases hp
          · rw [h2, List.mem_singleton] at hp
            omega
          · exact (mem_aliveAfter_prefix (by omega)).2 h1
        · cases hp
      rcases hcs a w hw with h1 | ⟨j, h1, h2⟩ | ⟨h1, h2⟩
      · exact absurd h1 hal
      · have hs := filter_range_single (N := P.length + D.length) (j := j) (P := pred (a :: w)) (by
          intro f hf hp
          by_cases hlt : f < P.length
          · rw [hin f hlt, h2] at hp; simpa using hp
          · have := hout f hlt hp
            rw [h2, List.mem_singleton] at this
            omega)
        rcases hs with hs | hs
        · have : j ∈ (List.range (P.length + D.length)).filter (pred (a :: w)) := by
            rw [List.mem_filter, List.mem_range]
            exact ⟨by omega, (hin j (by omega)).2 (by rw [h2]; simp)⟩
          rw [hs] at this; cases this
        · rw [hs]
          unfold aliveSets
          exact List.mem_cons_of_mem _ (List.mem_append_left _ (List.mem_map.2 ⟨j, List.mem_range.2 h1, rfl⟩))
      · rw [filter_range_front (k := B.length) (m := R'.length + D.length) (by omega) (by
          intro f hf hp
          by_cases hlt : f < P.length
          · exact h2 f ((hin f hlt).1 hp)
          · omega) ((hin B.length (by omega)).2 h1)]
        unfold aliveSets
        exact List.mem_cons_of_mem _ (List.mem_append_right _ (List.mem_map_of_mem (filter_mem_subs _ _)))) (by
    intro w w' hw hw' _ _ he
    cases w with
    | nil =>
      cases w' with
      | nil => rfl
      | cons b w' =>
        have he : [P.length + D.length] = (List.range (P.length + D.length)).filter (pred (b :: w')) := he
        have : P.length + D.length ∈ (List.range (P.length + D.length)).filter (pred (b :: w')) := by rw [← he]; simp
        simp at this
    | cons a w =>
      cases w' with
      | nil =>
        have he : (List.range (P.length + D.length)).filter (pred (a :: w)) = [P.length + D.length] := he
        have : P.length + D.length ∈ (List.range (P.length + D.length)).filter (pred (a :: w)) := by rw [he]; simp
        simp at this
      | cons b w' =>
        have he : (List.range (P.length + D.length)).filter (pred (a :: w)) = (List.range (P.length + D.length)).filter (pred (b :: w')) := he
        have hp : ∀ f, f < P.length + D.length → (pred (a :: w) f = true ↔ pred (b :: w') f = true) := by
          intro f hf
          have : f ∈ (List.range (P.length + D.length)).filter (pred (a :: w)) ↔
              f ∈ (List.range (P.length + D.length)).filter (pred (b :: w')) := by rw [he]
          simpa [List.mem_filter, hf] using this
        refine buildDfa_run_eq c.rules h.ok.rules (c.names.length + 3) hw hw' ?_
        intro r hr
        obtain ⟨q, hq, rfl⟩ := hrule r hr
        rw [(aliveAfter_canon _ a w).2, (aliveAfter_canon _ b w').2]
        congr 1
        refine (aliveAfter_canon _ a w).1.ext (aliveAfter_canon _ b w').1 ?_
        intro f hf
        rw [hIl] at hf
        by_cases hlt : f < P.length
        · rw [← mem_aliveAfter_prefix hlt, ← mem_aliveAfter_prefix hlt]
          have := hp f (by omega)
          simpa [pred, hlt] using this
        · have hv := hD q hq (f - P.length) (by omega)
          obtain ⟨n, hn, hn'⟩ := List.getElem_of_mem hv
          have hsp : ∀ y : List Nat, ∃ S, P ++ (c.word q.w).map litItem =
              (P ++ (c.word (q.w.take (f - P.length + 1))).map litItem) ++ S := by
            intro _
            refine ⟨(c.word (q.w.drop (f - P.length + 1))).map litItem, ?_⟩
            rw [List.append_assoc, ← List.map_append]
            congr 2
            rw [SCtx.word, SCtx.word, SCtx.word, ← List.map_append, ← List.map_append, List.take_append_drop]
          obtain ⟨S, hS⟩ := hsp []
          have hl2 : f < (P ++ (c.word (q.w.take (f - P.length + 1))).map litItem).length := by
            rw [hIl, List.length_take]; omega
          rw [hS, ← mem_aliveAfter_prefix hl2, ← mem_aliveAfter_prefix hl2]
          have := hp (P.length + n) (by omega)
          have hfe : P.length + (q.w.take (f - P.length + 1)).length - 1 = f := by
            rw [List.length_take]; omega
          simp only [pred, show ¬ P.length + n < P.length by omega, if_false, Nat.add_sub_cancel_left,
            List.getElem?_eq_getElem hn, hn', hfe, List.contains_iff_mem] at this
          exact this)
  rw [hlen] at hcount
  rw [e]
  omega

/-! ### The exact number for paths with filters -/

theorem mem_different : ∀ {ws : List (List Step)} {w : List Step}, w ∈ different ws ↔ w ∈ ws
  | [], w => by simp [different]
  | v :: ws, w => by
    rw [different]
    split
    · rename_i h
      rw [mem_different (ws := ws), List.mem_cons]
      exact ⟨.inr, fun h' => h'.elim (fun e => e ▸ h) id⟩
    · rw [List.mem_cons, List.mem_cons, mem_different (ws := ws)]

theorem nodup_different : ∀ ws : List (List Step), (different ws).Nodup
  | [] => List.nodup_nil
  | w :: ws => by
    rw [different]
    split
    · exact nodup_different ws
    · rename_i h
      exact List.nodup_cons.2 ⟨fun h' => h (mem_different.1 h'), nodup_different ws⟩

/-- Every node of the tree is the beginning of a registered word. -/
theorem stepTree_word : ∀ (p : List (QStep Num)) (u v : List Step), v ∈ stepTree u p →
    v ≠ [] ∧ ((∃ s, v ++ s = u ++ p.map sk) ∨ ∃ r ∈ regs u p, ∃ s, v ++ s = r.w)
  | [], u, v, h => by simp [stepTree] at h
  | .prop k :: p, u, v, h => by
    rw [stepTree, List.mem_cons] at h
    rcases h with rfl | h
    · exact ⟨by simp, .inl ⟨p.map sk, by simp [sk]⟩⟩
    · obtain ⟨h1, h2⟩ := stepTree_word p _ v h
      exact ⟨h1, h2.imp (fun ⟨s, hs⟩ => ⟨s, by simpa [sk] using hs⟩) id⟩
  | .all :: p, u, v, h => by
    rw [stepTree, List.mem_cons] at h
    rcases h with rfl | h
    · exact ⟨by simp, .inl ⟨p.map sk, by simp [sk]⟩⟩
    · obtain ⟨h1, h2⟩ := stepTree_word p _ v h
      exact ⟨h1, h2.imp (fun ⟨s, hs⟩ => ⟨s, by simpa [sk] using hs⟩) id⟩
  | .filter e :: p, u, v, h => by
    rw [stepTree, List.mem_cons, List.mem_append, List.mem_flatMap] at h
    rcases h with rfl | ⟨q, hq, h⟩ | h
    · exact ⟨by simp, .inl ⟨p.map sk, by simp [sk]⟩⟩
    · obtain ⟨n, _, rfl⟩ := List.mem_map.1 h
      refine ⟨by simp, .inr ⟨⟨u ++ [.all] ++ q.map .prop, .cond q⟩, ?_, (q.drop (n + 1)).map .prop, ?_⟩⟩
      · rw [regs, List.mem_append, block, List.mem_cons, List.mem_map]
        exact .inl (.inr ⟨q, mem_testedPaths.2 hq, rfl⟩)
      · rw [List.append_assoc, ← List.map_append, List.take_append_drop]
    · obtain ⟨h1, h2⟩ := stepTree_word p _ v h
      refine ⟨h1, h2.imp (fun ⟨s, hs⟩ => ⟨s, by simpa [sk] using hs⟩) (fun ⟨r, hr, hs⟩ => ⟨r, ?_, hs⟩)⟩
      rw [regs, List.mem_append]
      exact .inr hr

/-- The states of the table of a path with filters: one for each node of the tree of its steps, a start state and a dead state. -/
theorem FTab.states_exact {p : List (QStep Num)} {c : SCtx} (h : FTab (pathRegs p) c) :
    (tableOf c).statesNum = 2 + (different (stepTree [] p)).length := by
  refine Nat.le_antisymm (h.states_le fun q hq n hn => mem_different.2 (pathRegs_stepTree p q hq n hn)) ?_
  have e : (tableOf c).statesNum = c.dfa.rows.length + 1 := rfl
  -- every node, and the root, is the beginning of a registered word
  have hreg : ∀ v, v ∈ [] :: different (stepTree [] p) → ∃ r ∈ pathRegs p, ∃ s, v ++ s = r.w := by
    intro v hv
    rcases List.mem_cons.1 hv with rfl | hv
    · exact ⟨⟨p.map sk, .out⟩, by simp [pathRegs], p.map sk, rfl⟩
    · rcases (stepTree_word p [] v (mem_different.1 hv)).2 with ⟨s, hs⟩ | ⟨r, hr, s, hs⟩
      · exact ⟨⟨p.map sk, .out⟩, by simp [pathRegs], s, by simpa using hs⟩
      · exact ⟨r, by rw [pathRegs, List.mem_append]; exact .inl hr, s, hs⟩
  have happ : ∀ v s : List Step, c.state (v ++ s) = (c.word s).foldl c.dfa.next (c.state v) := by
    intro v s; simp [SCtx.state, SCtx.run, SCtx.word]
  have hsim : ∀ r ∈ pathRegs p, SimpleWord r.w := fun r hr => (h.inv.clean _ (List.mem_map_of_mem hr)).simple
  have hinj : ∀ v ∈ [] :: different (stepTree [] p), ∀ w ∈ [] :: different (stepTree [] p), c.state v = c.state w → v = w := by
    intro v hv w hw he
    obtain ⟨r, hr, s, hs⟩ := hreg v hv
    obtain ⟨r', hr', s', hs'⟩ := hreg w hw
    have hwsim : SimpleWord (w ++ s) := by
      intro x hx
      rcases List.mem_append.1 hx with hx | hx
      · exact hsim r' hr' x (by rw [← hs']; exact List.mem_append_left _ hx)
      · exact hsim r hr x (by rw [← hs]; exact List.mem_append_right _ hx)
    have hst : c.state (w ++ s) = c.state r.w := by rw [happ, ← he, ← happ, hs]
    rcases h.stop_state (hsim r hr) with ⟨_, h2⟩ | ⟨k, ro, h1, _, h3⟩
    · exact absurd (List.mem_map_of_mem hr) (roleOf_none.1 h2)
    · rcases h.stop_state hwsim with ⟨h4, _⟩ | ⟨k', ro', h4, _, h5⟩
      · rw [hst] at h4; omega
      · rw [hst] at h5
        have : k' = k := by omega
        subst this
        rw [h1] at h4
        have := congrArg Reg.w (Option.some.inj h4)
        simp only at this
        rw [← hs] at this
        exact List.append_cancel_right this
  have hne : ∀ v ∈ [] :: different (stepTree [] p), c.state v ≠ 0 := by
    intro v hv h0
    obtain ⟨r, hr, s, hs⟩ := hreg v hv
    rcases h.stop_state (hsim r hr) with ⟨_, h2⟩ | ⟨k, ro, h1, _, h3⟩
    · exact absurd (List.mem_map_of_mem hr) (roleOf_none.1 h2)
    · have hd0 : c.state r.w = 0 := by rw [← hs, happ, h0, ← foldl_guard, foldl_next_zero]
      rw [hd0] at h3
      simp [SDfa.stop] at h3
  have hnd : (0 :: ([] :: different (stepTree [] p)).map c.state).Nodup := by
    rw [List.nodup_cons]
    refine ⟨fun hm => ?_, ?_⟩
    · obtain ⟨v, hv, h0⟩ := List.mem_map.1 hm
      exact hne v hv h0
    · have hbase : ([] :: different (stepTree [] p)).Nodup :=
        List.nodup_cons.2 ⟨fun hm => (stepTree_word p [] [] (mem_different.1 hm)).1 rfl, nodup_different _⟩
      exact List.pairwise_map.2 (hbase.imp_of_mem fun hv hw hvw he => hvw (hinj _ hv _ hw he))
  have := hnd.length_le_of_subset (l₂ := List.range (c.dfa.rows.length + 1)) (by
    intro s hs
    rw [List.mem_range]
    rcases List.mem_cons.1 hs with rfl | hs
    · omega
    · obtain ⟨v, _, rfl⟩ := List.mem_map.1 hs
      exact FWords.state_lt v)
  simp only [List.length_cons, List.length_map, List.length_range] at this
  omega

end JPS
