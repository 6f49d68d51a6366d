import Verif.FilterSliceTable
import Verif.FilterPrune
/-!
# The registered words of a path with filters and slices
-/

set_option autoImplicit false

namespace JPS
open Spec

/-- Does a path end in a slice? -/
def endsS : List (SStep Num) → Bool
  | [] => false
  | s :: p => (match s with | .slice _ _ => p.isEmpty | _ => false) || endsS p

theorem endsS_tail {s : SStep Num} {p : List (SStep Num)} (h : endsS (s :: p) = false) : endsS p = false := by
  cases s <;> simp_all [endsS]

theorem endsS_range : ∀ (p : List (SStep Num)), endsS p = false → rangeOf (p.map ssk) = (0, 0)
  | [], _ => rfl
  | [s], h => by cases s <;> first | rfl | cases h
  | s :: t :: p, h => by
    have := endsS_range (t :: p) (endsS_tail h)
    simpa [rangeOf] using this

/-- The words of a path with filters and slices. -/
def pathSRegs (p : List (SStep Num)) : List SReg :=
  sregs [] p ++ (if endsS p then [] else [⟨p.map ssk, some .out⟩])

theorem flat_ssk (p : List (SStep Num)) : flat (p.map ssk) = (wholes p).map sk := by
  simp only [flat, wholes, List.map_map]
  apply List.map_congr_left
  intro s _
  cases s <;> rfl

theorem low_append (Q R : List SReg) : low (Q ++ R) = low Q ++ low R := by simp [low]

theorem low_up (B : List Reg) (h : ∀ r ∈ B, flat r.w = r.w) : low (B.map Reg.up) = B := by
  induction B with
  | nil => rfl
  | cons r B ih =>
    have := ih fun r hr => h r (by simp [hr])
    rw [List.map_cons, show ∀ x (Q : List SReg), x :: Q = [x] ++ Q from fun _ _ => rfl, low_append, this]
    have := h r (by simp)
    simp [low, Reg.up, this]

theorem low_block (u : List Step) (e : Expr Num) : low ((block u e).map Reg.up) = block (flat u) e := by
  have : (block u e).map Reg.up = ⟨u, some (.pred e (testedPaths e))⟩ :: (testedPaths e).map fun q => ⟨u ++ q.map .prop, some (.cond q)⟩ := by
    simp [block, Reg.up, Function.comp_def]
  rw [this]
  unfold low block
  rw [List.filterMap_cons]
  simp only [Option.map_some, List.filterMap_map, Function.comp_def, flat_append, flat_props]
  congr 1
  induction testedPaths e with
  | nil => rfl
  | cons q ds ih => simp

theorem low_sregs : ∀ (p : List (SStep Num)) (u : List Step),
    low (sregs u p) = regs (flat u) (wholes p) ++ (if endsS p then [⟨flat (u ++ p.map ssk), .out⟩] else [])
  | [], u => by simp [sregs, regs, wholes, endsS, low]
  | .prop k :: p, u => by
    have := low_sregs p (u ++ [.prop k])
    rw [flat_append] at this
    simpa [sregs, regs, wholes_prop, endsS, ssk, flat, unslice] using this
  | .all :: p, u => by
    have := low_sregs p (u ++ [.all])
    rw [flat_append] at this
    simpa [sregs, regs, wholes_all, endsS, ssk, flat, unslice] using this
  | .slice a b :: p, u => by
    have := low_sregs p (u ++ [.slice a b])
    rw [flat_append] at this
    rw [sregs, show ∀ x (Q : List SReg), x :: Q = [x] ++ Q from fun _ _ => rfl, low_append, this, wholes_slice]
    cases p with
    | nil => simp [low, endsS, regs, wholes, ssk, flat, unslice]
    | cons s p => simp [low, endsS, regs, ssk, flat, unslice]
  | .filter e :: p, u => by
    have := low_sregs p (u ++ [.all])
    rw [flat_append] at this
    rw [sregs, low_append, this, low_block, wholes_filter, flat_append]
    simp [regs, endsS, ssk, flat, unslice]

theorem low_pathSRegs (p : List (SStep Num)) : low (pathSRegs p) = pathRegs (wholes p) := by
  unfold pathSRegs pathRegs
  rw [low_append, low_sregs, ← flat_ssk]
  cases endsS p <;> simp [low, flat]

theorem sregs_count : ∀ (p : List (SStep Num)) (u : List Step), ∀ r ∈ sregs u p, arrs u < arrs r.w
  | [], u, r, h => by simp [sregs] at h
  | .prop k :: p, u, r, h => by
    have := sregs_count p (u ++ [.prop k]) r h
    rw [arrs_append] at this; omega
  | .all :: p, u, r, h => by
    have := sregs_count p (u ++ [.all]) r h
    rw [arrs_append] at this; omega
  | .slice a b :: p, u, r, h => by
    simp only [sregs, List.mem_cons] at h
    rcases h with rfl | h
    · show arrs u < arrs (u ++ [_]); rw [arrs_append]; simp [arrs, unslice]
    · have := sregs_count p (u ++ [.slice a b]) r h
      rw [arrs_append] at this; omega
  | .filter e :: p, u, r, h => by
    simp only [sregs, List.mem_append] at h
    rcases h with h | h
    · simp only [block, List.map_cons, List.mem_cons, List.mem_map] at h
      have e1 : arrs (u ++ [.all]) = arrs u + 1 := by rw [arrs_append]; rfl
      rcases h with rfl | ⟨_, ⟨q, _, rfl⟩, rfl⟩
      · show arrs u < arrs (u ++ [_]); omega
      · show arrs u < arrs (u ++ [Step.all] ++ q.map .prop)
        rw [arrs_append (u ++ [Step.all]), arrs_props]; omega
    · have := sregs_count p (u ++ [.all]) r h
      rw [arrs_append] at this; omega

theorem arrs_flat {w x : List Step} (h : flat w = flat x) : arrs w = arrs x := by
  unfold arrs; rw [show w.map unslice = x.map unslice from h]

theorem sregs_nodup : ∀ (p : List (SStep Num)) (u : List Step), CleanPath (wholes p) → ((sregs u p).map fun r => flat r.w).Nodup
  | [], u, _ => by simp [sregs]
  | .prop k :: p, u, h => sregs_nodup p _ (clean_tail h)
  | .all :: p, u, h => sregs_nodup p _ (clean_tail h)
  | .slice a b :: p, u, h => by
    rw [sregs, List.map_cons, List.nodup_cons]
    refine ⟨?_, sregs_nodup p _ (clean_tail h)⟩
    intro hm
    obtain ⟨r, hr, he⟩ := List.mem_map.1 hm
    have h1 := sregs_count _ _ r hr
    have h2 := arrs_flat he
    simp only at h2
    omega
  | .filter e :: p, u, h => by
    have hp' : CleanPath (.filter e :: wholes p) := h
    simp only [sregs, List.map_append]
    rw [List.nodup_append]
    refine ⟨?_, sregs_nodup p _ (clean_tail h), ?_⟩
    · have h1 := block_nodup (flat (u ++ [.all])) e fun q hq => (hp'.filter.1 q hq).1
      have h2 : ((block (u ++ [.all]) e).map Reg.up).map (fun r => flat r.w) = (block (flat (u ++ [.all])) e).map Reg.w := by
        simp [block, Reg.up, Function.comp_def, flat, unslice]
      rw [h2]; exact h1
    · intro a ha b hb
      obtain ⟨r, hr, rfl⟩ := List.mem_map.1 ha
      obtain ⟨s, hs, rfl⟩ := List.mem_map.1 hb
      intro he
      have h1 := sregs_count _ _ s hs
      have h2 := arrs_flat he
      simp only [block, List.map_cons, List.mem_cons, List.mem_map] at hr
      rcases hr with rfl | ⟨_, ⟨q, _, rfl⟩, rfl⟩
      · simp only [Reg.up] at h2; omega
      · simp only [Reg.up] at h2
        rw [arrs_append (u ++ [Step.all]), arrs_props] at h2; omega

theorem clean_no_arrs {w : List Step} (h : GClean w) (h0 : arrs w = 0) : CleanWord w := by
  intro s hs
  rcases h s hs with rfl | ⟨a, b, rfl⟩ | h'
  · exact .inl rfl
  · exfalso
    unfold arrs at h0
    rw [List.count_eq_zero] at h0
    exact h0 (List.mem_map.2 ⟨_, hs, rfl⟩)
  · exact .inr h'

theorem clean_path : ∀ (p : List (SStep Num)), CleanPath (wholes p) → GClean (p.map ssk)
  | [], _ => by intro s hs; simp at hs
  | s :: p, h => by
    have := (clean_head h).append (clean_path p (clean_tail h))
    simpa using this

theorem named_tail' {s : SStep Num} {p : List (SStep Num)} (h : namedAfterFilter (wholes (s :: p)) = true) :
    namedAfterFilter (wholes p) = true := named_tail (s := s.whole) h

theorem tested_tail {s : SStep Num} {p : List (SStep Num)} (h : returnsTested (wholes (s :: p)) = false) :
    returnsTested (wholes p) = false := by
  cases s with
  | filter e =>
    rw [wholes_filter] at h
    simp only [returnsTested, Bool.or_eq_false_iff] at h
    exact h.2
  | prop k => exact h
  | all => exact h
  | slice a b => exact h

/-- The word of the whole path is registered once. -/
theorem sregs_fresh : ∀ (p : List (SStep Num)) (u : List Step), CleanPath (wholes p) → namedAfterFilter (wholes p) = true →
    returnsTested (wholes p) = false → ∀ r ∈ sregs u p, r.role ≠ some .out →
    getOutput (r.w.map seOf) ≠ getOutput ((u ++ p.map ssk).map seOf) ∧ flat r.w ≠ flat (u ++ p.map ssk)
  | [], u, _, _, _, r, h, _ => by simp [sregs] at h
  | .prop k :: p, u, hp, hn, ht, r, h, ho => by
    have := sregs_fresh p (u ++ [.prop k]) (clean_tail hp) (named_tail' hn) (tested_tail ht) r h ho
    simpa [ssk] using this
  | .all :: p, u, hp, hn, ht, r, h, ho => by
    have := sregs_fresh p (u ++ [.all]) (clean_tail hp) (named_tail' hn) (tested_tail ht) r h ho
    simpa [ssk] using this
  | .slice a b :: p, u, hp, hn, ht, r, h, ho => by
    have e1 : u ++ List.map ssk (.slice a b :: p) = u ++ [.slice a b] ++ p.map ssk := by simp [ssk]
    rw [e1]
    simp only [sregs, List.mem_cons] at h
    rcases h with rfl | h
    · cases p with
      | nil => exact absurd rfl ho
      | cons s p =>
        have := getOutput_lt (u ++ [.slice a b]) ((s :: p).map ssk) (by simp)
        refine ⟨fun he => ?_, fun he => ?_⟩
        · simp only at he
          rw [he] at this; omega
        · have := congrArg List.length he
          simp [flat] at this
    · exact sregs_fresh p (u ++ [.slice a b]) (clean_tail hp) (named_tail' hn) (tested_tail ht) r h ho
  | .filter e :: p, u, hp, hn, ht, r, h, ho => by
    have e1 : u ++ List.map ssk (.filter e :: p) = u ++ [.all] ++ p.map ssk := by simp [ssk]
    rw [e1]
    simp only [sregs, List.mem_append] at h
    rcases h with h | h
    · have hp0 : p.map ssk ≠ [] := by
        intro h0
        have : p = [] := by simpa using h0
        subst this
        cases hn
      rw [wholes_filter] at ht hp
      simp only [returnsTested, Bool.or_eq_false_iff] at ht
      have hflat : ∀ q ∈ testedPaths e, flat (p.map ssk) ≠ q.map .prop := by
        intro q hq he
        rw [flat_ssk] at he
        rw [sk_props _ q he] at ht
        have hc := ht.1
        simp only [List.contains_eq_mem, decide_eq_false_iff_not] at hc
        exact hc (mem_testedPaths.1 hq)
      simp only [block, List.map_cons, List.mem_cons, List.mem_map] at h
      rcases h with rfl | ⟨_, ⟨q, hq, rfl⟩, rfl⟩
      · have := getOutput_lt (u ++ [.all]) (p.map ssk) hp0
        refine ⟨fun he => ?_, fun he => ?_⟩
        · simp only [Reg.up] at he
          rw [he] at this; omega
        · have := congrArg List.length he
          simp [flat, Reg.up] at this
          simp [this] at hp0
      · refine ⟨fun he => ?_, fun he => ?_⟩
        · simp only [Reg.up] at he
          have hs := getOutput_suffix he
          have hqc : CleanWord (q.map .prop) := .props (hp.filter.1 q (mem_testedPaths.1 hq)).2
          have hg : GClean (q.map Step.prop) := .props (hp.filter.1 q (mem_testedPaths.1 hq)).2
          have hpc := clean_path p (clean_tail (s := .filter e) hp)
          have h0 := getOutput_arrs hg hpc hs
          rw [arrs_props] at h0
          have := getOutput_inj [] hqc (clean_no_arrs hpc h0.symm) hs
          apply hflat q hq
          rw [← this, flat_props]
        · simp only [Reg.up] at he
          rw [flat_append (u ++ [Step.all]), flat_append (u ++ [Step.all]), flat_props] at he
          exact hflat q hq (List.append_cancel_left he).symm
    · exact sregs_fresh p (u ++ [.all]) (clean_tail hp) (named_tail' hn) (tested_tail ht) r h ho

/-- The result is registered last. -/
theorem sregs_out : ∀ (p : List (SStep Num)) (u : List Step), ∃ Q', (∀ r ∈ Q', r.role ≠ some .out) ∧
    sregs u p = Q' ++ (if endsS p then [⟨u ++ p.map ssk, some .out⟩] else [])
  | [], u => ⟨[], by simp, by simp [sregs, endsS]⟩
  | .prop k :: p, u => by
    obtain ⟨Q', h1, h2⟩ := sregs_out p (u ++ [.prop k])
    exact ⟨Q', h1, by simpa [sregs, endsS, ssk] using h2⟩
  | .all :: p, u => by
    obtain ⟨Q', h1, h2⟩ := sregs_out p (u ++ [.all])
    exact ⟨Q', h1, by simpa [sregs, endsS, ssk] using h2⟩
  | .slice a b :: p, u => by
    obtain ⟨Q', h1, h2⟩ := sregs_out p (u ++ [.slice a b])
    cases p with
    | nil => exact ⟨[], by simp, by simp [sregs, endsS, ssk]⟩
    | cons s p =>
      refine ⟨⟨u ++ [.slice a b], none⟩ :: Q', ?_, ?_⟩
      · intro r hr
        rcases List.mem_cons.1 hr with rfl | hr
        · simp
        · exact h1 r hr
      · rw [sregs, h2]; simp [endsS, ssk]
  | .filter e :: p, u => by
    obtain ⟨Q', h1, h2⟩ := sregs_out p (u ++ [.all])
    refine ⟨(block (u ++ [.all]) e).map Reg.up ++ Q', ?_, ?_⟩
    · intro r hr
      rcases List.mem_append.1 hr with hr | hr
      · simp only [block, List.map_cons, List.mem_cons, List.mem_map] at hr
        rcases hr with rfl | ⟨_, ⟨q, hq, rfl⟩, rfl⟩ <;> simp [Reg.up]
      · exact h1 r hr
    · rw [sregs, h2]; simp [endsS, ssk]

theorem pathSRegs_out (p : List (SStep Num)) : ∃ Q', (∀ r ∈ Q', r.role ≠ some .out) ∧
    pathSRegs p = Q' ++ [⟨p.map ssk, some .out⟩] ∧ sregs [] p = Q' ++ (if endsS p then [⟨p.map ssk, some .out⟩] else []) := by
  obtain ⟨Q', h1, h2⟩ := sregs_out p []
  refine ⟨Q', h1, ?_, by simpa using h2⟩
  unfold pathSRegs
  rw [h2]
  cases endsS p <;> simp

theorem sregs_pred : ∀ (p : List (SStep Num)) (u : List Step), ∀ w e ds, ⟨w, some (.pred e ds)⟩ ∈ sregs u p → ∃ w', w = w' ++ [.all]
  | [], u, w, e, ds, h => by simp [sregs] at h
  | .prop k :: p, u, w, e, ds, h => sregs_pred p (u ++ [.prop k]) w e ds h
  | .all :: p, u, w, e, ds, h => sregs_pred p (u ++ [.all]) w e ds h
  | .slice a b :: p, u, w, e, ds, h => by
    simp only [sregs, List.mem_cons, SReg.mk.injEq] at h
    rcases h with h | h
    · exfalso
      have := h.2
      split at this <;> simp at this
    · exact sregs_pred p (u ++ [.slice a b]) w e ds h
  | .filter e' :: p, u, w, e, ds, h => by
    simp only [sregs, List.mem_append] at h
    rcases h with h | h
    · simp only [block, List.map_cons, List.mem_cons, List.mem_map] at h
      rcases h with h | ⟨_, ⟨q, hq, rfl⟩, h⟩
      · exact ⟨u, by simp [Reg.up] at h; exact h.1⟩
      · simp [Reg.up] at h
    · exact sregs_pred p (u ++ [.all]) w e ds h

theorem sregs_cond : ∀ (p : List (SStep Num)) (u : List Step), CleanPath (wholes p) →
    ∀ w q, ⟨w, some (.cond q)⟩ ∈ sregs u p → ∃ w' k, w = w' ++ [.prop k]
  | [], u, _, w, q, h => by simp [sregs] at h
  | .prop k :: p, u, hp, w, q, h => sregs_cond p (u ++ [.prop k]) (clean_tail hp) w q h
  | .all :: p, u, hp, w, q, h => sregs_cond p (u ++ [.all]) (clean_tail hp) w q h
  | .slice a b :: p, u, hp, w, q, h => by
    simp only [sregs, List.mem_cons, SReg.mk.injEq] at h
    rcases h with h | h
    · exfalso
      have := h.2
      split at this <;> simp at this
    · exact sregs_cond p (u ++ [.slice a b]) (clean_tail hp) w q h
  | .filter e :: p, u, hp, w, q, h => by
    have hp' : CleanPath (.filter e :: wholes p) := hp
    simp only [sregs, List.mem_append] at h
    rcases h with h | h
    · simp only [block, List.map_cons, List.mem_cons, List.mem_map] at h
      rcases h with h | ⟨_, ⟨q', hq, rfl⟩, h⟩
      · simp [Reg.up] at h
      · simp only [Reg.up, SReg.mk.injEq] at h
        have hne := (hp'.filter.1 q' (mem_testedPaths.1 hq)).1
        refine ⟨u ++ [Step.all] ++ q'.dropLast.map .prop, q'.getLast hne, ?_⟩
        rw [← h.1, List.append_assoc (u ++ [Step.all]), ← List.map_singleton (f := Step.prop), ← List.map_append,
          List.dropLast_concat_getLast hne]
    · exact sregs_cond p (u ++ [.all]) (clean_tail hp) w q h

/-- The bounds of a slice are not both zero. -/
def slicesOk (p : List (SStep Num)) : Prop := ∀ a b, SStep.slice a b ∈ p → ¬ (sliceLo a = 0 ∧ sliceHi b = 0)

theorem slicesOk.tail {s : SStep Num} {p : List (SStep Num)} (h : slicesOk (s :: p)) : slicesOk p :=
  fun a b hm => h a b (by simp [hm])

theorem sregs_skip : ∀ (p : List (SStep Num)) (u : List Step), slicesOk p → ∀ w, ⟨w, none⟩ ∈ sregs u p →
    ((rangeOf w).1 ≠ 0 ∨ (rangeOf w).2 ≠ 0) ∧ w <+: u ++ p.map ssk
  | [], u, _, w, h => by simp [sregs] at h
  | .prop k :: p, u, hb, w, h => by
    have := sregs_skip p (u ++ [.prop k]) hb.tail w h
    simpa [ssk] using this
  | .all :: p, u, hb, w, h => by
    have := sregs_skip p (u ++ [.all]) hb.tail w h
    simpa [ssk] using this
  | .slice a b :: p, u, hb, w, h => by
    simp only [sregs, List.mem_cons, SReg.mk.injEq] at h
    rcases h with h | h
    · refine ⟨?_, p.map ssk, by rw [h.1]; simp [ssk]⟩
      rw [h.1, rangeOf_slice]
      have := hb a b (by simp)
      simp only [ne_eq]
      by_cases h1 : sliceLo a = 0
      · exact .inr fun h2 => this ⟨h1, h2⟩
      · exact .inl h1
    · have := sregs_skip p (u ++ [.slice a b]) hb.tail w h
      simpa [ssk] using this
  | .filter e :: p, u, hb, w, h => by
    simp only [sregs, List.mem_append] at h
    rcases h with h | h
    · simp only [block, List.map_cons, List.mem_cons, List.mem_map] at h
      rcases h with h | ⟨_, ⟨q', hq, rfl⟩, h⟩ <;> simp [Reg.up] at h
    · have := sregs_skip p (u ++ [.all]) hb.tail w h
      simpa [ssk] using this

theorem sfold_lastGen : ∀ (p : List (SStep Num)) (c : SCtx), namedAfterFilter (wholes p) = true → p ≠ [] → endsS p = false →
    (p.foldl sctxStep c).lastGen = some false
  | [], _, _, h, _ => absurd rfl h
  | [.prop k], c, _, _, _ => rfl
  | [.all], c, _, _, _ => rfl
  | [.slice a b], c, _, _, h => by cases h
  | [.filter e], c, h, _, _ => by cases h
  | s :: t :: p, c, h, _, he => sfold_lastGen (t :: p) (sctxStep c s) (named_tail' h) (by simp) (endsS_tail he)

theorem sfold_ends : ∀ (p : List (SStep Num)) (u : List Step) (Q : List SReg) (c : SCtx), GAll u Q c → GClean u →
    CleanPath (wholes p) → endsS p = true →
    (p.foldl sctxStep c).lastGen = some true ∧ (p.foldl sctxStep c).lastId = some (Q.length + (sregs u p).length)
  | [], u, Q, c, h, _, _, he => by cases he
  | .prop k :: p, u, Q, c, h, hu, hp, he => by
    have := sfold_ends p (u ++ [.prop k]) Q _ (h.push (.prop k)) (hu.append (clean_head hp)) (clean_tail hp) (by simpa [endsS] using he)
    simpa [sregs, ssk, sctxStep, seOf] using this
  | .all :: p, u, Q, c, h, hu, hp, he => by
    have := sfold_ends p (u ++ [.all]) Q _ (h.push .all) (hu.append clean_all) (clean_tail hp) (by simpa [endsS] using he)
    simpa [sregs, ssk, sctxStep, seOf] using this
  | [.slice a b], u, Q, c, h, hu, hp, he => by
    have := (h.slice hu a b (some .out) rfl (by simp)).2
    simpa [sregs] using this
  | .slice a b :: t :: p, u, Q, c, h, hu, hp, he => by
    have := sfold_ends (t :: p) (u ++ [.slice a b]) _ _
      (h.slice hu a b none rfl (by simp)).1
      (hu.append (clean_slice a b)) (clean_tail hp) (by simpa [endsS] using he)
    simp only [List.length_append, List.length_cons, List.length_nil] at this
    refine ⟨this.1, ?_⟩
    have h2 := this.2
    rw [List.foldl_cons, h2, sregs, List.length_cons]
    congr 1; omega
  | .filter e :: p, u, Q, c, h, hu, hp, he => by
    have hp' : CleanPath (.filter e :: wholes p) := hp
    have := sfold_ends p (u ++ [.all]) _ _ (h.filter hu e hp'.filter.1) (hu.append clean_all) (clean_tail hp) (by simpa [endsS] using he)
    refine ⟨this.1, ?_⟩
    rw [List.foldl_cons, this.2, sregs, List.length_append, List.length_append]
    congr 1; omega

theorem GAll.init : GAll [] [] .init :=
  ⟨rfl, ⟨rfl, rfl, rfl, rfl, by simp, List.nodup_nil, by intro k hk; simp [SCtx.init] at hk, by simp, rfl⟩,
    by intro h w e ds hq; simp at hq, by simp⟩

/-- The context of a path with filters and slices. -/
theorem stab_of_build (p : List (SStep Num)) (h0 : p ≠ []) (hp : CleanPath (wholes p)) (hn : namedAfterFilter (wholes p) = true)
    (hr : returnsTested (wholes p) = false) (hl : (pathNames (wholes p)).length ≤ 253) (hb : slicesOk p) :
    ∃ c, buildCtx (sAst p) = some c ∧ STab (pathSRegs p) c := by
  have hcl : GClean (p.map ssk) := clean_path p hp
  have ha : GAll (p.map ssk) (sregs [] p) (p.foldl sctxStep .init) := by
    simpa using GAll.fold p [] [] .init GAll.init (by intro s hs; simp at hs) hp
  obtain ⟨Q', q1, q2, q3⟩ := pathSRegs_out p
  have hfresh : ∀ r ∈ Q', getOutput (r.w.map seOf) ≠ getOutput ((p.map ssk).map seOf) ∧ flat r.w ≠ flat (p.map ssk) := by
    intro r hr'
    have := sregs_fresh p [] hp hn hr r (by rw [q3]; exact List.mem_append_left _ hr') (q1 r hr')
    simpa using this
  -- the context
  have hctx : ∃ c, buildCtx (sAst p) = some c ∧ GInv ((pathSRegs p).map SReg.w) ((pathSRegs p).map SReg.tree) c ∧
      c.lastId = some (Q'.length + 1) ∧
      ∀ h w e ds, (pathSRegs p)[h]? = some ⟨w, some (.pred e ds)⟩ → MapOk c.mapping ((pathSRegs p).map SReg.tree) h (ds.map joinPath) := by
    cases he : endsS p with
    | true =>
      obtain ⟨l1, l2⟩ := sfold_ends p [] [] .init GAll.init (by intro s hs; simp at hs) hp he
      have hq : pathSRegs p = sregs [] p := by simp [pathSRegs, he]
      refine ⟨p.foldl sctxStep .init, ?_, by rw [hq]; exact ha.inv, ?_, by rw [hq]; exact ha.maps⟩
      · unfold buildCtx
        rw [construct_sAst p hp.1]
        simp only [l1]
      · rw [l2, q3, he]; simp
    | false =>
      have hlg := sfold_lastGen p .init hn h0 he
      have hq3 : sregs [] p = Q' := by rw [q3, he]; simp
      rw [hq3] at ha
      have hcr := ha.inv.create ha.st hcl (by
        intro w hw
        obtain ⟨r, hr', rfl⟩ := List.mem_map.1 hw
        exact (hfresh r hr').1) false none
      have hb : buildCtx (sAst p) = some ((p.foldl sctxStep .init).createDfa false).1 := by
        unfold buildCtx
        rw [construct_sAst p hp.1]
        simp only [hlg]
      generalize p.foldl sctxStep .init = c at ha hlg hcr hb
      simp only [Bool.false_eq_true, if_false] at hcr
      obtain ⟨h1, _, h3, h4, h5, h6, h8, h7⟩ := hcr
      have htrees := createDfa_trees c false h1
      have hlenQ : c.trees.length = Q'.length := by rw [ha.inv.trees]; simp
      have hrg := endsS_range p he
      have hinv : GInv (Q'.map SReg.w ++ [p.map ssk]) (Q'.map SReg.tree ++ [none]) (c.createDfa false).1 := by
        refine h7.congr rfl ?_ ?_ rfl rfl
        · show (c.createDfa false).1.ranges = _
          rw [h8, hrg]
        · show (c.createDfa false).1.trees = (c.createDfa false).1.trees.set _ none
          rw [htrees, h3, List.length_map, Nat.add_sub_cancel, ← hlenQ]
          simp
      refine ⟨_, hb, by rw [q2]; simpa [SReg.tree, Role.tree] using hinv, by rw [h6]; simp, ?_⟩
      intro h w e ds hget
      rw [q2, List.map_append, h5]
      apply MapOk.grow
      apply ha.maps h w e ds
      rw [q2, List.getElem?_append] at hget
      split at hget
      · exact hget
      · rename_i hlt
        have : h - Q'.length = 0 := by
          have := (List.getElem?_eq_some_iff.1 hget).1
          simp at this; omega
        rw [this] at hget
        simp at hget
  obtain ⟨c, hb', hinv, hid, hmaps⟩ := hctx
  have hmem : ∀ r ∈ pathSRegs p, r ∈ sregs [] p ∨ r = ⟨p.map ssk, some .out⟩ := by
    intro r hr'
    unfold pathSRegs at hr'
    rcases List.mem_append.1 hr' with h | h
    · exact .inl h
    · split at h
      · cases h
      · exact .inr (by simpa using h)
  have hskip : ∀ w, (⟨w, none⟩ : SReg) ∈ pathSRegs p → ((rangeOf w).1 ≠ 0 ∨ (rangeOf w).2 ≠ 0) ∧ w <+: p.map ssk := by
    intro w hw
    rcases hmem _ hw with h | h
    · simpa using sregs_skip p [] hb w h
    · simp at h
  have hout : (⟨p.map ssk, some .out⟩ : SReg) ∈ pathSRegs p := by rw [q2]; simp
  refine ⟨c, hb', hinv, ?_, ?_, ?_, ?_, ?_, ?_, fun w hw => (hskip w hw).1, fun w hw => ⟨_, hout, (hskip w hw).2⟩, hmaps⟩
  · refine Nat.le_trans (nodup_subset_length hinv.nodup ?_) hl
    have hfl : ∀ k (w : List Step), Step.prop k ∈ w → Step.prop k ∈ flat w := fun k w hm => List.mem_map.2 ⟨_, hm, rfl⟩
    have hon : ∀ k, Step.prop k ∈ p.map ssk → k ∈ pathNames (wholes p) := by
      intro k hm
      have := hfl _ _ hm
      rw [flat_ssk] at this
      exact sk_steps _ k this
    intro k hk
    obtain ⟨w, hw, hm⟩ := hinv.from_ k hk
    obtain ⟨r, hr', rfl⟩ := List.mem_map.1 hw
    obtain ⟨w, ro⟩ := r
    cases ro with
    | none => exact hon k ((hskip w hr').2.subset hm)
    | some ro =>
      have hlow : (⟨flat w, ro⟩ : Reg) ∈ low (pathSRegs p) := mem_low.2 ⟨_, hr', rfl, rfl⟩
      rw [low_pathSRegs] at hlow
      rcases List.mem_append.1 hlow with h | h
      · rcases regs_steps _ [] _ h k (hfl _ _ hm) with h | h
        · simp at h
        · exact h
      · simp only [List.mem_singleton, Reg.mk.injEq] at h
        have := hfl _ _ hm
        simp only at this
        rw [h.1] at this
        exact sk_steps _ k this
  · rw [q2, List.map_append, List.nodup_append]
    refine ⟨?_, by simp, ?_⟩
    · have := sregs_nodup p [] hp
      rw [q3, List.map_append, List.nodup_append] at this
      exact this.1
    · intro a ha' b hb'
      obtain ⟨r, hr', rfl⟩ := List.mem_map.1 ha'
      simp only [List.map_cons, List.map_nil, List.mem_singleton] at hb'
      subst hb'
      exact (hfresh r hr').2
  · intro r hr' he
    rcases hmem r hr' with h | h
    · have := sregs_count p [] r h
      rw [he] at this; omega
    · subst h; simp at he; exact h0 he
  · refine ⟨Q'.length, p.map ssk, by rw [q2]; simp, hid, ?_⟩
    intro j w hj
    rw [q2, List.getElem?_append] at hj
    split at hj
    · exact absurd rfl (q1 _ (List.mem_of_getElem? hj))
    · have := (List.getElem?_eq_some_iff.1 hj).1
      simp at this; omega
  · intro w e ds hr'
    rcases hmem _ hr' with h | h
    · exact sregs_pred p [] w e ds h
    · simp at h
  · intro w q hr'
    rcases hmem _ hr' with h | h
    · exact sregs_cond p [] hp w q h
    · simp at h

end JPS
