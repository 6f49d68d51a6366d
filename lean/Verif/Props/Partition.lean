import Verif.Partition
import Verif.Props.PiecesDoc
/-!
# C20, C21: cutting an input into chunks
-/

set_option autoImplicit false

namespace JPS
open Spec

/-- A position at which a chunk may start: a quote after `,`, `{` or `[` and blanks. -/
def CutAt (s : Str) (k : Nat) : Prop :=
  ∃ r u w c, s.drop k = '"' :: r ∧ (s.take k).reverse = w ++ c :: u ∧ w.all isSkip = true ∧
    (c = ',' ∨ c = '{' ∨ c = '[')

theorem opensToken_some {p : Char} (h : opensToken (some p) = true) : p = ',' ∨ p = '{' ∨ p = '[' := by
  simpa [opensToken, or_assoc] using h

theorem findCut_spec : ∀ (r rev ext : Str), findCut rev r = some ext →
    ∃ t w c u, r = ext ++ '"' :: t ∧ ext.reverse ++ rev = w ++ c :: u ∧ w.all isSkip = true ∧
      (c = ',' ∨ c = '{' ∨ c = '[')
  | [], _, _, h => by simp [findCut] at h
  | c :: r, rev, ext, h => by
    have next : ∀ e, (findCut (c :: rev) r).map (c :: ·) = some e →
        ∃ t w c' u, c :: r = e ++ '"' :: t ∧ e.reverse ++ rev = w ++ c' :: u ∧ w.all isSkip = true ∧
          (c' = ',' ∨ c' = '{' ∨ c' = '[') := by
      intro e he
      obtain ⟨e', he', rfl⟩ := Option.map_eq_some_iff.1 he
      obtain ⟨t, w, c', u, h1, h2, h3, h4⟩ := findCut_spec r (c :: rev) e' he'
      exact ⟨t, w, c', u, by rw [h1]; rfl, by simpa using h2, h3, h4⟩
    unfold findCut at h
    split at h
    · next hc =>
      split at h
      · cases h
      · next p hp =>
        split at h
        · next ho =>
          obtain rfl := Option.some.inj h
          obtain ⟨w, u, e1, e2⟩ := prevChar_some hp
          exact ⟨r, w, p, u, by rw [hc]; rfl, by simpa using e1, e2, opensToken_some ho⟩
        · exact next _ h
    · exact next _ h

theorem cText_id {b : Str} (h : NUL ∉ b) : cText b = b := by
  unfold cText
  induction b with
  | nil => rfl
  | cons c b ih =>
    have hc : c ≠ NUL := fun e => h (by simp [e])
    rw [List.takeWhile_cons, if_pos (by simpa using hc), ih (fun hm => h (by simp [hm]))]

theorem partLoop_spec {s : Str} {C : Nat} (hl : lead s = 0) (h0 : NUL ∉ s) (hC : 0 < C) :
    ∀ (i sum : Nat) (cs : List Str) (e : Nat), (0 < i → sum + C ≤ s.length) → sum ≤ s.length →
    partLoop s C i sum = some (cs, e) →
    s.drop sum = cs.flatten ++ s.drop e ∧ e = sum + cs.flatten.length ∧ (cs ≠ [] → e < s.length) ∧
    cs.length ≤ i ∧ (∀ x ∈ cs, x ≠ []) ∧
    ∀ xs ys, cs = xs ++ ys → xs ≠ [] → CutAt s (sum + xs.flatten.length)
  | 0, sum, cs, e, _, _, h => by
    simp only [partLoop, Option.some.injEq, Prod.mk.injEq] at h
    obtain ⟨rfl, rfl⟩ := h
    refine ⟨by simp, by simp, by simp, by simp, by simp, ?_⟩
    intro xs ys hxy hx
    exact absurd (List.append_eq_nil_iff.1 hxy.symm).1 hx
  | i + 1, sum, cs, e, hi, hs, h => by
    have hsum := hi (by omega)
    have hhead : ((ltrim s ++ [NUL]).drop sum).take C = (s.drop sum).take C := by
      unfold ltrim
      rw [hl, List.drop_zero, List.drop_append_of_le_length (by omega), List.take_append_of_le_length (by simp; omega)]
    simp only [partLoop, hhead] at h
    split at h
    · cases h
    · cases hf : findCut ((s.drop sum).take C).reverse (s.drop (sum + C)) with
      | none => rw [hf] at h; cases h
      | some ext =>
        rw [hf] at h
        simp only at h
        obtain ⟨t, w, c, u, e1, e2, e3, e4⟩ := findCut_spec _ _ _ hf
        have hsplit : s.drop sum = ((s.drop sum).take C ++ ext) ++ '"' :: t := by
          rw [List.append_assoc, ← e1, ← List.drop_drop, List.take_append_drop]
        have hlen : ((s.drop sum).take C).length = C := by simp; omega
        have hclen : ((s.drop sum).take C ++ ext).length = C + ext.length := by simp [hlen]
        have hdrop : s.drop (sum + C + ext.length) = '"' :: t := by
          rw [Nat.add_assoc, ← List.drop_drop, hsplit, ← hclen, List.drop_left]
        have htxt : cText ((s.drop sum).take C ++ ext) = (s.drop sum).take C ++ ext := by
          apply cText_id
          intro hm
          apply h0
          have : NUL ∈ s.drop sum := by rw [hsplit]; exact List.mem_append_left _ hm
          exact List.mem_of_mem_drop this
        have hlt : sum + C + ext.length < s.length := by
          apply Classical.byContradiction
          intro hn
          rw [List.drop_eq_nil_of_le (by omega)] at hdrop
          cases hdrop
        have hcut : CutAt s (sum + (C + ext.length)) := by
          refine ⟨t, u ++ (s.take sum).reverse, w, c, by rw [← Nat.add_assoc]; exact hdrop, ?_, e3, e4⟩
          rw [List.take_add, hsplit, ← hclen, List.take_left, List.reverse_append, List.reverse_append, e2]
          simp
        have hne : (s.drop sum).take C ++ ext ≠ [] := by
          intro hn; rw [hn] at hclen; simp at hclen; omega
        rw [htxt] at h
        split at h
        · cases h
        · split at h
          · simp only [Option.some.injEq, Prod.mk.injEq] at h
            obtain ⟨rfl, rfl⟩ := h
            refine ⟨?_, ?_, fun _ => hlt, by simp, by simpa using hne, ?_⟩
            · rw [hdrop]; simpa using hsplit
            · simp only [List.flatten_cons, List.flatten_nil, List.append_nil, hclen]; omega
            · intro xs ys hxy hx
              have : xs = [(s.drop sum).take C ++ ext] := by
                obtain ⟨x, xs', rfl⟩ := List.exists_cons_of_ne_nil hx
                simp only [List.cons_append, List.cons.injEq] at hxy
                rw [← hxy.1, (List.append_eq_nil_iff.1 hxy.2.symm).1]
              rw [this]
              simpa [hlen] using hcut
          · next hcont =>
            obtain ⟨⟨cs', e'⟩, hr, heq⟩ := Option.map_eq_some_iff.1 h
            simp only [Prod.mk.injEq] at heq
            obtain ⟨rfl, rfl⟩ := heq
            obtain ⟨i1, i2, i3, i4, i5, i6⟩ := partLoop_spec hl h0 hC i _ cs' e' (fun _ => by omega) (by omega) hr
            refine ⟨?_, ?_, ?_, by simp; omega, ?_, ?_⟩
            · rw [List.flatten_cons, List.append_assoc, ← i1, hdrop]; exact hsplit
            · rw [List.flatten_cons, List.length_append, hclen]; omega
            · intro _
              by_cases hcs : cs' = []
              · rw [hcs] at i2; simp at i2; omega
              · exact i3 hcs
            · intro x hx
              rcases List.mem_cons.1 hx with rfl | hx
              · exact hne
              · exact i5 x hx
            · intro xs ys hxy hx
              obtain ⟨x, xs', rfl⟩ := List.exists_cons_of_ne_nil hx
              simp only [List.cons_append, List.cons.injEq] at hxy
              obtain ⟨hx1, hxy⟩ := hxy
              subst hx1
              by_cases hx' : xs' = []
              · subst hx'; simpa [hlen] using hcut
              · have := i6 xs' ys hxy hx'
                rw [List.flatten_cons, List.length_append, hclen]
                have ea : sum + C + ext.length + xs'.flatten.length =
                  sum + (C + ext.length + xs'.flatten.length) := by omega
                rwa [ea] at this

/-! ## C20 -/

/-- The full claim of C20. -/
def C20Full : Prop := ∀ (cores : Nat) (s : Str), 0 < cores → s ≠ [] → NUL ∉ s →
  ∃ cs : List Str, partition cores s = some (cs.map some) ∧ cs.flatten = s

theorem partition_spec {cores : Nat} {s : Str} {cs : List (Option Str)} (hc : 0 < cores) (hs : s ≠ [])
    (h0 : NUL ∉ s) (hl : s.head? ≠ some ' ') (h : partition cores s = some cs) :
    ∃ xs : List Str, cs = xs.map some ∧ xs.flatten = s ∧ xs.length ≤ cores ∧ (∀ x ∈ xs, x ≠ []) ∧
      ∀ ys zs, xs = ys ++ zs → ys ≠ [] → zs ≠ [] → CutAt s ys.flatten.length := by
  have hl := lead_zero hl
  have hn : 0 < s.length := List.length_pos_iff.2 hs
  unfold partition at h
  rw [if_neg (by omega)] at h
  cases hp : partLoop s (s.length / cores + 1) (cores - 1) 0 with
  | none => rw [hp] at h; cases h
  | some r =>
    obtain ⟨ds, e⟩ := r
    rw [hp] at h
    simp only at h
    obtain ⟨p1, p2, p3, p4, p5, p6⟩ := partLoop_spec hl h0 (Nat.succ_pos _) _ 0 ds e (by
      intro hc'
      have : s.length / cores ≤ s.length / 2 := Nat.div_le_div_left (by omega) (by omega)
      omega) (by omega) hp
    have he : e < s.length := by
      by_cases hd : ds = []
      · rw [hd] at p2; simp at p2; omega
      · exact p3 hd
    have hsub : substring s e s.length = s.drop e := by
      unfold substring ltrim
      rw [hl, List.drop_zero, List.take_length]
    rw [if_pos he, hsub] at h
    split at h
    · cases h
    · obtain rfl := Option.some.inj h
      refine ⟨ds ++ [s.drop e], by simp, ?_, by simp; omega, ?_, ?_⟩
      · simpa using p1.symm
      · intro x hx
        rcases List.mem_append.1 hx with hx | hx
        · exact p5 x hx
        · rw [List.mem_singleton] at hx
          rw [hx]
          intro hd
          have := congrArg List.length hd
          simp at this; omega
      · intro ys zs hyz hy hz
        have : ∃ zs', ds = ys ++ zs' := by
          refine ⟨zs.dropLast, ?_⟩
          have h2 : zs = zs.dropLast ++ [zs.getLast hz] := (List.dropLast_concat_getLast hz).symm
          rw [h2, ← List.append_assoc] at hyz
          exact (List.append_inj' hyz rfl).1
        obtain ⟨zs', hd⟩ := this
        simpa using p6 ys zs' hd hy

/-- **C20** Whenever the cutting stays within defined behaviour, and the input does not start with a
blank, the chunks in order concatenate to the input; there are at most as many as cores, none is empty or
missing. -/
theorem c20_lossless_partial (cores : Nat) (s : Str) (cs : List (Option Str)) (hc : 0 < cores) (hs : s ≠ [])
    (h0 : NUL ∉ s) (hl : s.head? ≠ some ' ') (h : partition cores s = some cs) :
    ∃ xs : List Str, cs = xs.map some ∧ xs.flatten = s ∧ xs.length ≤ cores ∧ ∀ x ∈ xs, x ≠ [] := by
  obtain ⟨xs, h1, h2, h3, h4, _⟩ := partition_spec hc hs h0 hl h
  exact ⟨xs, h1, h2, h3, h4⟩

/-- A document cut into two chunks. -/
def exCut : Str := "{\"a\": [1, 2, \"x\"], \"b\": {\"c\": 3, \"d\": \"y\"}}".toList

/-- The hypotheses of `c20_lossless_partial` hold for it. -/
example : partition 2 exCut =
    some (["{\"a\": [1, 2, \"x\"], \"b\": {".toList, "\"c\": 3, \"d\": \"y\"}}".toList].map some) ∧
    NUL ∉ exCut ∧ exCut.head? ≠ some ' ' := by decide

/-- **C20 is false**: `[1, 2, 3]` for two cores has no place to cut after its middle; the search reads past
the end of the input. -/
theorem c20_false : ¬ C20Full := by
  intro h
  obtain ⟨cs, h1, _⟩ := h 2 "[1, 2, 3]".toList (by decide) (by decide) (by decide)
  have : partition 2 "[1, 2, 3]".toList = none := by decide
  rw [this] at h1
  cases h1

/-- **C20 is false** also where all accesses are defined: a leading blank makes `substring` shift, so one
character is duplicated and another one lost. -/
theorem c20_false_blank :
    partition 2 (' ' :: exCut) =
      some (["{\"a\": [1, 2, \"x\"], \"b\":: {".toList, "c\": 3, \"d\": \"y\"}}".toList].map some) := by decide

/-! ### When the cutting is defined -/

theorem dropWhile_nil {p : Char → Bool} : ∀ {l : Str}, l.dropWhile p = [] → ∀ c ∈ l, p c = true
  | [], _, c, hc => by simp at hc
  | x :: l, h, c, hc => by
    rw [List.dropWhile_cons] at h
    split at h
    · next hx =>
      rcases List.mem_cons.1 hc with rfl | hc
      · exact hx
      · exact dropWhile_nil h c hc
    · cases h

theorem map_some_inj : ∀ {xs ys : List Str}, xs.map some = ys.map some → xs = ys
  | [], [], _ => rfl
  | [], _ :: _, h => by simp at h
  | _ :: _, [], h => by simp at h
  | x :: xs, y :: ys, h => by
    simp only [List.map_cons, List.cons.injEq, Option.some.injEq] at h
    rw [h.1, map_some_inj h.2]

theorem findCut_defined : ∀ (r rev : Str), (∃ c ∈ rev, isSkip c = false) →
    ∀ e t, r = e ++ '"' :: t → (∃ c, prevChar (e.reverse ++ rev) = some c ∧ opensToken (some c) = true) →
    ∃ ext, findCut rev r = some ext ∧ ext.length ≤ e.length
  | [], _, _, e, t, h, _ => by simp at h
  | c :: r, rev, hrev, e, t, h, hc => by
    have next : e ≠ [] → ∃ ext, (findCut (c :: rev) r).map (c :: ·) = some ext ∧ ext.length ≤ e.length := by
      intro he
      obtain ⟨x, e', rfl⟩ := List.exists_cons_of_ne_nil he
      simp only [List.cons_append, List.cons.injEq] at h
      obtain ⟨rfl, h⟩ := h
      obtain ⟨y, hy, hy'⟩ := hrev
      obtain ⟨ext, h1, h2⟩ := findCut_defined r (c :: rev) ⟨y, by simp [hy], hy'⟩ e' t h (by simpa using hc)
      exact ⟨c :: ext, by rw [h1]; rfl, by simpa using h2⟩
    unfold findCut
    by_cases hq : c = '"'
    · rw [if_pos hq]
      cases hp : prevChar rev with
      | none =>
        exfalso
        obtain ⟨y, hy, hy'⟩ := hrev
        unfold prevChar at hp
        have hd : rev.dropWhile isSkip = [] := by
          cases hx : rev.dropWhile isSkip with
          | nil => rfl
          | cons a l => rw [hx] at hp; cases hp
        have := dropWhile_nil hd y hy
        rw [hy'] at this; cases this
      | some p =>
        simp only
        by_cases ho : opensToken (some p) = true
        · rw [if_pos ho]; exact ⟨[], rfl, by simp⟩
        · rw [if_neg ho]
          apply next
          rintro rfl
          obtain ⟨c', h1, h2⟩ := hc
          simp only [List.reverse_nil, List.nil_append] at h1
          rw [hp] at h1
          obtain rfl := Option.some.inj h1
          exact ho h2
    · rw [if_neg hq]
      apply next
      rintro rfl
      simp only [List.nil_append, List.cons.injEq] at h
      exact hq h.1

theorem prevChar_of_split {rev w u : Str} {c : Char} (h : rev = w ++ c :: u) (hw : w.all isSkip = true)
    (hc : c = ',' ∨ c = '{' ∨ c = '[') : prevChar rev = some c ∧ opensToken (some c) = true := by
  have hs : isSkip c = false := by rcases hc with rfl | rfl | rfl <;> decide
  refine ⟨?_, by rcases hc with rfl | rfl | rfl <;> decide⟩
  unfold prevChar
  rw [h, List.dropWhile_append_of_pos (by simpa using hw)]
  simp [hs]

/-- A nonblank character inside `l` shields what comes after it from the search for the previous character. -/
theorem prevChar_shield {l m : Str} (h : ∃ c ∈ l, isSkip c = false) : prevChar (l ++ m) = prevChar l := by
  obtain ⟨c, hc, hs⟩ := h
  unfold prevChar
  cases hd : l.dropWhile isSkip with
  | nil =>
    have := dropWhile_nil hd c hc
    rw [hs] at this; cases this
  | cons a t =>
    have : (l ++ m).dropWhile isSkip = l.dropWhile isSkip ++ m := by
      rw [List.dropWhile_append]
      simp [hd]
    rw [this, hd]; rfl

/-- Every window of `L` characters of the input has a place to cut. -/
def Dense (L : Nat) (s : Str) : Prop := ∀ k, 0 < k → k + L ≤ s.length → ∃ j, k ≤ j ∧ j < k + L ∧ CutAt s j

theorem partLoop_defined {s : Str} {C L : Nat} (hl : lead s = 0) (hC : 0 < C) (hL : L ≤ MAX_EXTENSION)
    (hd : Dense L s) : ∀ (i sum : Nat), (∃ c, s[sum]? = some c ∧ isSkip c = false) →
    sum + i * (C + L) ≤ s.length → ∃ r, partLoop s C i sum = some r
  | 0, sum, _, _ => ⟨_, rfl⟩
  | i + 1, sum, hc, hb => by
    obtain ⟨c0, hc0, hc0'⟩ := hc
    have hsum : sum + C + L ≤ s.length := by
      have : C + L ≤ (i + 1) * (C + L) := Nat.le_mul_of_pos_left _ (by omega)
      omega
    have hhead : ((ltrim s ++ [NUL]).drop sum).take C = (s.drop sum).take C := by
      unfold ltrim
      rw [hl, List.drop_zero, List.drop_append_of_le_length (by omega), List.take_append_of_le_length (by simp; omega)]
    have hmem : c0 ∈ ((s.drop sum).take C).reverse := by
      rw [List.mem_reverse]
      have : ((s.drop sum).take C)[0]? = some c0 := by
        rw [List.getElem?_take_of_lt hC, List.getElem?_drop, Nat.add_zero, hc0]
      exact List.mem_of_getElem? this
    obtain ⟨j, hj1, hj2, r, u, w, c, hr, hrev, hw, hcc⟩ := hd (sum + C) (by omega) hsum
    have hjl : j < s.length := by
      apply Classical.byContradiction
      intro hn
      rw [List.drop_eq_nil_of_le (by omega)] at hr; cases hr
    obtain ⟨ext, he, hel⟩ := findCut_defined (s.drop (sum + C)) ((s.drop sum).take C).reverse ⟨c0, hmem, hc0'⟩
      ((s.drop (sum + C)).take (j - (sum + C))) r (by
        have : s.drop j = (s.drop (sum + C)).drop (j - (sum + C)) := by rw [List.drop_drop]; congr 1; omega
        rw [← hr, this, List.take_append_drop]) (by
        obtain ⟨p1, p2⟩ := prevChar_of_split hrev hw hcc
        refine ⟨c, ?_, p2⟩
        rw [← p1]
        have hsplit : (s.take j).reverse = (((s.drop (sum + C)).take (j - (sum + C))).reverse ++
            ((s.drop sum).take C).reverse) ++ (s.take sum).reverse := by
          rw [← List.reverse_append, ← List.reverse_append, ← List.append_assoc, ← List.take_add, ← List.take_add]
          congr 2; omega
        rw [hsplit]
        exact (prevChar_shield ⟨c0, by simp only [List.mem_append]; exact .inr hmem, hc0'⟩).symm)
    have hel' : ext.length < L := by simp at hel; omega
    simp only [partLoop, hhead]
    rw [if_neg (by omega), if_pos (by omega), he]
    simp only
    rw [if_neg (by omega)]
    split
    · exact ⟨_, rfl⟩
    · obtain ⟨t, _, _, _, e1, _⟩ := findCut_spec _ _ _ he
      have hq : s[sum + C + ext.length]? = some '"' := by
        have := congrArg (·[ext.length]?) e1
        simpa [Nat.add_assoc] using this
      obtain ⟨x, hx⟩ := partLoop_defined hl hC hL hd i (sum + C + ext.length) ⟨'"', hq, by decide⟩ (by
        have : (i + 1) * (C + L) = i * (C + L) + (C + L) := by rw [Nat.add_mul, Nat.one_mul]
        omega)
      exact ⟨_, by rw [hx]; rfl⟩

/-- **C20** The cutting is defined, and hence lossless, if every window of `L ≤ 2000` characters has a place
to cut and the input has at least `cores * cores * (L + 1)` characters. -/
theorem c20_dense_partial (cores L : Nat) (s : Str) (hc : 0 < cores) (h0 : NUL ∉ s)
    (hh : ∃ c, s.head? = some c ∧ isSkip c = false) (hL : L ≤ MAX_EXTENSION) (hd : Dense L s)
    (hn : cores * cores * (L + 1) ≤ s.length) :
    ∃ cs : List Str, partition cores s = some (cs.map some) ∧ cs.flatten = s := by
  obtain ⟨c, hc1, hc2⟩ := hh
  have hs : s ≠ [] := by rintro rfl; cases hc1
  have hl : s.head? ≠ some ' ' := by
    rw [hc1]; rintro h; obtain rfl := Option.some.inj h; revert hc2; decide
  have hlead := lead_zero hl
  have hlt : 0 < s.length := List.length_pos_iff.2 hs
  obtain ⟨⟨ds, e⟩, hp⟩ := partLoop_defined hlead (Nat.succ_pos (s.length / cores)) hL hd (cores - 1) 0
    ⟨c, by rw [← List.head?_eq_getElem?]; exact hc1, hc2⟩ (by
      rw [Nat.zero_add]
      have hq : cores * (L + 1) ≤ s.length / cores := by
        rw [Nat.le_div_iff_mul_le hc]
        calc cores * (L + 1) * cores = cores * cores * (L + 1) := by
              rw [Nat.mul_right_comm]
          _ ≤ s.length := hn
      have hq2 : cores * (s.length / cores) ≤ s.length := Nat.mul_div_le _ _
      obtain ⟨m, rfl⟩ : ∃ m, cores = m + 1 := ⟨cores - 1, by omega⟩
      rw [Nat.add_sub_cancel]
      generalize s.length / (m + 1) = q at *
      have e1 : m * (q.succ + L) = m * q + m * (L + 1) := by
        rw [← Nat.mul_add]; congr 1; omega
      have e2 : (m + 1) * q = m * q + q := by rw [Nat.add_mul, Nat.one_mul]
      have e3 : (m + 1) * (L + 1) = m * (L + 1) + (L + 1) := by rw [Nat.add_mul, Nat.one_mul]
      omega)
  have : ∃ cs, partition cores s = some cs := by
    unfold partition
    rw [if_neg (by omega), hp]
    simp only
    split
    · rw [if_neg (by simp [substringOOB, hlead])]
      exact ⟨_, rfl⟩
    · exact ⟨_, rfl⟩
  obtain ⟨cs, h⟩ := this
  obtain ⟨xs, h1, h2, _⟩ := c20_lossless_partial cores s cs hc hs h0 hl h
  exact ⟨xs, by rw [h, h1], h2⟩

theorem cutAt_of {s : Str} {k : Nat} (h1 : s[k]? = some '"')
    (h2 : opensToken (prevChar (s.take k).reverse) = true) : CutAt s k := by
  cases hp : prevChar (s.take k).reverse with
  | none => rw [hp] at h2; cases h2
  | some c =>
    rw [hp] at h2
    obtain ⟨w, u, e1, e2⟩ := prevChar_some hp
    have hk : k < s.length := by
      apply Classical.byContradiction
      intro hn
      rw [List.getElem?_eq_none (by omega)] at h1; cases h1
    refine ⟨s.drop (k + 1), u, w, c, ?_, e1, e2, opensToken_some h2⟩
    rw [List.drop_eq_getElem_cons hk]
    rw [List.getElem?_eq_getElem hk] at h1
    rw [Option.some.inj h1]

/-- The hypotheses of `c20_dense_partial` hold for an array of five strings and two cores. -/
example : ∃ cs : List Str, partition 2 "[\"a\",\"a\",\"a\",\"a\",\"a\"]".toList = some (cs.map some) ∧
    cs.flatten = "[\"a\",\"a\",\"a\",\"a\",\"a\"]".toList := by
  refine c20_dense_partial 2 4 _ (by decide) (by decide) ⟨'[', by decide, by decide⟩ (by decide) ?_ (by decide)
  intro k hk hk2
  have hlen : "[\"a\",\"a\",\"a\",\"a\",\"a\"]".toList.length = 21 := by decide
  have hall : ∀ k < 18, ∃ j < 21, k ≤ j ∧ j < k + 4 ∧
      "[\"a\",\"a\",\"a\",\"a\",\"a\"]".toList[j]? = some '"' ∧
      opensToken (prevChar ("[\"a\",\"a\",\"a\",\"a\",\"a\"]".toList.take j).reverse) = true := by decide
  obtain ⟨j, _, h1, h2, h3, h4⟩ := hall k (by omega)
  exact ⟨j, h1, h2, cutAt_of h3 h4⟩

/-! ### `partitionFile` -/

/-- What the loop of `partitionFile` has taken from the file. -/
structure FPInv (file : Str) (p : FP) : Prop where
  text : p.chunks.flatten = file.take p.sum
  le : p.sum ≤ file.length
  pos : p.pos = p.sum + (if p.ch.isSome then 1 else 0)
  ch : ∀ c, p.ch = some c → file[p.sum]? = some c
  done : p.ch = none → p.chunks = [] ∧ p.sum = 0 ∨ p.sum = file.length

theorem FPInv.read {file : Str} {p : FP} (h : FPInv file p) {n : Nat} (hn : 0 < n) (hl : p.sum + n ≤ file.length) :
    p.read file n = ((file.drop p.sum).take n, p.sum + n) := by
  unfold FP.read
  cases hc : p.ch with
  | none =>
    have := h.pos
    rw [hc] at this
    simp only [Option.isSome_none, Bool.false_eq_true, if_false, Nat.add_zero] at this
    simp only [this, Prod.mk.injEq, true_and]
    simp; omega
  | some c =>
    have hp := h.pos
    rw [hc] at hp
    simp only [Option.isSome_some, if_true] at hp
    have hg := h.ch c hc
    have hd : file.drop p.sum = c :: file.drop (p.sum + 1) := by
      rw [List.drop_eq_getElem_cons (by omega)]
      rw [List.getElem?_eq_getElem (by omega)] at hg
      rw [Option.some.inj hg]
    simp only [hp, Prod.mk.injEq]
    constructor
    · rw [hd]
      obtain ⟨m, rfl⟩ : ∃ m, n = m + 1 := ⟨n - 1, by omega⟩
      simp
    · simp; omega

theorem FPInv.iter {file : Str} {p : FP} {C : Nat} (h : FPInv file p) (hff : ∀ c ∈ file, c.toNat ≠ 255)
    (hC : 0 < C) (hl : p.sum + C ≤ file.length) : FPInv file (p.iter file C) ∧
    p.sum + C ≤ (p.iter file C).sum := by
  unfold FP.iter
  rw [h.read hC hl]
  simp only
  generalize he : extend ((file.drop p.sum).take C).reverse (file.drop (p.sum + C)) = ext
  have hpre : ext <+: file.drop (p.sum + C) := by rw [← he]; exact extend_prefix _ _
  obtain ⟨rest, hr⟩ := hpre
  have hdr : (file.drop (p.sum + C)).drop ext.length = rest := by rw [← hr]; simp
  have hlen : ext.length + rest.length = file.length - (p.sum + C) := by
    have := congrArg List.length hr
    simpa using this
  have hrest : file.drop (p.sum + C + ext.length) = rest := by rw [← List.drop_drop]; exact hdr
  refine ⟨⟨?_, ?_, ?_, ?_, ?_⟩, by omega⟩
  · simp only [List.flatten_append, List.flatten_cons, List.flatten_nil, List.append_nil, h.text]
    rw [← List.append_assoc, ← List.take_add, List.take_add (i := p.sum + C), ← hr, List.take_left]
  · simp only; omega
  · simp only [hdr]
    cases rest with
    | nil => simp
    | cons c r =>
      have : isEofByte c = false := by
        have := hff c (List.mem_of_mem_drop (i := p.sum + C) (a := c) (by rw [← hr]; simp))
        simpa [isEofByte] using this
      simp [this]
  · intro c hc
    simp only [hdr] at hc ⊢
    cases rest with
    | nil => simp at hc
    | cons c' r =>
      simp only at hc
      split at hc
      · cases hc
      · obtain rfl := Option.some.inj hc
        have := congrArg (·[0]?) hrest
        simpa using this
  · intro hn
    right
    simp only [hdr] at hn ⊢
    cases rest with
    | nil => simp at hlen; omega
    | cons c r =>
      have : isEofByte c = false := by
        have := hff c (List.mem_of_mem_drop (i := p.sum + C) (a := c) (by rw [← hr]; simp))
        simpa [isEofByte] using this
      simp [this] at hn

theorem FPInv.loop {file : Str} {C : Nat} (hff : ∀ c ∈ file, c.toNat ≠ 255) (hC : 0 < C) :
    ∀ (i : Nat) (p : FP), FPInv file p → (0 < i → p.sum + C ≤ file.length) → FPInv file (FP.loop file C i p)
  | 0, _, h, _ => h
  | i + 1, p, h, hl => by
    unfold FP.loop
    obtain ⟨h1, _⟩ := h.iter hff hC (hl (by omega))
    simp only
    split
    · exact h1
    · exact FPInv.loop hff hC i _ h1 (fun _ => by omega)

/-- **C20 (`partitionFile`)** The texts of the chunks concatenate to the file, if no byte is 0xFF; but the
function never delivers a proper partition of a nonempty file: either it overruns a buffer or the last
chunk it counts is missing. -/
theorem c20_file_partial (cores : Nat) (hc : 0 < cores) (file : Str) (hf : file ≠ [])
    (hff : ∀ c ∈ file, c.toNat ≠ 255) :
    ((partitionFile cores file).1.map (fun c => c.getD [])).flatten = file ∧
    ((partitionFile cores file).2 = true ∨ (partitionFile cores file).1.getLast? = some none) := by
  have hn : 0 < file.length := List.length_pos_iff.2 hf
  have h0 : FPInv file ⟨[], 0, none, 0, decide (cores = 0)⟩ :=
    ⟨rfl, Nat.zero_le _, rfl, (by intro _ h; cases h), fun _ => .inl ⟨rfl, rfl⟩⟩
  have h := FPInv.loop hff (Nat.succ_pos (file.length / cores)) (cores - 1) _ h0 (by
    intro hc'
    have : file.length / cores ≤ file.length / 2 := Nat.div_le_div_left (by omega) (by omega)
    simp only; omega)
  unfold partitionFile
  simp only
  generalize FP.loop file (file.length / cores + 1) (cores - 1) ⟨[], 0, none, 0, decide (cores = 0)⟩ = p at h
  split
  · next hlt =>
    rw [h.read (by omega) (by omega)]
    refine ⟨?_, .inl rfl⟩
    have : (p.chunks.map some).map (fun c => c.getD []) = p.chunks := by simp [Function.comp_def]
    rw [List.map_append, this, List.flatten_append, h.text]
    simp only [List.map_cons, List.map_nil, Option.getD_some, List.flatten_cons, List.flatten_nil, List.append_nil]
    rw [← List.take_add, show p.sum + (file.length - p.sum) = file.length by omega, List.take_length]
  · refine ⟨?_, .inr (by simp)⟩
    have : (p.chunks.map some).map (fun c => c.getD []) = p.chunks := by simp [Function.comp_def]
    rw [List.map_append, this, List.flatten_append, h.text]
    have := h.le
    simp only [List.map_cons, List.map_nil, Option.getD_none, List.flatten_cons, List.flatten_nil, List.append_nil]
    rw [show p.sum = file.length by omega, List.take_length]

/-- A file in two chunks. -/
example : partitionFile 2 exCut =
    (["{\"a\": [1, 2, \"x\"], \"b\": {".toList, "\"c\": 3, \"d\": \"y\"}}".toList].map some, true) := by decide

/-! ## C21 for the partition -/

/-- **C21** If no string of the document ends in `,`, `{` or `[`, every chunk after the first starts at the
opening quote of a key or string value. -/
theorem c21_partition_partial (cores : Nat) (hc : 0 < cores) (pre trail : Str) (v : J)
    (hp : pre.all isWs = true) (ht : trail.all isWs = true) (hwf : v.wf = true) (hpl : v.plainStrings = true)
    (h0 : NUL ∉ pre ++ v.render ++ trail) (hl : (pre ++ v.render ++ trail).head? ≠ some ' ')
    (hs : pre ++ v.render ++ trail ≠ [])
    (xs ys : List Str) (hxs : xs ≠ []) (hys : ys ≠ [])
    (h : partition cores (pre ++ v.render ++ trail) = some ((xs ++ ys).map some)) :
    ∃ r, (xs.flatten.length, r) ∈ v.strings pre.length := by
  obtain ⟨zs, h1, h2, _, _, h5⟩ := partition_spec hc hs h0 hl h
  have hz : zs = xs ++ ys := map_some_inj h1.symm
  obtain ⟨r, u, w, c, a1, a2, a3, a4⟩ := h5 xs ys hz hxs hys
  exact opens_string hp ht hwf hpl a1 a2 a3 a4

/-- The full claim of C21 for the partition. -/
def C21PartitionFull : Prop := ∀ (cores : Nat) (v : J) (xs ys : List Str), 0 < cores → v.wf = true →
  v.isContainer = true → xs ≠ [] → ys ≠ [] → partition cores v.render = some ((xs ++ ys).map some) →
  ∃ r, (xs.flatten.length, r) ∈ v.strings 0

/-- `{"a": [1, 2, "x"], "b": {"c": 3, "d": "y, "}}`. -/
def exCutDoc (t : Str) : J := .obj [] (.cons [] ['a'] [] [' ']
  (.arr [] (.cons [] (.lit ['1']) [] (.cons [' '] (.lit ['2']) [] (.cons [' '] (.str ['x']) [] .nil)))) []
  (.cons [' '] ['b'] [] [' '] (.obj [] (.cons [] ['c'] [] [' '] (.lit ['3']) [] (.cons [' '] ['d'] [] [' ']
    (.str t) [] .nil))) [] .nil))

/-- **C21 is false**: for three cores the last chunk is `"}}`. -/
theorem c21_partition_false : ¬ C21PartitionFull := by
  intro h
  obtain ⟨r, hr⟩ := h 3 (exCutDoc "y, ".toList)
    ["{\"a\": [1, 2, \"x\"], ".toList, "\"b\": {\"c\": 3, \"d\": \"y, ".toList] ["\"}}".toList]
    (by decide) (by decide) (by decide) (by decide) (by decide) (by decide)
  have h2 : ((exCutDoc "y, ".toList).strings 0).map (·.1) = [1, 13, 19, 25, 33, 38] := by decide
  have h3 := List.mem_map_of_mem (f := (·.1)) hr
  rw [h2] at h3
  have h4 : ["{\"a\": [1, 2, \"x\"], ".toList, "\"b\": {\"c\": 3, \"d\": \"y, ".toList].flatten.length ∉
    [1, 13, 19, 25, 33, 38] := by decide
  exact h4 h3

/-- The hypotheses of `c21_partition_partial` hold for the same document with another string. -/
example : ∃ r, (25, r) ∈ (exCutDoc ['y']).strings 0 :=
  c21_partition_partial 2 (by decide) [] [] (exCutDoc ['y']) rfl rfl (by decide) (by decide) (by decide)
    (by decide) (by decide) ["{\"a\": [1, 2, \"x\"], \"b\": {".toList] ["\"c\": 3, \"d\": \"y\"}}".toList]
    (by decide) (by decide) (by decide)

end JPS
