import Verif.Spec.Keys
import Verif.Props.OptActual
/-!
# C61: collecting constraints stays within its table
-/

set_option autoImplicit false

namespace JPS
open Spec

/-! ### The entries of a table -/

theorem hits_addState (k : CKey) (i : CInfo) (s : Nat) : (i.addState s).hits k = i.hits k := by
  unfold CInfo.addState; split <;> rfl

theorem addIn_hits {k : CKey} {s : Nat} : ∀ (is js : List CInfo), addIn k s is = some js →
    js.length = is.length ∧ ∀ o, (∃ i ∈ is, i.hits o = true) → ∃ j ∈ js, j.hits o = true
  | [], _, h => by simp [addIn] at h
  | i :: is, js, h => by
    simp only [addIn] at h
    split at h
    · obtain rfl := Option.some.inj h
      refine ⟨rfl, ?_⟩
      rintro o ⟨j, hj, ho⟩
      rcases List.mem_cons.1 hj with rfl | hj
      · exact ⟨j.addState s, by simp, by rw [hits_addState]; exact ho⟩
      · exact ⟨j, by simp [hj], ho⟩
    · obtain ⟨ks, hks, rfl⟩ := Option.map_eq_some_iff.1 h
      obtain ⟨h1, h2⟩ := addIn_hits is ks hks
      refine ⟨by simp [h1], ?_⟩
      rintro o ⟨j, hj, ho⟩
      rcases List.mem_cons.1 hj with rfl | hj
      · exact ⟨j, by simp, ho⟩
      · obtain ⟨x, hx, hxo⟩ := h2 o ⟨j, hj, ho⟩
        exact ⟨x, by simp [hx], hxo⟩

theorem addIn_found {k : CKey} {s : Nat} : ∀ (is js : List CInfo), addIn k s is = some js → ∃ i ∈ is, i.hits k = true
  | [], _, h => by simp [addIn] at h
  | i :: is, js, h => by
    simp only [addIn] at h
    split at h
    · next hi => exact ⟨i, by simp, hi⟩
    · obtain ⟨ks, hks, _⟩ := Option.map_eq_some_iff.1 h
      obtain ⟨j, hj, h'⟩ := addIn_found is ks hks
      exact ⟨j, by simp [hj], h'⟩

/-- The table has an entry for each of the distinct keys `os`, and no others; nothing was written outside. -/
structure Held (K : List CKey) (n : Nat) (ct : CTable) : Prop where
  ub : ct.ub = false
  nodup : NodupInfo ct.info
  below : ∀ i ∈ ct.info, ∀ x ∈ i.states, x < n
  owners : ∃ os : List CKey, os.Nodup ∧ (∀ o ∈ os, o ∈ K) ∧ os.length = ct.info.length ∧ ∀ o ∈ os, ∃ i ∈ ct.info, i.hits o = true

theorem states_few {n : Nat} {l : List Nat} (h : l.Nodup) (hb : ∀ x ∈ l, x < n) : l.length ≤ n := by
  have := h.length_le_of_subset (l₂ := List.range n) (fun x hx => List.mem_range.2 (hb x hx))
  simpa using this

theorem Held.add (g : Nat → Str) {K : List CKey} {n : Nat} (hn : n ≤ MAX_STATES) (hK : (firsts K).length ≤ MAX_CONSTRAINT)
    (hk : ∀ k, some k ∈ K → k.length ≤ 98) {ct : CTable} (h : Held K n ct) {s : Nat} {k : CKey} (hs : s < n) (hm : k ∈ K) :
    Held K n (ct.add g s k) := by
  have hnd := addAll_nodup g [(s, k)] ct h.nodup
  have hbl := addAll_below g (n := n) [(s, k)] ct (by intro r hr; simp only [List.mem_singleton] at hr; rw [hr]; exact hs) h.below
  change NodupInfo (ct.add g s k).info at hnd
  change ∀ i ∈ (ct.add g s k).info, _ at hbl
  obtain ⟨os, o1, o2, o3, o4⟩ := h.owners
  refine ⟨?_, hnd, hbl, ?_⟩
  · unfold CTable.add at hnd hbl ⊢
    cases ha : addIn k s ct.info with
    | some is =>
      rw [ha] at hnd hbl
      simp only [h.ub, Bool.false_or, List.any_eq_false, decide_eq_true_eq]
      intro i hi
      have := states_few (hnd i hi) (hbl i hi)
      omega
    | none =>
      have hno : k ∉ os := by
        intro hk'
        obtain ⟨i, hi, hh⟩ := o4 k hk'
        have := List.find?_eq_none.1 (addIn_none k s _ ha) i hi
        exact this hh
      have hlen := (List.nodup_cons.2 ⟨hno, o1⟩).length_le_of_subset (l₂ := firsts K) (by
        intro x hx
        rw [mem_firsts]
        rcases List.mem_cons.1 hx with rfl | hx
        · exact hm
        · exact o2 x hx)
      simp only [List.length_cons] at hlen
      simp only [h.ub, Bool.false_or, Bool.or_eq_false_iff, decide_eq_false_iff_not]
      refine ⟨by omega, ?_⟩
      cases k with
      | none => rfl
      | some k =>
        have := hk k hm
        have h2 : ¬ strcopyBytes k.length > MAX_KEY_TEXT := by simp only [strcopyBytes, MAX_KEY_TEXT]; omega
        exact decide_eq_false h2
  · unfold CTable.add
    cases ha : addIn k s ct.info with
    | some is =>
      obtain ⟨h1, h2⟩ := addIn_hits _ _ ha
      exact ⟨os, o1, o2, by rw [h1]; exact o3, fun o ho => h2 o (o4 o ho)⟩
    | none =>
      have hno : k ∉ os := by
        intro hk'
        obtain ⟨i, hi, hh⟩ := o4 k hk'
        have := List.find?_eq_none.1 (addIn_none k s _ ha) i hi
        exact this hh
      refine ⟨k :: os, List.nodup_cons.2 ⟨hno, o1⟩, ?_, by simp [o3], ?_⟩
      · intro x hx
        rcases List.mem_cons.1 hx with rfl | hx
        · exact hm
        · exact o2 x hx
      · intro x hx
        rcases List.mem_cons.1 hx with rfl | hx
        · exact ⟨_, List.mem_append_right _ (List.mem_singleton.2 rfl), by cases x <;> simp [CInfo.hits, newName]⟩
        · obtain ⟨i, hi, hh⟩ := o4 x hx
          exact ⟨i, List.mem_append_left _ hi, hh⟩

theorem Held.addAll (g : Nat → Str) {K : List CKey} {n : Nat} (hn : n ≤ MAX_STATES) (hK : (firsts K).length ≤ MAX_CONSTRAINT)
    (hk : ∀ k, some k ∈ K → k.length ≤ 98) : ∀ (h : List (Nat × CKey)) {ct : CTable}, Held K n ct → (∀ r ∈ h, r.1 < n ∧ r.2 ∈ K) →
    Held K n (ct.addAll g h)
  | [], _, hc, _ => hc
  | (s, k) :: h, _, hc, hr =>
    Held.addAll g hn hK hk h (hc.add g hn hK hk (hr (s, k) (by simp)).1 (hr (s, k) (by simp)).2) fun r hr' => hr r (by simp [hr'])

/-- The keys a run records are those of the tokens. -/
theorem recordsOf_keys (d : QDfa) (s : Str) : ∀ (ts : List Tok) (a : SA), ∀ r ∈ recordsOf d s a ts, r.2 ∈ ts.filterMap Tok.ckey
  | [], _, r, hr => by simp [recordsOf] at hr
  | t :: ts, a, r, hr => by
    simp only [recordsOf, List.mem_append] at hr
    rcases hr with hr | hr
    · have : t.ckey = some r.2 := by
        cases t <;> simp only [records, List.not_mem_nil, List.mem_cons] at hr
        · rcases hr with rfl | hr
          · rfl
          · split at hr
            · cases hr
            · rw [List.mem_singleton] at hr; rw [hr]; rfl
        · rcases hr with rfl | hr
          · rfl
          · split at hr
            · cases hr
            · rw [List.mem_singleton] at hr; rw [hr]; rfl
      rw [List.filterMap_cons, this]; simp
    · have := recordsOf_keys d s ts _ r hr
      rw [List.filterMap_cons]
      split
      · exact this
      · exact List.mem_cons_of_mem _ this

/-- Every key token is recorded. -/
theorem recordsOf_all (d : QDfa) (s : Str) : ∀ (ts : List Tok) (a : SA) (k : CKey), k ∈ ts.filterMap Tok.ckey →
    ∃ r ∈ recordsOf d s a ts, r.2 = k
  | [], _, _, h => by simp at h
  | t :: ts, a, k, h => by
    simp only [recordsOf, List.mem_append]
    have rec' : k ∈ ts.filterMap Tok.ckey → ∃ r, (r ∈ records d a t ∨ r ∈ recordsOf d s (step d s a t) ts) ∧ r.2 = k := by
      intro hk
      obtain ⟨r, hr, e⟩ := recordsOf_all d s ts (step d s a t) k hk
      exact ⟨r, .inr hr, e⟩
    rw [List.filterMap_cons] at h
    cases hc : t.ckey with
    | none => rw [hc] at h; exact rec' h
    | some x =>
      rw [hc] at h
      rcases List.mem_cons.1 h with rfl | h
      · cases t <;> simp only [Tok.ckey, Option.some.injEq, reduceCtorEq] at hc
        · subst hc; exact ⟨_, .inl (List.mem_cons_self ..), rfl⟩
        · subst hc; exact ⟨_, .inl (List.mem_cons_self ..), rfl⟩
      · exact rec' h

/-- **C61, any text**: whatever the memory of the table held before and whatever the text, collecting constraints writes nothing outside
the table if the automaton has at most 100 states, the text at most 1000 different keys, counting the start of an array as a key, and none
of the keys more than 98 characters. -/
theorem c61_text (g : Nat → Str) {d : QDfa} {n : Nat} (hd : Dead d n) (h1 : 1 < n) (hn : n ≤ MAX_STATES) (file : Str)
    (hK : (firsts ((lexAll file).filterMap Tok.ckey)).length ≤ MAX_CONSTRAINT) (hk : ∀ k, Tok.ky k ∈ lexAll file → k.length ≤ 98) :
    (collectConstraints g d file).ub = false ∧
    (collectConstraints g d file).info.length ≤ (firsts ((lexAll file).filterMap Tok.ckey)).length ∧
    ∀ i ∈ (collectConstraints g d file).info, i.states.length ≤ n := by
  have h0 : Held ((lexAll file).filterMap Tok.ckey) n .empty :=
    ⟨rfl, (fun i hi => by cases hi), (fun i hi => by cases hi), [], List.nodup_nil, (by simp), rfl, by simp⟩
  have hkk : ∀ k, some k ∈ (lexAll file).filterMap Tok.ckey → k.length ≤ 98 := by
    intro k hm
    obtain ⟨t, ht, e⟩ := List.mem_filterMap.1 hm
    cases t <;> simp only [Tok.ckey, Option.some.injEq, reduceCtorEq] at e
    subst e; exact hk _ ht
  have := h0.addAll g hn hK hkk (recordsOf d file SA.init (lexAll file)) fun r hr =>
    ⟨recordsOf_below hd file (lexAll file) Is.init ⟨h1, fun x hx => by cases hx⟩ r hr, recordsOf_keys d file _ _ r hr⟩
  unfold collectConstraints
  rw [runCollect_eq]
  obtain ⟨os, o1, o2, o3, -⟩ := this.owners
  refine ⟨this.ub, ?_, fun i hi => states_few (this.nodup i hi) (this.below i hi)⟩
  rw [← o3]
  exact o1.length_le_of_subset fun x hx => (mem_firsts x _).2 (o2 x hx)

/-! ### More keys than the table has room for -/

theorem add_full (g : Nat → Str) (ct : CTable) (s : Nat) (k : CKey) (h : ct.info.length > MAX_CONSTRAINT → ct.ub = true) :
    (ct.add g s k).info.length > MAX_CONSTRAINT → (ct.add g s k).ub = true := by
  unfold CTable.add
  cases ha : addIn k s ct.info with
  | some is =>
    obtain ⟨h1, -⟩ := addIn_hits _ _ ha
    intro hl
    simp only [h1] at hl
    simp only [h hl, Bool.true_or]
  | none =>
    intro hl
    simp only [List.length_append, List.length_singleton] at hl
    have : ct.info.length ≥ MAX_CONSTRAINT := by omega
    simp only [this, decide_true, Bool.or_true, Bool.true_or]

theorem add_named (g : Nat → Str) (ct : CTable) (s : Nat) (k o : CKey) (h : o = k ∨ ∃ i ∈ ct.info, i.hits o = true) :
    ∃ i ∈ (ct.add g s k).info, i.hits o = true := by
  unfold CTable.add
  cases ha : addIn k s ct.info with
  | some is =>
    obtain ⟨-, h2⟩ := addIn_hits _ _ ha
    rcases h with rfl | h
    · exact h2 o (addIn_found _ _ ha)
    · exact h2 o h
  | none =>
    rcases h with rfl | ⟨i, hi, hh⟩
    · exact ⟨_, List.mem_append_right _ (List.mem_singleton.2 rfl), by cases o <;> simp [CInfo.hits, newName]⟩
    · exact ⟨i, List.mem_append_left _ hi, hh⟩

theorem addAll_full (g : Nat → Str) : ∀ (h : List (Nat × CKey)) (ct : CTable), (ct.info.length > MAX_CONSTRAINT → ct.ub = true) →
    ((ct.addAll g h).info.length > MAX_CONSTRAINT → (ct.addAll g h).ub = true) ∧
    ∀ o, ((∃ r ∈ h, r.2 = o) ∨ ∃ i ∈ ct.info, i.hits o = true) → ∃ i ∈ (ct.addAll g h).info, i.hits o = true
  | [], ct, hf => ⟨hf, by rintro o (⟨r, hr, _⟩ | h); · { cases hr }; · { exact h }⟩
  | (s, k) :: h, ct, hf => by
    obtain ⟨h1, h2⟩ := addAll_full g h (ct.add g s k) (add_full g ct s k hf)
    refine ⟨h1, fun o ho => h2 o ?_⟩
    rcases ho with ⟨r, hr, e⟩ | ho
    · rcases List.mem_cons.1 hr with rfl | hr
      · exact .inr (add_named g ct s k o (.inl e.symm))
      · exact .inl ⟨r, hr, e⟩
    · exact .inr (add_named g ct s k o (.inr ho))

/-- **C61, necessity**: with more than 1000 different keys the table is left, whatever the automaton, the text and the contents of the
memory. -/
theorem c61_too_many (g : Nat → Str) (d : QDfa) (file : Str) (ks : List Str) (hnd : ks.Nodup) (hks : ∀ k ∈ ks, Tok.ky k ∈ lexAll file)
    (hl : ks.length > MAX_CONSTRAINT) : (collectConstraints g d file).ub = true := by
  unfold collectConstraints
  rw [runCollect_eq]
  obtain ⟨h1, h2⟩ := addAll_full g (recordsOf d file SA.init (lexAll file)) .empty (by intro h; exact absurd h (by decide))
  refine h1 ?_
  have := hnd.length_le_of_subset (l₂ := ((CTable.empty.addAll g (recordsOf d file SA.init (lexAll file))).info.map CInfo.name)) (by
    intro k hk
    obtain ⟨i, hi, hh⟩ := h2 (some k) (.inl (recordsOf_all d file (lexAll file) SA.init (some k)
      (List.mem_filterMap.2 ⟨_, hks k hk, rfl⟩)))
    simp only [CInfo.hits, decide_eq_true_eq] at hh
    exact List.mem_map.2 ⟨i, hi, hh.symm⟩)
  rw [List.length_map] at this
  omega

/-! ### Documents -/

/-- The keys of the tokens. -/
def Tok.name : Tok → Option Str
  | .ky k => some k
  | _ => none

/-- The start of an array. -/
def Tok.isLb : Tok → Bool
  | .lb _ => true
  | _ => false

theorem sepE_name (r : Elems) (ts : List Tok) (h : r = .nil → ts = []) : (r.sep Tok.com ts).filterMap Tok.name = ts.filterMap Tok.name := by
  cases r with
  | nil => rw [h rfl]; rfl
  | cons => rfl

theorem sepM_name (r : Members) (ts : List Tok) (h : r = .nil → ts = []) : (r.sep Tok.com ts).filterMap Tok.name = ts.filterMap Tok.name := by
  cases r with
  | nil => rw [h rfl]; rfl
  | cons => rfl

theorem sepM_lb (r : Members) (ts : List Tok) (h : r = .nil → ts = []) : (r.sep Tok.com ts).any Tok.isLb = ts.any Tok.isLb := by
  cases r with
  | nil => rw [h rfl]; rfl
  | cons => rfl

mutual
theorem toks_names (obs : Str → Str) (off : Nat) : ∀ v : J, (toks obs off v).filterMap Tok.name = v.keyNames
  | .lit _ => rfl
  | .str _ => rfl
  | .arr w es => by
    have := toksE_names (off + 1 + w.length) es
    simp only [toks, List.cons_append, List.filterMap_cons, List.filterMap_append, Tok.name, this, J.keyNames, List.filterMap_nil, List.append_nil]
  | .obj w ms => by
    have := toksM_names (off + 1 + w.length) ms
    simp only [toks, List.cons_append, List.filterMap_cons, List.filterMap_append, Tok.name, this, J.keyNames, List.filterMap_nil, List.append_nil]
theorem toksE_names (off : Nat) : ∀ es : Elems, (toksE off es).filterMap Tok.name = es.keyNames
  | .nil => rfl
  | .cons pre v post rest => by
    have h1 := toks_names (litObs false post (nextE rest)) (off + pre.length) v
    have h2 := toksE_names (off + pre.length + v.render.length + post.length + 1) rest
    simp only [toksE, List.filterMap_append, h1, Elems.keyNames]
    rw [sepE_name _ _ (by rintro rfl; rfl), h2]
theorem toksM_names (off : Nat) : ∀ ms : Members, (toksM off ms).filterMap Tok.name = ms.keyNames
  | .nil => rfl
  | .cons pre k mid pre2 v post rest => by
    have h1 := toks_names (litObs pre2.isEmpty post (nextM rest)) (off + pre.length + (k.length + 2) + mid.length + 1 + pre2.length) v
    have h2 := toksM_names (off + pre.length + (k.length + 2) + mid.length + 1 + pre2.length + v.render.length + post.length + 1) rest
    simp only [toksM, List.cons_append, List.filterMap_cons, Tok.name, List.filterMap_append, h1, Members.keyNames]
    rw [sepM_name _ _ (by rintro rfl; rfl), h2]
end

mutual
theorem toks_lb (obs : Str → Str) (off : Nat) : ∀ v : J, (toks obs off v).any Tok.isLb = v.hasArray
  | .lit _ => rfl
  | .str _ => rfl
  | .arr w es => by simp only [toks, List.cons_append, List.any_cons, Tok.isLb, Bool.true_or, J.hasArray]
  | .obj w ms => by
    have := toksM_lb (off + 1 + w.length) ms
    simp only [toks, List.cons_append, List.any_cons, List.any_append, Tok.isLb, this, J.hasArray, List.any_nil, Bool.or_false, Bool.false_or]
theorem toksM_lb (off : Nat) : ∀ ms : Members, (toksM off ms).any Tok.isLb = ms.hasArray
  | .nil => rfl
  | .cons pre k mid pre2 v post rest => by
    have h1 := toks_lb (litObs pre2.isEmpty post (nextM rest)) (off + pre.length + (k.length + 2) + mid.length + 1 + pre2.length) v
    have h2 := toksM_lb (off + pre.length + (k.length + 2) + mid.length + 1 + pre2.length + v.render.length + post.length + 1) rest
    simp only [toksM, List.cons_append, List.any_cons, Tok.isLb, List.any_append, h1, Members.hasArray, Bool.false_or]
    rw [sepM_lb _ _ (by rintro rfl; rfl), h2]
end

theorem ckeys_sub (ts : List Tok) : ∀ k ∈ ts.filterMap Tok.ckey,
    k ∈ (if ts.any Tok.isLb then [none] else []) ++ (ts.filterMap Tok.name).map some := by
  intro k hk
  obtain ⟨t, ht, e⟩ := List.mem_filterMap.1 hk
  cases t <;> simp only [Tok.ckey, Option.some.injEq, reduceCtorEq] at e
  · subst e
    have : ts.any Tok.isLb = true := List.any_eq_true.2 ⟨_, ht, rfl⟩
    rw [this]; simp
  · subst e
    exact List.mem_append_right _ (List.mem_map.2 ⟨_, List.mem_filterMap.2 ⟨_, ht, rfl⟩, rfl⟩)

theorem ckeys_few (ts : List Tok) : (firsts (ts.filterMap Tok.ckey)).length ≤
    (firsts (ts.filterMap Tok.name)).length + (ts.any Tok.isLb).toNat := by
  have := (nodup_firsts (ts.filterMap Tok.ckey)).length_le_of_subset
    (l₂ := (if ts.any Tok.isLb then [none] else []) ++ (firsts (ts.filterMap Tok.name)).map some) (by
    intro k hk
    have := ckeys_sub ts k ((mem_firsts k _).1 hk)
    rcases List.mem_append.1 this with h | h
    · exact List.mem_append_left _ h
    · obtain ⟨x, hx, rfl⟩ := List.mem_map.1 h
      exact List.mem_append_right _ (List.mem_map.2 ⟨x, (mem_firsts x _).2 hx, rfl⟩))
  simp only [List.length_append, List.length_map] at this
  cases h : ts.any Tok.isLb <;> simp only [h, if_true, Bool.false_eq_true, if_false, List.length_nil, List.length_singleton] at this ⊢ <;>
    simp only [Bool.toNat_true, Bool.toNat_false] <;> omega

/-- **C61, documents**: the table learned from a document. -/
theorem c61_document (g : Nat → Str) {d : QDfa} {n : Nat} (hd : Dead d n) (h1 : 1 < n) (hn : n ≤ MAX_STATES)
    (pre trail : Str) (v : J) (h : DocOK pre trail v) (hK : (firsts v.keyNames).length + v.hasArray.toNat ≤ MAX_CONSTRAINT)
    (hk : ∀ k ∈ v.keyNames, k.length ≤ 98) :
    (collectConstraints g d (pre ++ v.render ++ trail)).ub = false ∧
    (collectConstraints g d (pre ++ v.render ++ trail)).info.length ≤ (firsts v.keyNames).length + v.hasArray.toNat := by
  have hlex := lexAll_doc pre trail v id h.preWs h.trailWs h.container h.wf h.tight
  have hf := ckeys_few (toks id pre.length v)
  rw [toks_names, toks_lb] at hf
  have := c61_text g hd h1 hn (pre ++ v.render ++ trail) (by rw [hlex]; omega) (by
    intro k hm
    rw [hlex] at hm
    refine hk k ?_
    rw [← toks_names id pre.length v]
    exact List.mem_filterMap.2 ⟨_, hm, rfl⟩)
  rw [hlex] at this
  exact ⟨this.1, by have := this.2.1; omega⟩

/-- **C61, documents without arrays**: the bound of 1000 keys is exact. -/
theorem c61_document_iff (g : Nat → Str) {d : QDfa} {n : Nat} (hd : Dead d n) (h1 : 1 < n) (hn : n ≤ MAX_STATES)
    (pre trail : Str) (v : J) (h : DocOK pre trail v) (ha : v.hasArray = false) (hk : ∀ k ∈ v.keyNames, k.length ≤ 98) :
    (collectConstraints g d (pre ++ v.render ++ trail)).ub = false ↔ (firsts v.keyNames).length ≤ MAX_CONSTRAINT := by
  constructor
  · intro hu
    apply Classical.byContradiction
    intro hl
    have hlex := lexAll_doc pre trail v id h.preWs h.trailWs h.container h.wf h.tight
    have := c61_too_many g d (pre ++ v.render ++ trail) (firsts v.keyNames) (nodup_firsts _) (by
      intro k hk
      rw [mem_firsts, ← toks_names id pre.length v] at hk
      rw [hlex]
      obtain ⟨t, ht, e⟩ := List.mem_filterMap.1 hk
      cases t <;> simp only [Tok.name, Option.some.injEq, reduceCtorEq] at e
      subst e; exact ht) (by omega)
    rw [hu] at this; cases this
  · intro hl
    exact (c61_document g hd h1 hn pre trail v h (by rw [ha]; exact hl) hk).1

/-- **C61 for queries**: any syntax tree that compiles to at most 100 states. -/
theorem c61_query_partial (g : Nat → Str) (t : Ast) {c : SCtx} (hbc : buildCtx t = some c) (hnames : c.names.length + 3 ≤ 2147483648)
    (q : QDfa × QCtx) (hq : buildQuery t = some q) (hst : q.1.statesNum ≤ MAX_STATES)
    (pre trail : Str) (v : J) (h : DocOK pre trail v) (hK : (firsts v.keyNames).length + v.hasArray.toNat ≤ MAX_CONSTRAINT)
    (hk : ∀ k ∈ v.keyNames, k.length ≤ 98) :
    (collectConstraints g q.1 (pre ++ v.render ++ trail)).ub = false := by
  have hq' : buildQuery t = some (tableOf c, contextOf c) := by unfold buildQuery; rw [hbc]; rfl
  rw [hq'] at hq
  obtain rfl := Option.some.inj hq
  exact (c61_document g (c.dead_few hnames) c.one_lt hst pre trail v h hK hk).1

/-- **C61 for paths without filters**: the whole learning run is defined, its automaton as well as its table.  The file is loaded at once,
whatever its size (path_processor.h:25-39). -/
theorem c61_paths_partial (g : Nat → Str) (p : List Step) (hp : p ≠ []) (hlen : fewNames p) (hb : boundsOk p)
    (q : QDfa × QCtx) (hq : buildQuery (astOf p) = some q) (hst : q.1.statesNum ≤ MAX_STATES)
    (pre trail : Str) (v : J) (h : DocOK pre trail v) (hsp : pre.head? ≠ some ' ') (hint : (v.render.length : Int) ≤ intMax)
    (ht : v.tidy = true) (hsh : v.short 3996 = true) (hout : (chosen p v).length ≤ MAX_OUTPUT)
    (hsel : ∀ x ∈ chosen p v, x.render.length ≤ 998)
    (hK : (firsts v.keyNames).length + v.hasArray.toNat ≤ MAX_CONSTRAINT) (hk : ∀ k ∈ v.keyNames, k.length ≤ 98) :
    (execAutomaton q.1 (pre ++ v.render ++ trail) SA.init).ub = false ∧
    (collectConstraints g q.1 (pre ++ v.render ++ trail)).ub = false := by
  obtain ⟨c, hbc, hpc⟩ := pathCtx_of_build p hp hlen
  have hq' : buildQuery (astOf p) = some (tableOf c, contextOf c) := by unfold buildQuery; rw [hbc]; rfl
  rw [hq'] at hq
  obtain rfl := Option.some.inj hq
  exact ⟨(chosen_clean intOps p hp hpc hb pre trail v h hsp hint ht hsh hout hsel).2,
    (c61_document g (c.dead hpc.ok) c.one_lt hst pre trail v h hK hk).1⟩

/-- **C61 for paths with filters**: the same. -/
theorem c61_filters_partial (O : NumOps) (g : Nat → Str) (p : List (QStep Num)) (hf : FilterQuery p)
    (q : QDfa × QCtx) (hq : buildQuery (fAst p) = some q) (hst : q.1.statesNum ≤ MAX_STATES)
    (pre trail : Str) (v : J) (h : Readable pre trail v) (ht : v.tidy = true) (hd : v.decided (arith O) O.atof p = true)
    (hw : v.within 998 = true) (hl : v.tokenCount ≤ MAX_TUPLE_LIST)
    (hn : (v.select (arith O) O.atof (unfiltered p)).length ≤ MAX_OUTPUT)
    (hx : ∀ x ∈ v.select (arith O) O.atof (unfiltered p), x.render.length ≤ 998)
    (hK : (firsts v.keyNames).length + v.hasArray.toNat ≤ MAX_CONSTRAINT) (hk : ∀ k ∈ v.keyNames, k.length ≤ 98) :
    (execAutomaton q.1 (pre ++ v.render ++ trail) SA.init).ub = false ∧
    (collectConstraints g q.1 (pre ++ v.render ++ trail)).ub = false := by
  obtain ⟨c, hbc, hf'⟩ := ftab_of_build p hf.ne hf.clean hf.named hf.fresh hf.names
  have hq' : buildQuery (fAst p) = some (tableOf c, contextOf c) := by unfold buildQuery; rw [hbc]; rfl
  rw [hq'] at hq
  obtain rfl := Option.some.inj hq
  have hclean := c35_filter_partial O p hf pre trail v h ht hd hw hl hn hx
  unfold clean at hclean
  rw [serialRun_single O MEMORY_FOOTPRINT (fAst p) _ c hbc h.nonempty h.size] at hclean
  exact ⟨(hclean _ rfl).1, (c61_document g (c.dead hf'.ok) c.one_lt hst pre trail v h.doc hK hk).1⟩

mutual
theorem keyNames_within {n : Nat} : ∀ v : J, v.keysWithin n = true → ∀ k ∈ v.keyNames, k.length ≤ n
  | .lit _, _, k, hk => by cases hk
  | .str _, _, k, hk => by cases hk
  | .arr _ es, h, k, hk => keyNames_withinE es h k hk
  | .obj _ ms, h, k, hk => keyNames_withinM ms h k hk
theorem keyNames_withinE {n : Nat} : ∀ es : Elems, es.keysWithin n = true → ∀ k ∈ es.keyNames, k.length ≤ n
  | .nil, _, k, hk => by cases hk
  | .cons _ v _ rest, h, k, hk => by
    simp only [Elems.keysWithin, Bool.and_eq_true] at h
    simp only [Elems.keyNames, List.mem_append] at hk
    rcases hk with hk | hk
    · exact keyNames_within v h.1 k hk
    · exact keyNames_withinE rest h.2 k hk
theorem keyNames_withinM {n : Nat} : ∀ ms : Members, ms.keysWithin n = true → ∀ k ∈ ms.keyNames, k.length ≤ n
  | .nil, _, k, hk => by cases hk
  | .cons _ k' _ _ v _ rest, h, k, hk => by
    simp only [Members.keysWithin, Bool.and_eq_true, decide_eq_true_eq] at h
    simp only [Members.keyNames, List.mem_cons, List.mem_append] at hk
    rcases hk with rfl | hk | hk
    · exact h.1.1
    · exact keyNames_within v h.1.2 k hk
    · exact keyNames_withinM rest h.2 k hk
end

/-- **C61 and C45 together**: collect constraints from a document and run the optimised parallel query on it, for a path without filters.
Both are defined, nothing is reprocessed, and what is printed is what `chosen` describes. -/
theorem c61_learn_run_partial (O : NumOps) (p : List Step) (hp : p ≠ []) (hlen : fewNames p) (hb : boundsOk p)
    (pre trail : Str) (v : J) (h : Readable pre trail v) (ht : v.tidy = true) (hpl : v.plainStrings = true)
    (h0 : NUL ∉ pre ++ v.render ++ trail)
    (cores : Nat) (hc : 0 < cores) (hcm : cores ≤ MAX_THREAD) (g : Nat → Str) (u : Nat → Nat → UState) (ru : Nat → Nat → Nat → UState)
    (hpart : partition cores (pre ++ v.render ++ trail) ≠ none) (q : QDfa × QCtx) (hq : buildQuery (astOf p) = some q) (hsz : Sizes q.1 v)
    (hkeys : v.keysWithin 98 = true) (hK : (firsts v.keyNames).length + v.hasArray.toNat ≤ MAX_CONSTRAINT)
    (hnum : (chosen p v).length ≤ MAX_OUTPUT) (htext : ∀ x ∈ chosen p v, x.render.length ≤ 998)
    (htorn : ∀ xs ys : List Str, partition cores (pre ++ v.render ++ trail) = some ((xs ++ ys).map some) → xs ≠ [] → ys ≠ [] →
      UntornChosen p pre v xs.flatten.length) :
    ((execAutomaton q.1 (pre ++ v.render ++ trail) SA.init).ub = false ∧ (collectConstraints g q.1 (pre ++ v.render ++ trail)).ub = false) ∧
    ∃ r, parallelRunOpt O MEMORY_FOOTPRINT cores (some (collectConstraints g q.1 (pre ++ v.render ++ trail))) u ru (astOf p)
        (pre ++ v.render ++ trail) = some (some r) ∧
      r.k.re = false ∧ r.k.bad = false ∧ r.pf.ub = false ∧ r.pf.output = (chosen p v).map J.render :=
  ⟨c61_paths_partial g p hp hlen hb q hq hsz.states pre trail v h.doc h.noBlank (size_int h) ht (short_mono (by decide) v hsz.short) hnum htext
      hK (keyNames_within v hkeys),
    c45_chosen_same_file_partial O p hp hlen hb pre trail v h ht hpl h0 cores hc hcm g u ru hpart q hq hsz hkeys hnum htext htorn⟩

/-! ### What is false -/

/-- C61 in full: wherever a serial run is defined, so is collecting constraints. -/
def C61Full : Prop := ∀ (g : Nat → Str) (p : List Step) (q : QDfa × QCtx), buildQuery (astOf p) = some q → ∀ file : Str,
  clean intOps (astOf p) file → (collectConstraints g q.1 file).ub = false

set_option maxRecDepth 100000 in
/-- **C61 in full is false**: `$.a` and a key of 99 letters, `{"a": "xx…x", "bb…b": 2}`.  `strcopy` writes 101 bytes to `token_name`, which
has 100 (constraint.h:133).  The serial run is fine. -/
theorem c61_false_key : ¬ C61Full := by
  intro h
  cases hq : buildQuery (astOf [.prop ['a']]) with
  | none => exact absurd hq (by decide)
  | some q =>
    have h1 : (buildQuery (astOf [.prop ['a']])).map (fun q => (collectConstraints (fun _ => []) q.1 (exLongKey 99)).ub) = some true := by
      decide +kernel
    rw [hq] at h1
    have := h (fun _ => []) [.prop ['a']] q hq (exLongKey 99) (by
      intro s hs
      have e : (serialRun intOps MEMORY_FOOTPRINT (astOf [.prop ['a']]) (exLongKey 99)).map (fun r => (r.sa.ub, r.pf.ub)) =
        some (false, false) := by decide +kernel
      rw [hs] at e
      have e := Option.some.inj e
      exact ⟨congrArg Prod.fst e, congrArg Prod.snd e⟩)
    rw [Option.map_some] at h1
    rw [Option.some.inj h1] at this
    cases this

/-! ### Examples -/

/-- An object with the members `k: 1` for the given keys. -/
def exMembers (ks : List Str) : Members := ks.foldr (fun k r => .cons [] k [] [' '] (.lit ['1']) [] r) .nil

/-- Thirty-two letters. -/
def exKeyLetters : Str := "abcdefghijklmnopqrstuvwxyzABCDEF".toList

/-- The 1024 keys of two letters. -/
def exPairs : List Str := exKeyLetters.flatMap fun a => exKeyLetters.map fun b => [a, b]

theorem pairs_nodup {l m : Str} (hl : l.Nodup) (hm : m.Nodup) : (l.flatMap fun a => m.map fun b => [a, b]).Nodup := by
  induction l with
  | nil => exact List.nodup_nil
  | cons a l ih =>
    rw [List.nodup_cons] at hl
    rw [List.flatMap_cons, List.nodup_append]
    refine ⟨?_, ih hl.2, ?_⟩
    · refine List.pairwise_map.2 (hm.imp fun hne e => hne ?_)
      simpa using e
    · intro x hx y hy e
      subst e
      obtain ⟨b, _, rfl⟩ := List.mem_map.1 hx
      obtain ⟨a', ha', h2⟩ := List.mem_flatMap.1 hy
      obtain ⟨b', _, h3⟩ := List.mem_map.1 h2
      simp only [List.cons.injEq] at h3
      exact hl.1 (h3.1 ▸ ha')

theorem exPairs_nodup : exPairs.Nodup := pairs_nodup (by decide) (by decide)

theorem exMembers_keys : ∀ ks : List Str, (exMembers ks).keyNames = ks
  | [] => rfl
  | k :: ks => by
    have := exMembers_keys ks
    simp only [exMembers, List.foldr_cons, Members.keyNames, J.keyNames, List.nil_append] at this ⊢
    rw [this]

theorem exMembers_flat : ∀ ks : List Str, (exMembers ks).hasArray = false
  | [] => rfl
  | k :: ks => by
    have := exMembers_flat ks
    simp only [exMembers, List.foldr_cons, Members.hasArray, J.hasArray, Bool.false_or] at this ⊢
    exact this

/-- `{"aa": 1,"ab": 1,…}` with 1024 keys. -/
def exManyKeys : J := .obj [] (exMembers exPairs)

set_option maxRecDepth 100000 in
theorem exManyKeys_ok : DocOK [] [] exManyKeys :=
  ⟨by decide, by decide, by decide, by decide +kernel, by decide +kernel, by decide +kernel⟩

set_option maxRecDepth 100000 in
theorem exManyKeys_parts : ((exManyKeys.parts []).length = 1024 ∧
    ((exManyKeys.parts []).all fun x => decide (x.2.render.length ≤ 998)) = true) ∧ exManyKeys.tidy = true ∧
    exManyKeys.short 3996 = true ∧ exManyKeys.render.length = 8193 := by decide +kernel

theorem exManyKeys_chosen : (chosen [Step.prop ['a']] exManyKeys).length ≤ MAX_OUTPUT ∧
    ∀ x ∈ chosen [Step.prop ['a']] exManyKeys, x.render.length ≤ 998 := by
  obtain ⟨⟨h1, h2⟩, -⟩ := exManyKeys_parts
  constructor
  · unfold chosen
    rw [List.length_map]
    refine Nat.le_trans (List.length_filter_le _ _) ?_
    rw [h1]; decide
  · intro x hx
    unfold chosen at hx
    obtain ⟨y, hy, rfl⟩ := List.mem_map.1 hx
    obtain ⟨hy, -⟩ := List.mem_filter.1 hy
    simpa using List.all_eq_true.1 h2 y hy

/-- **C61 in full is false for many keys too**: `$.a` on an object with 1024 keys of two letters.  The 1001st key is written behind
`constraint_info` (constraint.h:131-137), whatever the automaton and whatever the memory held; the serial run of `$.a` is fine. -/
theorem c61_false_many (g : Nat → Str) (d : QDfa) :
    clean intOps (astOf [.prop ['a']]) ([] ++ exManyKeys.render ++ []) ∧
    (collectConstraints g d ([] ++ exManyKeys.render ++ [])).ub = true := by
  obtain ⟨-, h2, h3, h4⟩ := exManyKeys_parts
  have hr : Readable [] [] exManyKeys := ⟨exManyKeys_ok.preWs, exManyKeys_ok.trailWs, by decide, exManyKeys_ok.container, exManyKeys_ok.wf,
    exManyKeys_ok.tight, exManyKeys_ok.depth, by rw [List.nil_append, List.append_nil, h4]; decide⟩
  refine ⟨(c02_actual_partial intOps [.prop ['a']] (by decide) (by intro a b h; simp at h) (by decide) [] [] exManyKeys hr h2).2
    h3 exManyKeys_chosen.1 exManyKeys_chosen.2, ?_⟩
  have hlex := lexAll_doc [] [] exManyKeys id rfl rfl exManyKeys_ok.container exManyKeys_ok.wf exManyKeys_ok.tight
  refine c61_too_many g d _ exPairs exPairs_nodup ?_ (by decide +kernel)
  intro k hk
  rw [hlex]
  have : k ∈ exManyKeys.keyNames := by
    show k ∈ (exMembers exPairs).keyNames
    rw [exMembers_keys]; exact hk
  rw [← toks_names id ([] : Str).length exManyKeys] at this
  obtain ⟨t, ht, e⟩ := List.mem_filterMap.1 this
  cases t <;> simp only [Tok.name, Option.some.injEq, reduceCtorEq] at e
  subst e; exact ht

/-- `c61_paths_partial`, with it `c61_text` and `c61_document`, applied: `$..b[1:]`. -/
example (g : Nat → Str) (q : QDfa × QCtx) (hq : buildQuery (astOf exParDescPath) = some q) :
    (execAutomaton q.1 ([] ++ exParSlice.render ++ []) SA.init).ub = false ∧
    (collectConstraints g q.1 ([] ++ exParSlice.render ++ [])).ub = false := by
  have e : (buildQuery (astOf exParDescPath)).map (·.1.statesNum) = some 5 := by decide
  rw [hq] at e
  have e : q.1.statesNum = 5 := Option.some.inj e
  exact c61_paths_partial g exParDescPath (by decide) (by decide) exParDesc_bounds q hq (by rw [e]; decide) [] [] exParSlice
    ⟨by decide, by decide, by decide, by decide, by decide, by decide⟩ (by decide) (by decide) (by decide) (by decide)
    exParDesc_few exParDesc_short (by decide) (by decide)

/-- `c61_learn_run_partial` applied: `$..b[1:]` on three threads. -/
example (O : NumOps) (g : Nat → Str) (u : Nat → Nat → UState) (ru : Nat → Nat → Nat → UState) (q : QDfa × QCtx)
    (hq : buildQuery (astOf exParDescPath) = some q) : (collectConstraints g q.1 ([] ++ exParSlice.render ++ [])).ub = false ∧
    ∃ r, parallelRunOpt O MEMORY_FOOTPRINT 3 (some (collectConstraints g q.1 ([] ++ exParSlice.render ++ []))) u ru (astOf exParDescPath)
        ([] ++ exParSlice.render ++ []) = some (some r) ∧
      r.k.re = false ∧ r.k.bad = false ∧ r.pf.ub = false ∧ r.pf.output = ["2".toList, "3".toList, "5".toList] := by
  rw [← exParDesc_chosen_out]
  have hR : Readable [] [] exParSlice := ⟨by decide, by decide, by decide, by decide, by decide, by decide, by decide, by decide⟩
  have e : (buildQuery (astOf exParDescPath)).map (·.1.statesNum) = some 5 := by decide
  rw [hq] at e
  have e : q.1.statesNum = 5 := Option.some.inj e
  have := c61_learn_run_partial O exParDescPath (by decide) (by decide) exParDesc_bounds [] [] exParSlice hR (by decide) (by decide)
    (by decide) 3 (by decide) (by decide) g u ru (by rw [List.nil_append, List.append_nil, exParSlice_partition]; nofun) q hq
    ⟨by decide, by decide, by rw [e]; decide, by rw [e]; decide, by rw [e]; decide⟩
    (by decide) (by decide) exParDesc_few exParDesc_short exParDesc_untorn
  exact ⟨this.1.2, this.2⟩

/-- The keys of that document: five different ones, and arrays. -/
example : firsts exParSlice.keyNames = [['x'], ['a'], ['b'], ['c'], ['z']] ∧ exParSlice.hasArray = true := by decide

set_option maxRecDepth 100000 in
/-- `c61_filters_partial` applied. -/
example (g : Nat → Str) (q : QDfa × QCtx) (hq : buildQuery (fAst exParFilter) = some q) :
    (execAutomaton q.1 ([] ++ exParTidy.render ++ []) SA.init).ub = false ∧
    (collectConstraints g q.1 ([] ++ exParTidy.render ++ [])).ub = false := by
  have e : (exParTidy.select (arith intOps) intOps.atof (unfiltered exParFilter)).map J.render =
      ["1".toList, "{\"q\": 1}".toList, "7".toList] := by with_unfolding_all rfl
  have hs : (buildQuery (fAst exParFilter)).map (fun q => decide (q.1.statesNum ≤ MAX_STATES)) = some true := by decide +kernel
  rw [hq, Option.map_some] at hs
  refine c61_filters_partial intOps g exParFilter ⟨rfl, rfl, rfl, ⟨rfl, by unfold cleanName; decide⟩, by decide, by decide⟩ q hq
    (of_decide_eq_true (Option.some.inj hs)) [] [] exParTidy
    ⟨by decide, by decide, by decide, by decide, by decide, by decide, by decide, by decide⟩ (by decide)
    (by with_unfolding_all rfl) (by decide) (by decide) ?_ ?_ (by decide) (by decide)
  · have := congrArg List.length e
    rw [List.length_map] at this
    rw [this]; decide
  · intro x hx
    have := List.mem_map_of_mem (f := J.render) hx
    rw [e] at this
    revert this
    generalize x.render = y
    intro h
    simp only [List.mem_cons, List.not_mem_nil, or_false] at h
    rcases h with rfl | rfl | rfl <;> decide

theorem firsts_nodup {α : Type} [DecidableEq α] : ∀ {l : List α}, l.Nodup → firsts l = l
  | [], _ => rfl
  | a :: l, h => by
    rw [List.nodup_cons] at h
    rw [firsts, firsts_nodup h.2, List.filter_eq_self.2]
    intro x hx
    exact decide_eq_true fun e => h.1 (e ▸ hx)

theorem exTake (n : Nat) : (J.obj [] (exMembers (exPairs.take n))).keyNames = exPairs.take n ∧
    (firsts (J.obj [] (exMembers (exPairs.take n))).keyNames).length = min n 1024 ∧
    (J.obj [] (exMembers (exPairs.take n))).hasArray = false ∧
    ∀ k ∈ (J.obj [] (exMembers (exPairs.take n))).keyNames, k.length ≤ 98 := by
  have h : (J.obj [] (exMembers (exPairs.take n))).keyNames = exPairs.take n := exMembers_keys _
  have h2 : exPairs.length = 1024 := by decide +kernel
  have h3 : (exPairs.all fun k => decide (k.length ≤ 98)) = true := by decide +kernel
  refine ⟨h, ?_, exMembers_flat _, ?_⟩
  · rw [h, firsts_nodup ((List.take_sublist _ _).nodup exPairs_nodup), List.length_take, h2]
  · rw [h]
    intro k hk
    simpa using List.all_eq_true.1 h3 k (List.mem_of_mem_take hk)

set_option maxRecDepth 100000 in
/-- `c61_document_iff` at the bound: with 1000 keys nothing is written outside the table, with 1001 something is. -/
example (g : Nat → Str) {d : QDfa} {n : Nat} (hd : Dead d n) (h1 : 1 < n) (hn : n ≤ MAX_STATES) :
    (collectConstraints g d ([] ++ (J.obj [] (exMembers (exPairs.take 1000))).render ++ [])).ub = false ∧
    (collectConstraints g d ([] ++ (J.obj [] (exMembers (exPairs.take 1001))).render ++ [])).ub = true := by
  have a := c61_document_iff g hd h1 hn [] [] (J.obj [] (exMembers (exPairs.take 1000)))
    ⟨by decide, by decide, by decide, by decide +kernel, by decide +kernel, by decide +kernel⟩ (exTake 1000).2.2.1 (exTake 1000).2.2.2
  have b := c61_document_iff g hd h1 hn [] [] (J.obj [] (exMembers (exPairs.take 1001)))
    ⟨by decide, by decide, by decide, by decide +kernel, by decide +kernel, by decide +kernel⟩ (exTake 1001).2.2.1 (exTake 1001).2.2.2
  rw [(exTake 1000).2.1] at a
  rw [(exTake 1001).2.1] at b
  refine ⟨a.2 (by decide), ?_⟩
  cases hu : (collectConstraints g d ([] ++ (J.obj [] (exMembers (exPairs.take 1001))).render ++ [])).ub with
  | true => rfl
  | false => exact absurd (b.1 hu) (by decide)

end JPS
