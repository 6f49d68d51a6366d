import Verif.PathSerial
import Verif.StreamProofs
/-!
# C07–C10, C40: the compiled automaton
-/

set_option autoImplicit false

namespace JPS
open Spec

/-! ### C07 -/

/-- Walking the automaton along a location by `dfaNextStateByStr` from the initial state 1. -/
def walk (d : QDfa) (l : Loc) : Nat := l.foldl (fun s x => d.nextByStr s (labelKey x)) 1

theorem walk_run {c : SCtx} (h : c.Ok) (l : Loc) : walk (tableOf c) l = c.run (l.map c.col) := by
  have gen : ∀ (l l0 : Loc), l.foldl (fun s x => (tableOf c).nextByStr s (labelKey x))
      (c.run (l0.map c.col)) = c.run ((l0 ++ l).map c.col) := by
    intro l
    induction l with
    | nil => intro l0; simp
    | cons x l ih =>
      intro l0
      have e : (tableOf c).nextByStr (c.run (l0.map c.col)) (labelKey x) =
          c.run ((l0 ++ [x]).map c.col) := by
        rw [List.map_append]
        cases x with
        | key k => exact c.nextByStr_run h _ (c.letters_map l0) k
        | elem i => exact c.nextByStr_arr h _ (c.letters_map l0)
      rw [List.foldl_cons, e, ih]
      simp
  exact gen l []

/-- Result states, for every path (slices included): the last rule of the product wins. -/
theorem PathCtx.accept_output {p : List Step} {c : SCtx} (h : PathCtx p c) (l : Loc) :
    (tableOf c).accept (c.run (l.map c.col)) = .output ↔ Matches (p.map unslice) l := by
  rw [c.accept_run _ (c.letters_map l)]
  obtain ⟨Q, hQ, _⟩ := prefsOf_last h.ne
  have hlen : (prefsOf p).length = Q.length + 1 := by rw [hQ]; simp
  have hlast : (prefsOf p)[Q.length]? = some p := by rw [hQ]; simp
  rcases h.stop_cases l with ⟨h1, h2⟩ | ⟨k, q, h1, h2, h3, h4⟩
  · rw [h1]
    simp only [acceptOf, if_pos]
    exact ⟨fun h => (by cases h), fun hm => absurd hm (h2 p (List.mem_of_getElem? hlast))⟩
  · rw [h2]
    have hklt : k < (prefsOf p).length := (List.getElem?_eq_some_iff.1 h1).1
    have hne : ¬ (k + 1 = 0) := by omega
    by_cases hk : k = Q.length
    · subst hk
      rw [hlast] at h1
      obtain rfl := Option.some.inj h1
      simp only [acceptOf, h.lastId, hlen]
      rw [if_neg hne]
      simp [h3]
    · have hm : ¬ Matches (p.map unslice) l := h4 Q.length p (by omega) hlast
      simp only [hm, iff_false]
      unfold acceptOf
      rw [if_neg hne, h.lastId, hlen]
      have hs : ¬ (some (Q.length + 1) = some (k + 1)) := by simp; omega
      simp only [if_neg hs]
      split <;> split <;> simp

/-- The full claim of C07. -/
def C07Full : Prop := ∀ p : List Step, p ≠ [] → ∃ q, buildQuery (astOf p) = some q ∧
  ∀ l : Loc, q.1.accept (walk q.1 l) = .output ↔ Matches (p.map unslice) l

/-- C07 for every path without filters that has at most 253 different names (what is missing: `c07_false`): the automaton's result states are exactly the states
reached by the locations that match (a slice counts as `[*]` here, its index range is stored
with the state, see C02). -/
theorem c07_accepts_path_language_partial (p : List Step) (hp : p ≠ []) (hs : fewNames p) :
    ∃ q, buildQuery (astOf p) = some q ∧
      ∀ l : Loc, q.1.accept (walk q.1 l) = .output ↔ Matches (p.map unslice) l := by
  obtain ⟨c, hc, hpc⟩ := pathCtx_of_build p hp hs
  refine ⟨(tableOf c, contextOf c), by simp [buildQuery, hc], ?_⟩
  intro l
  rw [walk_run hpc.ok]
  exact hpc.accept_output l

example : ∃ l, Matches [.descProp ['a'], .all, .dotAll] l ∧ l.length = 4 :=
  ⟨[.key ['x'], .key ['a'], .elem 3, .key ['b']],
    .descPropMore _ (.descProp _ (.all _ (.dotAll _ .nil))), rfl⟩
example : ∃ l, ¬ Matches [.descProp ['a'], .all, .dotAll] l ∧ l ≠ [] :=
  ⟨[.key ['x']], by simp [matches_descProp, matches_nil], by simp⟩

/-- The transition by a key from a reachable state, for any number of names: the column of the key, or, if its entry is 0,
the column of the unmentioned keys. -/
theorem SCtx.nextByStr_cases (c : SCtx) (hn : c.names.Nodup) (hl : c.names.length + 3 ≤ 2147483648) (w : List Nat)
    (hw : c.letters w) (k : Str) :
    (tableOf c).nextByStr (c.run w) (some k) = c.run (w ++ [c.col (.key k)]) ∨
    (c.run (w ++ [c.col (.key k)]) = 0 ∧ (tableOf c).nextByStr (c.run w) (some k) = c.run (w ++ [1])) := by
  have tr : ∀ a, 1 ≤ a → a < c.names.length + 3 → (tableOf c).table (c.run w) a = c.run (w ++ [a]) := by
    intro a h1 h2
    rw [c.table_few hl _ _ (c.run_lt w hw) h1 h2]
    simp [SCtx.run]
  obtain ⟨f1, f2⟩ := QDfa.findCol_spec (tableOf c) (c.run w) k ((tableOf c).inputsNum - 3) 3
  have hin : (tableOf c).inputsNum = c.names.length + 3 := rfl
  rw [hin, Nat.add_sub_cancel] at f1 f2
  have e : (tableOf c).nextByStr (c.run w) (some k) =
      match (tableOf c).findCol (c.run w) k 3 c.names.length with
      | some a => (tableOf c).table (c.run w) a
      | none => (tableOf c).table (c.run w) 1 := rfl
  rw [e]
  cases hf : (tableOf c).findCol (c.run w) k 3 c.names.length with
  | some x =>
    obtain ⟨g1, g2, g3, g4⟩ := f1 x hf
    rw [tableOf_names c x g1] at g4
    have hlt : x - 3 < c.names.length := by omega
    rw [List.getElem?_eq_getElem hlt] at g4
    simp only [Option.getD_some] at g4
    have hmem : k ∈ c.names := by rw [← g4]; exact List.getElem_mem hlt
    have hidx : c.names.idxOf k = x - 3 := by
      rw [← g4]; exact hn.idxOf_getElem _ _
    have hcol : c.col (.key k) = x := by
      simp only [SCtx.col, if_pos hmem, nameCol, hidx]; omega
    simp only
    rw [hcol, tr x (by omega) (by omega)]
    exact .inl rfl
  | none =>
    have f2 := f2 hf
    simp only
    rw [tr 1 (by omega) (by omega)]
    by_cases hmem : k ∈ c.names
    · have hlt := List.idxOf_lt_length_of_mem hmem
      have hcol : c.col (.key k) = c.names.idxOf k + 3 := by simp only [SCtx.col, if_pos hmem, nameCol]
      have hz : (tableOf c).table (c.run w) (c.names.idxOf k + 3) = 0 := by
        apply Classical.byContradiction
        intro hne
        refine f2 (c.names.idxOf k + 3) (by omega) (by omega) ⟨hne, ?_⟩
        rw [tableOf_names c _ (by omega), Nat.add_sub_cancel, List.getElem?_eq_getElem hlt]
        simp
      rw [tr _ (by omega) (by omega)] at hz
      exact .inr ⟨by rw [hcol]; exact hz, rfl⟩
    · exact .inl (by simp only [SCtx.col, if_neg hmem])

/-- Different two-letter names. -/
def manyName (i : Nat) : Str := [Char.ofNat (97 + i / 16), Char.ofNat (97 + i % 16)]

/-- `$.n0.n1. … .n252..n253.n254`. -/
def manyPath : List Step :=
  (List.range 253).map (fun i => .prop (manyName i)) ++ [.descProp (manyName 253), .prop (manyName 254)]

/-- `n0 n1 … n252 n253 n253 n254`. -/
def manyLoc : Loc := (List.range 253).map (fun i => .key (manyName i)) ++
  [.key (manyName 253), .key (manyName 253), .key (manyName 254)]

theorem matches_props : ∀ (ks : List Str) {q : List Step} {l : Loc}, Matches q l →
    Matches (ks.map Step.prop ++ q) (ks.map Label.key ++ l)
  | [], _, _, h => h
  | k :: ks, _, _, h => .prop k (matches_props ks h)

theorem manyPath_matches : Matches (manyPath.map unslice) manyLoc := by
  have e1 : manyPath.map unslice = ((List.range 253).map manyName).map Step.prop ++ [.descProp (manyName 253), .prop (manyName 254)] := by
    simp only [manyPath, List.map_append, List.map_map, List.map_cons, List.map_nil, unslice]
    rfl
  have e2 : manyLoc = ((List.range 253).map manyName).map Label.key ++
      [.key (manyName 253), .key (manyName 253), .key (manyName 254)] := by
    simp only [manyLoc, List.map_map]
    rfl
  rw [e1, e2]
  exact matches_props _ (.descPropMore _ (.descProp _ (.prop _ .nil)))

theorem manyPath_names : (buildCtx (astOf manyPath)).map (·.names) = some ((List.range 255).map manyName) := by decide +kernel

/-- The letters of the first names. -/
def manyLetters : List Nat := (List.range 253).map (· + 3)

/-- The rule of `manyPath`. -/
theorem manyPath_items : (prefsOf manyPath).map (itemsOf ((List.range 255).map manyName)) =
    [manyLetters.map (fun a => (⟨some a, .none⟩ : Item)) ++ [⟨none, .star⟩, ⟨some 256, .none⟩, ⟨some 257, .none⟩]] := by
  decide +kernel

theorem manyPath_cols : ((List.range 255).map manyName).Nodup ∧
    ∀ i < 255, ((List.range 255).map manyName).idxOf (manyName i) = i := by decide +kernel

theorem lang_chars : ∀ (F : List Nat) {R : List Item} {w : List Nat},
    Lang (F.map (fun a => (⟨some a, .none⟩ : Item)) ++ R) w ↔ ∃ w', w = F ++ w' ∧ Lang R w'
  | [], R, w => by simp
  | a :: F, R, [] => by
    rw [List.map_cons, List.cons_append, lang_nil]
    simp [Item.nullable]
  | a :: F, R, b :: w => by
    rw [List.map_cons, List.cons_append, lang_one, lang_chars F]
    simp only [Item.edge, beq_iff_eq, List.cons_append, List.cons.injEq]
    constructor
    · rintro ⟨rfl, w', rfl, h⟩; exact ⟨w', ⟨rfl, rfl⟩, h⟩
    · rintro ⟨w', ⟨rfl, rfl⟩, h⟩; exact ⟨rfl, w', rfl, h⟩

/-- **C07 is false for paths with more than 253 names**: `SetConverter::Convert` gives the set of `..` only the letters below 256
(set_converter.cpp:9-31), and the names have the letters from 3 on.  `$.n0. … .n252..n253.n254` does not find the location
`n0 … n252 n253 n253 n254`: the key `n253`, letter 256, is never skipped. -/
theorem c07_false : ¬ C07Full := by
  intro h
  obtain ⟨q, hq, h⟩ := h manyPath (by unfold manyPath; simp)
  obtain ⟨c, hc, hinv, hlast⟩ := buildCtx_path manyPath (by unfold manyPath; simp)
  have hqc : q = (tableOf c, contextOf c) := by
    rw [buildQuery, hc] at hq; exact (Option.some.inj hq).symm
  subst hqc
  have hacc := (h manyLoc).2 manyPath_matches
  have hnames : c.names = (List.range 255).map manyName := by
    have := manyPath_names
    rw [hc] at this
    exact Option.some.inj this
  have hlen : c.names.length = 255 := by rw [hnames]; simp
  have hrules := hinv.rules
  rw [hnames, manyPath_items] at hrules
  have hcol : ∀ i, i < 255 → c.col (.key (manyName i)) = i + 3 := by
    intro i hi
    have hm : manyName i ∈ c.names := by rw [hnames]; exact List.mem_map_of_mem (List.mem_range.2 hi)
    simp only [SCtx.col, if_pos hm, nameCol]
    rw [hnames, manyPath_cols.2 i hi]
  have hstop : ∀ w, c.letters w → w ≠ [] → c.dfa.stop (c.run w) = lastMatch c.rules w := c.stop_run
  have lets : ∀ w : List Nat, (∀ a ∈ w, 1 ≤ a ∧ a ≤ 257) → c.letters w := by
    intro w hw a ha
    have := hw a ha
    exact ⟨this.1, by rw [hlen]; omega⟩
  have hF : ∀ a ∈ manyLetters, 1 ≤ a ∧ a ≤ 257 := by
    intro a ha
    obtain ⟨i, hi, rfl⟩ := List.mem_map.1 ha
    have := List.mem_range.1 hi
    omega
  -- the word of the path itself is read, so none of its prefixes leads to state 0
  have good : c.run (manyLetters ++ [256, 257]) ≠ 0 := by
    intro h0
    have h1 := hstop (manyLetters ++ [256, 257]) (lets _ (by
      intro a ha
      rcases List.mem_append.1 ha with ha | ha
      · exact hF a ha
      · simp at ha; omega)) (by simp)
    rw [h0, show c.dfa.stop 0 = 0 from rfl] at h1
    rcases lastMatch_spec c.rules (manyLetters ++ [256, 257]) 0 with ⟨_, h3⟩ | ⟨k, r, _, h3, _⟩
    · rw [hrules] at h3
      refine h3 _ (List.mem_singleton.2 rfl) ((lang_chars _).2 ⟨_, rfl, ?_⟩)
      exact .skip rfl (.one rfl rfl (.one rfl rfl .nil))
    · rw [← h1] at h3; omega
  have zero : ∀ (v : List Nat) s, s = 0 → v.foldl c.dfa.next s = 0 := by
    intro v
    induction v with
    | nil => intro s hs; exact hs
    | cons a v ih => intro s hs; subst hs; exact ih _ rfl
  have pre : ∀ u v, u ++ v = manyLetters ++ [256, 257] → c.run u ≠ 0 := by
    intro u v huv h0
    apply good
    rw [← huv]
    show (u ++ v).foldl c.dfa.next 1 = 0
    rw [List.foldl_append]
    exact zero v _ h0
  have hnd : c.names.Nodup := by rw [hnames]; exact manyPath_cols.1
  have step := c.nextByStr_cases hnd (by rw [hlen]; omega)
  -- along the names of the path the automaton takes their own columns
  have along : ∀ n, n ≤ 254 → ((List.range n).map fun i => Label.key (manyName i)).foldl
      (fun s x => (tableOf c).nextByStr s (labelKey x)) 1 = c.run ((List.range n).map (· + 3)) := by
    intro n
    induction n with
    | zero => intro _; rfl
    | succ n ih =>
      intro hn
      rw [List.range_succ, List.map_append, List.map_append, List.foldl_append, ih (by omega)]
      have hw : c.letters ((List.range n).map (· + 3)) := lets _ (by
        intro a ha
        obtain ⟨i, hi, rfl⟩ := List.mem_map.1 ha
        have := List.mem_range.1 hi
        omega)
      have hne : c.run ((List.range n).map (· + 3) ++ [n + 3]) ≠ 0 := by
        have e : manyLetters ++ [256, 257] = (List.range 255).map (· + 3) := by decide +kernel
        refine pre _ ((List.range' (n + 1) (254 - n)).map (· + 3)) ?_
        have e2 : List.range 255 = List.range (n + 1) ++ List.range' (n + 1) (254 - n) := by
          have := List.range'_append_1 (s := 0) (m := n + 1) (n := 254 - n)
          rw [Nat.zero_add, show n + 1 + (254 - n) = 255 by omega] at this
          rw [List.range_eq_range', List.range_eq_range', this]
        rw [e, e2, List.range_succ, List.map_append, List.map_append]
        rfl
      show (tableOf c).nextByStr (c.run ((List.range n).map (· + 3))) (some (manyName n)) = _
      rcases step _ hw (manyName n) with h1 | ⟨h1, _⟩
      · rw [h1, hcol n (by omega)]; rfl
      · rw [hcol n (by omega)] at h1; exact absurd h1 hne
  have hw : walk (tableOf c) manyLoc = [Label.key (manyName 253), .key (manyName 254)].foldl
      (fun s x => (tableOf c).nextByStr s (labelKey x)) (c.run (manyLetters ++ [256])) := by
    have e : manyLoc = (List.range 254).map (fun i => Label.key (manyName i)) ++ [.key (manyName 253), .key (manyName 254)] := by
      rw [show List.range 254 = List.range 253 ++ [253] from List.range_succ, List.map_append, List.append_assoc, manyLoc]
      simp only [List.map_cons, List.map_nil, List.cons_append, List.nil_append]
    rw [walk, e, List.foldl_append, along 254 (by omega), show List.range 254 = List.range 253 ++ [253] from List.range_succ, List.map_append]
    simp only [List.map_cons, List.map_nil, manyLetters]
  have l1 : ∀ v : List Nat, (∀ a ∈ v, 1 ≤ a ∧ a ≤ 257) → c.letters (manyLetters ++ v) := fun v hv => lets _ (by
    intro a ha
    rcases List.mem_append.1 ha with ha | ha
    · exact hF a ha
    · exact hv a ha)
  have bad : ∀ a b, (a = 256 ∨ a = 1) → (b = 257 ∨ b = 1) → (tableOf c).accept (c.run (manyLetters ++ [256, a, b])) ≠ .output := by
    intro a b ha hb
    have hl := l1 [256, a, b] (by
      intro x hx
      simp only [List.mem_cons, List.not_mem_nil, or_false] at hx
      omega)
    rw [c.accept_run _ hl, hstop _ hl (by simp)]
    rcases lastMatch_spec c.rules (manyLetters ++ [256, a, b]) 0 with ⟨h3, _⟩ | ⟨k, r, h2, _, h3, _⟩
    · rw [h3]; simp [acceptOf]
    · exfalso
      have hr := List.mem_of_getElem? h2
      rw [hrules, List.mem_singleton] at hr
      subst hr
      obtain ⟨w', hw', hL⟩ := (lang_chars _).1 h3
      obtain rfl := List.append_cancel_left hw'
      rw [lang_star, lang_one, lang_one] at hL
      rcases hL with ⟨_, h4, _⟩ | ⟨h4, _⟩
      · simp only [Item.edge, beq_iff_eq] at h4; omega
      · simp [Item.edge] at h4
  rw [hw] at hacc
  have s1 := step _ (l1 [256] (by intro x hx; simp at hx; omega)) (manyName 253)
  rw [hcol 253 (by omega), List.append_assoc] at s1
  have second : ∃ a, (a = 256 ∨ a = 1) ∧ (tableOf c).nextByStr (c.run (manyLetters ++ [256])) (some (manyName 253)) =
      c.run (manyLetters ++ [256, a]) := by
    rcases s1 with h1 | ⟨_, h1⟩
    · exact ⟨256, .inl rfl, h1⟩
    · refine ⟨1, .inr rfl, ?_⟩
      rw [h1, List.append_assoc]; rfl
  obtain ⟨a, ha, h1⟩ := second
  have s2 := step _ (l1 [256, a] (by
    intro x hx
    simp only [List.mem_cons, List.not_mem_nil, or_false] at hx
    omega)) (manyName 254)
  rw [hcol 254 (by omega)] at s2
  have hacc' : (tableOf c).accept ((tableOf c).nextByStr (c.run (manyLetters ++ [256, a])) (some (manyName 254))) = .output := by
    rw [← h1]; exact hacc
  rcases s2 with h2 | ⟨_, h2⟩
  · rw [h2, List.append_assoc] at hacc'
    exact bad a 257 ha (.inl rfl) hacc'
  · rw [h2, List.append_assoc] at hacc'
    exact bad a 1 ha (.inr rfl) hacc'

/-- A path with 300 steps and one name meets the hypothesis of `c07_accepts_path_language_partial`; the path of `c07_false` does
not. -/
example : fewNames (List.replicate 300 (.descProp ['a'])) ∧ ¬ fewNames manyPath := by decide +kernel

/-! ### C08 -/

/-- C08, lookup: whatever rows have been added, looking up state `s` (numbered from 1) and
letter `a` gives the entry added for it. -/
theorem c08_compressed_lossless (rows : List (List Nat)) (hl : ∀ r ∈ rows, r.length ≤ 2147483648)
    (s : Nat) (row : List Nat) (h : rows[s]? = some row) (a : Nat) (h1 : 1 ≤ a) (h2 : a < row.length) :
    (compress rows).nextState (s + 1) a = row.getD a 0 :=
  compress_lookup rows hl s row h a h1 h2

theorem addRows_append (rows : List (List Nat)) : ∀ (s : Nat) (c : Comp) (r : List Nat),
    c.addRows s (rows ++ [r]) = (c.addRows s rows).addEdge (s + rows.length) r := by
  induction rows with
  | nil => intro s c r; rfl
  | cons x rows ih =>
    intro s c r
    simp only [List.cons_append, Comp.addRows, ih, List.length_cons]
    rw [show s + 1 + rows.length = s + (rows.length + 1) by omega]

/-- C08, stability: adding a further state changes no lookup of earlier states, for any letter. -/
theorem c08_add_keeps (rows : List (List Nat)) (r : List Nat)
    (hl : ∀ x ∈ rows, x.length ≤ 2147483648) (hr : r.length ≤ 2147483648)
    (s a : Nat) (hs : s ≤ rows.length) :
    (compress (rows ++ [r])).nextState s a = (compress rows).nextState s a := by
  by_cases h0 : s = 0 ∨ a = 0
  · rw [Comp.nextState_zero _ _ _ h0, Comp.nextState_zero _ _ _ h0]
  · have hi := (Comp.addRows_spec rows 0 .empty .empty hl).1
    have h3 := (Comp.addEdge_spec hi hr).2.2 s
      ((List.range (a + 1)).map fun x => (compress rows).nextState s x) (by omega) (by omega) (by
        intro b _ hb
        simp only [List.length_map, List.length_range] at hb
        rw [List.getD_eq_getElem?_getD]
        simp [hb, compress])
    have e : compress (rows ++ [r]) = (compress rows).addEdge (rows.length + 1) r := by
      unfold compress
      rw [addRows_append, Nat.add_comm]
    have := h3 a (by omega) (by simp)
    simp only [Nat.zero_add] at this
    rw [e]
    refine Eq.trans this ?_
    simp [List.getD_eq_getElem?_getD]

/-- Rows that make all three layouts of the table occur (few entries, dense, linked). -/
example : (compress [[0, 2, 0, 3], [0, 1, 2, 3, 4, 5, 6, 7, 8, 9, 10, 11, 12],
    [0, 1, 2, 3, 4, 5, 9, 7, 8, 9, 10, 11, 12]]).nextState 3 6 = 9 :=
  c08_compressed_lossless [[0, 2, 0, 3], [0, 1, 2, 3, 4, 5, 6, 7, 8, 9, 10, 11, 12],
    [0, 1, 2, 3, 4, 5, 9, 7, 8, 9, 10, 11, 12]] (by decide) 2
    [0, 1, 2, 3, 4, 5, 9, 7, 8, 9, 10, 11, 12] rfl 6 (by decide) (by decide)

/-! ### C09 -/

/-- A component automaton accepts a word: it is alive after the word and in a stop state. -/
def SDfa.accepts (d : SDfa) (w : List Nat) : Prop :=
  w.foldl d.next 1 ≠ 0 ∧ d.stop (w.foldl d.next 1) ≠ 0

theorem lastStop_spec : ∀ (ds : List SDfa) (w : List Nat) (i : Nat),
    (lastStop ds (runVec ds (List.replicate ds.length 1) w) i = 0 → ∀ d ∈ ds, ¬ d.accepts w) ∧
    (∀ k, lastStop ds (runVec ds (List.replicate ds.length 1) w) i = k + 1 →
      ∃ j d, k = i + j ∧ ds[j]? = some d ∧ d.accepts w ∧
        ∀ j' d', j < j' → ds[j']? = some d' → ¬ d'.accepts w)
  | [], w, i => by simp [lastStop]
  | d :: ds, w, i => by
    obtain ⟨h1, h2⟩ := lastStop_spec ds w (i + 1)
    rw [List.length_cons, List.replicate_succ, runVec_cons]
    simp only [lastStop]
    by_cases hr : lastStop ds (runVec ds (List.replicate ds.length 1) w) (i + 1) = 0
    · have hno := h1 hr
      rw [hr]
      simp only [ne_eq, not_true_eq_false, if_false]
      by_cases ha : d.accepts w
      · have hx : (if ¬List.foldl d.next 1 w = 0 ∧ ¬d.stop (List.foldl d.next 1 w) = 0 then i + 1
            else 0) = i + 1 := if_pos ha
        rw [hx]
        refine ⟨by intro h; omega, ?_⟩
        intro k hk
        refine ⟨0, d, by omega, rfl, ha, ?_⟩
        intro j' d' hj hd
        cases j' with
        | zero => omega
        | succ j' => exact hno d' (List.mem_of_getElem? (by simpa using hd))
      · have hx : (if ¬List.foldl d.next 1 w = 0 ∧ ¬d.stop (List.foldl d.next 1 w) = 0 then i + 1
            else 0) = 0 := if_neg ha
        rw [hx]
        refine ⟨?_, by intro k hk; omega⟩
        intro _ x hx
        rcases List.mem_cons.1 hx with rfl | hx
        · exact ha
        · exact hno x hx
    · rw [if_pos hr]
      refine ⟨fun h => absurd h hr, ?_⟩
      intro k hk
      obtain ⟨j, d', e1, e2, e3, e4⟩ := h2 k hk
      refine ⟨j + 1, d', by omega, by simpa using e2, e3, ?_⟩
      intro j' d'' hj hd
      cases j' with
      | zero => omega
      | succ j' => exact e4 j' d'' (by omega) (by simpa using hd)

/-- C09: after any word over the letters, the product automaton stops with rule `k + 1` iff the
component `k` accepts the word and no later component does; it stops with 0 iff none does. -/
theorem c09_product_last_rule (ds : List SDfa) (m : Nat) (w : List Nat)
    (hw : ∀ a ∈ w, 1 ≤ a ∧ a < m) :
    ((combine ds m).stop (w.foldl (combine ds m).next 1) = 0 ↔ ∀ d ∈ ds, ¬ d.accepts w) ∧
    (∀ k, (combine ds m).stop (w.foldl (combine ds m).next 1) = k + 1 ↔
      ∃ d, ds[k]? = some d ∧ d.accepts w ∧ ∀ j d', k < j → ds[j]? = some d' → ¬ d'.accepts w) := by
  rw [(combine_run ds m w hw).1]
  obtain ⟨h1, h2⟩ := lastStop_spec ds w 0
  have key : ∀ k, lastStop ds (runVec ds (List.replicate ds.length 1) w) 0 = k + 1 →
      ∃ d, ds[k]? = some d ∧ d.accepts w ∧ ∀ j d', k < j → ds[j]? = some d' → ¬ d'.accepts w := by
    intro k hk
    obtain ⟨j, d, e1, e2, e3, e4⟩ := h2 k hk
    obtain rfl : k = j := by omega
    exact ⟨d, e2, e3, e4⟩
  constructor
  · refine ⟨h1, ?_⟩
    intro hall
    cases hk : lastStop ds (runVec ds (List.replicate ds.length 1) w) 0 with
    | zero => rfl
    | succ k =>
      obtain ⟨d, e1, e2, _⟩ := key k hk
      exact absurd e2 (hall d (List.mem_of_getElem? e1))
  · intro k
    refine ⟨key k, ?_⟩
    rintro ⟨d, e1, e2, e3⟩
    cases hk : lastStop ds (runVec ds (List.replicate ds.length 1) w) 0 with
    | zero => exact absurd e2 (h1 hk d (List.mem_of_getElem? e1))
    | succ k' =>
      obtain ⟨d', f1, f2, f3⟩ := key k' hk
      rcases Nat.lt_trichotomy k k' with h | h | h
      · exact absurd f2 (e3 k' d' h f1)
      · rw [h]
      · exact absurd e2 (f3 k d h e1)

/-- Two rules accepting the same word: the later one wins. -/
example : let d1 : SDfa := ⟨[[0, 2], [0, 0]], [0, 1]⟩; let d2 : SDfa := ⟨[[0, 1]], [1]⟩
    d1.accepts [1] ∧ d2.accepts [1] ∧ (combine [d1, d2] 2).stop ([1].foldl (combine [d1, d2] 2).next 1) = 2 := by
  refine ⟨?_, ?_, ?_⟩
  · exact ⟨by decide, by decide⟩
  · exact ⟨by decide, by decide⟩
  · refine ((c09_product_last_rule _ 2 [1] (by decide)).2 1).2 ⟨_, rfl, ⟨by decide, by decide⟩, ?_⟩
    intro j d' hj hd
    match j with
    | j + 2 => simp at hd

/-! ### C10 -/

theorem findCol_none (d : QDfa) (s : Nat) (k : Str) (n c : Nat)
    (h : ∀ x, c ≤ x → x < c + n → d.names x ≠ k) : d.findCol s k c n = none := by
  cases hf : d.findCol s k c n with
  | none => rfl
  | some x =>
    obtain ⟨h1, h2, _, h4⟩ := (QDfa.findCol_spec d s k n c).1 x hf
    exact absurd h4 (h x h1 h2)

/-- The automaton mentions a key. -/
def QDfa.mentions (d : QDfa) (k : Str) : Prop := ∃ c, 3 ≤ c ∧ c < d.inputsNum ∧ d.names c = k

/-- C10, one step: any automaton treats all keys it does not mention alike. -/
theorem c10_unmentioned_keys (d : QDfa) (s : Nat) (k k' : Str) (h : ¬ d.mentions k) (h' : ¬ d.mentions k') :
    d.nextByStr s (some k) = d.nextByStr s (some k') := by
  have hn : ∀ k, ¬ d.mentions k → d.findCol s k 3 (d.inputsNum - 3) = none := by
    intro k hk
    apply findCol_none
    intro x h1 h2 he
    exact hk ⟨x, h1, by omega, he⟩
  simp only [QDfa.nextByStr, hn k h, hn k' h']

/-- Rename the keys of a location. -/
def renameLoc (f : Str → Str) (l : Loc) : Loc :=
  l.map fun x => match x with
    | .key k => .key (f k)
    | .elem i => .elem i

/-- C10, whole locations: renaming keys that are not mentioned to keys that are not mentioned
changes neither the state nor the element index reached, hence not what is reported there. -/
theorem c10_renaming (d : QDfa) (f : Str → Str) (hf : ∀ k, d.mentions k → f k = k)
    (hf' : ∀ k, ¬ d.mentions k → ¬ d.mentions (f k)) (l : Loc) (st cnt : Nat) :
    locState d st cnt (renameLoc f l) = locState d st cnt l := by
  induction l generalizing st cnt with
  | nil => rfl
  | cons x l ih =>
    cases x with
    | elem i => exact ih _ _
    | key k =>
      have e : d.go st cnt (some (f k)) = d.go st cnt (some k) := by
        by_cases hm : d.mentions k
        · rw [hf k hm]
        · unfold QDfa.go
          rw [c10_unmentioned_keys d st (f k) k (hf' k hm) hm]
      show locState d (d.go st cnt (some (f k))) 0 (renameLoc f l) = _
      rw [e, ih]; rfl

/-- C10 for compiled paths: exactly the names of the path are mentioned. -/
theorem c10_names_of_path (p : List Step) (hp : p ≠ []) :
    ∃ q, buildQuery (astOf p) = some q ∧
      ∀ k, q.1.mentions k ↔ Step.prop k ∈ p ∨ Step.descProp k ∈ p := by
  obtain ⟨c, hc, hinv, _⟩ := buildCtx_path p hp
  refine ⟨(tableOf c, contextOf c), by simp [buildQuery, hc], ?_⟩
  intro k
  have hin : (tableOf c).inputsNum = c.names.length + 3 := rfl
  have h1 : (tableOf c).mentions k ↔ k ∈ c.names := by
    constructor
    · rintro ⟨x, h3, h4, h5⟩
      rw [tableOf_names c x h3] at h5
      rw [hin] at h4
      have hlt : x - 3 < c.names.length := by omega
      rw [List.getElem?_eq_getElem hlt] at h5
      simp at h5
      rw [← h5]; exact List.getElem_mem hlt
    · intro hk
      obtain ⟨i, hi, he⟩ := List.getElem_of_mem hk
      refine ⟨i + 3, by omega, by show i + 3 < c.names.length + 3; omega, ?_⟩
      rw [tableOf_names c _ (by omega), Nat.add_sub_cancel, List.getElem?_eq_getElem hi, he]; rfl
  rw [h1]
  constructor
  · intro hk
    obtain ⟨s, hs, he⟩ := hinv.from_ k hk
    cases s <;> simp [stepName] at he <;> subst he <;> simp [hs]
  · intro hk
    obtain ⟨Q, hQ, _⟩ := prefsOf_last hp
    have hn := hinv.named p (by rw [hQ]; simp)
    rcases hk with hk | hk
    · exact hn _ hk k rfl
    · exact hn _ hk k rfl

example : (QDfa.mentions ⟨3, 4, fun _ _ => 1, fun _ => 0, fun _ => .none, fun _ => 0, fun _ => 0,
    fun c => if c = 3 then ['a'] else []⟩ ['a']) ∧
    ¬ (QDfa.mentions ⟨3, 4, fun _ _ => 1, fun _ => 0, fun _ => .none, fun _ => 0, fun _ => 0,
    fun c => if c = 3 then ['a'] else []⟩ ['b']) := by
  constructor
  · exact ⟨3, by decide, by decide, rfl⟩
  · rintro ⟨c, h1, h2, h3⟩
    simp only at h2
    obtain rfl : c = 3 := by omega
    simp at h3

/-! ### C40 -/

/-- State 0 is dead: it is not accepting and has no transition out. -/
structure QDfa.Dead0 (d : QDfa) : Prop where
  accept : d.accept 0 = .none
  table : ∀ a, d.table 0 a = 0

theorem QDfa.Dead0.next {d : QDfa} (h : d.Dead0) (k : Option Str) : d.nextByStr 0 k = 0 := by
  cases k with
  | none => exact h.table 2
  | some k => simp only [QDfa.nextByStr]; split <;> exact h.table _

theorem QDfa.Dead0.go {d : QDfa} (h : d.Dead0) (cnt : Nat) (k : Option Str) : d.go 0 cnt k = 0 := by
  unfold QDfa.go; split
  · exact h.next k
  · rfl

theorem QDfa.Dead0.matched {d : QDfa} (h : d.Dead0) (cnt : Nat) : d.matchedType 0 cnt = .none := by
  unfold QDfa.matchedType; rw [h.accept]

mutual
theorem emit_dead {d : QDfa} (h : d.Dead0) (obs : Str → Str) (el : Bool) (cnt : Nat) :
    ∀ v : J, emit d obs el 0 cnt v = []
  | .lit t => by simp [emit, h.matched]
  | .str t => by simp [emit, h.matched]
  | .arr w es => by simp [emit, h.matched, h.go, emitE_dead h 0 es]
  | .obj w ms => by simp [emit, h.matched, emitM_dead h cnt ms]
theorem emitE_dead {d : QDfa} (h : d.Dead0) (cnt : Nat) : ∀ es : Elems, emitE d 0 cnt es = []
  | .nil => rfl
  | .cons pre v post rest => by simp [emitE, emit_dead h _ _ _ v, emitE_dead h _ rest]
theorem emitM_dead {d : QDfa} (h : d.Dead0) (cnt : Nat) : ∀ ms : Members, emitM d 0 cnt ms = []
  | .nil => rfl
  | .cons pre k mid pre2 v post rest => by
    simp [emitM, h.go, emit_dead h _ _ _ v, emitM_dead h _ rest]
end

/-- C40: reading a value in the dead state, as a member value or as an array element, writes no
tuple at all; the machine only returns to where it was (member) or advances the index (element).
Every automaton built by the compiler has a dead state 0 (`c40_compiled_dead`). -/
theorem c40_dead_silent (d : QDfa) (h : d.Dead0) (s : Str) (hl : lead s = 0) (v : J) (obs : Str → Str)
    (off : Nat) (tail : Str) (hs : s.drop off = v.render ++ tail) (a : SA) (h0 : a.elt.st = 0)
    (hd : a.ss.length + v.depth ≤ MAX_STACK) (hq : a.qs.length + v.depth ≤ MAX_STACK) :
    (∀ ss e qs, a.ss = .ky :: ss → a.qs = e :: qs →
      runToks d s a (toks obs off v) = { a with elt := e, ss := ss, qs := qs }) ∧
    (∀ ss, a.ss = .lb :: ss → ∃ ms',
      runToks d s a (toks obs off v) = { a with elt := ⟨0, a.elt.count + 1, ms'⟩ }) := by
  obtain ⟨h1, h2⟩ := run_value d s hl v obs off tail hs
  constructor
  · intro ss e qs hss hqs
    rw [h1 a ss e qs hss hqs hd hq, h0, emit_dead h]; rfl
  · intro ss hss
    obtain ⟨ms', he⟩ := h2 a ss hss hd hq
    refine ⟨ms', ?_⟩
    rw [he, h0, emit_dead h]
    rfl

theorem c40_compiled_dead (t : Ast) (q : QDfa × QCtx) (h : buildQuery t = some q) : q.1.Dead0 := by
  unfold buildQuery at h
  cases hc : buildCtx t with
  | none => simp [hc] at h
  | some c =>
    simp [hc] at h
    subst h
    exact ⟨c.accept_zero, table_zero c⟩

/-- A nested value read in the dead state, and an automaton with that property. -/
example : ∃ q, buildQuery (astOf [.prop ['a']]) = some q ∧ q.1.Dead0 ∧
    lead "{\"b\":[{\"a\":1}]}".toList = 0 := by
  obtain ⟨q, hq, _⟩ := c07_accepts_path_language_partial [.prop ['a']] (by simp) (by decide)
  exact ⟨q, hq, c40_compiled_dead _ q hq, by decide⟩

end JPS
