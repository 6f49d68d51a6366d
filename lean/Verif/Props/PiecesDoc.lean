import Verif.Props.Pieces
import Verif.Props.Stream
import Verif.PieceDoc
/-!
# Documents processed in several pieces: C21 (loader), C22 at the level of texts
-/

set_option autoImplicit false

namespace JPS
open Spec

mutual
theorem strings_raws : ∀ (v : J) (off : Nat), (v.strings off).map (·.2) = v.raws
  | .lit _, _ => rfl
  | .str _, _ => rfl
  | .arr w es, off => by rw [J.strings, J.raws]; exact stringsE_raws es _
  | .obj w ms, off => by rw [J.strings, J.raws]; exact stringsM_raws ms _
theorem stringsE_raws : ∀ (es : Elems) (off : Nat), (es.strings off).map (·.2) = es.raws
  | .nil, _ => rfl
  | .cons pre v post rest, off => by
    rw [Elems.strings, Elems.raws, List.map_append, strings_raws v, stringsE_raws rest]
theorem stringsM_raws : ∀ (ms : Members) (off : Nat), (ms.strings off).map (·.2) = ms.raws
  | .nil, _ => rfl
  | .cons pre k mid pre2 v post rest, off => by
    rw [Members.strings, Members.raws, List.map_append, List.map_cons, strings_raws v, stringsM_raws rest]
end

theorem isSkip_eq : isSkip = isWs := by
  funext c; simp [isSkip, isWs]

/-- Up to the blanks `w`, what precedes is `c :: u` (reversed text). -/
theorem split_before {w u r v : Str} {c : Char} (hw : w.all isSkip = true)
    (h : w ++ c :: u = r ++ '"' :: v) (hc : c = ',' ∨ c = '{' ∨ c = '[') :
    (r.dropWhile isWs).head? = some c := by
  induction r generalizing w with
  | nil =>
    exfalso
    cases w with
    | nil =>
      simp only [List.nil_append, List.cons.injEq] at h
      rw [h.1] at hc; revert hc; decide
    | cons x w =>
      simp only [List.cons_append, List.nil_append, List.cons.injEq] at h
      rw [h.1] at hw; revert hw; simp [isSkip]
  | cons y r ih =>
    cases w with
    | nil =>
      simp only [List.nil_append, List.cons_append, List.cons.injEq] at h
      obtain ⟨rfl, _⟩ := h
      have : isWs c = false := by rcases hc with rfl | rfl | rfl <;> decide
      simp [this]
    | cons x w =>
      simp only [List.cons_append, List.cons.injEq] at h
      obtain ⟨rfl, h⟩ := h
      rw [List.all_cons, Bool.and_eq_true] at hw
      have hx : isWs x = true := by rw [← isSkip_eq]; exact hw.1
      rw [List.dropWhile_cons, if_pos hx]
      exact ih hw.2 h

theorem take_reverse_closing {S r tail : Str} {b : Nat} (h : S.drop b = '"' :: r ++ '"' :: tail) :
    (S.take (b + 1 + r.length)).reverse = r.reverse ++ '"' :: (S.take b).reverse := by
  have e : S.take (b + 1 + r.length) = S.take b ++ ('"' :: r) := by
    rw [Nat.add_assoc, List.take_add, h]
    congr 1
    simp [Nat.add_comm 1]
  rw [e]; simp

/-- A quote of a document whose strings are plain, if preceded by `,`, `{` or `[` and blanks, opens
a string. -/
theorem opens_string {pre trail : Str} {v : J} (hp : pre.all isWs = true) (ht : trail.all isWs = true)
    (hwf : v.wf = true) (hpl : v.plainStrings = true) {k : Nat} {r u w : Str} {c : Char}
    (hk : (pre ++ v.render ++ trail).drop k = '"' :: r)
    (hb : ((pre ++ v.render ++ trail).take k).reverse = w ++ c :: u) (hw : w.all isSkip = true)
    (hc : c = ',' ∨ c = '{' ∨ c = '[') : ∃ x, (k, x) ∈ v.strings pre.length := by
  have hq : (pre ++ v.render ++ trail)[k]? = some '"' := by
    have := drop_getElem? hk 0
    simpa using this.symm
  have hs0 : (pre ++ v.render ++ trail).drop 0 = pre ++ (v.render ++ trail) := by simp
  have hs1 := drop_append_eq hs0
  rw [Nat.zero_add] at hs1
  have hs2 := drop_append_eq hs1
  have k1 : pre.length ≤ k := by
    rcases Nat.lt_or_ge k pre.length with h | h
    · rw [getElem?_of_drop hs0 (Nat.zero_le _) (by omega)] at hq
      exact absurd hq (ws_noquote hp _)
    · exact h
  have k2 : k < pre.length + v.render.length := by
    rcases Nat.lt_or_ge k (pre.length + v.render.length) with h | h
    · exact h
    · have hlt : k < (pre ++ v.render ++ trail).length := by
        rcases Nat.lt_or_ge k (pre ++ v.render ++ trail).length with h' | h'
        · exact h'
        · rw [List.getElem?_eq_none h'] at hq; cases hq
      simp only [List.length_append] at hlt
      rw [← List.append_nil trail] at hs2
      rw [getElem?_of_drop (x := trail) (r := []) (by simp) h (by omega)] at hq
      exact absurd hq (ws_noquote ht _)
  generalize hS : pre ++ v.render ++ trail = S at *
  rcases quote_value S v pre.length trail hwf hs1 k k1 k2 hq with h | ⟨b, x, tail, h1, h2, h3⟩ | ⟨h1, h2⟩
  · exact h
  · exfalso
    rw [h2, take_reverse_closing h3] at hb
    have hh := split_before hw hb.symm hc
    have hx : x ∈ v.raws := by
      rw [← strings_raws v pre.length]
      exact List.mem_map.2 ⟨_, h1, rfl⟩
    have := List.all_eq_true.1 hpl x hx
    unfold endsOpen at this
    rw [hh] at this
    rcases hc with rfl | rfl | rfl <;> simp at this
  · exfalso
    have hlen : k - 1 < S.length := by
      rcases Nat.lt_or_ge (k - 1) S.length with h' | h'
      · exact h'
      · rw [List.getElem?_eq_none h'] at h2; cases h2
    have e : S.take k = S.take (k - 1) ++ ['\\'] := by
      have : k = k - 1 + 1 := by omega
      conv => lhs; rw [this]
      rw [List.take_add_one, h2]; rfl
    rw [e] at hb
    simp only [List.reverse_append, List.reverse_cons, List.reverse_nil, List.nil_append,
      List.cons_append] at hb
    cases w with
    | nil =>
      simp only [List.nil_append, List.cons.injEq] at hb
      rw [← hb.1] at hc; revert hc; decide
    | cons y w =>
      simp only [List.cons_append, List.cons.injEq] at hb
      rw [← hb.1] at hw; revert hw; simp [isSkip]

/-! ## C21 for the loader -/

theorem pieces_stop {B : Nat} (file : Str) : ∀ (fuel pos : Nat) (xs ys : List Str),
    pieces B file fuel pos = xs ++ ys → xs ≠ [] →
    StopAt ((file.take pos ++ xs.flatten).reverse) (file.drop (pos + xs.flatten.length)) ∧
    file.drop pos = xs.flatten ++ file.drop (pos + xs.flatten.length)
  | 0, _, xs, ys, h, hx => by simp [pieces] at h; exact absurd h.1 hx
  | fuel + 1, pos, xs, ys, h, hx => by
    unfold pieces at h
    cases hl : loadBounded B file pos with
    | none => rw [hl] at h; simp at h; exact absurd h.1 hx
    | some s =>
      rw [hl] at h
      simp only at h
      obtain ⟨x, xs', rfl⟩ := List.exists_cons_of_ne_nil hx
      simp only [List.cons_append, List.cons.injEq] at h
      obtain ⟨rfl, h⟩ := h
      obtain ⟨t, h1, h2⟩ := c19_boundaries B pos file s hl
      have ht : file.drop (pos + s.length) = t := by rw [← List.drop_drop, h1]; simp
      by_cases hx' : xs' = []
      · subst hx'
        simp only [List.flatten_cons, List.flatten_nil, List.append_nil]
        rw [ht]
        refine ⟨?_, h1⟩
        rcases h2 with h2 | h2 | ⟨r, u, w, c, e1, e2, e3, e4⟩
        · exact .inl h2
        · exact .inr (.inl h2)
        · exact .inr (.inr ⟨r, u ++ (file.take pos).reverse, w, c, e1, by simp [e2], e3, e4⟩)
      · obtain ⟨g1, g2⟩ := pieces_stop file fuel (pos + s.length) xs' ys h hx'
        have ep : file.take (pos + s.length) = file.take pos ++ s := by
          rw [List.take_add, h1]; simp
        rw [ep] at g1
        simp only [List.flatten_cons, List.length_append]
        rw [← Nat.add_assoc]
        refine ⟨by simpa using g1, ?_⟩
        rw [h1, List.append_assoc, ← g2, ht]

/-- **C21 (loader)** If no string of the document ends in `,`, `{` or `[`, and the file has no byte
0xFF, then every piece after the first starts at the opening quote of a key or string value. -/
theorem c21_load_partial (B : Nat) (pre trail : Str) (v : J) (hp : pre.all isWs = true)
    (ht : trail.all isWs = true) (hwf : v.wf = true) (hpl : v.plainStrings = true)
    (hff : ∀ c ∈ pre ++ v.render ++ trail, c.toNat ≠ 255) (fuel : Nat) (xs ys : List Str)
    (hps : pieces B (pre ++ v.render ++ trail) fuel 0 = xs ++ ys) (hx : xs ≠ [])
    (hne : xs.flatten ≠ pre ++ v.render ++ trail) :
    ∃ r, (xs.flatten.length, r) ∈ v.strings pre.length := by
  obtain ⟨h1, h2⟩ := pieces_stop _ _ _ _ _ hps hx
  simp only [List.take_zero, List.nil_append, Nat.zero_add, List.drop_zero] at h1 h2
  have hxs : xs.flatten = (pre ++ v.render ++ trail).take xs.flatten.length := by
    conv => rhs; rw [h2]
    simp
  rcases h1 with h1 | ⟨c, r, h1, hc⟩ | ⟨r, u, w, c, h1, h3, h4, h5⟩
  · rw [h1, List.append_nil] at h2; exact absurd h2.symm hne
  · exact absurd hc (hff c (by rw [h2, h1]; simp))
  · rw [hxs] at h3
    exact opens_string hp ht hwf hpl h1 h3 h4 h5

/-- The hypotheses are met: a document in three pieces. -/
def exPieces : List Str := ["{\"a\": [1, 2], ".toList, "\"b\": {\"c\": 3, ".toList, "\"d\": \"x\"}}".toList]

example : pieces 10 exPieces.flatten 40 0 = exPieces := by decide

/-- A string ending in a comma and blanks: the piece after the first starts at its closing quote. -/
def C21LoadFull : Prop := ∀ (B : Nat) (pre trail : Str) (v : J), pre.all isWs = true →
  trail.all isWs = true → v.wf = true → (∀ c ∈ pre ++ v.render ++ trail, c.toNat ≠ 255) →
  ∀ (fuel : Nat) (xs ys : List Str), pieces B (pre ++ v.render ++ trail) fuel 0 = xs ++ ys → xs ≠ [] →
  xs.flatten ≠ pre ++ v.render ++ trail → ∃ r, (xs.flatten.length, r) ∈ v.strings pre.length

/-- **C21 (loader) is false**: the document `["x, "]` read with footprint 3 is cut before the closing
quote of its string. -/
theorem c21_load_false : ¬ C21LoadFull := by
  intro h
  have := h 3 [] [] (.arr [] (.cons [] (.str "x, ".toList) [] .nil)) rfl rfl (by decide) (by decide) 9
    ["[\"x, ".toList] ["\"]".toList] (by decide) (by decide) (by decide)
  revert this
  have e : (J.arr [] (.cons [] (.str "x, ".toList) [] .nil)).strings 0 = [(1, "x, ".toList)] := by decide
  simp only [List.length_nil, e, List.mem_singleton]
  rintro ⟨r, hr⟩
  simp only [Prod.mk.injEq] at hr
  exact absurd hr.1 (by decide)

/-! ## C22 at the level of texts -/

theorem serialPieces_carry (O : NumOps) (d : QDfa) (ctx : QCtx) : ∀ (ps : List Str) (c : SerialCtx),
    ∃ sa, ps.foldl (fun c s => some (serialPartialRun O d ctx c s)) (some c) =
      some ⟨sa, (runPieces d c.sa ps).1.foldl (generate O ctx) c.pf⟩
  | [], c => ⟨c.sa, rfl⟩
  | p :: ps, c => by
    obtain ⟨sa, h⟩ := serialPieces_carry O d ctx ps (serialPartialRun O d ctx (some c) p)
    refine ⟨sa, ?_⟩
    rw [List.foldl_cons, h]
    rfl

theorem serialPieces_pf (O : NumOps) (d : QDfa) (ctx : QCtx) (ps : List Str) (h : ps ≠ []) :
    (serialPieces O d ctx ps).map (·.pf) =
      some ((runPieces d SA.init ps).1.foldl (generate O ctx) (PF.init ctx)) := by
  obtain ⟨p, ps, rfl⟩ := List.exists_cons_of_ne_nil h
  obtain ⟨sa, h⟩ := serialPieces_carry O d ctx (p :: ps) ⟨SA.init, PF.init ctx⟩
  have e : serialPieces O d ctx (p :: ps) = (p :: ps).foldl (fun c s => some (serialPartialRun O d ctx c s))
      (some ⟨SA.init, PF.init ctx⟩) := rfl
  rw [e, h]; rfl

theorem pieces_tuples (d : QDfa) (pre trail : Str) (v : J) (h : DocOK pre trail v) (hsp : pre.head? ≠ some ' ')
    (ps : List Str) (hps : ps.flatten = pre ++ v.render ++ trail) (hne : [] ∉ ps)
    (hcut : ∀ xs ys, ps = xs ++ ys → xs ≠ [] → ys ≠ [] →
      ∃ r, (xs.flatten.length, r) ∈ v.strings pre.length)
    (hno : CleanCuts d (pre ++ v.render ++ trail) 0 SA.init ps)
    (hub : (execAutomaton d (pre ++ v.render ++ trail) SA.init).ub = false) :
    (runPieces d SA.init ps).1.flatten = (execAutomaton d (pre ++ v.render ++ trail) SA.init).tl := by
  have hlex := lexAll_doc pre trail v id h.preWs h.trailWs h.container h.wf h.tight
  have hadj := noadj_value v id pre.length
  have hcl := cleanCut_doc pre trail v h.preWs h.wf h.tight
  have hok := (ok_value v id pre.length [] (.inl rfl) (by simpa using h.depth)).1
  have hld : lead (pre ++ v.render ++ trail) = 0 := h.lead hsp
  generalize hS : pre ++ v.render ++ trail = S at *
  rw [← hlex] at hadj hok
  have hpt : lexAll S = pieceToks 0 ps := by
    rw [← hps] at hadj ⊢
    apply lexAll_pieces ps hne hadj
    intro xs ys e hx hy
    obtain ⟨r, hr⟩ := hcut xs ys e hx hy
    rw [hps]
    exact hcl _ hr
  have hub' : (runToks d S SA.init (lexAll S)).ub = false := by
    rw [execAutomaton_eq] at hub
    cases hb : (runToks d S SA.init (lexAll S)).ub with
    | false => rfl
    | true => rw [SA.orUb, hb] at hub; simp at hub
  have key := runPieces_sim hld ps [] SA.init SA.init (by simp [hps]) rfl rfl rfl .nil
    (by rw [List.length_nil, ← hpt]; exact hok) hno (by rw [List.length_nil, ← hpt]; exact hub')
  rw [List.length_nil, ← hpt] at key
  have k1 : (runPieces d SA.init ps).1.flatten = (execAutomaton d S SA.init).tl := by
    rw [(execAutomaton_fields d S SA.init).1, key]; rfl
  exact k1

/-- **C22 (texts)** A document processed in several pieces that start at strings gives the tuples, and
leaves the filter in the state, of a run over the whole text, if no container that is to be reported
is open at a boundary (`CleanCuts`). -/
theorem c22_text_partial (O : NumOps) (d : QDfa) (ctx : QCtx) (pre trail : Str) (v : J)
    (h : DocOK pre trail v) (hsp : pre.head? ≠ some ' ') (ps : List Str) (hps : ps.flatten = pre ++ v.render ++ trail)
    (hne : [] ∉ ps)
    (hcut : ∀ xs ys, ps = xs ++ ys → xs ≠ [] → ys ≠ [] →
      ∃ r, (xs.flatten.length, r) ∈ v.strings pre.length)
    (hno : CleanCuts d (pre ++ v.render ++ trail) 0 SA.init ps)
    (hub : (execAutomaton d (pre ++ v.render ++ trail) SA.init).ub = false) :
    (runPieces d SA.init ps).1.flatten = (execAutomaton d (pre ++ v.render ++ trail) SA.init).tl ∧
    (serialPieces O d ctx ps).map (·.pf) =
      (serialPieces O d ctx [pre ++ v.render ++ trail]).map (·.pf) := by
  have k1 := pieces_tuples d pre trail v h hsp ps hps hne hcut hno hub
  have hnon := h.nonempty
  generalize hS : pre ++ v.render ++ trail = S at *
  refine ⟨k1, ?_⟩
  have hpn : ps ≠ [] := by
    rintro rfl
    exact hnon (by simpa using hps.symm)
  rw [serialPieces_pf O d ctx ps hpn, serialPieces_pf O d ctx [S] (by simp), c23_batches, k1]
  have : (runPieces d SA.init [S]).1 = [(execAutomaton d S SA.init).tl] := rfl
  rw [this]; rfl

/-- The document of `exPieces`. -/
def exPiecesDoc : J :=
  .obj [] (.cons [] ['a'] [] [' '] (.arr [] (.cons [] (.lit ['1']) [] (.cons [' '] (.lit ['2']) [] .nil))) []
    (.cons [' '] ['b'] [] [' '] (.obj [] (.cons [] ['c'] [] [' '] (.lit ['3']) []
      (.cons [' '] ['d'] [] [' '] (.str ['x']) [] .nil))) [] .nil))

/-- The hypotheses of `c22_text_partial` are met by `$.a` on `exPieces`. -/
example : DocOK [] [] exPiecesDoc ∧ exPieces.flatten = [] ++ exPiecesDoc.render ++ [] ∧
    [] ∉ exPieces ∧
    (∀ xs ys, exPieces = xs ++ ys → xs ≠ [] → ys ≠ [] →
      ∃ r, (xs.flatten.length, r) ∈ exPiecesDoc.strings 0) ∧
    CleanCuts exQuery ([] ++ exPiecesDoc.render ++ []) 0 SA.init exPieces ∧
    (execAutomaton exQuery ([] ++ exPiecesDoc.render ++ []) SA.init).ub = false ∧
    (runPieces exQuery SA.init exPieces).1.flatten = [⟨2, "[1, 2]".toList⟩] := by
  refine ⟨⟨by decide, by decide, by decide, by decide, by decide, by decide⟩,
    by decide, by decide, ?_, ?_, by decide, by decide⟩
  · intro xs ys h hx hy
    match xs, hx, h with
    | [x], _, h =>
      have : x = "{\"a\": [1, 2], ".toList := by injection h with h1 h2; exact h1.symm
      subst this
      exact ⟨['b'], by decide⟩
    | [x, y], _, h =>
      have h1 : x = "{\"a\": [1, 2], ".toList := by injection h with h1 h2; exact h1.symm
      have h2 : y = "\"b\": {\"c\": 3, ".toList := by
        injection h with _ h; injection h with h1 h2; exact h1.symm
      subst h1 h2
      exact ⟨['d'], by decide⟩
    | x :: y :: z :: xs, _, h =>
      injection h with _ h; injection h with _ h; injection h with _ h
      cases xs with
      | nil => exact absurd h.symm hy
      | cons => cases h
  · unfold CleanCuts NoOpen
    refine ⟨by decide, ⟨by decide, by decide⟩, ?_⟩
    unfold CleanCuts NoOpen
    refine ⟨by decide, ⟨by decide, by decide⟩, ?_⟩
    unfold CleanCuts NoOpen
    refine ⟨by decide, ⟨by decide, by decide⟩, ?_⟩
    trivial

/-- Piecewise and whole runs agree on every document cut at strings. -/
def C22TextFull : Prop := ∀ (d : QDfa) (pre trail : Str) (v : J), Readable pre trail v →
  ∀ ps : List Str, ps.flatten = pre ++ v.render ++ trail → [] ∉ ps →
  (∀ xs ys, ps = xs ++ ys → xs ≠ [] → ys ≠ [] → ∃ r, (xs.flatten.length, r) ∈ v.strings pre.length) →
  (runPieces d SA.init ps).1.flatten = (execAutomaton d (pre ++ v.render ++ trail) SA.init).tl

/-- **At the level of texts C22 is false**: if the reported object lies across a boundary, its text is
cut from the piece in which it ends, with offsets of the piece in which it starts.
`$.a` on `{"a": {"b": 1, "c": 2}}`, cut before `"c"`, reports `}` instead of the object. -/
theorem c22_text_false : ¬ C22TextFull := by
  intro h
  have := h exQuery [] [] (.obj [] (.cons [] ['a'] [] [' '] (.obj [] (.cons [] ['b'] [] [' '] (.lit ['1']) []
      (.cons [' '] ['c'] [] [' '] (.lit ['2']) [] .nil))) [] .nil))
    ⟨by decide, by decide, by decide, by decide, by decide, by decide, by decide, by decide⟩
    ["{\"a\": {\"b\": 1, ".toList, "\"c\": 2}}".toList] (by decide) (by decide) (by
      intro xs ys h hx hy
      match xs, hx, h with
      | [x], _, h =>
        have : x = "{\"a\": {\"b\": 1, ".toList := by injection h with h1 h2; exact h1.symm
        subst this
        exact ⟨['c'], by decide⟩
      | x :: y :: xs, _, h =>
        injection h with _ h; injection h with _ h
        cases xs with
        | nil => exact absurd h.symm hy
        | cons => cases h)
  revert this
  decide

end JPS
