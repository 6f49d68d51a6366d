import Verif.PathProofs
import Verif.Seen
import Verif.LexerDoc
import Verif.Serial
/-!
# The serial run for paths without filters
-/

namespace JPS
open Spec

theorem lastStop_le : ∀ (ds : List SDfa) (v : List Nat) (i : Nat), lastStop ds v i ≤ i + ds.length
  | [], _, _ => by simp [lastStop]
  | d :: ds, [], i => by simp [lastStop]
  | d :: ds, s :: v, i => by
    have := lastStop_le ds v (i + 1)
    simp only [lastStop, List.length_cons]
    split
    · omega
    · split <;> omega

theorem buildDfa_stop_le (rules : List (List Item)) (m s : Nat) :
    (buildDfa rules m).stop s ≤ rules.length := by
  unfold SDfa.stop
  split
  · omega
  · simp only [buildDfa, combine, List.getElem?_map]
    cases (wlLoop (mixNext (rules.map (createDFA · m))) m (mixFuel (rules.map (createDFA · m))) 0
        [List.replicate (rules.map (createDFA · m)).length 1] []).1[s - 1]? with
    | none => simp
    | some v =>
      have := lastStop_le (rules.map (createDFA · m)) v 0
      simpa using this

/-- Rules of a path that are not the last one end with an effective slice. -/
theorem PathCtx.acceptOf_ne {p : List Step} {c : SCtx} (h : PathCtx p c) (hb : boundsOk p) (k : Nat)
    (hk : k ≤ c.rules.length) (b : Bool) : acceptOf c k b = .output ∨ acceptOf c k b = .none := by
  unfold acceptOf
  by_cases h0 : k = 0
  · simp [h0]
  · rw [if_neg h0]
    by_cases hl : c.lastId = some k
    · rw [if_pos hl]; simp
    · rw [if_neg hl]
      have hlen : c.rules.length = (prefsOf p).length := by rw [h.inv.rules]; simp
      obtain ⟨Q, hQ, hQl⟩ := prefsOf_last h.ne
      have hne' : ∀ q ∈ Q, q ≠ p := fun q hq e => by have := hQl q hq; rw [e] at this; omega
      have hlt : k - 1 < (prefsOf p).length := by omega
      have hq : (prefsOf p)[k - 1]? = some (prefsOf p)[k - 1] := by simp [hlt]
      have hmem := List.getElem_mem hlt
      have hne : k ≠ (prefsOf p).length := by
        intro e; apply hl; rw [h.lastId, e]
      have hQn : (prefsOf p).length = Q.length + 1 := by rw [hQ]; simp
      have he : endsSlice (prefsOf p)[k - 1] = true := by
        have hmQ : (prefsOf p)[k - 1] ∈ Q := by
          have : (prefsOf p)[k - 1]? = Q[k - 1]? := by
            rw [hQ, List.getElem?_append_left (by omega)]
          rw [hq] at this
          exact List.mem_of_getElem? this.symm
        exact (mem_prefsOf hmem).1.resolve_right fun e => hne' _ hmQ e
      have hr := rangeOf_ne hb (mem_prefsOf hmem).2.choose_spec he
      have hg := h.range_get hq
      simp only [hg]
      rw [if_pos]
      · exact .inr rfl
      · exact ⟨hr, by split <;> simp⟩

theorem PathCtx.predStates {p : List Step} {c : SCtx} (h : PathCtx p c) (hb : boundsOk p) :
    (contextOf c).predStates = [] := by
  show ((List.range (tableOf c).statesNum).filter fun i =>
    (tableOf c).stop i ≠ 0 && (tableOf c).accept i == .predicate) = []
  rw [List.filter_eq_nil_iff]
  intro i _
  have e : (tableOf c).accept i = if i < c.dfa.rows.length + 1 then
      acceptOf c (c.dfa.stop i) (c.byArray i) else .none := rfl
  have : (tableOf c).accept i ≠ .predicate := by
    rw [e]
    split
    · rcases h.acceptOf_ne hb (c.dfa.stop i) (buildDfa_stop_le c.rules _ i) (c.byArray i) with h | h <;>
        rw [h] <;> simp
    · simp
  simp [this]

/-! ### Filtering without predicates -/

theorem foldl_addOutput (ts : List Tuple) (p : PF) :
    (ts.foldl (fun p t => p.addOutput t.text) p).output = p.output ++ ts.map Tuple.text := by
  induction ts generalizing p with
  | nil => simp
  | cons t ts ih => rw [List.foldl_cons, ih]; simp [PF.addOutput]

theorem foldl_addOutput_ub (ts : List Tuple) (p : PF) :
    (ts.foldl (fun p t => p.addOutput t.text) p).ub = true ↔
      p.ub = true ∨ (∃ t ∈ ts, t.text.length + 2 > MAX_STRING) ∨
        (ts ≠ [] ∧ p.output.length + ts.length > MAX_OUTPUT) := by
  induction ts generalizing p with
  | nil => simp
  | cons t ts ih =>
    rw [List.foldl_cons, ih]
    simp only [PF.addOutput, strcopyBytes, Bool.or_eq_true, decide_eq_true_eq,
      List.mem_cons, exists_eq_or_imp, List.length_append, List.length_cons, List.length_nil,
      ne_eq, reduceCtorEq, not_false_eq_true, true_and]
    by_cases h : ts = []
    · subst h
      simp only [List.not_mem_nil, false_and, exists_false, or_false, not_true_eq_false,
        List.length_nil]
      constructor
      · rintro ((h | h) | h)
        · exact .inl h
        · exact .inr (.inr (by omega))
        · exact .inr (.inl (of_decide_eq_true h))
      · rintro (h | h | h)
        · exact .inl (.inl h)
        · exact .inr (decide_eq_true h)
        · exact .inl (.inr (by omega))
    · simp only [h, not_false_eq_true, true_and]
      constructor
      · rintro (((h | h) | h) | h | h)
        · exact .inl h
        · exact .inr (.inr (by omega))
        · exact .inr (.inl (.inl (of_decide_eq_true h)))
        · exact .inr (.inl (.inr h))
        · exact .inr (.inr (by omega))
      · rintro (h | (h | h) | h)
        · exact .inl (.inl (.inl h))
        · exact .inl (.inr (decide_eq_true h))
        · exact .inr (.inl h)
        · exact .inr (.inr (by omega))

theorem generate_none (O : NumOps) (ctx : QCtx) (h : ctx.predStates = []) (ts : List Tuple) :
    generate O ctx (PF.init ctx) ts = ts.foldl (fun p t => p.addOutput t.text) (PF.init ctx) := by
  unfold generate
  rw [if_pos]
  simp [PF.init, h]

/-! ### Array indices are small -/

/-- All array indices of a location are below `n`. -/
def idxLt (n : Nat) (l : Loc) : Prop := ∀ i, Label.elem i ∈ l → i < n

theorem idxLt.mono {n m : Nat} {l : Loc} (h : idxLt n l) (hm : n ≤ m) : idxLt m l :=
  fun i hi => Nat.lt_of_lt_of_le (h i hi) hm

mutual
theorem parts_idx (n : Nat) (loc : Loc) (hl : idxLt n loc) : ∀ v : J, v.render.length ≤ n →
    ∀ x ∈ v.parts loc, idxLt n x.1
  | .lit _, _ => by simp [J.parts]
  | .str _, _ => by simp [J.parts]
  | .arr w es, h => by
    simp only [J.parts]
    refine partsE_idx n loc hl es 0 ?_
    simp [J.render] at h; omega
  | .obj w ms, h => by
    simp only [J.parts]
    refine partsM_idx n loc hl ms ?_
    simp [J.render] at h; omega
theorem partsE_idx (n : Nat) (loc : Loc) (hl : idxLt n loc) : ∀ (es : Elems) (i : Nat),
    i + es.render.length + 2 ≤ n → ∀ x ∈ es.parts loc i, idxLt n x.1
  | .nil, _, _ => by simp [Elems.parts]
  | .cons pre v post rest, i, h => by
    simp only [Elems.render, List.length_append] at h
    have hl' : idxLt n (loc ++ [.elem i]) := by
      intro j hj
      simp only [List.mem_append, List.mem_singleton, Label.elem.injEq] at hj
      rcases hj with hj | rfl
      · exact hl j hj
      · omega
    simp only [Elems.parts, List.mem_append, List.mem_singleton]
    rintro x ((hx | rfl) | hx)
    · exact parts_idx n _ hl' v (by omega) x hx
    · exact hl'
    · cases rest with
      | nil => simp [Elems.parts] at hx
      | cons pre' v' post' rest' =>
        refine partsE_idx n loc hl (.cons pre' v' post' rest') (i + 1) ?_ x hx
        simp only [Elems.sep, List.length_cons] at h
        omega
theorem partsM_idx (n : Nat) (loc : Loc) (hl : idxLt n loc) : ∀ (ms : Members),
    ms.render.length ≤ n → ∀ x ∈ ms.parts loc, idxLt n x.1
  | .nil, _ => by simp [Members.parts]
  | .cons pre k mid pre2 v post rest, h => by
    simp only [Members.render, List.length_append, List.length_cons] at h
    have hl' : idxLt n (loc ++ [.key k]) := by
      intro j hj
      simp only [List.mem_append, List.mem_singleton, reduceCtorEq, or_false] at hj
      exact hl j hj
    simp only [Members.parts, List.mem_append, List.mem_singleton]
    rintro x ((hx | rfl) | hx)
    · exact parts_idx n _ hl' v (by omega) x hx
    · exact hl'
    · cases rest with
      | nil => simp [Members.parts] at hx
      | cons pre' k' mid' pre2' v' post' rest' =>
        refine partsM_idx n loc hl (.cons pre' k' mid' pre2' v' post' rest') ?_ x hx
        simp only [Members.sep, List.length_cons] at h
        omega
end

/-! ### Loading -/

theorem pieces_single (B : Nat) (file : Str) (h0 : file ≠ []) (hB : file.length ≤ B) (n : Nat) :
    pieces B file (n + 2) 0 = [file] := by
  have hl : file.length ≠ 0 := by simpa using h0
  have e : loadBounded B file 0 = some file := by
    simp only [loadBounded]
    rw [if_neg (by omega)]
    simp [Nat.min_eq_left hB, extend]
  have e2 : loadBounded B file (0 + file.length) = none := by
    simp [loadBounded]
  simp only [pieces, e, e2]

theorem serialRun_single (O : NumOps) (B : Nat) (t : Ast) (file : Str) (c : SCtx)
    (hc : buildCtx t = some c) (h0 : file ≠ []) (hB : file.length ≤ B) :
    serialRun O B t file = some (serialPartialRun O (tableOf c) (contextOf c) none file) := by
  unfold serialRun buildQuery
  rw [hc]
  have hl : file.length ≠ 0 := by simpa using h0
  obtain ⟨n, hn⟩ : ∃ n, file.length + 1 = n + 2 := ⟨file.length - 1, by omega⟩
  simp only [Option.map_some, Option.bind_some, hn, pieces_single B file h0 hB, serialPieces,
    List.foldl_cons, List.foldl_nil]

/-! ### Tokens fit -/

theorem litObs_length (direct : Bool) (post : Str) (c : Char) (t : Str) :
    (litObs direct post c t).length ≤ t.length + post.length + 1 := by
  have h : (post.takeWhile (fun x => !litBlank x)).length ≤ post.length :=
    (List.takeWhile_sublist _).length_le
  unfold litObs
  simp only
  split
  · simp; omega
  · split <;> simp <;> omega

theorem toks_scalar_ub (direct : Bool) (post : Str) (c : Char) (off : Nat) (v : J)
    (hv : v.isContainer = false) (h : scalarSize v post ≤ 3996) :
    (toks (litObs direct post c) off v).any tokUb = false := by
  cases v with
  | lit t =>
    have := litObs_length direct post c t
    simp only [scalarSize] at h
    simp only [toks, tokUb, List.any_cons, List.any_nil, Bool.or_false]
    refine decide_eq_false ?_
    simp only [MAX_SIZE_PRIMITIVE]
    omega
  | str r =>
    simp only [scalarSize] at h
    simp only [toks, tokUb, List.any_cons, List.any_nil, Bool.or_false]
    refine decide_eq_false ?_
    simp only [MAX_SIZE_PRIMITIVE, List.length_append, List.length_cons, List.length_nil]
    omega
  | arr _ _ => cases hv
  | obj _ _ => cases hv

theorem any_sepE (rest : Elems) (ts : List Tok) (h : ts.any tokUb = false) :
    (rest.sep Tok.com ts).any tokUb = false := by
  cases rest <;> simp [Elems.sep, tokUb, h]
theorem any_sepM (rest : Members) (ts : List Tok) (h : ts.any tokUb = false) :
    (rest.sep Tok.com ts).any tokUb = false := by
  cases rest <;> simp [Members.sep, tokUb, h]

mutual
theorem toks_short (obs : Str → Str) (off : Nat) : ∀ v : J, v.isContainer = true →
    v.short 3996 = true → (toks obs off v).any tokUb = false
  | .lit _, h, _ => by cases h
  | .str _, h, _ => by cases h
  | .arr w es, _, h => by
    have := toksE_short (off + 1 + w.length) es h
    simp [toks, tokUb, this]
  | .obj w ms, _, h => by
    have := toksM_short (off + 1 + w.length) ms h
    simp [toks, tokUb, this]
theorem toksE_short (off : Nat) : ∀ es : Elems, es.short 3996 = true →
    (toksE off es).any tokUb = false
  | .nil, _ => rfl
  | .cons pre v post rest, h => by
    simp only [Elems.short, Bool.and_eq_true, decide_eq_true_eq] at h
    obtain ⟨⟨h1, h2⟩, h3⟩ := h
    have hv : (toks (litObs false post (nextE rest)) (off + pre.length) v).any tokUb = false := by
      by_cases hc : v.isContainer = true
      · exact toks_short _ _ v hc h2
      · exact toks_scalar_ub _ _ _ _ v (by simpa using hc) h1
    simp only [toksE, List.any_append, hv, Bool.false_or]
    exact any_sepE _ _ (toksE_short _ rest h3)
theorem toksM_short (off : Nat) : ∀ ms : Members, ms.short 3996 = true →
    (toksM off ms).any tokUb = false
  | .nil, _ => rfl
  | .cons pre k mid pre2 v post rest, h => by
    simp only [Members.short, Bool.and_eq_true, decide_eq_true_eq] at h
    obtain ⟨⟨⟨h0, h1⟩, h2⟩, h3⟩ := h
    have hv : (toks (litObs pre2.isEmpty post (nextM rest))
        (off + pre.length + (k.length + 2) + mid.length + 1 + pre2.length) v).any tokUb = false := by
      by_cases hc : v.isContainer = true
      · exact toks_short _ _ v hc h2
      · exact toks_scalar_ub _ _ _ _ v (by simpa using hc) h1
    have hk : tokUb (.ky k) = false := by
      refine decide_eq_false ?_
      simp only [MAX_SIZE_PRIMITIVE]; omega
    simp only [toksM, List.cons_append, List.any_cons, List.any_append, hv, hk, Bool.false_or]
    exact any_sepM _ _ (toksM_short _ rest h3)
end

/-! ### The run -/

open Classical in
/-- The results of a run whose table decides by a predicate on locations. -/
theorem serial_outputs (O : NumOps) (d : QDfa) (ctx : QCtx) (hps : ctx.predStates = []) (S : Loc → Prop) (pre trail : Str) (v : J)
    (hpre : pre.all isWs = true) (htr : trail.all isWs = true) (hsp : pre.head? ≠ some ' ')
    (hc : v.isContainer = true) (hwf : v.wf = true) (hk : v.keysTight = true) (hdep : v.depth ≤ MAX_STACK)
    (hmt : ∀ l : Loc, idxLt v.render.length l → d.matchedType (locState d 1 0 l).1 (locState d 1 0 l).2 = if S l then .output else .none)
    (hroot : ¬ S []) :
    let r := serialPartialRun O d ctx none (pre ++ v.render ++ trail)
    r.pf.output = ((seen [] v).filter (fun x => decide (S x.1))).map (fun x => x.2.2) ∧
    (r.sa.ub = false ∧ r.pf.ub = false ↔ (toks id pre.length v).any tokUb = false ∧
      r.pf.output.length ≤ MAX_OUTPUT ∧ ∀ t ∈ r.pf.output, t.length ≤ 998) := by
  have hidx : ∀ x ∈ seen [] v, idxLt v.render.length x.1 := by
    intro x hx
    have hx' : (x.1, x.2.1) ∈ v.parts [] := by
      rw [← seen_parts]; exact List.mem_map_of_mem hx
    exact parts_idx _ [] (by intro i hi; simp at hi) v (Nat.le_refl _) _ hx'
  obtain ⟨ms', he⟩ := execAutomaton_doc d pre trail v id SA.init hpre htr hsp hc hwf hk rfl
    hdep (by simpa [SA.init] using hdep)
  have hem : emit d id false 1 0 v =
      ((seen [] v).filter (fun x => decide (S x.1))).map (fun x => ⟨(locState d 1 0 x.1).1, x.2.2⟩) := by
    have := emit_seen d 1 0 id false [] v (by
      intro l hl
      rw [hmt l (by
        rcases List.mem_append.1 hl with hl | hl
        · obtain ⟨x, hx, rfl⟩ := List.mem_map.1 hl; exact hidx x hx
        · simp at hl; subst hl; intro i hi; simp at hi)]
      split <;> simp)
    simp only [locState] at this
    rw [this, List.filterMap_append]
    have e0 : List.filterMap (outAt d 1 0) [([], v, otext id v)] = [] := by
      simp only [List.filterMap_cons, List.filterMap_nil, outAt]
      rw [hmt [] (by intro i hi; simp at hi), if_neg hroot]
      rfl
    rw [e0, List.append_nil]
    have gen : ∀ L : List (Loc × J × Str), (∀ x ∈ L, idxLt v.render.length x.1) →
        L.filterMap (outAt d 1 0) = (L.filter (fun x => decide (S x.1))).map (fun x => ⟨(locState d 1 0 x.1).1, x.2.2⟩) := by
      intro L
      induction L with
      | nil => intro _; rfl
      | cons x L ih =>
        intro hL
        have ihL := ih (fun y hy => hL y (by simp [hy]))
        have hx := hmt x.1 (hL x (by simp))
        by_cases hm : S x.1
        · rw [if_pos hm] at hx
          simp [outAt, hx, hm, ← ihL]
        · rw [if_neg hm] at hx
          simp [outAt, hx, hm, ← ihL]
    exact gen _ hidx
  have htl : (execAutomaton d (pre ++ v.render ++ trail) SA.init).tl = emit d id false 1 0 v := by
    rw [he]
    show (SA.init.emitAll _).tl = _
    rw [emitAll_tl]; rfl
  simp only [serialPartialRun]
  rw [generate_none O _ hps, foldl_addOutput, htl, hem]
  have hout : ((PF.init ctx).output ++ List.map Tuple.text
      (((seen [] v).filter (fun x => decide (S x.1))).map
        (fun x => (⟨(locState d 1 0 x.1).1, x.2.2⟩ : Tuple)))) =
      ((seen [] v).filter (fun x => decide (S x.1))).map (fun x => x.2.2) := by
    simp [PF.init]
  rw [hout]
  refine ⟨rfl, ?_⟩
  have hsa : (execAutomaton d (pre ++ v.render ++ trail) SA.init).ub =
      ((SA.emitAll SA.init (emit d id false 1 0 v)).ub || (toks id pre.length v).any tokUb) := by
    rw [he]; rfl
  rw [hsa, hem]
  constructor
  · rintro ⟨h1, h2⟩
    rw [Bool.or_eq_false_iff] at h1
    refine ⟨h1.2, ?_, ?_⟩
    · have h2' := Bool.eq_false_iff.1 h2
      rw [ne_eq, foldl_addOutput_ub] at h2'
      by_cases hl : (((seen [] v).filter (fun x => decide (S x.1))).map (fun x => x.2.2)).length ≤ MAX_OUTPUT
      · exact hl
      · exfalso
        apply h2'
        refine .inr (.inr ⟨?_, ?_⟩)
        · intro h0
          have := congrArg List.length h0
          simp only [List.length_map, List.length_nil] at hl this
          omega
        · simpa [PF.init] using hl
    · intro t ht
      have h1' := Bool.eq_false_iff.1 h1.1
      rw [ne_eq, emitAll_ub] at h1'
      obtain ⟨x, hx, rfl⟩ := List.mem_map.1 ht
      by_cases hl : x.2.2.length ≤ 998
      · exact hl
      · exfalso
        apply h1'
        refine .inr (.inl ⟨_, List.mem_map_of_mem hx, ?_⟩)
        simp only [MAX_TEXT]; omega
  rintro ⟨hsh, hn, htx⟩
  constructor
  · rw [hsh, Bool.or_false]
    apply Bool.eq_false_iff.2
    rw [ne_eq, emitAll_ub]
    rintro (h | ⟨t, ht, h⟩ | ⟨_, h⟩)
    · simp [SA.init] at h
    · obtain ⟨x, hx, rfl⟩ := List.mem_map.1 ht
      have := htx x.2.2 (List.mem_map_of_mem hx)
      simp only [MAX_TEXT] at h
      omega
    · simp only [List.length_map, SA.init, List.length_nil, MAX_TUPLE_LIST] at h
      simp only [List.length_map, MAX_OUTPUT] at hn
      omega
  · apply Bool.eq_false_iff.2
    rw [ne_eq, foldl_addOutput_ub]
    rintro (h | ⟨t, ht, h⟩ | ⟨_, h⟩)
    · simp [PF.init, hps] at h
    · obtain ⟨x, hx, rfl⟩ := List.mem_map.1 ht
      have := htx x.2.2 (List.mem_map_of_mem hx)
      simp only [MAX_STRING] at h
      omega
    · simp only [List.length_map, PF.init, List.length_nil, MAX_OUTPUT] at h hn
      omega

open Classical in
/-- The serial run of a path without filters, with the exact condition for an overrun. -/
theorem PathCtx.serial_ub {p : List Step} {c : SCtx} (h : PathCtx p c) (O : NumOps)
    (hd : noDescBeforeSlice p = true) (hb : boundsOk p) (pre trail : Str) (v : J)
    (hpre : pre.all isWs = true) (htr : trail.all isWs = true) (hsp : pre.head? ≠ some ' ')
    (hc : v.isContainer = true) (hwf : v.wf = true) (hk : v.keysTight = true)
    (hdep : v.depth ≤ MAX_STACK) (hlen : (v.render.length : Int) ≤ intMax) :
    let r := serialPartialRun O (tableOf c) (contextOf c) none (pre ++ v.render ++ trail)
    r.pf.output = ((seen [] v).filter (fun x => decide (Matches p x.1))).map (fun x => x.2.2) ∧
    (r.sa.ub = false ∧ r.pf.ub = false ↔ (toks id pre.length v).any tokUb = false ∧
      r.pf.output.length ≤ MAX_OUTPUT ∧ ∀ t ∈ r.pf.output, t.length ≤ 998) := by
  have hmt : ∀ l : Loc, idxLt v.render.length l →
      (tableOf c).matchedType (locState (tableOf c) 1 0 l).1 (locState (tableOf c) 1 0 l).2 =
        if Matches p l then .output else .none := by
    intro l hl
    refine h.matched hd hb l ?_
    intro i hi
    have := hl i hi
    omega
  have hroot : ¬ Matches p [] := by
    intro hm; have := h.ne; cases hm; exact this rfl
  exact serial_outputs O (tableOf c) (contextOf c) (h.predStates hb) (Matches p) pre trail v hpre htr hsp hc hwf hk hdep hmt hroot

open Classical in
/-- The serial run of a path without filters. -/
theorem PathCtx.serial {p : List Step} {c : SCtx} (h : PathCtx p c) (O : NumOps)
    (hd : noDescBeforeSlice p = true) (hb : boundsOk p) (pre trail : Str) (v : J)
    (hpre : pre.all isWs = true) (htr : trail.all isWs = true) (hsp : pre.head? ≠ some ' ')
    (hc : v.isContainer = true) (hwf : v.wf = true) (hk : v.keysTight = true)
    (hdep : v.depth ≤ MAX_STACK) (hlen : (v.render.length : Int) ≤ intMax) :
    let r := serialPartialRun O (tableOf c) (contextOf c) none (pre ++ v.render ++ trail)
    r.pf.output = ((seen [] v).filter (fun x => decide (Matches p x.1))).map (fun x => x.2.2) ∧
    (v.short 3996 = true → r.pf.output.length ≤ MAX_OUTPUT → (∀ t ∈ r.pf.output, t.length ≤ 998) →
      r.sa.ub = false ∧ r.pf.ub = false) := by
  have := h.serial_ub O hd hb pre trail v hpre htr hsp hc hwf hk hdep hlen
  exact ⟨this.1, fun h1 h2 h3 => this.2.2 ⟨toks_short id pre.length v hc h1, h2, h3⟩⟩

end JPS
