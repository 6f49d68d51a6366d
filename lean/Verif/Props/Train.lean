import Verif.Spec.Shape
import Verif.Props.Learn
/-!
# C62: a table learned from one document serves every document of the same shape
-/

set_option autoImplicit false

namespace JPS
open Spec

/-! ### The states in which keys and arrays are met -/

/-- State and key at each place where a key or an array starts. -/
def ctlTrace (d : QDfa) : Ctl → List Tok → List (Nat × CKey)
  | _, [] => []
  | C, t :: ts => (t.ckey.map fun k => (C.e.1, k)).toList ++ ctlTrace d (ctlStep d C t) ts

theorem ctlTrace_append (d : QDfa) : ∀ (ts us : List Tok) (C : Ctl),
    ctlTrace d C (ts ++ us) = ctlTrace d C ts ++ ctlTrace d (ctlRun d C ts) us
  | [], _, _ => rfl
  | t :: ts, us, C => by
    simp only [List.cons_append, ctlTrace, ctlTrace_append d ts us, List.append_assoc]
    rfl

theorem ctlTrace_mem {d : QDfa} : ∀ {ts : List Tok} {C : Ctl} {x : Nat × CKey}, x ∈ ctlTrace d C ts →
    ∃ us t vs, ts = us ++ t :: vs ∧ t.ckey = some x.2 ∧ (ctlRun d C us).e.1 = x.1
  | [], _, _, h => by cases h
  | t :: ts, C, x, h => by
    simp only [ctlTrace, List.mem_append] at h
    rcases h with h | h
    · cases hk : t.ckey with
      | none => rw [hk] at h; cases h
      | some k =>
        rw [hk] at h
        simp only [Option.map_some, Option.toList_some, List.mem_singleton] at h
        subst h
        exact ⟨[], t, ts, rfl, hk, rfl⟩
    · obtain ⟨us, t', vs, h1, h2, h3⟩ := ctlTrace_mem h
      exact ⟨t :: us, t', vs, by rw [h1]; rfl, h2, h3⟩

mutual
theorem trace_value (d : QDfa) (s0 c0 : Nat) : ∀ (v : J) (loc : Loc) (obs : Str → Str) (off : Nat) (C : Ctl), C.e = locState d s0 c0 loc → C.atVal →
    C.ss.length + v.depth ≤ MAX_STACK → C.q.length + v.depth ≤ MAX_STACK → C.g.length + v.depth ≤ MAX_STACK →
    ctlTrace d C (toks obs off v) = (v.starts loc).map fun x => ((locState d s0 c0 x.1).1, x.2)
  | .lit t, _, obs, off, C, _, _, _, _, _ => rfl
  | .str t, _, obs, off, C, _, _, _, _, _ => rfl
  | .arr w es, loc, obs, off, C, he, h, h1, h2, h3 => by
    rw [J.depth] at h1 h2 h3
    have hi := trace_elems d s0 c0 es loc 0 (off + 1 + w.length) ⟨(d.go C.e.1 C.e.2 none, 0), .lb :: C.ss, C.e :: C.q, (off + 1) :: C.g⟩ C.ss
      (by rw [locState_snoc, ← he]; rfl) rfl (by simp; omega) (by simp; omega) (by simp; omega)
    rw [toks, List.cons_append]
    simp only [ctlTrace, Tok.ckey, Option.map_some, Option.toList_some]
    rw [ctl_lb (by omega) (by omega) (by omega), ctlTrace_append, hi]
    simp only [ctlTrace, Tok.ckey, Option.map_none, Option.toList_none, List.append_nil, J.starts, List.map_cons, he,
      List.singleton_append]
  | .obj w ms, loc, obs, off, C, he, h, h1, h2, h3 => by
    rw [J.depth] at h1 h2 h3
    have hi := trace_members d s0 c0 ms loc (off + 1 + w.length) { C with ss := .lcb :: C.ss, g := (off + 1) :: C.g } C.ss he rfl
      (by simp; omega) (by simp; omega) (by simp; omega)
    rw [toks, List.cons_append]
    simp only [ctlTrace, Tok.ckey, Option.map_none, Option.toList_none, List.nil_append]
    rw [ctl_lcb (by omega) (by omega), ctlTrace_append, hi]
    simp only [ctlTrace, Tok.ckey, Option.map_none, Option.toList_none, List.append_nil, J.starts]
theorem trace_elems (d : QDfa) (s0 c0 : Nat) : ∀ (es : Elems) (loc : Loc) (i off : Nat) (C : Ctl) (ss : List Sym),
    C.e = locState d s0 c0 (loc ++ [.elem i]) → C.ss = .lb :: ss →
    C.ss.length + es.depth ≤ MAX_STACK → C.q.length + es.depth ≤ MAX_STACK → C.g.length + es.depth ≤ MAX_STACK →
    ctlTrace d C (toksE off es) = (es.starts loc i).map fun x => ((locState d s0 c0 x.1).1, x.2)
  | .nil, _, _, _, C, _, _, _, _, _, _ => rfl
  | .cons pre v post rest, loc, i, off, C, ss, he, h, h1, h2, h3 => by
    rw [Elems.depth] at h1 h2 h3
    have hv := ctl_value d v (litObs false post (nextE rest)) (off + pre.length) C (.inr (.inr ⟨ss, h⟩)) (by omega) (by omega) (by omega)
    have ht := trace_value d s0 c0 v (loc ++ [.elem i]) (litObs false post (nextE rest)) (off + pre.length) C he (.inr (.inr ⟨ss, h⟩))
      (by omega) (by omega) (by omega)
    have ha : C.after = { C with e := (C.e.1, C.e.2 + 1) } := by simp [Ctl.after, h]
    rw [toksE, ctlTrace_append, ht, hv, ha, Elems.starts, List.map_append]
    congr 1
    match rest, h1, h2, h3 with
    | .nil, _, _, _ => rfl
    | .cons p' v' q' r', h1, h2, h3 =>
      exact trace_elems d s0 c0 (.cons p' v' q' r') loc (i + 1) (off + pre.length + v.render.length + post.length + 1)
        { C with e := (C.e.1, C.e.2 + 1) } ss (by simp only [he, locState_snoc]; rfl) h (by simp only; omega) (by simp only; omega)
        (by simp only; omega)
theorem trace_members (d : QDfa) (s0 c0 : Nat) : ∀ (ms : Members) (loc : Loc) (off : Nat) (C : Ctl) (ss : List Sym),
    C.e = locState d s0 c0 loc → C.ss = .lcb :: ss →
    C.ss.length + ms.depth ≤ MAX_STACK → C.q.length + ms.depth ≤ MAX_STACK → C.g.length + ms.depth ≤ MAX_STACK →
    ctlTrace d C (toksM off ms) = (ms.starts loc).map fun x => ((locState d s0 c0 x.1).1, x.2)
  | .nil, _, _, C, _, _, _, _, _, _ => rfl
  | .cons pre k mid pre2 v post rest, loc, off, C, ss, he, h, h1, h2, h3 => by
    rw [Members.depth] at h1 h2 h3
    have hv := ctl_value d v (litObs pre2.isEmpty post (nextM rest))
      (off + pre.length + (k.length + 2) + mid.length + 1 + pre2.length)
      ⟨(d.go C.e.1 C.e.2 (some k), 0), .ky :: C.ss, C.e :: C.q, 0 :: C.g⟩ (.inr (.inl ⟨_, _, _, rfl, rfl⟩))
      (by simp; omega) (by simp; omega) (by simp; omega)
    have ht := trace_value d s0 c0 v (loc ++ [.key k]) (litObs pre2.isEmpty post (nextM rest))
      (off + pre.length + (k.length + 2) + mid.length + 1 + pre2.length)
      ⟨(d.go C.e.1 C.e.2 (some k), 0), .ky :: C.ss, C.e :: C.q, 0 :: C.g⟩ (by rw [locState_snoc, ← he]; rfl)
      (.inr (.inl ⟨_, _, _, rfl, rfl⟩)) (by simp; omega) (by simp; omega) (by simp; omega)
    rw [toksM, List.cons_append]
    simp only [ctlTrace, Tok.ckey, Option.map_some, Option.toList_some]
    rw [ctl_ky (by omega) (by omega) (by omega), ctlTrace_append, ht, hv]
    have ha : Ctl.after ⟨(d.go C.e.1 C.e.2 (some k), 0), .ky :: C.ss, C.e :: C.q, 0 :: C.g⟩ = C := rfl
    rw [ha, Members.starts, List.map_cons, List.map_append, he]
    simp only [List.singleton_append]
    congr 2
    match rest, h1, h2, h3 with
    | .nil, _, _, _ => rfl
    | .cons p' k' m' n' v' q' r', h1, h2, h3 =>
      exact trace_members d s0 c0 (.cons p' k' m' n' v' q' r') loc _ C ss he h (by omega) (by omega) (by omega)
end

/-- The places of a document and their states. -/
theorem trace_doc {pre trail : Str} {v : J} (h : DocOK pre trail v) (d : QDfa) :
    ctlTrace d Ctl.init (lexAll (pre ++ v.render ++ trail)) = (v.starts []).map fun x => ((locState d 1 0 x.1).1, x.2) := by
  rw [lexAll_doc pre trail v id h.preWs h.trailWs h.container h.wf h.tight]
  have := h.depth
  exact trace_value d 1 0 v [] id pre.length Ctl.init rfl (.inl rfl) (by simpa [Ctl.init] using this) (by simpa [Ctl.init] using this)
    (by simpa [Ctl.init] using this)

theorem state_ctl (d : QDfa) (s : Str) (us : List Tok) : (runToks d s SA.init us).elt.st = (ctlRun d Ctl.init us).e.1 := by
  have := (SA.Is.run (d := d) (s := s) (k := 0) us Is.init).e
  rw [shift_zero] at this
  rw [this]; rfl

theorem startTok_ckey (k : CKey) (p : Nat) : (startTok k p).ckey = some k := by cases k <;> rfl

theorem ckey_start {t : Tok} {k : CKey} (h : t.ckey = some k) : ∃ p, t = startTok k p := by
  cases t <;> simp only [Tok.ckey, Option.some.injEq, reduceCtorEq] at h
  · subst h; exact ⟨_, rfl⟩
  · subst h; exact ⟨0, rfl⟩

theorem ctlTrace_keys (d : QDfa) : ∀ (ts : List Tok) (C : Ctl), (ctlTrace d C ts).map Prod.snd = ts.filterMap Tok.ckey
  | [], _ => rfl
  | t :: ts, C => by
    rw [ctlTrace, List.map_append, ctlTrace_keys d ts, List.filterMap_cons]
    cases t.ckey <;> rfl

theorem addIn_misses {k o : CKey} {s : Nat} : ∀ (is js : List CInfo), addIn k s is = some js → (∀ i ∈ is, i.hits o = false) →
    ∀ j ∈ js, j.hits o = false
  | [], _, h, _ => by simp [addIn] at h
  | i :: is, js, h, hi => by
    simp only [addIn] at h
    split at h
    · obtain rfl := Option.some.inj h
      intro j hj
      rcases List.mem_cons.1 hj with rfl | hj
      · rw [hits_addState]; exact hi i (by simp)
      · exact hi j (by simp [hj])
    · obtain ⟨ks, hks, rfl⟩ := Option.map_eq_some_iff.1 h
      intro j hj
      rcases List.mem_cons.1 hj with rfl | hj
      · exact hi j (by simp)
      · exact addIn_misses is ks hks (fun i h => hi i (by simp [h])) j hj

theorem addAll_misses (g : Nat → Str) {o : CKey} (hg : ∀ n, o ≠ some (g n)) : ∀ (h : List (Nat × CKey)) (ct : CTable), (∀ r ∈ h, r.2 ≠ o) →
    (∀ i ∈ ct.info, i.hits o = false) → ∀ i ∈ (ct.addAll g h).info, i.hits o = false
  | [], _, _, hc => hc
  | r :: h, ct, hr, hc => by
    refine addAll_misses g hg h (ct.add g r.1 r.2) (fun x hx => hr x (by simp [hx])) ?_
    have hro := hr r (by simp)
    unfold CTable.add
    cases ha : addIn r.2 r.1 ct.info with
    | some is => exact addIn_misses _ _ ha hc
    | none =>
      intro i hi
      simp only [List.mem_append, List.mem_singleton] at hi
      rcases hi with hi | rfl
      · exact hc i hi
      · cases hk : r.2 with
        | none =>
          rw [hk] at hro
          cases o with
          | none => exact absurd rfl hro
          | some o => exact decide_eq_false fun e => hg _ (by rw [e]; rfl)
        | some k =>
          rw [hk] at hro
          cases o with
          | none => rfl
          | some o => exact decide_eq_false fun e => hro (by rw [e]; rfl)

/-- A key that the text does not have, and that the memory of the table did not hold by chance, is not found in the table. -/
theorem lookup_fresh (g : Nat → Str) (d : QDfa) (file : Str) {o : CKey} (hg : ∀ n, o ≠ some (g n))
    (ho : o ∉ (lexAll file).filterMap Tok.ckey) : (collectConstraints g d file).lookup o = none := by
  unfold collectConstraints CTable.lookup
  rw [runCollect_eq, Option.map_eq_none_iff, List.find?_eq_none]
  intro i hi
  rw [addAll_misses g hg _ .empty (fun r hr e => ho (by rw [← e]; exact recordsOf_keys d file _ _ r hr)) (fun i h => by cases h) i hi]
  simp

theorem shape_state {d : QDfa} (hd : ∀ s, NoIdx d s) : ∀ (l m : Loc) (s a b : Nat), shape l = shape m →
    (locState d s a l).1 = (locState d s b m).1
  | [], [], _, _, _, _ => rfl
  | [], y :: m, _, _, _, h => by simp [shape] at h
  | x :: l, [], _, _, _, h => by simp [shape] at h
  | x :: l, y :: m, s, a, b, h => by
    simp only [shape, List.map_cons, List.cons.injEq] at h
    have hk : labelKey x = labelKey y := by
      cases x <;> cases y <;> simp_all [labelKey]
    simp only [locState, QDfa.go, (hd s).inRange, if_true, hk]
    exact shape_state hd l m _ _ _ h.2

/-- A table learned from `v` serves `w` if each key and array of `w` is met in `v` in the same state, or not at all and the memory of the
table did not hold it by chance. -/
theorem covers_known (g : Nat → Str) (d : QDfa) {pre trail pre' trail' : Str} {v w : J} (h : DocOK pre trail v) (h' : DocOK pre' trail' w)
    (hg : ∀ x ∈ w.starts [], (∀ y ∈ v.starts [], y.2 ≠ x.2) → ∀ n, x.2 ≠ some (g n))
    (hs : ∀ x ∈ w.starts [], (∃ y ∈ v.starts [], y.2 = x.2) →
      ∃ y ∈ v.starts [], y.2 = x.2 ∧ (locState d 1 0 y.1).1 = (locState d 1 0 x.1).1) :
    Covers (collectConstraints g d (pre ++ v.render ++ trail)) d (pre' ++ w.render ++ trail') := by
  intro us vs k p ks hf hl
  have hm : ((ctlRun d Ctl.init us).e.1, k) ∈ ctlTrace d Ctl.init (lexAll (pre' ++ w.render ++ trail')) := by
    rw [hf, ctlTrace_append]
    refine List.mem_append_right _ ?_
    simp only [ctlTrace, startTok_ckey, Option.map_some, Option.toList_some]
    simp
  rw [trace_doc h'] at hm
  obtain ⟨x, hx, e⟩ := List.mem_map.1 hm
  simp only [Prod.mk.injEq] at e
  by_cases hy : ∃ y ∈ v.starts [], y.2 = x.2
  · rw [state_ctl]
    obtain ⟨y, hy, hk, hst⟩ := hs x hx hy
    have hv : ((locState d 1 0 y.1).1, y.2) ∈ ctlTrace d Ctl.init (lexAll (pre ++ v.render ++ trail)) := by
      rw [trace_doc h]
      exact List.mem_map.2 ⟨y, hy, rfl⟩
    obtain ⟨us', t, vs', h1, h2, h3⟩ := ctlTrace_mem hv
    obtain ⟨p', rfl⟩ := ckey_start h2
    rw [hk, e.2] at h1
    obtain ⟨l, a1, a2⟩ := c30_file_sound g d (pre ++ v.render ++ trail) us' vs' k p' h1
    rw [hl] at a1
    obtain rfl := Option.some.inj a1
    rw [state_ctl, h3] at a2
    rw [← e.1, ← hst]
    exact a2
  · have hfr : ∀ y ∈ v.starts [], y.2 ≠ x.2 := fun y hy' e => hy ⟨y, hy', e⟩
    rw [lookup_fresh g d _ (by rw [← e.2]; exact hg x hx hfr) (by
      rw [← ctlTrace_keys d _ Ctl.init, trace_doc h]
      intro hm
      obtain ⟨z, hz, ez⟩ := List.mem_map.1 hm
      obtain ⟨y, hy', rfl⟩ := List.mem_map.1 hz
      exact hfr y hy' (by rw [e.2]; exact ez))] at hl
    cases hl

theorem covers_states (g : Nat → Str) (d : QDfa) {pre trail pre' trail' : Str} {v w : J} (h : DocOK pre trail v) (h' : DocOK pre' trail' w)
    (hs : ∀ x ∈ w.starts [], ∃ y ∈ v.starts [], y.2 = x.2 ∧ (locState d 1 0 y.1).1 = (locState d 1 0 x.1).1) :
    Covers (collectConstraints g d (pre ++ v.render ++ trail)) d (pre' ++ w.render ++ trail') :=
  covers_known g d h h' (fun x hx hf => let ⟨y, a, b, _⟩ := hs x hx; absurd b (hf y a)) fun x hx _ => hs x hx

/-- **C62, queries without slices**: any automaton without index ranges. -/
theorem c62_covers_shape (g : Nat → Str) {d : QDfa} (hd : ∀ s, NoIdx d s) {pre trail pre' trail' : Str} {v w : J} (h : DocOK pre trail v)
    (h' : DocOK pre' trail' w) (hs : SameShape v w) :
    Covers (collectConstraints g d (pre ++ v.render ++ trail)) d (pre' ++ w.render ++ trail') :=
  covers_states g d h h' fun x hx => by
    obtain ⟨y, hy, e1, e2⟩ := hs x hx
    exact ⟨y, hy, e1, shape_state hd _ _ _ _ _ e2⟩

/-- **C62, all queries**: if the keys and arrays are at the same places. -/
theorem c62_covers_places (g : Nat → Str) (d : QDfa) {pre trail pre' trail' : Str} {v w : J} (h : DocOK pre trail v)
    (h' : DocOK pre' trail' w) (hs : SamePlaces v w) :
    Covers (collectConstraints g d (pre ++ v.render ++ trail)) d (pre' ++ w.render ++ trail') :=
  covers_states g d h h' fun x hx => ⟨x, hs x hx, rfl, rfl⟩

/-- **C62, queries without slices, documents with further keys**: keys that the training document does not have at all do no harm, unless
the uninitialised name of the entry for arrays happens to be such a key. -/
theorem c62_covers_known (g : Nat → Str) {d : QDfa} (hd : ∀ s, NoIdx d s) {pre trail pre' trail' : Str} {v w : J} (h : DocOK pre trail v)
    (h' : DocOK pre' trail' w) (hg : ∀ x ∈ w.starts [], (∀ y ∈ v.starts [], y.2 ≠ x.2) → ∀ n, x.2 ≠ some (g n)) (hs : KnownShape v w) :
    Covers (collectConstraints g d (pre ++ v.render ++ trail)) d (pre' ++ w.render ++ trail') :=
  covers_known g d h h' hg fun x hx hy =>
    let ⟨y, a, b, c⟩ := hs x hx hy
    ⟨y, a, b, shape_state hd _ _ _ _ _ c⟩

/-! ### Runs -/

/-- An optimised run with a table learned from some other text that covers the file. -/
theorem trained_run (O : NumOps) (p : List Step) (hp : p ≠ []) (hlen : fewNames p) (hs : SlicesOK p)
    (pre trail : Str) (w : J) (h : Readable pre trail w) (ht : w.tidy = true) (hpl : w.plainStrings = true)
    (h0 : NUL ∉ pre ++ w.render ++ trail)
    (cores : Nat) (hc : 0 < cores) (hcm : cores ≤ MAX_THREAD) (g : Nat → Str) (u : Nat → Nat → UState) (ru : Nat → Nat → Nat → UState)
    (hpart : partition cores (pre ++ w.render ++ trail) ≠ none) (q : QDfa × QCtx) (hq : buildQuery (astOf p) = some q) (hsz : Sizes q.1 w)
    (hkeys : w.keysWithin 98 = true)
    (hnum : (selected p w).length ≤ MAX_OUTPUT) (htext : ∀ x ∈ selected p w, x.render.length ≤ 998)
    (htorn : ∀ xs ys : List Str, partition cores (pre ++ w.render ++ trail) = some ((xs ++ ys).map some) → xs ≠ [] → ys ≠ [] →
      UntornPath p pre w xs.flatten.length)
    (train : Str) (hcov : Covers (collectConstraints g q.1 train) q.1 (pre ++ w.render ++ trail)) :
    ∃ r, parallelRunOpt O MEMORY_FOOTPRINT cores (some (collectConstraints g q.1 train)) u ru (astOf p)
        (pre ++ w.render ++ trail) = some (some r) ∧
      r.k.re = false ∧ r.k.bad = false ∧ r.pf.ub = false ∧ r.pf.output = (selected p w).map J.render := by
  obtain ⟨c, hbc, hpc⟩ := pathCtx_of_build p hp hlen
  have hq' : buildQuery (astOf p) = some (tableOf c, contextOf c) := by unfold buildQuery; rw [hbc]; rfl
  rw [hq'] at hq
  cases hq
  obtain ⟨h1, h2⟩ := c02_slices_exact_partial O p hp hs.desc hs.bounds hs.ints hlen pre trail w h ht
  have hclean := h2 (short_mono (by decide) w hsz.short) hnum htext
  obtain ⟨r, a1, a2⟩ := paths_ct_safe O p hs hbc hpc pre trail w h hpl h0 cores hc hcm (some (collectConstraints g (tableOf c) train))
    (fun c' e => by cases e; exact learned_nodup g _ _) (learned_statesIn g (c.dead hpc.ok) c.one_lt _) (u 0) hpart hsz (.inr hkeys) hclean htorn
  obtain ⟨a3, a4⟩ := a2 (.inl fun ps _ ht => ctChunks_covers hcov ht ps [] SA.init rfl Is.init)
  obtain ⟨b1, b2, b3⟩ := c43_covering_paths_partial O p hp hlen hs pre trail w h hpl h0 cores hc c hbc _ (learned_nodup g _ _) hcov u ru r
    a1 a3 hclean htorn
  refine ⟨r, b2, b1, a3, a4, ?_⟩
  rw [h1] at b3
  exact (Option.some.inj b3).symm

/-- **C62 for paths without slices and filters**: a table learned from a document `v`, whatever the memory held, is right for every document
`w` of the same shape: the optimised run on `w` is defined, reprocesses nothing and prints the selected values. -/
theorem c62_shape_partial (O : NumOps) (p : List Step) (hp : p ≠ []) (hlen : fewNames p) (hs : noSlices p)
    (pre trail : Str) (w : J) (h : Readable pre trail w) (ht : w.tidy = true) (hpl : w.plainStrings = true)
    (h0 : NUL ∉ pre ++ w.render ++ trail)
    (cores : Nat) (hc : 0 < cores) (hcm : cores ≤ MAX_THREAD) (g : Nat → Str) (u : Nat → Nat → UState) (ru : Nat → Nat → Nat → UState)
    (hpart : partition cores (pre ++ w.render ++ trail) ≠ none) (q : QDfa × QCtx) (hq : buildQuery (astOf p) = some q) (hsz : Sizes q.1 w)
    (hkeys : w.keysWithin 98 = true)
    (hnum : (selected p w).length ≤ MAX_OUTPUT) (htext : ∀ x ∈ selected p w, x.render.length ≤ 998)
    (htorn : ∀ xs ys : List Str, partition cores (pre ++ w.render ++ trail) = some ((xs ++ ys).map some) → xs ≠ [] → ys ≠ [] →
      UntornPath p pre w xs.flatten.length)
    (pre' trail' : Str) (v : J) (h' : DocOK pre' trail' v) (hshape : SameShape v w) :
    ∃ r, parallelRunOpt O MEMORY_FOOTPRINT cores (some (collectConstraints g q.1 (pre' ++ v.render ++ trail'))) u ru (astOf p)
        (pre ++ w.render ++ trail) = some (some r) ∧
      r.k.re = false ∧ r.k.bad = false ∧ r.pf.ub = false ∧ r.pf.output = (selected p w).map J.render := by
  refine trained_run O p hp hlen hs.ok pre trail w h ht hpl h0 cores hc hcm g u ru hpart q hq hsz hkeys hnum htext htorn _ ?_
  obtain ⟨c, hbc, hpc⟩ := pathCtx_of_build p hp hlen
  have hq' : buildQuery (astOf p) = some (tableOf c, contextOf c) := by unfold buildQuery; rw [hbc]; rfl
  rw [hq'] at hq
  cases hq
  exact c62_covers_shape g (c.noIdx (hpc.ranges_zero hs)) h' h.doc hshape

/-- **C62 for paths without slices and filters, documents with further keys.** -/
theorem c62_known_partial (O : NumOps) (p : List Step) (hp : p ≠ []) (hlen : fewNames p) (hs : noSlices p)
    (pre trail : Str) (w : J) (h : Readable pre trail w) (ht : w.tidy = true) (hpl : w.plainStrings = true)
    (h0 : NUL ∉ pre ++ w.render ++ trail)
    (cores : Nat) (hc : 0 < cores) (hcm : cores ≤ MAX_THREAD) (g : Nat → Str) (u : Nat → Nat → UState) (ru : Nat → Nat → Nat → UState)
    (hpart : partition cores (pre ++ w.render ++ trail) ≠ none) (q : QDfa × QCtx) (hq : buildQuery (astOf p) = some q) (hsz : Sizes q.1 w)
    (hkeys : w.keysWithin 98 = true)
    (hnum : (selected p w).length ≤ MAX_OUTPUT) (htext : ∀ x ∈ selected p w, x.render.length ≤ 998)
    (htorn : ∀ xs ys : List Str, partition cores (pre ++ w.render ++ trail) = some ((xs ++ ys).map some) → xs ≠ [] → ys ≠ [] →
      UntornPath p pre w xs.flatten.length)
    (pre' trail' : Str) (v : J) (h' : DocOK pre' trail' v)
    (hg : ∀ x ∈ w.starts [], (∀ y ∈ v.starts [], y.2 ≠ x.2) → ∀ n, x.2 ≠ some (g n)) (hshape : KnownShape v w) :
    ∃ r, parallelRunOpt O MEMORY_FOOTPRINT cores (some (collectConstraints g q.1 (pre' ++ v.render ++ trail'))) u ru (astOf p)
        (pre ++ w.render ++ trail) = some (some r) ∧
      r.k.re = false ∧ r.k.bad = false ∧ r.pf.ub = false ∧ r.pf.output = (selected p w).map J.render := by
  refine trained_run O p hp hlen hs.ok pre trail w h ht hpl h0 cores hc hcm g u ru hpart q hq hsz hkeys hnum htext htorn _ ?_
  obtain ⟨c, hbc, hpc⟩ := pathCtx_of_build p hp hlen
  have hq' : buildQuery (astOf p) = some (tableOf c, contextOf c) := by unfold buildQuery; rw [hbc]; rfl
  rw [hq'] at hq
  cases hq
  exact c62_covers_known g (c.noIdx (hpc.ranges_zero hs)) h' h.doc hg hshape

/-- **C62 for paths with slices**: the same if the keys and arrays of `w` are at places where `v` has them too. -/
theorem c62_places_partial (O : NumOps) (p : List Step) (hp : p ≠ []) (hlen : fewNames p) (hs : SlicesOK p)
    (pre trail : Str) (w : J) (h : Readable pre trail w) (ht : w.tidy = true) (hpl : w.plainStrings = true)
    (h0 : NUL ∉ pre ++ w.render ++ trail)
    (cores : Nat) (hc : 0 < cores) (hcm : cores ≤ MAX_THREAD) (g : Nat → Str) (u : Nat → Nat → UState) (ru : Nat → Nat → Nat → UState)
    (hpart : partition cores (pre ++ w.render ++ trail) ≠ none) (q : QDfa × QCtx) (hq : buildQuery (astOf p) = some q) (hsz : Sizes q.1 w)
    (hkeys : w.keysWithin 98 = true)
    (hnum : (selected p w).length ≤ MAX_OUTPUT) (htext : ∀ x ∈ selected p w, x.render.length ≤ 998)
    (htorn : ∀ xs ys : List Str, partition cores (pre ++ w.render ++ trail) = some ((xs ++ ys).map some) → xs ≠ [] → ys ≠ [] →
      UntornPath p pre w xs.flatten.length)
    (pre' trail' : Str) (v : J) (h' : DocOK pre' trail' v) (hplaces : SamePlaces v w) :
    ∃ r, parallelRunOpt O MEMORY_FOOTPRINT cores (some (collectConstraints g q.1 (pre' ++ v.render ++ trail'))) u ru (astOf p)
        (pre ++ w.render ++ trail) = some (some r) ∧
      r.k.re = false ∧ r.k.bad = false ∧ r.pf.ub = false ∧ r.pf.output = (selected p w).map J.render :=
  trained_run O p hp hlen hs pre trail w h ht hpl h0 cores hc hcm g u ru hpart q hq hsz hkeys hnum htext htorn _
    (c62_covers_places g q.1 h' h.doc hplaces)

/-- **C62 for paths with filters**: the same as without. -/
theorem c62_filters_partial (O : NumOps) (p : List (QStep Num)) (hq : FilterQuery p)
    (pre trail : Str) (w : J) (h : Readable pre trail w) (ht : w.tidy = true) (hd : w.decided (arith O) O.atof p = true)
    (hw : w.within 998 = true) (hl : w.tokenCount ≤ MAX_TUPLE_LIST)
    (hn : (w.select (arith O) O.atof (unfiltered p)).length ≤ MAX_OUTPUT)
    (hx : ∀ x ∈ w.select (arith O) O.atof (unfiltered p), x.render.length ≤ 998)
    (hpl : w.plainStrings = true) (h0 : NUL ∉ pre ++ w.render ++ trail)
    (cores : Nat) (hc : 0 < cores) (hcm : cores ≤ MAX_THREAD) (g : Nat → Str)
    (u : Nat → Nat → UState) (ru : Nat → Nat → Nat → UState)
    (hpart : partition cores (pre ++ w.render ++ trail) ≠ none)
    (q : QDfa × QCtx) (hbq : buildQuery (fAst p) = some q) (hsz : Sizes q.1 w) (hkeys : w.keysWithin 98 = true)
    (htorn : ∀ xs ys : List Str, partition cores (pre ++ w.render ++ trail) = some ((xs ++ ys).map some) → xs ≠ [] → ys ≠ [] →
      Untorn (Matches (p.map sk)) pre w xs.flatten.length)
    (hearly : ∀ (x : Str) (xs ys : List Str), partition cores (pre ++ w.render ++ trail) = some ((x :: xs ++ ys).map some) → ys ≠ [] →
      FilteredEarly p pre w x.length (x :: xs).flatten.length)
    (pre' trail' : Str) (v : J) (h' : DocOK pre' trail' v) (hshape : SameShape v w) :
    ∃ r, parallelRunOpt O MEMORY_FOOTPRINT cores (some (collectConstraints g q.1 (pre' ++ v.render ++ trail'))) u ru (fAst p)
        (pre ++ w.render ++ trail) = some (some r) ∧
      r.k.re = false ∧ r.k.bad = false ∧ r.pf.ub = false ∧ r.pf.output = (w.select (arith O) O.atof p).map J.render := by
  obtain ⟨c, hbc, hf⟩ := ftab_of_build p hq.ne hq.clean hq.named hq.fresh hq.names
  have hq' : buildQuery (fAst p) = some (tableOf c, contextOf c) := by unfold buildQuery; rw [hbc]; rfl
  rw [hq'] at hbq
  cases hbq
  have hcov := c62_covers_shape g (d := tableOf c) hf.toFWords.noIdx h' h.doc hshape
  have hclean := c35_filter_partial O p hq pre trail w h ht hd hw hl hn hx
  obtain ⟨r, a1, a2⟩ := filters_ct_safe O p hbc hf pre trail w h hpl h0 cores hc hcm
    (some (collectConstraints g (tableOf c) (pre' ++ v.render ++ trail')))
    (fun c' e => by cases e; exact learned_nodup g _ _) (learned_statesIn g (c.dead hf.ok) c.one_lt _) (u 0) hpart hsz (.inr hkeys) hclean
    htorn hearly
  obtain ⟨a3, a4⟩ := a2 (.inl fun ps _ ht => ctChunks_covers hcov ht ps [] SA.init rfl Is.init)
  obtain ⟨b1, b2, b3⟩ := c43_covering_filters_partial O p hq pre trail w h hpl h0 cores hc c hbc _ (learned_nodup g _ _)
    hcov u ru r a1 a3 hclean htorn
  refine ⟨r, b2, b1, a3, a4, ?_⟩
  rw [c03_select_partial O p hq pre trail w h ht hd] at b3
  exact (Option.some.inj b3).symm

/-- **C62 for files in pieces**: the table learned from a small document, the run over a file loaded in pieces of any size. -/
theorem c62_pieces_partial (O : NumOps) (p : List Step) (hp : p ≠ []) (hlen : fewNames p) (hs : noSlices p)
    (pre trail : Str) (w : J) (h : DocOK pre trail w) (hsp : pre.head? ≠ some ' ') (hint : (w.render.length : Int) ≤ intMax)
    (hpl : w.plainStrings = true) (h0 : NUL ∉ pre ++ w.render ++ trail) (hff : ∀ c ∈ pre ++ w.render ++ trail, c.toNat ≠ 255)
    (B cores : Nat) (hB : 0 < B) (hc : 0 < cores) (q : QDfa × QCtx) (hq : buildQuery (astOf p) = some q) (g : Nat → Str)
    (pre' trail' : Str) (v : J) (h' : DocOK pre' trail' v) (hshape : SameShape v w)
    (u : Nat → Nat → UState) (ru : Nat → Nat → Nat → UState) (r : ParallelCtx)
    (hr : PrunedRun O q.1 q.2 (collectConstraints g q.1 (pre' ++ v.render ++ trail')) B cores u (pre ++ w.render ++ trail) r)
    (hub : ∀ B' s, (pre ++ w.render ++ trail).length ≤ B' → serialRun O B' (astOf p) (pre ++ w.render ++ trail) = some s → s.sa.ub = false)
    (htorn : ∀ xs ys : List Str, fileChunks B cores (pre ++ w.render ++ trail) = xs ++ ys → xs ≠ [] → ys ≠ [] →
      UntornPath p pre w xs.flatten.length) :
    parallelRunOpt O B cores (some (collectConstraints g q.1 (pre' ++ v.render ++ trail'))) u ru (astOf p) (pre ++ w.render ++ trail) =
      some (some r) ∧
    ∀ B', (pre ++ w.render ++ trail).length ≤ B' →
      (serialRun O B' (astOf p) (pre ++ w.render ++ trail)).map (·.pf.output) = some r.pf.output := by
  obtain ⟨a, -, b⟩ := c51_opt_paths_partial O p hp hlen hs.ok pre trail w h hsp hint hpl h0 hff B cores hB hc q hq _ (learned_nodup g _ _) (by
    obtain ⟨c, hbc, hpc⟩ := pathCtx_of_build p hp hlen
    have hq' : buildQuery (astOf p) = some (tableOf c, contextOf c) := by unfold buildQuery; rw [hbc]; rfl
    rw [hq'] at hq
    cases hq
    exact c62_covers_shape g (c.noIdx (hpc.ranges_zero hs)) h' h hshape) u ru r hr hub htorn
  exact ⟨a, b⟩

/-! ### What is false -/

/-- C62 without a condition on the shape: a table learned from any document serves any other. -/
def C62Full : Prop := ∀ (O : NumOps) (p : List Step) (v w : J) (cores : Nat) (u : Nat → Nat → UState) (ru : Nat → Nat → Nat → UState)
  (ct : CTable) (r0 r : ParallelCtx), DocOK [] [] v → DocOK [] [] w → Optimised O p v.render w.render cores u ru ct r0 r →
  r.k.bad = false → results O (astOf p) w.render = some r.pf.output

/-- `exTrain` as a document. -/
def exTrainDoc : J := .obj [] (.cons [] ['c'] [] [' '] (.lit ['1']) [] (.cons [' '] ['b'] [] [' '] (.lit ['2']) []
  (.cons [' '] ['a'] [] [' '] (.lit ['3']) [' '] .nil)))

set_option maxRecDepth 100000 in
/-- **C62 without a condition on the shape is false**: the case of `c44_false`.  The table is learned from a document that has the same
keys, but at the root. -/
theorem c62_false : ¬ C62Full := by
  intro h
  obtain ⟨r0, r, ho, h1, h2, _⟩ := optimised_of (p := exParPath) (train := exTrainDoc.render) (file := exPar.render) (cores := 3)
    (u := fun _ _ => .other) (ru := fun _ _ _ => .other) (out := ["1".toList, "{\"q\":1}".toList, "7".toList]) (by decide)
    (by with_unfolding_all rfl) exTrain_table (by with_unfolding_all rfl) (by with_unfolding_all rfl)
    (by rw [← exTrain_table]; exact exTrain_run)
  have := h _ _ _ _ _ _ _ _ _ _ ⟨by decide, by decide, by decide, by decide, by decide, by decide⟩ ⟨by decide, by decide, by decide, by decide, by decide, by decide⟩ ho h2
  rw [ho.same, h1, Option.some.injEq] at this
  have e : results intOps (astOf exParPath) exPar.render = some ["1".toList, "{\"q\":1}".toList, "7".toList] := by with_unfolding_all rfl
  rw [ho.same, Option.some.injEq, this] at e
  exact absurd e (by decide)

/-- The shapes differ: `exPar` has the key `b` in an element of `a`. -/
example : ¬ SameShape exTrainDoc exPar := by
  intro h
  obtain ⟨y, hy, e1, e2⟩ := h ([.key ['a'], .elem 0], some ['b']) (by decide)
  revert y
  decide

/-- C62 with slices for documents of the same shape. -/
def C62Slices : Prop := ∀ (O : NumOps) (p : List Step) (v w : J) (cores : Nat) (u : Nat → Nat → UState) (ru : Nat → Nat → Nat → UState)
  (ct : CTable) (r0 r : ParallelCtx), DocOK [] [] v → DocOK [] [] w → SameShape v w →
  Optimised O p v.render w.render cores u ru ct r0 r → r.k.bad = false → results O (astOf p) w.render = some r.pf.output

/-- `$.a[0:1].b.c`. -/
def exTrainPath : List Step := [.prop ['a'], .slice (some 0) (some 1), .prop ['b'], .prop ['c']]

/-- `{"a": [5, {"b": {"c": 1, "d": 2}}], "z": 2}`. -/
def exTrainLate : J := .obj [] (.cons [] ['a'] [] [' '] (.arr [] (.cons [] (.lit ['5']) [] (.cons [' '] (.obj [] (.cons [] ['b'] [] [' ']
    (.obj [] (.cons [] ['c'] [] [' '] (.lit ['1']) [] (.cons [' '] ['d'] [] [' '] (.lit ['2']) [] .nil))) [] .nil)) [] .nil))) []
  (.cons [' '] ['z'] [] [' '] (.lit ['2']) [] .nil))

/-- `{"a": [{"b": {"d": 500000, "c": 7}}], "z": 2}`. -/
def exTrainFirst : J := .obj [] (.cons [] ['a'] [] [' '] (.arr [] (.cons [] (.obj [] (.cons [] ['b'] [] [' ']
    (.obj [] (.cons [] ['d'] [] [' '] (.lit "500000".toList) [] (.cons [' '] ['c'] [] [' '] (.lit ['7']) [] .nil))) [] .nil)) [] .nil)) []
  (.cons [' '] ['z'] [] [' '] (.lit ['2']) [] .nil))

set_option maxRecDepth 100000 in
/-- **C62 with slices is false for documents that only have the same shape**: `$.a[0:1].b.c` with a table learned from a document whose
object is the second element, not in the slice, on one whose object is the first, with two threads.  The `7` is lost. -/
theorem c62_false_slices : ¬ C62Slices := by
  intro h
  obtain ⟨r0, r, ho, h1, h2, _⟩ := optimised_of (p := exTrainPath) (train := exTrainLate.render) (file := exTrainFirst.render) (cores := 2)
    (u := fun _ _ => .other) (ru := fun _ _ _ => .other) (out := ["7".toList]) (out' := []) (bad := false) (re := true)
    (ct := ⟨[⟨['a'], .ky, [1]⟩, ⟨[], .lb, [2]⟩, ⟨['b'], .ky, [3, 0]⟩, ⟨['c'], .ky, [0]⟩, ⟨['d'], .ky, [0]⟩, ⟨['z'], .ky, [1]⟩], false⟩)
    (by decide) (by decide +kernel) (by decide +kernel) (by decide +kernel) (by decide +kernel) (by decide +kernel)
  have := h _ _ _ _ _ _ _ _ _ _ ⟨by decide, by decide, by decide, by decide, by decide, by decide⟩
    ⟨by decide, by decide, by decide, by decide, by decide, by decide⟩ (by unfold SameShape; decide) ho h2
  rw [h1] at this
  have e : results intOps (astOf exTrainPath) exTrainFirst.render = some ["7".toList] := by decide +kernel
  rw [this] at e
  simp at e

/-- `c62_covers_known` for runs, without its condition on the memory of the table. -/
def C62Memory : Prop := ∀ (O : NumOps) (g : Nat → Str) (p : List Step) (v w : J) (cores : Nat) (u : Nat → Nat → UState)
  (ru : Nat → Nat → Nat → UState) (q : QDfa × QCtx) (r0 r : ParallelCtx), noSlices p → DocOK [] [] v → DocOK [] [] w → KnownShape v w →
  0 < cores → clean O (astOf p) w.render → buildQuery (astOf p) = some q →
  parallelRun O MEMORY_FOOTPRINT cores u (astOf p) w.render = some (some r0) → r0.k.bad = false →
  results O (astOf p) w.render = some r0.pf.output →
  parallelRunOpt O MEMORY_FOOTPRINT cores (some (collectConstraints g q.1 v.render)) u ru (astOf p) w.render = some (some r) →
  r.k.bad = false → results O (astOf p) w.render = some r.pf.output

/-- `{"a": [{"b": 1, "c": 2}]}`. -/
def exSmaller : J := .obj [] (.cons [] ['a'] [] [' '] (.arr [] (.cons [] (.obj [] (.cons [] ['b'] [] [' '] (.lit ['1']) []
    (.cons [' '] ['c'] [] [' '] (.lit ['2']) [] .nil))) [] .nil)) [] .nil)

/-- `{"a": [{"c": 500000, "y": 6, "b": 7}], "z": 2}`. -/
def exFresh : J := .obj [] (.cons [] ['a'] [] [' '] (.arr [] (.cons [] (.obj [] (.cons [] ['c'] [] [' '] (.lit "500000".toList) []
    (.cons [' '] ['y'] [] [' '] (.lit ['6']) [] (.cons [' '] ['b'] [] [' '] (.lit ['7']) [] .nil)))) [] .nil)) []
  (.cons [' '] ['z'] [] [' '] (.lit ['2']) [] .nil))

set_option maxRecDepth 100000 in
/-- **C62 depends on uninitialised memory**: the name of the entry for arrays is never written (constraint.h:130-135).  If that memory held
`y`, the table learned from a document without the key `y` lists the states of arrays for it; `$.a[*].b` on `exFresh` and three threads
then loses the `7`. -/
theorem c62_false_memory : ¬ C62Memory := by
  intro h
  have hs : (serialRun intOps MEMORY_FOOTPRINT (astOf exParPath) exFresh.render).map (fun r => (r.sa.ub, r.pf.ub)) = some (false, false) := by
    decide +kernel
  have hp : (parallelRun intOps MEMORY_FOOTPRINT 3 (fun _ _ => .other) (astOf exParPath) exFresh.render).map
      (·.map fun r => (r.pf.output, r.k.bad)) = some (some (["7".toList], false)) := by decide +kernel
  have he : results intOps (astOf exParPath) exFresh.render = some ["7".toList] := by decide +kernel
  have hb : ((buildQuery (astOf exParPath)).bind fun q => parallelRunOpt intOps MEMORY_FOOTPRINT 3
      (some (collectConstraints (fun _ => ['y']) q.1 exSmaller.render)) (fun _ _ => .other) (fun _ _ _ => .other) (astOf exParPath)
      exFresh.render).map (·.map fun r => (r.pf.output, r.k.bad)) = some (some ([], false)) := by decide +kernel
  cases hq : buildQuery (astOf exParPath) with
  | none => rw [hq] at hb; simp at hb
  | some q =>
    rw [hq, Option.bind_some] at hb
    obtain ⟨z, hz, e⟩ := Option.map_eq_some_iff.1 hp
    obtain ⟨r0, rfl, e⟩ := Option.map_eq_some_iff.1 e
    obtain ⟨z, hz', e'⟩ := Option.map_eq_some_iff.1 hb
    obtain ⟨r, rfl, e'⟩ := Option.map_eq_some_iff.1 e'
    obtain ⟨e1, e2⟩ := Prod.mk.inj (Option.some.inj e)
    obtain ⟨e3, e4⟩ := Prod.mk.inj (Option.some.inj e')
    have := h intOps (fun _ => ['y']) exParPath exSmaller exFresh 3 _ _ q r0 r exParPath_slices
      ⟨by decide, by decide, by decide, by decide, by decide, by decide⟩ ⟨by decide, by decide, by decide, by decide, by decide, by decide⟩
      (by unfold KnownShape; decide) (by decide) (fun r hr => by rw [hr] at hs; simpa using hs) hq hz e2 (by rw [he, e1]) hz' e4
    rw [he, e3] at this
    simp at this

/-! ### Examples -/

/-- `{"x": 1, "a": [{"b": {"q": 1}, "c": 2}], "z": 2}`: one element where `exParTidy` has three. -/
def exSmall : J := .obj [] (.cons [] ['x'] [] [' '] (.lit ['1']) [] (.cons [' '] ['a'] [] [' '] (.arr []
  (.cons [] (.obj [] (.cons [] ['b'] [] [' '] (.obj [] (.cons [] ['q'] [] [' '] (.lit ['1']) [] .nil)) []
    (.cons [' '] ['c'] [] [' '] (.lit ['2']) [] .nil))) [] .nil)) []
  (.cons [' '] ['z'] [] [' '] (.lit ['2']) [] .nil)))

theorem exSmall_ok : DocOK [] [] exSmall := ⟨by decide, by decide, by decide, by decide, by decide, by decide⟩

theorem exSmall_shape : SameShape exSmall exParTidy := by unfold SameShape; decide

/-- `c62_shape_partial` applied: the table learned from `exSmall`, the run of `$.a[*].b` on the three elements of `exParTidy`. -/
example (O : NumOps) (g : Nat → Str) (u : Nat → Nat → UState) (ru : Nat → Nat → Nat → UState) (q : QDfa × QCtx)
    (hq : buildQuery (astOf exParPath) = some q) :
    ∃ r, parallelRunOpt O MEMORY_FOOTPRINT 3 (some (collectConstraints g q.1 ([] ++ exSmall.render ++ []))) u ru (astOf exParPath)
        ([] ++ exParTidy.render ++ []) = some (some r) ∧
      r.k.re = false ∧ r.k.bad = false ∧ r.pf.ub = false ∧ r.pf.output = ["1".toList, "{\"q\": 1}".toList, "7".toList] := by
  rw [← exParTidy_selected]
  have e : (buildQuery (astOf exParPath)).map (·.1.statesNum) = some 5 := by decide
  rw [hq] at e
  have e : q.1.statesNum = 5 := Option.some.inj e
  refine c62_shape_partial O exParPath (by decide) (by decide) exParPath_slices [] [] exParTidy
    ⟨by decide, by decide, by decide, by decide, by decide, by decide, by decide, by decide⟩ (by decide) (by decide) (by decide) 3
    (by decide) (by decide) g u ru (by rw [List.nil_append, List.append_nil, exParTidy_partition]; nofun) q hq
    ⟨by decide, by decide, by rw [e]; decide, by rw [e]; decide, by rw [e]; decide⟩ (by decide) ?_ ?_
    (fun xs ys e hx hy => (exParTidy_untorn xs ys e hx hy).path exParPath_slices) [] [] exSmall exSmall_ok exSmall_shape
  · have := congrArg List.length exParTidy_selected
    rw [List.length_map] at this
    rw [this]; decide
  · intro x hx
    have := List.mem_map_of_mem (f := J.render) hx
    rw [exParTidy_selected] at this
    revert this
    generalize x.render = y
    intro h
    simp only [List.mem_cons, List.not_mem_nil, or_false] at h
    rcases h with rfl | rfl | rfl <;> decide

/-- `c62_known_partial` applied: the table learned from `exSmaller`, which has neither `x`, `z` nor `q`, with zeros in the memory. -/
example (O : NumOps) (u : Nat → Nat → UState) (ru : Nat → Nat → Nat → UState) (q : QDfa × QCtx)
    (hq : buildQuery (astOf exParPath) = some q) :
    ∃ r, parallelRunOpt O MEMORY_FOOTPRINT 3 (some (collectConstraints (fun _ => []) q.1 ([] ++ exSmaller.render ++ []))) u ru
        (astOf exParPath) ([] ++ exParTidy.render ++ []) = some (some r) ∧
      r.k.re = false ∧ r.k.bad = false ∧ r.pf.ub = false ∧ r.pf.output = ["1".toList, "{\"q\": 1}".toList, "7".toList] := by
  rw [← exParTidy_selected]
  have e : (buildQuery (astOf exParPath)).map (·.1.statesNum) = some 5 := by decide
  rw [hq] at e
  have e : q.1.statesNum = 5 := Option.some.inj e
  refine c62_known_partial O exParPath (by decide) (by decide) exParPath_slices [] [] exParTidy
    ⟨by decide, by decide, by decide, by decide, by decide, by decide, by decide, by decide⟩ (by decide) (by decide) (by decide) 3
    (by decide) (by decide) (fun _ => []) u ru (by rw [List.nil_append, List.append_nil, exParTidy_partition]; nofun) q hq
    ⟨by decide, by decide, by rw [e]; decide, by rw [e]; decide, by rw [e]; decide⟩ (by decide) ?_ ?_
    (fun xs ys e hx hy => (exParTidy_untorn xs ys e hx hy).path exParPath_slices) [] [] exSmaller
    ⟨by decide, by decide, by decide, by decide, by decide, by decide⟩ ?_ (by unfold KnownShape; decide)
  · have := congrArg List.length exParTidy_selected
    rw [List.length_map] at this
    rw [this]; decide
  · intro x hx
    have := List.mem_map_of_mem (f := J.render) hx
    rw [exParTidy_selected] at this
    revert this
    generalize x.render = y
    intro h
    simp only [List.mem_cons, List.not_mem_nil, or_false] at h
    rcases h with rfl | rfl | rfl <;> decide
  · intro x hx _ _
    have : ∀ x ∈ exParTidy.starts [], x.2 ≠ some [] := by decide
    exact this x hx

example : ¬ SameShape exSmaller exParTidy := by unfold SameShape; decide

/-- `{"a": [{"b": [], "c": 0}, {"b": [], "c": 0}, {"b": [], "c": 0}], "x": 1, "z": 2}`: the keys and arrays of `exParSlice` without the
elements of the inner arrays, in another order. -/
def exPlaces : J :=
  let e (ws : Str) (es : Elems) : Elems := .cons ws (.obj [] (.cons [] ['b'] [] [' '] (.arr [] .nil) []
    (.cons [' '] ['c'] [] [' '] (.lit ['0']) [] .nil))) [] es
  .obj [] (.cons [] ['a'] [] [' '] (.arr [] (e [] (e [' '] (e [' '] .nil)))) []
    (.cons [' '] ['x'] [] [' '] (.lit ['1']) [] (.cons [' '] ['z'] [] [' '] (.lit ['2']) [] .nil)))

/-- `c62_places_partial` applied: the table learned from `exPlaces`, the run of `$.a[*].b[1:]` on `exParSlice`. -/
example (O : NumOps) (g : Nat → Str) (u : Nat → Nat → UState) (ru : Nat → Nat → Nat → UState) (q : QDfa × QCtx)
    (hq : buildQuery (astOf exParSlicePath) = some q) :
    ∃ r, parallelRunOpt O MEMORY_FOOTPRINT 3 (some (collectConstraints g q.1 ([] ++ exPlaces.render ++ []))) u ru (astOf exParSlicePath)
        ([] ++ exParSlice.render ++ []) = some (some r) ∧
      r.k.re = false ∧ r.k.bad = false ∧ r.pf.ub = false ∧ r.pf.output = ["2".toList, "3".toList, "5".toList] := by
  rw [← exParSlice_selected]
  have e : (buildQuery (astOf exParSlicePath)).map (·.1.statesNum) = some 6 := by decide
  rw [hq] at e
  have e : q.1.statesNum = 6 := Option.some.inj e
  refine c62_places_partial O exParSlicePath (by decide) (by decide) exParSlice_ok [] [] exParSlice
    ⟨by decide, by decide, by decide, by decide, by decide, by decide, by decide, by decide⟩ (by decide) (by decide) (by decide) 3
    (by decide) (by decide) g u ru (by rw [List.nil_append, List.append_nil, exParSlice_partition]; nofun) q hq
    ⟨by decide, by decide, by rw [e]; decide, by rw [e]; decide, by rw [e]; decide⟩ (by decide) ?_ ?_
    exParSlice_untorn [] [] exPlaces ⟨by decide, by decide, by decide, by decide, by decide, by decide⟩ (by unfold SamePlaces; decide)
  · have := congrArg List.length exParSlice_selected
    rw [List.length_map] at this
    rw [this]; decide
  · intro x hx
    have := List.mem_map_of_mem (f := J.render) hx
    rw [exParSlice_selected] at this
    revert this
    generalize x.render = y
    intro h
    simp only [List.mem_cons, List.not_mem_nil, or_false] at h
    rcases h with rfl | rfl | rfl <;> decide

set_option maxRecDepth 100000 in
/-- The hypotheses of `c62_filters_partial` on the two documents, and the result, for the query of Props/ParallelFilter.lean; the other
hypotheses are shown there. -/
example : DocOK [] [] exSmall ∧ SameShape exSmall exParTidy ∧ exParTidy.keysWithin 98 = true ∧
    (parallelRunOpt intOps MEMORY_FOOTPRINT 3 (learnedF exParFilter exSmall.render) (fun _ _ => .other) (fun _ _ _ => .other)
      (fAst exParFilter) exParTidy.render).map (·.map fun r => (r.pf.output, r.k.bad, r.k.re)) =
      some (some (["{\"q\": 1}".toList, "7".toList], false, false)) :=
  ⟨exSmall_ok, exSmall_shape, by decide, by with_unfolding_all rfl⟩

/-- The hypotheses of `c62_pieces_partial` on the table and the run hold for `$.a[*].b` on `exLong`, loaded in two pieces for two threads,
with the table learned from `exSmall`, which fits in one; the others are shown in Props/ParallelPieces.lean. -/
example : DocOK [] [] exSmall ∧ SameShape exSmall exLong ∧ ∃ q r, buildQuery (astOf exParPath) = some q ∧
    PrunedRun intOps q.1 q.2 (collectConstraints (fun _ => []) q.1 ([] ++ exSmall.render ++ [])) 40 2 (fun _ _ => .other)
      ([] ++ exLong.render ++ []) r ∧
    r.pf.output = ["1".toList, "2".toList, "3".toList, "4".toList] := by
  have h1 : (buildQuery (astOf exParPath)).map (fun q => (parallelPieces intOps q.1 q.2
      (some (collectConstraints (fun _ => []) q.1 ([] ++ exSmall.render ++ []))) (fun _ _ => .other) 2 0 none
      (pieces 40 ([] ++ exLong.render ++ []) (([] ++ exLong.render ++ []).length + 1) 0)).map (·.map (·.pf.output))) =
      some (some (some ["1".toList, "2".toList, "3".toList, "4".toList])) := by decide +kernel
  have h2 : (buildQuery (astOf exParPath)).map (fun q => prunedDefinedB intOps q.1 q.2
      (collectConstraints (fun _ => []) q.1 ([] ++ exSmall.render ++ [])) 40 2 (fun _ _ => .other) ([] ++ exLong.render ++ [])) =
      some true := by decide +kernel
  refine ⟨exSmall_ok, by unfold SameShape; decide, ?_⟩
  cases hq : buildQuery (astOf exParPath) with
  | none => rw [hq] at h2; cases h2
  | some q =>
    rw [hq] at h1 h2
    simp only [Option.map_some, Option.some.injEq] at h1 h2
    obtain ⟨z, hz, e⟩ := Option.map_eq_some_iff.1 h1
    obtain ⟨r, rfl, e⟩ := Option.map_eq_some_iff.1 e
    exact ⟨q, r, rfl, prunedRun_of hz h2, Option.some.inj e⟩

end JPS
