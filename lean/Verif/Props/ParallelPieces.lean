import Verif.ParResume
import Verif.Carry
import Verif.Props.ParallelFilter
import Verif.Props.Footprint
/-!
# C51: parallel runs over several pieces
-/

set_option autoImplicit false

namespace JPS
open Spec

/-- The chunks of all pieces of a file, in order. -/
def fileChunks (B cores : Nat) (file : Str) : List Str :=
  (pieces B file (file.length + 1) 0).flatMap fun p => ((partition cores p).getD []).filterMap id

/-- No piece of the file is processed with undefined behaviour. -/
def piecesDefined (O : NumOps) (B cores : Nat) (u : Nat → Nat → UState) (t : Ast) (file : Str) : Prop :=
  ∀ q ps r, buildQuery t = some q → ps <+: pieces B file (file.length + 1) 0 →
    parallelPieces O q.1 q.2 none u cores 0 none ps = some (some r) → r.k.bad = false

theorem flatten_split {α : Type} : ∀ (xss : List (List α)) (ys zs : List α), xss.flatten = ys ++ zs → zs ≠ [] →
    ∃ as c1 c2 bs, xss = as ++ (c1 ++ c2) :: bs ∧ ys = as.flatten ++ c1 ∧ zs = c2 ++ bs.flatten ∧ c2 ≠ []
  | [], ys, zs, h, hz => by
    have := List.append_eq_nil_iff.1 h.symm
    exact absurd this.2 hz
  | x :: xss, ys, zs, h, hz => by
    rw [List.flatten_cons] at h
    rcases List.append_eq_append_iff.1 h with ⟨w, h1, h2⟩ | ⟨w, h1, h2⟩
    · obtain ⟨as, c1, c2, bs, e1, e2, e3, e4⟩ := flatten_split xss w zs h2 hz
      exact ⟨x :: as, c1, c2, bs, by rw [e1]; rfl, by rw [h1, e2]; simp, e3, e4⟩
    · by_cases hw : w = []
      · subst hw
        rw [List.append_nil] at h1
        obtain ⟨as, c1, c2, bs, e1, e2, e3, e4⟩ := flatten_split xss [] zs (by simpa using h2.symm) hz
        exact ⟨x :: as, c1, c2, bs, by rw [e1]; rfl, by rw [← h1, List.flatten_cons, List.append_assoc, ← e2, List.append_nil], e3, e4⟩
      · exact ⟨[], ys, w, xss, by rw [h1]; rfl, by simp, h2, hw⟩

/-- A run over pieces, piece by piece. -/
theorem chain_of {O : NumOps} {d : QDfa} {ctx : QCtx} {ct : Option CTable} {u : Nat → Nat → UState} {cores : Nat} :
    ∀ (ps : List Str) (n : Nat) (c : Option ParallelCtx) (r : ParallelCtx),
    parallelPieces O d ctx ct u cores n c ps = some (some r) →
    (∀ qs r, qs <+: ps → qs ≠ [] → parallelPieces O d ctx ct u cores n c qs = some (some r) → r.k.bad = false) →
    ∃ ks, KChain d ct u n (c.map (·.k)) (ps.map fun p => ((partition cores p).getD []).filterMap id) ks ∧ (∀ k ∈ ks, k.bad = false) ∧
      (∀ p ∈ ps, partition cores p ≠ none) ∧
      (∀ qs z, qs <+: ps → qs ≠ [] → parallelPieces O d ctx ct u cores n c qs = some (some z) → z.k ∈ ks) ∧
      r.pf = (ks.map K.tuples).foldl (generate O ctx) (match c with | some c => c.pf | none => PF.init ctx)
  | [], n, c, r, h, _ => by
    simp only [parallelPieces, Option.some.injEq] at h
    subst h
    exact ⟨[], rfl, (fun _ h => by cases h), (fun _ h => by cases h), (fun qs _ hq hn => absurd (List.prefix_nil.1 hq) hn), rfl⟩
  | p :: ps, n, c, r, h, hb => by
    cases hx : parallelPartialRun O d ctx ct (u n) cores c p with
    | none => simp only [parallelPieces, hx] at h; cases h
    | some z =>
      have hz : z.k.bad = false := hb [p] z ⟨ps, rfl⟩ (by simp) (by simp only [parallelPieces, hx])
      simp only [parallelPieces, hx] at h
      obtain ⟨ks, i1, i2, i3, i5, i4⟩ := chain_of ps (n + 1) (some z) r h (fun qs r hq _ hr =>
        hb (p :: qs) r (List.cons_prefix_cons.2 ⟨rfl, hq⟩) (by simp) (by simp only [parallelPieces, hx]; exact hr))
      have hx' := hx
      unfold parallelPartialRun at hx
      cases hp : partition cores p with
      | none => rw [hp] at hx; cases hx
      | some chunks =>
        rw [hp] at hx
        simp only at hx
        split at hx
        · cases hx
        · cases he : executeParallel d ct (u n) (c.map fun x : ParallelCtx => x.k) (chunks.filterMap id) with
          | none => rw [he] at hx; cases hx
          | some k =>
            rw [he] at hx
            simp only [Option.some.injEq] at hx
            subst hx
            refine ⟨k :: ks, ⟨by
              show executeParallel d ct (u n) _ (((partition cores p).getD []).filterMap id) = _
              rw [hp]; exact he, i1⟩, ?_, ?_, ?_, ?_⟩
            · intro y hy
              rcases List.mem_cons.1 hy with rfl | hy
              · exact hz
              · exact i2 y hy
            · intro y hy
              rcases List.mem_cons.1 hy with rfl | hy
              · rw [hp]; simp
              · exact i3 y hy
            · intro qs y hq hn hy
              obtain ⟨q, qs, rfl⟩ := List.exists_cons_of_ne_nil hn
              obtain ⟨rfl, hq'⟩ := List.cons_prefix_cons.1 hq
              simp only [parallelPieces, hx'] at hy
              by_cases hqs : qs = []
              · subst hqs
                simp only [parallelPieces, Option.some.injEq] at hy
                subst hy
                simp
              · exact List.mem_cons_of_mem _ (i5 qs y hq' hqs hy)
            · rw [i4]; rfl

/-- What the loader and the partition make of a document. -/
theorem doc_fileChunks {B cores : Nat} (hB : 0 < B) (hc : 0 < cores) {pre trail : Str} {v : J} (h : DocOK pre trail v)
    (hsp : pre.head? ≠ some ' ') (hpl : v.plainStrings = true) (h0 : NUL ∉ pre ++ v.render ++ trail)
    (hff : ∀ c ∈ pre ++ v.render ++ trail, c.toNat ≠ 255)
    (hp : ∀ p ∈ pieces B (pre ++ v.render ++ trail) ((pre ++ v.render ++ trail).length + 1) 0, partition cores p ≠ none) :
    (fileChunks B cores (pre ++ v.render ++ trail)).flatten = pre ++ v.render ++ trail ∧
    [] ∉ fileChunks B cores (pre ++ v.render ++ trail) ∧
    (∀ p ∈ pieces B (pre ++ v.render ++ trail) ((pre ++ v.render ++ trail).length + 1) 0,
      (((partition cores p).getD []).filterMap id).flatten = p ∧ ((partition cores p).getD []).filterMap id ≠ []) ∧
    ∀ xs ys, fileChunks B cores (pre ++ v.render ++ trail) = xs ++ ys → xs ≠ [] → ys ≠ [] →
      CutAt (pre ++ v.render ++ trail) xs.flatten.length := by
  have hfl := c19_lossless B hB (pre ++ v.render ++ trail)
  have hne := (c19_terminates B hB (pre ++ v.render ++ trail)).2.2
  have hst : ∀ xs ys, pieces B (pre ++ v.render ++ trail) ((pre ++ v.render ++ trail).length + 1) 0 = xs ++ ys → xs ≠ [] → ys ≠ [] →
      CutAt (pre ++ v.render ++ trail) xs.flatten.length := by
    intro xs ys e hx hy
    obtain ⟨g1, g2⟩ := pieces_stop _ _ _ _ _ e hx
    simp only [List.take_zero, List.nil_append, Nat.zero_add, List.drop_zero] at g1 g2
    have hxs : xs.flatten = (pre ++ v.render ++ trail).take xs.flatten.length := by
      conv => rhs; rw [g2]
      simp
    rcases g1 with g1 | ⟨c, r, g1, hc⟩ | ⟨r, u, w, c, g1, g3, g4, g5⟩
    · exfalso
      rw [g1, List.append_nil] at g2
      rw [e, List.flatten_append] at hfl
      have : ys.flatten = [] := by
        have hl := congrArg List.length hfl
        rw [List.length_append, ← congrArg List.length g2] at hl
        exact List.eq_nil_of_length_eq_zero (by omega)
      obtain ⟨y, ys, rfl⟩ := List.exists_cons_of_ne_nil hy
      rw [List.flatten_cons, List.append_eq_nil_iff] at this
      exact hne (by rw [e, this.1]; simp)
    · exact absurd hc (hff c (by rw [g2, g1]; simp))
    · rw [hxs] at g3
      exact ⟨r, u, w, c, g1, g3, g4, g5⟩
  have hnonblank : (pre ++ v.render ++ trail).head? ≠ some ' ' := by
    have hcn := h.container
    cases pre with
    | nil => cases v <;> simp [J.isContainer, J.render] at hcn ⊢
    | cons z pre => simpa using hsp
  generalize hS : pre ++ v.render ++ trail = S at *
  unfold fileChunks at *
  generalize hP : pieces B S (S.length + 1) 0 = ps at *
  have hhead : ∀ as p bs, ps = as ++ p :: bs → p.head? ≠ some ' ' := by
    intro as p bs e
    have hp0 : p ≠ [] := by rintro rfl; exact hne (by rw [e]; simp)
    have hps := hfl
    rw [e, List.flatten_append, List.flatten_cons] at hps
    obtain ⟨z, p, rfl⟩ := List.exists_cons_of_ne_nil hp0
    by_cases ha : as = []
    · subst ha
      rw [← hps] at hnonblank
      simpa using hnonblank
    · obtain ⟨r, _, _, _, e1, _⟩ := hst as _ e ha (by simp)
      rw [← hps] at e1
      simp only [List.drop_left, List.cons_append, List.cons.injEq] at e1
      simp [e1.1]
  have hspec : ∀ as p bs, ps = as ++ p :: bs → (((partition cores p).getD []).filterMap id).flatten = p ∧
      ((partition cores p).getD []).filterMap id ≠ [] ∧ [] ∉ ((partition cores p).getD []).filterMap id ∧
      ∀ xs ys, ((partition cores p).getD []).filterMap id = xs ++ ys → xs ≠ [] → ys ≠ [] → CutAt p xs.flatten.length := by
    intro as p bs e
    have hp0 : p ≠ [] := by rintro rfl; exact hne (by rw [e]; simp)
    have hpn : NUL ∉ p := by
      intro hm
      exact h0 (by rw [← hfl, e]; simp [hm])
    cases hq : partition cores p with
    | none => exact absurd hq (hp p (by rw [e]; simp))
    | some chunks =>
      obtain ⟨xs, q1, q2, q3, q4, q5⟩ := partition_spec hc hp0 hpn (hhead as p bs e) hq
      have hfm : ((some chunks).getD []).filterMap id = xs := by rw [q1]; simp [List.filterMap_map]
      rw [hfm]
      refine ⟨q2, ?_, fun hm => q4 _ hm rfl, q5⟩
      rintro rfl
      exact hp0 (by rw [← q2]; rfl)
  have hflat : ∀ as bs, ps = as ++ bs → (as.flatMap fun p => ((partition cores p).getD []).filterMap id).flatten = as.flatten := by
    have key : ∀ as zs bs, ps = zs ++ (as ++ bs) →
        (as.flatMap fun p => ((partition cores p).getD []).filterMap id).flatten = as.flatten := by
      intro as
      induction as with
      | nil => intro zs bs _; rfl
      | cons p as ih =>
        intro zs bs e
        rw [List.flatMap_cons, List.flatten_append, List.flatten_cons, ih (zs ++ [p]) bs (by rw [e]; simp),
          (hspec zs p (as ++ bs) (by rw [e]; simp)).1]
    exact fun as bs e => key as [] bs e
  refine ⟨?_, ?_, ?_, ?_⟩
  · rw [hflat ps [] (by simp), hfl]
  · intro hm
    obtain ⟨p, hp1, hp2⟩ := List.mem_flatMap.1 hm
    obtain ⟨as, bs, e⟩ := List.append_of_mem hp1
    exact (hspec as p bs e).2.2.1 hp2
  · intro p hp1
    obtain ⟨as, bs, e⟩ := List.append_of_mem hp1
    exact ⟨(hspec as p bs e).1, (hspec as p bs e).2.1⟩
  · intro xs ys e hx hy
    rw [List.flatMap_def] at e
    obtain ⟨as, c1, c2, bs, e1, e2, e3, e4⟩ := flatten_split _ xs ys e hy
    obtain ⟨as', rest, rfl, f2, f3⟩ := List.map_eq_append_iff.1 e1
    obtain ⟨p, bs', rfl, g2, g3⟩ := List.map_eq_cons_iff.1 f3
    have hx2 : xs.flatten.length = as'.flatten.length + c1.flatten.length := by
      rw [e2, List.flatten_append, List.length_append, ← f2, ← List.flatMap_def, hflat as' (p :: bs') rfl]
    by_cases h1 : c1 = []
    · subst h1
      rw [hx2]
      refine hst as' (p :: bs') rfl ?_ (by simp)
      rintro rfl
      rw [← f2] at e2
      exact hx (by simpa using e2)
    · obtain ⟨r, u, w, c, a1, a2, a3, a4⟩ := (hspec as' p bs' rfl).2.2.2 c1 c2 g2 h1 e4
      have hps := hfl
      rw [List.flatten_append, List.flatten_cons] at hps
      rw [hx2, ← hps]
      have hle : c1.flatten.length ≤ p.length := by
        have := (hspec as' p bs' rfl).1
        rw [g2, List.flatten_append] at this
        rw [← this]; simp
      refine ⟨r ++ bs'.flatten, u ++ as'.flatten.reverse, w, c, ?_, ?_, a3, a4⟩
      · rw [List.drop_append, List.drop_eq_nil_of_le (by omega), List.nil_append, Nat.add_sub_cancel_left,
          List.drop_append_of_le_length hle, a1]
        rfl
      · rw [List.take_append, List.take_of_length_le (by omega), Nat.add_sub_cancel_left, List.take_append_of_le_length hle,
          List.reverse_append, a2]
        simp

/-- A parallel run over the pieces of a document for a query whose automaton has a dead state and no index range at the start state. -/
theorem tree_pieces_ct (O : NumOps) (t : Ast) {c : SCtx} (hbc : buildCtx t = some c) (hdead : Dead (tableOf c) (tableOf c).statesNum)
    (hidx : NoIdx (tableOf c) 1) (pre trail : Str) (v : J) (h : DocOK pre trail v) (hsp : pre.head? ≠ some ' ')
    (hpl : v.plainStrings = true) (h0 : NUL ∉ pre ++ v.render ++ trail) (hff : ∀ c ∈ pre ++ v.render ++ trail, c.toNat ≠ 255)
    (B cores : Nat) (hB : 0 < B) (hc : 0 < cores) (ct : Option CTable) (hnd : ct.NodupOK) (u : Nat → Nat → UState) (r : ParallelCtx)
    (hr' : parallelPieces O (tableOf c) (contextOf c) ct u cores 0 none
      (pieces B (pre ++ v.render ++ trail) ((pre ++ v.render ++ trail).length + 1) 0) = some (some r))
    (hdef : ∀ qs z, qs <+: pieces B (pre ++ v.render ++ trail) ((pre ++ v.render ++ trail).length + 1) 0 →
      parallelPieces O (tableOf c) (contextOf c) ct u cores 0 none qs = some (some z) → z.k.bad = false)
    (hct : ∀ ps : List Str, ps.flatten = pre ++ v.render ++ trail → pieceToks 0 ps = lexAll (pre ++ v.render ++ trail) →
      ctChunks (tableOf c) ct SA.init ps)
    (hub : ∀ B' s, (pre ++ v.render ++ trail).length ≤ B' → serialRun O B' t (pre ++ v.render ++ trail) = some s → s.sa.ub = false)
    (hok : ∀ xs ys : List Str, fileChunks B cores (pre ++ v.render ++ trail) = xs ++ ys → xs ≠ [] → ys ≠ [] →
      (∃ u w c, ((pre ++ v.render ++ trail).take xs.flatten.length).reverse = w ++ c :: u ∧ w.all isSkip = true ∧
        (c = ',' ∨ c = '{' ∨ c = '[')) → CutsOK (tableOf c) pre trail v xs.flatten.length) :
    ((serialRun O B t (pre ++ v.render ++ trail)).map (·.pf.output) = some r.pf.output ∧
    ∀ B', (pre ++ v.render ++ trail).length ≤ B' →
      (serialRun O B' t (pre ++ v.render ++ trail)).map (·.pf.output) = some r.pf.output) ∧
    ∀ qs z, qs <+: pieces B (pre ++ v.render ++ trail) ((pre ++ v.render ++ trail).length + 1) 0 → qs ≠ [] →
      parallelPieces O (tableOf c) (contextOf c) ct u cores 0 none qs = some (some z) → z.k.re = false := by
  have hbq : buildQuery t = some (tableOf c, contextOf c) := by unfold buildQuery; rw [hbc]; rfl
  obtain ⟨ks, k1, k2, k3, k5, k4⟩ := chain_of _ 0 none r hr' (fun qs r hq _ hr => hdef qs r hq hr)
  obtain ⟨q1, q2, q3, q4⟩ := doc_fileChunks hB hc h hsp hpl h0 hff k3
  have hcut : CutsAtStrings pre v (fileChunks B cores (pre ++ v.render ++ trail)) := by
    intro xs ys e hx hy
    obtain ⟨r', u', w', c', a1, a2, a3, a4⟩ := q4 xs ys e hx hy
    exact opens_string h.preWs h.trailWs h.wf hpl a1 a2 a3 a4
  have hok' : ∀ xs ys, fileChunks B cores (pre ++ v.render ++ trail) = xs ++ ys → xs ≠ [] → ys ≠ [] →
      CutsOK (tableOf c) pre trail v xs.flatten.length := by
    intro xs ys e hx hy
    obtain ⟨r', u', w', c', a1, a2, a3, a4⟩ := q4 xs ys e hx hy
    exact hok xs ys e hx hy ⟨u', w', c', a2, a3, a4⟩
  have hwhole : ∀ B', (pre ++ v.render ++ trail).length ≤ B' → serialRun O B' t (pre ++ v.render ++ trail) =
      some (serialPartialRun O (tableOf c) (contextOf c) none (pre ++ v.render ++ trail)) :=
    fun B' hB' => serialRun_single O B' t _ c hbc h.nonempty hB'
  have hub' : (execAutomaton (tableOf c) (pre ++ v.render ++ trail) SA.init).ub = false :=
    hub _ _ (Nat.le_refl _) (hwhole _ (Nat.le_refl _))
  have hC := doc_chunksOK (tableOf c) h q1 q2 hcut hok' _ [] SA.init rfl Is.init
  have hcl := doc_cleanCuts (tableOf c) h hsp q1 q2 hcut (fun xs ys e hx hy => (hok' xs ys e hx hy).opn) _ [] SA.init rfl Is.init
  have htup := pieces_tuples (tableOf c) pre trail v h hsp _ q1 q2 hcut hcl hub'
  have hfc : fileChunks B cores (pre ++ v.render ++ trail) =
      ((pieces B (pre ++ v.render ++ trail) ((pre ++ v.render ++ trail).length + 1) 0).map fun p =>
        ((partition cores p).getD []).filterMap id).flatten := List.flatMap_def
  obtain ⟨hchain, hres⟩ := chain_sim hnd hdead c.one_lt hidx _ ks k1 k2 (by
    intro cs hcs
    obtain ⟨p, hp, rfl⟩ := List.mem_map.1 hcs
    exact (q3 p hp).2) (by rw [← hfc]; exact hC) (by
      rw [← hfc]
      exact hct _ q1 (by obtain ⟨t1, t2, _⟩ := doc_pieceToks h q1 q2 hcut; rw [t1, t2])) (.inl ⟨rfl, rfl, rfl⟩)
  rw [← hfc, htup] at hchain
  have hpf : r.pf = (serialPartialRun O (tableOf c) (contextOf c) none (pre ++ v.render ++ trail)).pf := by
    rw [k4, c23_batches, hchain]
    rfl
  -- the serial run over the same pieces
  have hcutP : ∀ xs ys, pieces B (pre ++ v.render ++ trail) ((pre ++ v.render ++ trail).length + 1) 0 = xs ++ ys → xs ≠ [] → ys ≠ [] →
      ∃ as bs, fileChunks B cores (pre ++ v.render ++ trail) = as ++ bs ∧ as ≠ [] ∧ bs ≠ [] ∧
        as.flatten.length = xs.flatten.length := by
    intro xs ys e hx hy
    have hsub : ∀ zs : List Str, (∀ z ∈ zs, z ∈ pieces B (pre ++ v.render ++ trail) ((pre ++ v.render ++ trail).length + 1) 0) →
        (zs.flatMap fun p => ((partition cores p).getD []).filterMap id).flatten = zs.flatten ∧
        (zs ≠ [] → (zs.flatMap fun p => ((partition cores p).getD []).filterMap id) ≠ []) := by
      intro zs
      induction zs with
      | nil => exact fun _ => ⟨rfl, fun hz => absurd rfl hz⟩
      | cons z zs ih =>
        intro hz
        obtain ⟨i1, i2⟩ := ih (fun y hy => hz y (by simp [hy]))
        obtain ⟨j1, j2⟩ := q3 z (hz z (by simp))
        refine ⟨by rw [List.flatMap_cons, List.flatten_append, i1, j1, List.flatten_cons], fun _ => ?_⟩
        rw [List.flatMap_cons]
        intro hn
        exact j2 (List.append_eq_nil_iff.1 hn).1
    obtain ⟨x1, x2⟩ := hsub xs (fun z hz => by rw [e]; simp [hz])
    obtain ⟨y1, y2⟩ := hsub ys (fun z hz => by rw [e]; simp [hz])
    exact ⟨_, _, by unfold fileChunks; rw [e, List.flatMap_append], x2 hx, y2 hy, by rw [x1]⟩
  have hneP := (c19_terminates B hB (pre ++ v.render ++ trail)).2.2
  have hflP := c19_lossless B hB (pre ++ v.render ++ trail)
  have hcutS : CutsAtStrings pre v (pieces B (pre ++ v.render ++ trail) ((pre ++ v.render ++ trail).length + 1) 0) := by
    intro xs ys e hx hy
    obtain ⟨as, bs, e1, e2, e3, e4⟩ := hcutP xs ys e hx hy
    rw [← e4]
    exact hcut as bs e1 e2 e3
  have hclP := doc_cleanCuts (tableOf c) h hsp hflP hneP hcutS (fun xs ys e hx hy => by
    obtain ⟨as, bs, e1, e2, e3, e4⟩ := hcutP xs ys e hx hy
    rw [← e4]
    exact (hok' as bs e1 e2 e3).opn) _ [] SA.init rfl Is.init
  have hser := (c22_text_partial O (tableOf c) (contextOf c) pre trail v h hsp _ hflP hneP hcutS hclP hub').2
  refine ⟨⟨?_, fun B' hB' => by rw [hwhole B' hB', hpf]; rfl⟩, fun qs z hq hn hz => hres _ (k5 qs z hq hn hz)⟩
  have hs1 : serialRun O B t (pre ++ v.render ++ trail) = serialPieces O (tableOf c) (contextOf c)
      (pieces B (pre ++ v.render ++ trail) ((pre ++ v.render ++ trail).length + 1) 0) := by
    unfold serialRun
    rw [hbq]; rfl
  rw [hs1, hpf]
  have := congrArg (Option.map PF.output) hser
  simpa [Option.map_map, Function.comp_def, serialPieces] using this

/-- The same without a constraint table. -/
theorem tree_pieces (O : NumOps) (t : Ast) {c : SCtx} (hbc : buildCtx t = some c) (hdead : Dead (tableOf c) (tableOf c).statesNum)
    (hidx : NoIdx (tableOf c) 1) (pre trail : Str) (v : J) (h : DocOK pre trail v) (hsp : pre.head? ≠ some ' ')
    (hpl : v.plainStrings = true) (h0 : NUL ∉ pre ++ v.render ++ trail) (hff : ∀ c ∈ pre ++ v.render ++ trail, c.toNat ≠ 255)
    (B cores : Nat) (hB : 0 < B) (hc : 0 < cores) (u : Nat → Nat → UState) (r : ParallelCtx)
    (hr : parallelRun O B cores u t (pre ++ v.render ++ trail) = some (some r))
    (hdef : piecesDefined O B cores u t (pre ++ v.render ++ trail))
    (hub : ∀ B' s, (pre ++ v.render ++ trail).length ≤ B' → serialRun O B' t (pre ++ v.render ++ trail) = some s → s.sa.ub = false)
    (hok : ∀ xs ys : List Str, fileChunks B cores (pre ++ v.render ++ trail) = xs ++ ys → xs ≠ [] → ys ≠ [] →
      (∃ u w c, ((pre ++ v.render ++ trail).take xs.flatten.length).reverse = w ++ c :: u ∧ w.all isSkip = true ∧
        (c = ',' ∨ c = '{' ∨ c = '[')) → CutsOK (tableOf c) pre trail v xs.flatten.length) :
    (serialRun O B t (pre ++ v.render ++ trail)).map (·.pf.output) = some r.pf.output ∧
    ∀ B', (pre ++ v.render ++ trail).length ≤ B' →
      (serialRun O B' t (pre ++ v.render ++ trail)).map (·.pf.output) = some r.pf.output := by
  have hbq : buildQuery t = some (tableOf c, contextOf c) := by unfold buildQuery; rw [hbc]; rfl
  exact (tree_pieces_ct O t hbc hdead hidx pre trail v h hsp hpl h0 hff B cores hB hc none nodup_none u r (by
    unfold parallelRun at hr
    rw [hbq] at hr
    exact hr) (fun qs z hq hz => hdef _ qs z hbq hq hz) (fun _ _ _ => ctChunks_none _ _) hub hok).1

/-! ## The theorems -/

/-- **C51 for paths.**  The query is a path without filters, its slices are those of C02; the document is one the tokenizer reads, of any
length an `int` can count, its strings do not end in `,`, `{` or `[`; it is loaded in pieces of any size and each piece is cut into the
chunks of `partition` for any number of threads.  If nothing that is selected is torn apart by a cut or the end of a piece, no array to
which a slice is applied lies across one, and no piece is processed with undefined behaviour, the parallel run returns what the serial
run returns on the same pieces, and on the whole file at once. -/
theorem c51_paths_partial (O : NumOps) (p : List Step) (hp : p ≠ []) (hlen : fewNames p) (hs : SlicesOK p)
    (pre trail : Str) (v : J) (h : DocOK pre trail v) (hsp : pre.head? ≠ some ' ') (hint : (v.render.length : Int) ≤ intMax)
    (hpl : v.plainStrings = true) (h0 : NUL ∉ pre ++ v.render ++ trail) (hff : ∀ c ∈ pre ++ v.render ++ trail, c.toNat ≠ 255)
    (B cores : Nat) (hB : 0 < B) (hc : 0 < cores) (u : Nat → Nat → UState) (r : ParallelCtx)
    (hr : parallelRun O B cores u (astOf p) (pre ++ v.render ++ trail) = some (some r))
    (hdef : piecesDefined O B cores u (astOf p) (pre ++ v.render ++ trail))
    (hub : ∀ B' s, (pre ++ v.render ++ trail).length ≤ B' → serialRun O B' (astOf p) (pre ++ v.render ++ trail) = some s → s.sa.ub = false)
    (htorn : ∀ xs ys : List Str, fileChunks B cores (pre ++ v.render ++ trail) = xs ++ ys → xs ≠ [] → ys ≠ [] →
      UntornPath p pre v xs.flatten.length) :
    (serialRun O B (astOf p) (pre ++ v.render ++ trail)).map (·.pf.output) = some r.pf.output ∧
    ∀ B', (pre ++ v.render ++ trail).length ≤ B' →
      (serialRun O B' (astOf p) (pre ++ v.render ++ trail)).map (·.pf.output) = some r.pf.output := by
  obtain ⟨c, hbc, hpc⟩ := pathCtx_of_build p hp hlen
  exact tree_pieces O (astOf p) hbc (c.dead hpc.ok) (hpc.noIdx_start hs.desc hs.bounds) pre trail v h hsp hpl h0 hff B cores hB hc u r hr
    hdef hub (fun xs ys e hx hy hbf => hpc.cutsOK hs hint hbf (htorn xs ys e hx hy))

/-- The printed results are the selected values, if moreover the sizes are those of C02. -/
theorem c51_paths_exact_partial (O : NumOps) (p : List Step) (hp : p ≠ []) (hlen : fewNames p) (hs : SlicesOK p)
    (pre trail : Str) (v : J) (h : DocOK pre trail v) (hsp : pre.head? ≠ some ' ') (hint : (v.render.length : Int) ≤ intMax)
    (hpl : v.plainStrings = true) (h0 : NUL ∉ pre ++ v.render ++ trail) (hff : ∀ c ∈ pre ++ v.render ++ trail, c.toNat ≠ 255)
    (ht : v.tidy = true) (hsh : v.short 3996 = true) (hout : (selected p v).length ≤ MAX_OUTPUT)
    (hsel : ∀ x ∈ selected p v, x.render.length ≤ 998)
    (B cores : Nat) (hB : 0 < B) (hc : 0 < cores) (u : Nat → Nat → UState) (r : ParallelCtx)
    (hr : parallelRun O B cores u (astOf p) (pre ++ v.render ++ trail) = some (some r))
    (hdef : piecesDefined O B cores u (astOf p) (pre ++ v.render ++ trail))
    (htorn : ∀ xs ys : List Str, fileChunks B cores (pre ++ v.render ++ trail) = xs ++ ys → xs ≠ [] → ys ≠ [] →
      UntornPath p pre v xs.flatten.length) :
    r.pf.output = (selected p v).map J.render := by
  obtain ⟨c, hbc, hpc⟩ := pathCtx_of_build p hp hlen
  obtain ⟨h1, h2⟩ := hpc.serial O hs.desc hs.bounds pre trail v h.preWs h.trailWs hsp h.container h.wf h.tight h.depth hint
  have h1' : (serialPartialRun O (tableOf c) (contextOf c) none (pre ++ v.render ++ trail)).pf.output =
      (selected p v).map J.render := h1.trans (tidy_texts p v ht)
  have hcl := h2 hsh (by rw [h1']; simpa using hout) (by
    rw [h1']; intro t ht
    obtain ⟨x, hx, rfl⟩ := List.mem_map.1 ht
    exact hsel x hx)
  have := (c51_paths_partial O p hp hlen hs pre trail v h hsp hint hpl h0 hff B cores hB hc u r hr hdef (by
    intro B' s hB' hs'
    rw [serialRun_single O _ (astOf p) (pre ++ v.render ++ trail) c hbc h.nonempty hB'] at hs'; cases hs'
    exact hcl.1) htorn).2 _ (Nat.le_refl _)
  rw [serialRun_single O _ (astOf p) (pre ++ v.render ++ trail) c hbc h.nonempty (Nat.le_refl _)] at this
  simp only [Option.map_some, Option.some.injEq] at this
  rw [← this, h1']

/-- **C51 without conditions on the cuts**: the path ends in the name of a key, has no slices, and everything it selects is a
scalar. -/
theorem c51_scalars_partial (O : NumOps) (p : List Step) (hlen : fewNames p) (hs : noSlices p)
    (hlast : ∃ k, p.getLast? = some (.prop k) ∨ p.getLast? = some (.descProp k))
    (pre trail : Str) (v : J) (h : DocOK pre trail v) (hsp : pre.head? ≠ some ' ') (hint : (v.render.length : Int) ≤ intMax)
    (hpl : v.plainStrings = true) (h0 : NUL ∉ pre ++ v.render ++ trail) (hff : ∀ c ∈ pre ++ v.render ++ trail, c.toNat ≠ 255)
    (ht : v.tidy = true) (hsh : v.short 3996 = true) (hout : (selected p v).length ≤ MAX_OUTPUT)
    (hsel : ∀ x ∈ selected p v, x.isContainer = false ∧ x.render.length ≤ 998)
    (B cores : Nat) (hB : 0 < B) (hc : 0 < cores) (u : Nat → Nat → UState) (r : ParallelCtx)
    (hr : parallelRun O B cores u (astOf p) (pre ++ v.render ++ trail) = some (some r))
    (hdef : piecesDefined O B cores u (astOf p) (pre ++ v.render ++ trail)) :
    r.pf.output = (selected p v).map J.render := by
  have hp : p ≠ [] := by rintro rfl; simp at hlast
  refine c51_paths_exact_partial O p hp hlen hs.ok pre trail v h hsp hint hpl h0 hff ht hsh hout (fun x hx => (hsel x hx).2) B cores hB hc u r
    hr hdef ?_
  intro xs ys _ _ _
  refine Untorn.path ⟨fun y hy hcn _ hm => ?_, fun y hy w es _ _ j x _ _ hm => ?_⟩ hs
  · rcases List.mem_cons.1 hy with rfl | hy
    · obtain ⟨k, hk⟩ := ends_key hm hlast
      simp at hk
    · have hx : y.2.1 ∈ selected p v := by
        unfold selected
        exact List.mem_map.2 ⟨(y.1, y.2.1), List.mem_filter.2 ⟨spans_part hy, by simpa using hm⟩, rfl⟩
      rw [(hsel _ hx).1] at hcn; cases hcn
  · obtain ⟨k, hk⟩ := ends_key hm hlast
    simp at hk

/-- **C51 for filter queries.** -/
theorem c51_filters_partial (O : NumOps) (p : List (QStep Num)) (hq : FilterQuery p)
    (pre trail : Str) (v : J) (h : DocOK pre trail v) (hsp : pre.head? ≠ some ' ')
    (hpl : v.plainStrings = true) (h0 : NUL ∉ pre ++ v.render ++ trail) (hff : ∀ c ∈ pre ++ v.render ++ trail, c.toNat ≠ 255)
    (B cores : Nat) (hB : 0 < B) (hc : 0 < cores) (u : Nat → Nat → UState) (r : ParallelCtx)
    (hr : parallelRun O B cores u (fAst p) (pre ++ v.render ++ trail) = some (some r))
    (hdef : piecesDefined O B cores u (fAst p) (pre ++ v.render ++ trail))
    (hub : ∀ B' s, (pre ++ v.render ++ trail).length ≤ B' → serialRun O B' (fAst p) (pre ++ v.render ++ trail) = some s → s.sa.ub = false)
    (htorn : ∀ xs ys : List Str, fileChunks B cores (pre ++ v.render ++ trail) = xs ++ ys → xs ≠ [] → ys ≠ [] →
      Untorn (Matches (p.map sk)) pre v xs.flatten.length) :
    (serialRun O B (fAst p) (pre ++ v.render ++ trail)).map (·.pf.output) = some r.pf.output ∧
    ∀ B', (pre ++ v.render ++ trail).length ≤ B' →
      (serialRun O B' (fAst p) (pre ++ v.render ++ trail)).map (·.pf.output) = some r.pf.output := by
  obtain ⟨c, hbc, hf⟩ := ftab_of_build p hq.ne hq.clean hq.named hq.fresh hq.names
  exact tree_pieces O (fAst p) hbc (c.dead hf.ok) (hf.toFWords.noIdx 1) pre trail v h hsp hpl h0 hff B cores hB hc u r hr
    hdef hub (fun xs ys e hx hy hb => hf.cutsOK hb (htorn xs ys e hx hy))

/-! ## Cases -/

/-- A test for `piecesDefined`, for examples. -/
def definedB (O : NumOps) (B cores : Nat) (u : Nat → Nat → UState) (t : Ast) (file : Str) : Bool :=
  match buildQuery t with
  | none => true
  | some q => (List.range ((pieces B file (file.length + 1) 0).length + 1)).all fun n =>
    match parallelPieces O q.1 q.2 none u cores 0 none ((pieces B file (file.length + 1) 0).take n) with
    | some (some r) => !r.k.bad
    | _ => true

theorem piecesDefined_of {O : NumOps} {B cores : Nat} {u : Nat → Nat → UState} {t : Ast} {file : Str}
    (h : definedB O B cores u t file = true) : piecesDefined O B cores u t file := by
  intro q ps r hq hps hr
  unfold definedB at h
  rw [hq] at h
  have hl := hps.length_le
  have := List.all_eq_true.1 h ps.length (List.mem_range.2 (by omega))
  rw [← List.prefix_iff_eq_take.1 hps, hr] at this
  simpa using this

/-- `{"x": 1, "a": [{"c": 1, "b": 1}, {"c": 2, "b": 2}, {"c": 3, "b": 3}, {"c": 4, "b": 4}]}`. -/
def exLong : J :=
  let e (c : Char) (es : Elems) : Elems := .cons [' '] (.obj [] (.cons [] ['c'] [] [' '] (.lit [c]) []
    (.cons [' '] ['b'] [] [' '] (.lit [c]) [] .nil))) [] es
  .obj [] (.cons [] ['x'] [] [' '] (.lit ['1']) [] (.cons [' '] ['a'] [] [' '] (.arr []
    (e '1' (e '2' (e '3' (e '4' .nil))))) [] .nil))

/-- With footprint 40 the document is loaded in two pieces, each in two chunks; the array and its second object lie across the end of
the first piece. -/
theorem exLong_chunks : pieces 40 ([] ++ exLong.render ++ []) (([] ++ exLong.render ++ []).length + 1) 0 =
      ["{\"x\": 1, \"a\": [ {\"c\": 1, \"b\": 1}, {\"c\": 2, ".toList, "\"b\": 2}, {\"c\": 3, \"b\": 3}, {\"c\": 4, \"b\": 4}]}".toList] ∧
    fileChunks 40 2 ([] ++ exLong.render ++ []) = ["{\"x\": 1, \"a\": [ {\"c\": 1, ".toList, "\"b\": 1}, {\"c\": 2, ".toList,
      "\"b\": 2}, {\"c\": 3, \"b\": 3}, {".toList, "\"c\": 4, \"b\": 4}]}".toList] := by
  decide +kernel

/-- The hypotheses of `c51_scalars_partial` hold for `$.a[*].b` on `exLong`, loaded in two pieces for two threads. -/
example : DocOK [] [] exLong ∧ exLong.plainStrings = true ∧ NUL ∉ [] ++ exLong.render ++ [] ∧
    (∀ c ∈ [] ++ exLong.render ++ [], c.toNat ≠ 255) ∧ exLong.tidy = true ∧ exLong.short 3996 = true ∧
    (selected exParPath exLong).map J.render = ["1".toList, "2".toList, "3".toList, "4".toList] ∧
    (∀ x ∈ selected exParPath exLong, x.isContainer = false) ∧
    piecesDefined intOps 40 2 (fun _ _ => .other) (astOf exParPath) ([] ++ exLong.render ++ []) ∧
    (parallelRun intOps 40 2 (fun _ _ => .other) (astOf exParPath) ([] ++ exLong.render ++ [])).map (·.map fun r => (r.pf.output, r.k.bad)) =
      some (some (["1".toList, "2".toList, "3".toList, "4".toList], false)) := by
  have hsel : selected exParPath exLong = [.lit ['1'], .lit ['2'], .lit ['3'], .lit ['4']] := by
    simp [selected, exParPath, exLong, J.parts, Members.parts, Elems.parts, matches_prop, matches_all, matches_nil, matches_nil_left]
  refine ⟨⟨by decide, by decide, by decide, by decide, by decide, by decide⟩, by decide, by decide, by decide, by decide, by decide,
    ?_, ?_, piecesDefined_of (by decide +kernel), by decide +kernel⟩
  · rw [hsel]; decide
  · rw [hsel]; decide

/-- What C51 assumes of a path, a document and the way it is loaded and cut. -/
structure PieceCase (O : NumOps) (p : List Step) (pre trail : Str) (v : J) (B cores : Nat) : Prop where
  ne : p ≠ []
  names : fewNames p
  slices : noSlices p
  doc : DocOK pre trail v
  blank : pre.head? ≠ some ' '
  plain : v.plainStrings = true
  nul : NUL ∉ pre ++ v.render ++ trail
  ff : ∀ c ∈ pre ++ v.render ++ trail, c.toNat ≠ 255
  foot : 0 < B
  thread : 0 < cores
  clean : clean O (astOf p) (pre ++ v.render ++ trail)
  torn : ∀ xs ys : List Str, fileChunks B cores (pre ++ v.render ++ trail) = xs ++ ys → xs ≠ [] → ys ≠ [] →
    Untorn (Matches p) pre v xs.flatten.length

/-- The claim of C51 that a run over several pieces is defined. -/
def C51Defined : Prop := ∀ (O : NumOps) (p : List Step) (pre trail : Str) (v : J) (B cores : Nat) (u : Nat → Nat → UState) (r : ParallelCtx),
  PieceCase O p pre trail v B cores → parallelRun O B cores u (astOf p) (pre ++ v.render ++ trail) = some (some r) →
  piecesDefined O B cores u (astOf p) (pre ++ v.render ++ trail)

/-- `{"x": 1, "y": 2, "a": {"z": {"y": 1, "w": 1}, "b": 2}}`. -/
def exInner : J := .obj [] (.cons [] ['x'] [] [' '] (.lit ['1']) [] (.cons [' '] ['y'] [] [' '] (.lit ['2']) [] (.cons [' '] ['a'] [] [' ']
  (.obj [] (.cons [] ['z'] [] [' '] (.obj [] (.cons [] ['y'] [] [' '] (.lit ['1']) [] (.cons [' '] ['w'] [] [' '] (.lit ['1']) [] .nil))) []
    (.cons [' '] ['b'] [] [' '] (.lit ['2']) [] .nil))) [] .nil)))

/-- With footprint 28 the first piece ends inside the object of `z`, which its second chunk opened. -/
theorem exInner_chunks : pieces 28 ([] ++ exInner.render ++ []) (([] ++ exInner.render ++ []).length + 1) 0 =
      ["{\"x\": 1, \"y\": 2, \"a\": {\"z\": {".toList, "\"y\": 1, \"w\": 1}, \"b\": 2}}".toList] ∧
    fileChunks 28 2 ([] ++ exInner.render ++ []) = ["{\"x\": 1, \"y\": 2, ".toList, "\"a\": {\"z\": {".toList,
      "\"y\": 1, \"w\": 1}, ".toList, "\"b\": 2}}".toList] := by
  decide +kernel

/-- The cuts of four chunks. -/
theorem cuts_four {a b c d : Str} {P : List Str → Prop} (h1 : P [a]) (h2 : P [a, b]) (h3 : P [a, b, c]) :
    ∀ xs ys, [a, b, c, d] = xs ++ ys → xs ≠ [] → ys ≠ [] → P xs := by
  intro xs ys h hx hy
  match xs, hx, h with
  | [x], _, h => injection h with h _; subst h; exact h1
  | [x, y], _, h => injection h with h h'; injection h' with h' _; subst h h'; exact h2
  | [x, y, z], _, h =>
    injection h with h h'; injection h' with h' h''; injection h'' with h'' _; subst h h' h''; exact h3
  | x :: y :: z :: w :: xs, _, h =>
    injection h with _ h; injection h with _ h; injection h with _ h; injection h with _ h
    exact absurd (List.append_eq_nil_iff.1 h.symm).2 hy

theorem clean_of_results {O : NumOps} {p : List Step} (hp : p ≠ []) (hs : fewNames p) (hn : noSlices p) {pre trail : Str} {v : J}
    (h : Readable pre trail v) (hsh : v.short 3996 = true) {out : List Str}
    (e : results O (astOf p) (pre ++ v.render ++ trail) = some out) (h1 : out.length ≤ MAX_OUTPUT) (h2 : ∀ t ∈ out, t.length ≤ 998) :
    clean O (astOf p) (pre ++ v.render ++ trail) := by
  intro r hr
  obtain ⟨r', g1, g2, g3⟩ := run_path O p hp hs (noSlices_desc hn) (noSlices_bounds hn) h
  rw [hr] at g1; cases g1
  unfold results at e
  rw [hr] at e
  simp only [Option.map_some, Option.some.injEq] at e
  exact g3 hsh (by rw [e]; exact h1) (by rw [e]; exact h2)

theorem exInner_case : PieceCase intOps [.prop ['a'], .prop ['b']] [] [] exInner 28 2 where
  ne := by simp
  names := by decide
  slices := by simp [noSlices, isSlice]
  doc := ⟨by decide, by decide, by decide, by decide, by decide, by decide⟩
  blank := by decide
  plain := by decide
  nul := by decide
  ff := by decide
  foot := by decide
  thread := by decide
  clean := clean_of_results (by simp) (by decide) (by simp [noSlices, isSlice])
    ⟨by decide, by decide, by decide, by decide, by decide, by decide, by decide, by decide⟩ (by decide)
    (out := ["2".toList]) (by decide +kernel) (by decide) (by decide)
  torn := by
    rw [exInner_chunks.2]
    have hsel : ∀ l, Matches [.prop ['a'], .prop ['b']] l → decide (l = [.key ['a'], .key ['b']]) = true := by
      intro l hl
      cases hl with
      | prop k hl => cases hl with
        | prop k hl => cases hl; rfl
    exact cuts_four (P := fun xs => Untorn (Matches [.prop ['a'], .prop ['b']]) [] exInner xs.flatten.length)
      (untorn_of hsel (by decide)) (untorn_of hsel (by decide)) (untorn_of hsel (by decide))

/-- **C51 is false**: a node that `combineQueryStacks` copied into a place where no node was before has no `root_range`
(multi_stack.h:428-455).  `$.a.b` on `exInner` with two threads: after the first piece two such nodes are open, and in the second piece worker 0
reads the range of the inner one when it meets the key `y`. -/
theorem c51_false_roots : ¬ C51Defined := by
  intro h
  have e : (parallelRun intOps 28 2 (fun _ _ => .other) (astOf [.prop ['a'], .prop ['b']]) ([] ++ exInner.render ++ [])).map
      (·.map fun r => r.k.bad) = some (some true) := by decide +kernel
  revert e
  cases hz : parallelRun intOps 28 2 (fun _ _ => .other) (astOf [.prop ['a'], .prop ['b']]) ([] ++ exInner.render ++ []) with
  | none => intro e; cases e
  | some z =>
    cases z with
    | none => intro e; cases e
    | some r =>
      intro e
      simp only [Option.map_some, Option.some.injEq] at e
      have := h intOps _ [] [] exInner 28 2 (fun _ _ => .other) r exInner_case hz
      unfold parallelRun at hz
      cases hq : buildQuery (astOf [.prop ['a'], .prop ['b']]) with
      | none => rw [hq] at hz; cases hz
      | some q =>
        rw [hq] at hz
        have := this q _ r hq (List.prefix_refl _) hz
        rw [e] at this; cases this

/-- The claim of C51 that `finish_flag`, which is never written, does not matter. -/
def C51Flag : Prop := ∀ (O : NumOps) (p : List Step) (pre trail : Str) (v : J) (g : Int) (B cores : Nat) (u : Nat → Nat → UState) (r : ParallelCtx),
  PieceCase O p pre trail v B cores → parallelRunG g O B cores u (astOf p) (pre ++ v.render ++ trail) = some (some r) →
  r.k.bad = false → results O (astOf p) (pre ++ v.render ++ trail) = some r.pf.output

/-- `{"x": 1, "y": 2, "a": 3, "b": 4}`. -/
def exFourKeys : J := .obj [] (.cons [] ['x'] [] [' '] (.lit ['1']) [] (.cons [' '] ['y'] [] [' '] (.lit ['2']) [] (.cons [' '] ['a'] [] [' '] (.lit ['3']) []
  (.cons [' '] ['b'] [] [' '] (.lit ['4']) [] .nil))))

theorem exFourKeys_chunks : fileChunks 16 2 ([] ++ exFourKeys.render ++ []) = ["{\"x\": 1, ".toList, "\"y\": 2, ".toList,
    "\"a\": 3, ".toList, "\"b\": 4}".toList] := by
  decide +kernel

theorem exFourKeys_case : PieceCase intOps [.prop ['x']] [] [] exFourKeys 16 2 where
  ne := by simp
  names := by decide
  slices := by simp [noSlices, isSlice]
  doc := ⟨by decide, by decide, by decide, by decide, by decide, by decide⟩
  blank := by decide
  plain := by decide
  nul := by decide
  ff := by decide
  foot := by decide
  thread := by decide
  clean := clean_of_results (by simp) (by decide) (by simp [noSlices, isSlice])
    ⟨by decide, by decide, by decide, by decide, by decide, by decide, by decide, by decide⟩ (by decide)
    (out := ["1".toList]) (by decide +kernel) (by decide) (by decide)
  torn := by
    rw [exFourKeys_chunks]
    have hsel : ∀ l, Matches [.prop ['x']] l → decide (l = [.key ['x']]) = true := by
      intro l hl
      cases hl with
      | prop k hl => cases hl; rfl
    exact cuts_four (P := fun xs => Untorn (Matches [.prop ['x']]) [] exFourKeys xs.flatten.length)
      (untorn_of hsel (by decide)) (untorn_of hsel (by decide)) (untorn_of hsel (by decide))

/-- **C51 is false for other contents of the flag**: with 7 in it, `$.x` on `exFourKeys`, loaded in two pieces, prints the result of the first
piece twice. -/
theorem c51_false_flag : ¬ C51Flag := by
  intro h
  have e : (parallelRunG 7 intOps 16 2 (fun _ _ => .other) (astOf [.prop ['x']]) ([] ++ exFourKeys.render ++ [])).map
      (·.map fun r => (r.pf.output, r.k.bad)) = some (some (["1".toList, "1".toList], false)) := by decide +kernel
  have e2 : results intOps (astOf [.prop ['x']]) ([] ++ exFourKeys.render ++ []) = some ["1".toList] := by decide +kernel
  revert e
  cases hz : parallelRunG 7 intOps 16 2 (fun _ _ => .other) (astOf [.prop ['x']]) ([] ++ exFourKeys.render ++ []) with
  | none => intro e; cases e
  | some z =>
    cases z with
    | none => intro e; cases e
    | some r =>
      intro e
      simp only [Option.map_some, Option.some.injEq, Prod.mk.injEq] at e
      have := h intOps _ [] [] exFourKeys 7 16 2 (fun _ _ => .other) r exFourKeys_case hz e.2
      rw [e2, e.1] at this
      revert this; decide

/-- The same run with 0 in the flag prints it once, as `c51_paths_partial` says. -/
example : (parallelRun intOps 16 2 (fun _ _ => .other) (astOf [.prop ['x']]) ([] ++ exFourKeys.render ++ [])).map
    (·.map fun r => (r.pf.output, r.k.bad)) = some (some (["1".toList], false)) := by decide +kernel

/-- Whatever the flag holds, a file loaded in one piece is processed as in `Verif/Combine.lean`. -/
theorem c51_single (g : Int) (O : NumOps) (B cores : Nat) (u : Nat → Nat → UState) (t : Ast) (file : Str) (h0 : file ≠ []) (hB : file.length ≤ B) :
    parallelRunG g O B cores u t file = parallelRun O B cores u t file := by
  unfold parallelRunG parallelRun
  have hl : file.length ≠ 0 := by simpa using h0
  obtain ⟨n, hn⟩ : ∃ n, file.length + 1 = n + 2 := ⟨file.length - 1, by omega⟩
  congr 1
  funext q
  simp only [hn, pieces_single B file h0 hB, parallelPiecesG, parallelPieces, parallelPartialRunG_first]
  cases parallelPartialRun O q.1 q.2 none (u 0) cores none file <;> rfl

end JPS
