import Verif.Reprocess
import Verif.DocCuts
/-!
# What a worker does with an indeterminate `unit_state`

`initUnit` (unit.h:50-58) does not write `unit_state`.  A chunk whose first token makes the worker write the field is processed in
the same way whatever it held.
-/

set_option autoImplicit false

namespace JPS
open Spec

/-- The first token begins content: worker_automaton.c:185-189, 340-344, 495-499, 563-564. -/
def Begins : List Tok → Prop
  | [] => False
  | .pri _ :: ts => infer .pri ts = some .lb
  | t :: _ => t.starts = true

theorem W.step_begins {E : WEnv} {st : List Nat} (u u' : UState) : ∀ {t : Tok} {ts : List Tok}, Begins (t :: ts) →
    (W.init st u).step E t ts = (W.init st u').step E t ts
  | .lcb _, _, _ => rfl
  | .lb _, _, _ => rfl
  | .ky _, _, _ => rfl
  | .pri x, ts, h => by
    have h : infer .pri ts = some .lb := h
    have e : ∀ u, (W.init st u).step E (.pri x) ts =
        ({ W.init st u with shadow := [.lb] } : W).mark.priOut E (clobber x ts) true := by
      intro u
      show (W.init st u).pri E x ts = _
      unfold W.pri
      rw [if_neg (by simp [W.init])]
      have e1 : (W.init st u).shadow = [] := rfl
      have e2 : (W.init st u).inferred .pri ts = { W.init st u with shadow := [.lb] } := by
        unfold W.inferred
        rw [if_pos e1, h]
      rw [e2]
      rfl
    rw [e u, e u']
    rfl
  | .rcb _, _, h => by cases h
  | .rb _, _, h => by cases h
  | .com, _, h => by cases h

theorem W.run_begins {E : WEnv} {st : List Nat} (u u' : UState) {ts : List Tok} (h : Begins ts) :
    (W.init st u).run E ts = (W.init st u').run E ts := by
  cases ts with
  | nil => cases h
  | cons t ts =>
    show ((W.init st u).step E t ts).run E ts = ((W.init st u').step E t ts).run E ts
    rw [W.step_begins u u' h]

/-- The worker does not depend on the field. -/
theorem runWorker_begins (d : QDfa) (ct : Option CTable) (u u' : UState) (i : Nat) {c : Str} (h : Begins (lexAll c)) :
    runWorker d ct u i c = runWorker d ct u' i c := by
  unfold runWorker
  rw [W.run_begins u u' h]

/-- The positions of its units do not depend on it either, unless it happens to hold `MATCHED`. -/
theorem unitSpans_begins (d : QDfa) (ct : Option CTable) {u u' : UState} (hu : u ≠ .matched) (hu' : u' ≠ .matched) (i : Nat) {c : Str}
    (h : Begins (lexAll c)) : unitSpans d ct u i c = unitSpans d ct u' i c := by
  unfold unitSpans
  have hf := lexPos_fst c
  cases hl : lexPos c with
  | nil => rw [hl] at hf; rw [← hf] at h; cases h
  | cons x xs =>
    obtain ⟨t, p⟩ := x
    rw [hl] at hf
    rw [← hf] at h
    have hs := W.step_begins (E := ⟨d, i == 0, c, ct, some (startStates d i)⟩) (st := startStates d i) u u' h
    unfold W.spans
    dsimp only
    rw [List.map_cons] at h
    have hn : ∀ w, (W.init (startStates d i) w).units.length = 0 := fun _ => rfl
    have hw : ∀ w : UState, (W.init (startStates d i) w).unit.state = w := fun _ => rfl
    rw [hs, hn, hn, hw, hw]
    simp only [ne_eq, hu, hu', not_false_eq_true]

/-! ### Chunks of a document -/

theorem Reads.unique {s : Str} : ∀ {ts : List Tok} {l l1 l2 : Lexer}, Reads s l ts l1 → Reads s l ts l2 → l1 = l2
  | [], _, _, _, h1, h2 => by cases h1; cases h2; rfl
  | _ :: _, _, _, _, h1, h2 => Reads.unique h1.2 h2.2

theorem CleanCut.ne {S : Str} {k k' : Nat} (h : CleanCut S k) (h' : CleanCut S k') (hlt : k < k') (hadj : NoAdj false (lexAll S)) :
    lexAll (S.take k) ≠ lexAll (S.take k') := by
  obtain ⟨hq, ts, lx, w, hr, hat⟩ := h
  obtain ⟨hq', ts', lx', w', hr', hat'⟩ := h'
  rw [CleanCut.toks hq hr hat hadj, CleanCut.toks hq' hr' hat' hadj]
  rintro rfl
  cases hr.unique hr'
  obtain ⟨tail, hd⟩ := getElem?_drop_cons hq
  have e := hat'.eq
  rw [hat.eq, hd] at e
  have h1 := hat.pos
  have h2 := hat'.pos
  have hz : ((w ++ '"' :: tail))[w.length]? = some '"' := by simp
  rw [e, List.getElem?_append_left (by omega)] at hz
  have := List.all_eq_true.1 hat'.ws _ (List.mem_of_getElem? hz)
  exact absurd this (by decide)

section
variable {pre trail : Str} {v : J} {ps : List Str}

/-- The first token of every chunk of a document begins content. -/
theorem doc_begins (h : DocOK pre trail v) (hps : ps.flatten = pre ++ v.render ++ trail) (hne : [] ∉ ps)
    (hcut : CutsAtStrings pre v ps)
    (hb : ∀ xs ys, ps = xs ++ ys → xs ≠ [] → ys ≠ [] →
      ∃ u w c, ((pre ++ v.render ++ trail).take xs.flatten.length).reverse = w ++ c :: u ∧ w.all isSkip = true ∧
        (c = ',' ∨ c = '{' ∨ c = '[')) :
    ∀ c ∈ ps, Begins (lexAll c) := by
  intro c hc
  obtain ⟨xs, ys, e⟩ := List.append_of_mem hc
  obtain ⟨h1, h2, hadj⟩ := doc_pieceToks h hps hne hcut
  have hfit := (fits_value v id pre.length [] .val (.inl rfl) (.inl rfl) (fun hc => by rw [h.container] at hc; cases hc)
    (by simpa using h.depth)).1
  have hfit0 := hfit
  rw [← h2, e, pieceToks_append, Nat.zero_add, fitsAll_append, pieceToks, fitsAll_append, fitsAll_shift] at hfit
  have f2 := hfit.2.1
  clear hfit
  have hxc : pieceToks 0 (xs ++ [c]) = pieceToks 0 xs ++ (lexAll c).map (Tok.shift xs.flatten.length) := by
    rw [pieceToks_append]; simp [pieceToks]
  have e' : ps = (xs ++ [c]) ++ ys := by rw [e]; simp
  have hcne : c ≠ [] := by rintro rfl; exact hne hc
  by_cases hx : xs = []
  · subst hx
    have hnil : lexAll c ≠ [] := by
      intro hz
      by_cases hy : ys = []
      · subst hy
        have : pieceToks 0 ps = [] := by rw [e]; simp [pieceToks, hz]
        rw [h2] at this
        have hcn := h.container
        cases v <;> simp [J.isContainer, toks] at hcn this
      · obtain ⟨u, w, b, b1, b2, b3⟩ := hb _ _ e' (by simp) hy
        obtain ⟨c1, c2, -, -⟩ := doc_cut h hps hne hcut e' (by simp) hy
        have := (cut_notKey c1 hadj b1 b2 b3).1
        rw [c2, hxc, hz] at this
        exact this rfl
    have hm : modeAfter .val (pieceToks 0 []) = .val := rfl
    rw [hm] at f2
    cases hl : lexAll c with
    | nil => exact absurd hl hnil
    | cons t ts =>
      rw [hl] at f2
      cases t with
      | lcb p => rfl
      | lb p => rfl
      | ky k => rfl
      | pri x => exact absurd rfl f2.1.2
      | rcb p => exact absurd f2.1.2 (by simp)
      | rb p => exact absurd f2.1.2 (by simp)
      | com => exact absurd f2.1.1 (by simp)
  · obtain ⟨u, w, b, b1, b2, b3⟩ := hb xs (c :: ys) e hx (by simp)
    have hmode := doc_mode h hps hne hcut e hx (by simp) b1 b2 b3
    obtain ⟨c1, c2, -, c4⟩ := doc_cut h hps hne hcut e hx (by simp)
    have hq : c.head? = some '"' := by
      have := c1.1
      rw [← hps, e, List.flatten_append, List.flatten_cons] at this
      obtain ⟨z, c, rfl⟩ := List.exists_cons_of_ne_nil hcne
      simpa using this
    have hnil : lexAll c ≠ [] := by
      intro hz
      by_cases hy : ys = []
      · subst hy
        have := doc_rest h hps hne hcut e hx (by simp)
        simp [pieceToks, hz] at this
      · obtain ⟨c1', c2', -, -⟩ := doc_cut h hps hne hcut e' (by simp) hy
        refine c1.ne c1' ?_ hadj ?_
        · have := List.length_pos_iff.2 hcne
          simp; exact this
        · rw [c2, c2', hxc, hz]; simp
    rcases lexAll_quote hq with hz | ⟨k, ts, hz⟩ | ⟨x, ts, hz⟩
    · exact absurd hz hnil
    · rw [hz]; rfl
    · rw [hz] at f2 ⊢
      show infer .pri ts = some .lb
      obtain ⟨⟨f3, f4⟩, f5⟩ := f2
      generalize (pieceToks 0 xs).foldl ssStep [] = ss at f3 f4 f5
      have htop : top ss = some .lb := by
        rcases f3 with hv | hv
        · rcases hmode with hm | hm <;> (rw [hm] at hv; cases hv)
        · exact hv.1
      have hss : ssStep ss (.pri x) = ss := by simp [ssStep, htop]
      rw [hss] at f5
      have hno : ¬ ((ts[0]?).map Tok.tt = some .rcb ∨ ((ts[0]?).map Tok.tt = some .com ∧ (ts[1]?).map Tok.tt = some .ky)) := by
        cases ts with
        | nil => simp
        | cons t ts =>
          cases t with
          | rcb p => have := f5.1.1; rw [htop] at this; cases this
          | com =>
            cases ts with
            | nil => simp [Tok.tt]
            | cons t' ts =>
              cases t' with
              | ky k => have := f5.2.1.1; simp only [ssStep] at this; rw [htop] at this; cases this
              | _ => simp [Tok.tt]
          | _ => simp [Tok.tt]
      unfold infer
      dsimp only
      rw [if_neg hno]

end

/-! ### The whole run -/

theorem workersFrom_indet (d : QDfa) (ct : Option CTable) (u u' : Nat → UState) : ∀ (cs : List Str) (i : Nat),
    (∀ c ∈ cs, Begins (lexAll c)) → workersFrom d ct u i cs = workersFrom d ct u' i cs
  | [], _, _ => rfl
  | c :: cs, i, h => by
    rw [workersFrom, workersFrom, runWorker_begins d ct (u i) (u' i) i (h c (by simp)),
      workersFrom_indet d ct u u' cs (i + 1) (fun c hc => h c (by simp [hc]))]

theorem executeParallel_indet (d : QDfa) (ct : Option CTable) (u u' : Nat → UState) (cs : List Str)
    (h : ∀ c ∈ cs, Begins (lexAll c)) : executeParallel d ct u none cs = executeParallel d ct u' none cs := by
  cases cs with
  | nil => rfl
  | cons c cs =>
    unfold executeParallel
    dsimp only
    rw [workersFrom_indet d ct u u' cs 1 (fun c hc => h c (by simp [hc]))]
    unfold worker0
    dsimp only
    rw [runWorker_begins d ct (u 0) (u' 0) 0 (h c (by simp))]

theorem combineR_indet (d : QDfa) (ct : Option CTable) {u u' : Nat → UState} (ru : Nat → Nat → UState) (hu : ∀ i, u i ≠ .matched)
    (hu' : ∀ i, u' i ≠ .matched) : ∀ (cs : List Str) (i : Nat) (k : K) (left : Str), (∀ c ∈ cs, Begins (lexAll c)) →
    combineR d ct u ru i k left cs = combineR d ct u' ru i k left cs
  | [], _, _, _, _ => rfl
  | c :: cs, i, k, left, h => by
    rw [combineR, combineR, runWorker_begins d ct (u i) (u' i) i (h c (by simp)),
      unitSpans_begins d ct (hu i) (hu' i) i (h c (by simp))]
    exact combineR_indet d ct ru hu hu' cs (i + 1) _ c (fun c hc => h c (by simp [hc]))

theorem executeParallelR_indet (d : QDfa) (ct : Option CTable) {u u' : Nat → UState} (ru : Nat → Nat → UState)
    (hu : ∀ i, u i ≠ .matched) (hu' : ∀ i, u' i ≠ .matched) (cs : List Str) (h : ∀ c ∈ cs, Begins (lexAll c)) :
    executeParallelR d ct u ru none cs = executeParallelR d ct u' ru none cs := by
  cases cs with
  | nil => rfl
  | cons c cs =>
    unfold executeParallelR worker0
    dsimp only
    rw [runWorker_begins d ct (u 0) (u' 0) 0 (h c (by simp)),
      combineR_indet d ct ru hu hu' cs 1 _ c (fun c hc => h c (by simp [hc]))]

end JPS
