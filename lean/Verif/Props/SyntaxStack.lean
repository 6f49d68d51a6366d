import Verif.SyntaxPar
import Verif.Props.Worker
/-!
# C39: the syntax stack of a combination is that of the serial automaton
-/

set_option autoImplicit false

namespace JPS
open Spec

/-- **C39 (units)** A worker starts in the middle of a JSON text, inside the constructs `kss`, not between a key and its
value.  Then its tokens fall into as many parts as it has units.  For each unit, replaying its unmatched symbols on the stack
pops exactly the constructs that were open before the part and are closed in it (the stack is cut to the least depth met in
the part); each part but the last ends at this depth; after the last the worker's own stack lies on top. -/
theorem c39_units (d : QDfa) (ct : Option CTable) (u : UState) (i : Nat) (c : Str) (kss : List Sym) (m : Mode)
    (hwf : wfStack kss) (hm : modeOK kss m) (hk : top kss ≠ some .ky) (hfit : fitsAll kss m (lexAll c)) :
    Replays (runWorker d ct u i c).ss kss ((runWorker d ct u i c).units.map fun x => x.syms.map (·.1)) (lexAll c) := by
  have h0 : Syn kss [] m (W.init (startStates d i) u).syn kss :=
    ⟨rfl, rfl, List.suffix_refl _, rfl, hwf, hm, hk, .inl rfl, fun _ => ⟨rfl, rfl⟩⟩
  obtain ⟨us, h1, h2⟩ := h0.run (lexAll c) hfit
  rw [← syn_run (E := ⟨d, i == 0, c, ct, some (startStates d i)⟩) rfl] at h1 h2
  have h3 : us = (W.run ⟨d, i == 0, c, ct, some (startStates d i)⟩ (W.init (startStates d i) u) (lexAll c)).units.map
      fun x => x.syms.map (·.1) := by
    have : ([] : List (List USym)) ++ us = us := rfl
    rw [← this]; exact h1.symm
  rw [h3] at h2
  have h4 : (runWorker d ct u i c).units.map (fun x => x.syms.map (·.1)) =
      (W.run ⟨d, i == 0, c, ct, some (startStates d i)⟩ (W.init (startStates d i) u) (lexAll c)).units.map
        (fun x => x.syms.map (·.1)) ++ [(W.run ⟨d, i == 0, c, ct, some (startStates d i)⟩ (W.init (startStates d i) u) (lexAll c)).syn.syms] := by
    simp only [runWorker, W.orUb, W.finish, List.map_append, List.map_cons, List.map_nil]; rfl
  rw [h4]
  exact h2

/-- **C39 (two chunks)** If `combine` has the stack of the text before a chunk, it gets, by replaying the units of the chunk's
worker and putting the worker's stack on top, the stack of the text with the chunk. -/
theorem c39_chunk (d : QDfa) (ct : Option CTable) (u : UState) (i : Nat) (left c : Str) (k : K) (m : Mode)
    (hwf : wfStack k.ss) (hm : modeOK k.ss m) (hk : top k.ss ≠ some .ky) (hl : k.ss.length ≤ MAX_STACK)
    (hfit : fitsAll k.ss m (lexAll c)) (hb : (k.chunk d left c (runWorker d ct u i c)).bad = false) :
    (k.chunk d left c (runWorker d ct u i c)).ss = (lexAll c).foldl ssStep k.ss := by
  have h1 := c39_units d ct u i c k.ss m hwf hm hk hfit
  have h2 := h1.all
  have hb' : ((runWorker d ct u i c).units.foldl (K.unit d left c (runWorker d ct u i c).q.tl) k).bad = false := by
    cases e : ((runWorker d ct u i c).units.foldl (K.unit d left c (runWorker d ct u i c).q.tl) k).bad with
    | false => rfl
    | true =>
      have : (k.chunk d left c (runWorker d ct u i c)).bad = true := K.orUb_bad (K.merge_bad e)
      rw [this] at hb; cases hb
  show combineSyntaxStack (List.foldl _ k _).ss (runWorker d ct u i c).ss = _
  rw [units_ss _ hb', combine_ss _ _ (by rw [← h2]; exact ssRun_max _ hl), ← h2]

/-- The chunks form a JSON text from the stack `ss` on, and none begins between a key and its value. -/
def chunksFit : List Sym → Mode → List Str → Prop
  | _, _, [] => True
  | ss, m, c :: cs => top ss ≠ some .ky ∧ fitsAll ss m (lexAll c) ∧ chunksFit ((lexAll c).foldl ssStep ss) (modeAfter m (lexAll c)) cs

theorem combineLoop_ss {d : QDfa} {ct : Option CTable} {u : Nat → UState} : ∀ (cs : List Str) {k : K} {m : Mode} {left : Str} {i : Nat},
    wfStack k.ss → modeOK k.ss m → k.ss.length ≤ MAX_STACK → chunksFit k.ss m cs →
    (combineLoop d k left (workersFrom d ct u i cs)).bad = false →
    (combineLoop d k left (workersFrom d ct u i cs)).ss = (cs.map lexAll).flatten.foldl ssStep k.ss
  | [], _, _, _, _, _, _, _, _, _ => rfl
  | c :: cs, k, m, left, i, hwf, hm, hl, hf, hb => by
    obtain ⟨f1, f2, f3⟩ := hf
    have hb' : (k.chunk d left c (runWorker d ct (u i) i c)).bad = false := by
      cases e : (k.chunk d left c (runWorker d ct (u i) i c)).bad with
      | false => rfl
      | true =>
        have : (combineLoop d k left (workersFrom d ct u i (c :: cs))).bad = true :=
          combineLoop_bad (workersFrom d ct u (i + 1) cs) e
        rw [this] at hb; cases hb
    have h1 := c39_chunk d ct (u i) i left c k m hwf hm f1 hl f2 hb'
    obtain ⟨w1, w2⟩ := fits_wf (lexAll c) hwf hm f2
    rw [← h1] at f3 w1 w2
    have h2 := combineLoop_ss cs (d := d) (ct := ct) (u := u) (left := c) (i := i + 1) w1 w2
      (by rw [h1]; exact ssRun_max _ hl) f3 hb
    show (combineLoop d (k.chunk d left c (runWorker d ct (u i) i c)) c (workersFrom d ct u (i + 1) cs)).ss = _
    rw [h2, h1]
    simp

/-- **C39 (any number of chunks)** After `combine` the syntax stack is that of the tokens of all chunks. -/
theorem c39_run (d : QDfa) (ct : Option CTable) (u : Nat → UState) (cs : List Str) (k : K)
    (hk : executeParallel d ct u none cs = some k) (hf : chunksFit [] .val cs) (hb : k.bad = false) :
    k.ss = (cs.map lexAll).flatten.foldl ssStep [] := by
  cases cs with
  | nil => cases hk
  | cons c cs =>
    simp only [executeParallel, Option.some.injEq] at hk
    subst hk
    obtain ⟨f1, f2, f3⟩ := hf
    have hm0 : modeOK [] .val := ⟨fun _ => .inl rfl, fun hz => by simp [top] at hz⟩
    have h1 := (c39_units d ct (u 0) 0 c [] .val trivial hm0 f1 f2).all
    have hemp : ∀ xs : List USym, xs.foldl yrep [] = [] := by
      intro xs
      induction xs with
      | nil => rfl
      | cons x xs ih => rw [List.foldl_cons, show yrep [] x = [] by cases x <;> rfl]; exact ih
    rw [hemp, List.append_nil] at h1
    obtain ⟨w1, w2⟩ := fits_wf (lexAll c) (ss := []) trivial hm0 f2
    have hb' : (combineLoop d (K.ofW (worker0 d ct (u 0) none c)) c (workersFrom d ct u 1 cs)).bad = false := by
      cases e : (combineLoop d (K.ofW (worker0 d ct (u 0) none c)) c (workersFrom d ct u 1 cs)).bad with
      | false => rfl
      | true => rw [K.orUb_bad e] at hb; cases hb
    have hs : (K.ofW (worker0 d ct (u 0) none c)).ss = (lexAll c).foldl ssStep [] := h1.symm
    show (combineLoop d (K.ofW (worker0 d ct (u 0) none c)) c (workersFrom d ct u 1 cs)).ss = _
    rw [combineLoop_ss cs (m := modeAfter .val (lexAll c)) (by rw [hs]; exact w1) (by rw [hs]; exact w2)
      (by rw [hs]; exact ssRun_max _ (by simp)) (by rw [hs]; exact f3) hb', hs]
    simp

theorem pieceToks_ss : ∀ (xs : List Str) (k : Nat) (ss : List Sym),
    (pieceToks k xs).foldl ssStep ss = (xs.map lexAll).flatten.foldl ssStep ss
  | [], _, _ => rfl
  | x :: xs, k, ss => by
    rw [pieceToks, List.foldl_append, ssRun_shift, pieceToks_ss xs]
    simp

theorem modeAfter_append' (m : Mode) (a b : List Tok) : modeAfter m (a ++ b) = modeAfter (modeAfter m a) b := by
  simp [modeAfter, List.foldl_append]

/-- The chunks the partition makes of a document fit together. -/
theorem doc_chunksFit {pre trail : Str} {v : J} (h : Readable pre trail v) (hpl : v.plainStrings = true)
    (h0 : NUL ∉ pre ++ v.render ++ trail) {cores : Nat} (hc : 0 < cores) {ps : List Str}
    (hp : partition cores (pre ++ v.render ++ trail) = some (ps.map some)) :
    ps.flatten = pre ++ v.render ++ trail ∧ [] ∉ ps ∧ CutsAtStrings pre v ps ∧
    ∀ (cs xs : List Str), ps = xs ++ cs → chunksFit ((pieceToks 0 xs).foldl ssStep []) (modeAfter .val (pieceToks 0 xs)) cs := by
  have hhead : (pre ++ v.render ++ trail).head? ≠ some ' ' := by
    have hn := h.noBlank
    have hcn := h.container
    cases pre with
    | nil => cases v <;> simp [J.isContainer, J.render] at hcn ⊢
    | cons z pre => simpa using hn
  obtain ⟨ps', q1, q2, _, q4, q5⟩ := partition_spec hc h.nonempty h0 hhead hp
  obtain rfl : ps' = ps := (map_some_inj q1).symm
  have hne : [] ∉ ps' := fun hm => q4 _ hm rfl
  have hcut : CutsAtStrings pre v ps' := by
    intro xs ys e hx hy
    obtain ⟨r', u', w', c', a1, a2, a3, a4⟩ := q5 xs ys e hx hy
    exact opens_string h.preWs h.trailWs h.wf hpl a1 a2 a3 a4
  refine ⟨q2, hne, hcut, ?_⟩
  have hfit := (fits_value v id pre.length [] .val (.inl rfl) (.inl rfl) (fun hc => by rw [h.container] at hc; cases hc)
    (by simpa using h.doc.depth)).1
  obtain ⟨h1, h2, hadj⟩ := doc_pieceToks h.doc q2 hne hcut
  intro cs
  induction cs with
  | nil => intro xs _; trivial
  | cons c cs ih =>
    intro xs e
    rw [← h2, e, pieceToks_append, Nat.zero_add, fitsAll_append] at hfit
    obtain ⟨f1, f2⟩ := hfit
    obtain ⟨w1, w2⟩ := fits_wf (pieceToks 0 xs) (ss := []) (m := .val) trivial ⟨fun _ => .inl rfl, fun hz => by simp [top] at hz⟩ f1
    rw [pieceToks, fitsAll_append, fitsAll_shift] at f2
    have hxc : pieceToks 0 (xs ++ [c]) = pieceToks 0 xs ++ (lexAll c).map (Tok.shift xs.flatten.length) := by
      rw [pieceToks_append]; simp [pieceToks]
    have hrec := ih (xs ++ [c]) (by rw [e]; simp)
    rw [hxc, List.foldl_append, ssRun_shift, modeAfter_append', modeAfter_shift] at hrec
    refine ⟨?_, f2.1, hrec⟩
    by_cases hx : xs = []
    · subst hx; simp [pieceToks, top]
    · obtain ⟨r', u', w', c', a1, a2, a3, a4⟩ := q5 xs (c :: cs) e hx (by simp)
      have hm1 := doc_mode h.doc q2 hne hcut e hx (by simp) a2 a3 a4
      intro hz
      have := w2.2 hz
      rcases hm1 with h5 | h5 <;> (rw [this] at h5; cases h5)

theorem chunksFit_prefix : ∀ (xs ys : List Str) (ss : List Sym) (m : Mode), chunksFit ss m (xs ++ ys) → chunksFit ss m xs
  | [], _, _, _, _ => trivial
  | _ :: xs, ys, _, _, h => ⟨h.1, h.2.1, chunksFit_prefix xs ys _ _ h.2.2⟩

/-- The syntax stack of the serial automaton does not depend on the query. -/
theorem execAutomaton_ss (d : QDfa) (s : Str) (a : SA) : (execAutomaton d s a).ss = (lexAll s).foldl ssStep a.ss := by
  rw [(execAutomaton_fields d s a).2.1, runToks_ss]

/-- **C39 for documents** A document is cut as for a parallel run.  For each cut, whatever the query and the constraint table,
the syntax stack after combining the chunks before the cut is that of a serial automaton after the text before the cut. -/
theorem c39_document_partial (d : QDfa) (ct : Option CTable) (u : Nat → UState) (pre trail : Str) (v : J) (h : Readable pre trail v)
    (hpl : v.plainStrings = true) (h0 : NUL ∉ pre ++ v.render ++ trail) (cores : Nat) (hc : 0 < cores) (xs ys : List Str)
    (hp : partition cores (pre ++ v.render ++ trail) = some ((xs ++ ys).map some)) (k : K)
    (hk : executeParallel d ct u none xs = some k) (hb : k.bad = false) (d' : QDfa) :
    k.ss = (execAutomaton d' xs.flatten SA.init).ss := by
  obtain ⟨q2, hne, hcut, hf⟩ := doc_chunksFit h hpl h0 hc hp
  have hx : xs ≠ [] := by rintro rfl; cases hk
  rw [c39_run d ct u xs k hk (chunksFit_prefix xs ys _ _ (hf (xs ++ ys) [] rfl)) hb, execAutomaton_ss, ← pieceToks_ss xs 0]
  show _ = List.foldl ssStep [] _
  by_cases hy : ys = []
  · subst hy
    obtain ⟨h1, h2, _⟩ := doc_pieceToks h.doc q2 hne hcut
    rw [List.append_nil] at h2 q2
    rw [q2, h1, h2]
  · obtain ⟨_, c2, _, _⟩ := doc_cut h.doc q2 hne hcut rfl hx hy
    rw [← c2, ← q2]
    simp

/-- `"y": 1}, 7]], "b": {"q": [` inside `{` `"a": [` `[` `{`: closes three constructs, and opens others. -/
def exClosing : Str := "\"y\": 1}, 7]], \"b\": {\"q\": [".toList

/-- The hypotheses of `c39_units` and `c39_chunk` hold for `exClosing`.  The worker has three units: before the first
unmatched closing, up to the next ones, and the rest. -/
example : wfStack [.lcb, .lb, .lb, .ky, .lcb] ∧ modeOK [.lcb, .lb, .lb, .ky, .lcb] .com ∧ top [Sym.lcb, .lb, .lb, .ky, .lcb] ≠ some .ky ∧
    fitsAll [.lcb, .lb, .lb, .ky, .lcb] .com (lexAll exClosing) ∧
    (runWorker exWorker none .other 3 exClosing).units.map (fun x => x.syms.map (·.1)) = [[], [.rcb], [.rb, .rb]] ∧
    (runWorker exWorker none .other 3 exClosing).ss = [.lb, .ky, .lcb, .ky] := by
  refine ⟨⟨by decide, by decide, by decide, by decide, by decide, trivial⟩, ⟨by decide, by decide⟩, by decide, fitsAll_of _ _ _ (by decide), by decide, by decide⟩

set_option maxRecDepth 100000 in
/-- The hypotheses of `c39_document_partial` hold for `exMiddle` cut for three threads, for the first cut, the second and the end;
the stacks. -/
example : Readable [] [] exMiddle ∧ exMiddle.plainStrings = true ∧ NUL ∉ [] ++ exMiddle.render ++ [] ∧
    partition 3 ([] ++ exMiddle.render ++ []) = some ((["{\"k\": 1, \"a\": {\"b\": [1, 2]}, ".toList,
      "\"c\": {\"d\": [3]}, \"e\": {".toList, "\"f\": 4}}".toList] ++ []).map some) ∧
    ([1, 2, 3].map fun n => (executeParallel exMiddleDfa none (fun _ => .other) none (["{\"k\": 1, \"a\": {\"b\": [1, 2]}, ".toList,
      "\"c\": {\"d\": [3]}, \"e\": {".toList, "\"f\": 4}}".toList].take n)).map fun k => (k.bad, k.ss)) =
      [some (false, [.lcb]), some (false, [.lcb, .ky, .lcb]), some (false, [])] := by
  refine ⟨⟨by decide, by decide, by decide, by decide, by decide, by decide, by decide, by decide⟩, by decide, by decide, by decide,
    by decide⟩

/-- The claim of C39 for the chunks of a document, without the condition on strings. -/
def C39Full : Prop := ∀ (d : QDfa) (ct : Option CTable) (u : Nat → UState) (pre trail : Str) (v : J), Readable pre trail v →
  NUL ∉ pre ++ v.render ++ trail → ∀ (cores : Nat), 0 < cores → ∀ (xs ys : List Str),
  partition cores (pre ++ v.render ++ trail) = some ((xs ++ ys).map some) → ∀ (k : K),
  executeParallel d ct u none xs = some k → k.bad = false → ∀ (d' : QDfa), k.ss = (execAutomaton d' xs.flatten SA.init).ss

/-- `["xxxxxxxxxxxx,", 1, [2]]`. -/
def exComma : J := .arr [] (.cons [] (.str "xxxxxxxxxxxx,".toList) [] (.cons [' '] (.lit ['1']) []
  (.cons [' '] (.arr [] (.cons [] (.lit ['2']) [] .nil)) [] .nil)))

set_option maxRecDepth 100000 in
/-- **C39 fails when a string ends in a comma.**  The document `["xxxxxxxxxxxx,", 1, [2]]` is cut for two threads before the closing
quote of the string, which looks like an opening quote after a comma; the second worker reads the rest as a string that does not
end, and `combine` leaves the array open. -/
theorem c39_false : ¬ C39Full := by
  intro h
  have h1 := h exWorker none (fun _ => .other) [] [] exComma
    ⟨by decide, by decide, by decide, by decide, by decide, by decide, by decide, by decide⟩ (by decide) 2 (by decide)
    ["[\"xxxxxxxxxxxx,".toList, "\", 1, [2]]".toList] [] (by decide)
    ((executeParallel exWorker none (fun _ => .other) none ["[\"xxxxxxxxxxxx,".toList, "\", 1, [2]]".toList]).getD
      ⟨[], QS.blank, ⟨0, 0⟩, true, false⟩) rfl (by decide) exWorker
  revert h1
  decide

end JPS
