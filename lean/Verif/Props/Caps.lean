import Verif.Caps
import Verif.ParChunk
import Verif.Props.Again
/-!
# C45: the flags are set whenever an array of the code is left

`Props/ParallelSafe` shows when no flag is set.  Here the other direction: where no flag is set, every list of the model is as short as the array of
the code is long, in every state of the run.
-/

set_option autoImplicit false

namespace JPS

/-- **C45, workers**: if the flag of a worker is not set in the end, then after every number of tokens the stack has at most 100 entries, there
are at most 500 nodes, 5000000 tuples with texts of at most 1000 bytes (with the two that `strcopy` adds) and 100 units with at most 100 unmatched
symbols and 100 states each.  `CTable.Short`: the entries of the table have at most 500 states; the code allows 100 (constraint.h). -/
theorem c45_worker_flag_partial {d : QDfa} {ct : Option CTable} (hct : ∀ c, ct = some c → c.Short) (u : UState) (i : Nat) (s : Str)
    (hb : (runWorker d ct u i s).bad = false) :
    (runWorker d ct u i s).Within ∧
    ∀ n : Nat, (W.runN ⟨d, i == 0, s, ct, some (startStates d i)⟩ n (W.init (startStates d i) u) (lexAll s)).Within := by
  refine ⟨(runWorker_sound hct u i s).within hb, fun n => W.runN_within (E := ⟨d, i == 0, s, ct, some (startStates d i)⟩) hct n _ (W.Sound.init _ _) ?_⟩
  exact runWorker_bad hb

theorem K.bad_orUb {k : K} {b : Bool} (h : (k.orUb b).bad = false) : k.bad = false ∧ b = false := by
  have h1 : (k.ub = false ∧ b = false) ∧ k.q.ub = false := by simpa [K.bad, K.orUb] using h
  exact ⟨by simp [K.bad, h1.1.1, h1.2], h1.1.2⟩

theorem workers_not_bad {d : QDfa} : ∀ (l : List (Str × W)) {k : K} {left : Str}, (combineLoop d k left l).bad = false →
    ∀ p ∈ l, p.2.bad = false
  | [], _, _, _, _, hp => by cases hp
  | (right, w) :: r, k, left, h, p, hp => by
    rcases List.mem_cons.1 hp with hp | hp
    · rw [hp]
      have h1 : (k.chunk d left right w).bad = false := by
        cases hx : (k.chunk d left right w).bad with
        | false => rfl
        | true =>
          have h2 : (combineLoop d (k.chunk d left right w) right r).bad = true := combineLoop_bad r hx
          rw [show combineLoop d k left ((right, w) :: r) = combineLoop d (k.chunk d left right w) right r from rfl, h2] at h
          cases h
      exact (K.bad_orUb h1).2
    · exact workers_not_bad r (k := k.chunk d left right w) (left := right) h p hp

theorem workersFrom_sound {d : QDfa} {ct : Option CTable} (hct : ∀ c, ct = some c → c.Short) (u : Nat → UState) : ∀ (cs : List Str) (i : Nat),
    ∀ p ∈ workersFrom d ct u i cs, p.2.Sound
  | [], _, _, hp => by cases hp
  | c :: cs, i, p, hp => by
    rcases List.mem_cons.1 hp with hp | hp
    · rw [hp]; exact runWorker_sound hct (u i) i c
    · exact workersFrom_sound hct u cs (i + 1) p hp

/-- **C45, parallel runs**: if no flag is set after `executeParallelAutomata`, the combined stacks and the final list fit into their arrays, so do those of
every worker, and there are at most 100 threads.  `old` is what an earlier piece of the file left. -/
theorem c45_flag_partial {d : QDfa} {ct : Option CTable} (hct : ∀ c, ct = some c → c.Short) {u : Nat → UState} {old : Option K}
    (hold : ∀ k, old = some k → k.q.Within) {c : Str} {cs : List Str} {k : K} (h : executeParallel d ct u old (c :: cs) = some k)
    (hb : k.bad = false) :
    k.q.Within ∧ (c :: cs).length ≤ 100 ∧ (worker0 d ct (u 0) old c).Within ∧ ∀ p ∈ workersFrom d ct u 1 cs, p.2.Within := by
  have e := Option.some.inj h
  rw [← e] at hb ⊢
  obtain ⟨h1, h2⟩ := K.bad_orUb hb
  have hw0 := worker0_sound (d := d) hct (old := old) (fun k hk => .inr (hold k hk)) (u 0) c
  have hs := combineLoop_sound (d := d) (workersFrom d ct u 1 cs) (left := c) (K.Sound.ofW hw0)
  refine ⟨(hs.orUb _).within hb, ?_, hw0.within ?_, fun p hp => (workersFrom_sound hct u cs 1 p hp).within (workers_not_bad _ h1 p hp)⟩
  · have : MAX_THREAD = 100 := rfl
    have := of_decide_eq_false h2
    simp; omega
  · cases hx : (worker0 d ct (u 0) old c).bad with
    | false => rfl
    | true =>
      have h3 : (K.ofW (worker0 d ct (u 0) old c)).bad = true := by
        show (((worker0 d ct (u 0) old c).ub || (worker0 d ct (u 0) old c).q.ub) || _) = true
        rw [show ((worker0 d ct (u 0) old c).ub || (worker0 d ct (u 0) old c).q.ub) = true from hx]; rfl
      rw [combineLoop_bad _ h3] at h1; cases h1

/-! ### With units processed again -/

theorem K.Sound.reprocess {k : K} (h : k.Sound) {d : QDfa} {ct : Option CTable} (hct : ∀ c, ct = some c → c.Short) (u : UState) (text : Str) :
    (k.reprocess d ct u text).Sound := by
  unfold K.reprocess
  dsimp only
  rcases h with h | h
  · left; show (k.ub || _) = true; rw [h]; rfl
  · have hw : ((W.run ⟨d, true, text, ct, none⟩ (W.resume k.q k.elt k.ss u) (lexAll text)).finish.orUb (contentUb text)).Sound :=
      (W.Sound.finish (W.run_sound (E := ⟨d, true, text, ct, none⟩) hct _ (W.Sound.resume h _ _ _))).orUb _
    rcases hw with hw | hw
    · left
      show (k.ub || _) = true
      rw [hw, Bool.or_true]
    · exact .inr hw.1

theorem unitsR_sound {d : QDfa} {ct : Option CTable} (hct : ∀ c, ct = some c → c.Short) {left right : Str} {tl : List MTuple} {u : Nat → UState} :
    ∀ (xs : List (PUnit × (Option Nat × Nat))) {j : Nat} {p : K × Bool}, p.1.Sound → (K.unitsR d ct left right tl u j p xs).1.Sound
  | [], _, _, h => h
  | x :: xs, j, p, h => by
    refine unitsR_sound hct xs (j := j + 1) ?_
    unfold K.unitR
    have h1 : (x.1.syms.foldl (K.sym d left right) p.1).Sound := foldl_sound (fun _ y hk => hk.sym d left right y) _ h
    dsimp only
    split
    · exact h.unit d left right tl x.1
    · split
      · unfold K.again
        split
        · exact K.Sound.flag _
        · split
          · exact K.Sound.reprocess (h1.orUb _) hct _ _
          · exact h1
      · exact h.unit d left right tl x.1

theorem combineR_sound {d : QDfa} {ct : Option CTable} (hct : ∀ c, ct = some c → c.Short) {u : Nat → UState} {ru : Nat → Nat → UState} :
    ∀ (cs : List Str) {i : Nat} {k : K} {left : Str}, k.Sound → (combineR d ct u ru i k left cs).Sound
  | [], _, _, _, h => h
  | c :: cs, i, k, left, h => by
    refine combineR_sound hct cs (i := i + 1) ?_
    unfold K.chunkR
    refine K.Sound.orUb ?_ _
    have h1 := unitsR_sound (left := left) (right := c) (tl := (runWorker d ct (u i) i c).q.tl) (u := ru i) (d := d) hct
      ((runWorker d ct (u i) i c).units.zip (unitSpans d ct (u i) i c)) (j := 0) (p := (k, false)) h
    split
    · exact h1
    · exact h1.merge _

/-- **C45, parallel runs with a table**: the same for `executeParallelAutomata` with units processed again. -/
theorem c45_flag_again_partial {d : QDfa} {ct : Option CTable} (hct : ∀ c, ct = some c → c.Short) {u : Nat → UState} {ru : Nat → Nat → UState}
    {old : Option K} (hold : ∀ k, old = some k → k.q.Within) {c : Str} {cs : List Str} {k : K}
    (h : executeParallelR d ct u ru old (c :: cs) = some k) (hb : k.bad = false) : k.q.Within ∧ (c :: cs).length ≤ 100 := by
  have e := Option.some.inj h
  rw [← e] at hb ⊢
  obtain ⟨h1, h2⟩ := K.bad_orUb hb
  have hw0 := worker0_sound (d := d) hct (old := old) (fun k hk => .inr (hold k hk)) (u 0) c
  refine ⟨((combineR_sound hct cs (K.Sound.ofW hw0)).orUb _).within hb, ?_⟩
  have : MAX_THREAD = 100 := rfl
  have := of_decide_eq_false h2
  simp; omega

set_option maxRecDepth 100000 in
/-- The hypotheses hold for the run of `$.a[*].b` on the chunks `{"a": [{"b": 1}, ` and `{"c": 5, "b": 8}]}`, where a worker with five start states runs on the
second chunk; the values 1 and 8 are found. -/
example : ∃ k, executeParallel exAgainDfa none (fun _ => .other) none [exAgainLeft, "{\"c\": 5, \"b\": 8}]}".toList] = some k ∧ k.bad = false ∧
    k.tuples = [⟨4, "1".toList⟩, ⟨4, "8".toList⟩] ∧ (runWorker exAgainDfa none .other 1 "{\"c\": 5, \"b\": 8}]}".toList).bad = false :=
  ⟨_, rfl, by decide, by decide, by decide⟩

set_option maxRecDepth 100000 in
/-- A table with short entries, and a run with it. -/
example : (∀ c, some (⟨[⟨['a'], .ky, [1]⟩], false⟩ : CTable) = some c → c.Short) ∧
    ∃ k, executeParallelR exAgainDfa (some ⟨[⟨['a'], .ky, [1]⟩], false⟩) (fun _ => .other) (fun _ _ => .other) none
      [exAgainLeft, "{\"c\": 5, \"b\": 8}]}".toList] = some k ∧ k.bad = false := by
  refine ⟨?_, _, rfl, by decide⟩
  intro c hc i hi
  cases hc
  have : i = ⟨['a'], .ky, [1]⟩ := by simpa using hi
  subst this
  decide

end JPS
