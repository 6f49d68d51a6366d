import Verif.Combine
/-!
# C33: the order in which the threads run

The main thread creates the workers one after the other while those already created run
(parallel_automata_execution.h:369-385); each worker works on its own `WorkerAutomaton`, stacks, lexer and tuple list, and
only reads the query automaton and the constraint table.  A schedule is any sequence of choices whose step comes next.
-/

set_option autoImplicit false

namespace JPS

/-- A thread: not created, inside the loop with the tokens still to be read, finished. -/
inductive Th where
  | unborn
  | running (w : W) (ts : List Tok)
  | done (w : W)

/-- What all threads are given: automaton, constraint table, chunks, the indeterminate unit states, and the worker kept
from the last piece. -/
structure Job where
  d : QDfa
  ct : Option CTable
  u : Nat → UState
  old : Option K
  chunks : List Str

/-- What stays fixed while thread `i` runs (worker_automaton.c:117-152). -/
def Job.env (J : Job) (i : Nat) (c : Str) : WEnv :=
  match i, J.old with
  | 0, some _ => ⟨J.d, true, c, J.ct, none⟩
  | i, _ => ⟨J.d, i == 0, c, J.ct, some (startStates J.d i)⟩

/-- The local variables at the start (worker_automaton.c:122-176). -/
def Job.start (J : Job) (i : Nat) : W :=
  match i, J.old with
  | 0, some k => W.resume { k.q with tl := [] } k.elt k.ss (J.u 0)
  | i, _ => W.init (startStates J.d i) (J.u i)

/-- The program: its threads by number, and how many have been created. -/
structure Sys where
  ths : Nat → Th
  born : Nat

/-- Whose turn it is. -/
inductive Turn where
  | main
  | worker (i : Nat)

/-- The main thread creates the next worker, parallel_automata_execution.h:369-385. -/
def Sys.spawn (J : Job) (σ : Sys) : Sys :=
  match J.chunks[σ.born]? with
  | some c => ⟨fun j => if j = σ.born then .running (J.start σ.born) (lexAll c) else σ.ths j, σ.born + 1⟩
  | none => σ

/-- Worker `i` reads its next token, or finishes, worker_automaton.c:179-609. -/
def Sys.advance (J : Job) (i : Nat) (σ : Sys) : Sys :=
  match J.chunks[i]?, σ.ths i with
  | some c, .running w (t :: ts) =>
    { σ with ths := fun j => if j = i then .running (w.step (J.env i c) t ts) ts else σ.ths j }
  | some c, .running w [] =>
    { σ with ths := fun j => if j = i then .done (w.finish.orUb (contentUb c)) else σ.ths j }
  | _, _ => σ

/-- One step of the program. -/
def Sys.step (J : Job) (σ : Sys) : Turn → Sys
  | .main => σ.spawn J
  | .worker i => σ.advance J i

/-- A run under a schedule. -/
def Sys.exec (J : Job) (sched : List Turn) : Sys := sched.foldl (Sys.step J) ⟨fun _ => .unborn, 0⟩

/-- All workers are joined. -/
def Sys.joined (J : Job) (σ : Sys) : Prop := ∀ i, i < J.chunks.length → ∃ w, σ.ths i = .done w

/-- The results of the workers from thread `i` on, as `combine` reads them. -/
def Sys.results (σ : Sys) (i : Nat) : List Str → List (Str × W)
  | [] => []
  | c :: cs =>
    match σ.ths i with
    | .done w => (c, w) :: σ.results (i + 1) cs
    | _ => []

/-- What `executeParallelAutomata` does after joining, parallel_automata_execution.h:386-388. -/
def Sys.combined (J : Job) (σ : Sys) : Option K :=
  match J.chunks, σ.ths 0 with
  | c :: cs, .done w =>
    some ((combineLoop J.d (K.ofW w) c (σ.results 1 cs)).orUb (decide (cs.length ≥ MAX_THREAD)))
  | _, _ => none

/-- What thread `i` will have computed when it is done. -/
def Job.result (J : Job) (i : Nat) (c : Str) : W := (W.run (J.env i c) (J.start i) (lexAll c)).finish.orUb (contentUb c)

theorem exec_inv (J : Job) : ∀ (sched : List Turn) (σ : Sys),
    (∀ i c, J.chunks[i]? = some c → match σ.ths i with
      | .unborn => True
      | .running w ts => (W.run (J.env i c) w ts).finish.orUb (contentUb c) = J.result i c
      | .done w => w = J.result i c) →
    ∀ i c, J.chunks[i]? = some c → match (sched.foldl (Sys.step J) σ).ths i with
      | .unborn => True
      | .running w ts => (W.run (J.env i c) w ts).finish.orUb (contentUb c) = J.result i c
      | .done w => w = J.result i c
  | [], _, h => h
  | t :: sched, σ, h => by
    rw [List.foldl_cons]
    refine exec_inv J sched _ ?_
    intro i c hc
    cases t with
    | main =>
      simp only [Sys.step, Sys.spawn]
      cases hb : J.chunks[σ.born]? with
      | none => exact h i c hc
      | some c' =>
        simp only
        by_cases hi : i = σ.born
        · subst hi
          rw [hc] at hb; cases hb
          simp only [if_true]
          rfl
        · rw [if_neg hi]; exact h i c hc
    | worker j =>
      simp only [Sys.step, Sys.advance]
      cases hb : J.chunks[j]? with
      | none => exact h i c hc
      | some c' =>
        cases hj : σ.ths j with
        | unborn => exact h i c hc
        | done w => exact h i c hc
        | running w ts =>
          by_cases hi : i = j
          · subst hi
            rw [hc] at hb; cases hb
            have := h i c hc
            rw [hj] at this
            cases ts with
            | nil => simp only [if_true]; exact this
            | cons t ts => simp only [if_true]; exact this
          · cases ts with
            | nil => simp only [if_neg hi]; exact h i c hc
            | cons t ts => simp only [if_neg hi]; exact h i c hc

theorem joined_results (J : Job) (sched : List Turn) (h : (Sys.exec J sched).joined J) (i : Nat) (c : Str)
    (hc : J.chunks[i]? = some c) : (Sys.exec J sched).ths i = .done (J.result i c) := by
  obtain ⟨w, hw⟩ := h i (List.getElem?_eq_some_iff.1 hc).1
  have := exec_inv J sched ⟨fun _ => .unborn, 0⟩ (fun _ _ _ => trivial) i c hc
  unfold Sys.exec at hw ⊢
  rw [hw] at this ⊢
  rw [this]

/-- **C33 (workers)** Under any two schedules that finish all workers, each worker ends in the same state. -/
theorem c33_workers (J : Job) (s1 s2 : List Turn) (h1 : (Sys.exec J s1).joined J) (h2 : (Sys.exec J s2).joined J)
    (i : Nat) (hi : i < J.chunks.length) : (Sys.exec J s1).ths i = (Sys.exec J s2).ths i := by
  have hc : J.chunks[i]? = some J.chunks[i] := List.getElem?_eq_getElem hi
  rw [joined_results J s1 h1 i _ hc, joined_results J s2 h2 i _ hc]

/-- **C33** Under any schedule that finishes all workers the combined result is that of running the workers one after the
other. -/
theorem c33_schedule (J : Job) (sched : List Turn) (h : (Sys.exec J sched).joined J) :
    (Sys.exec J sched).combined J = executeParallel J.d J.ct J.u J.old J.chunks := by
  have hr := joined_results J sched h
  have key : ∀ (cs : List Str) (i : Nat), 0 < i → (∀ j c, cs[j]? = some c → J.chunks[i + j]? = some c) →
      (Sys.exec J sched).results i cs = workersFrom J.d J.ct J.u i cs := by
    intro cs
    induction cs with
    | nil => intro i _ _; rfl
    | cons c cs ih =>
      intro i hi hcs
      have hc := hr i c (by simpa using hcs 0 c rfl)
      have := ih (i + 1) (by omega) fun j c' hj => by
        have := hcs (j + 1) c' (by simpa using hj)
        rw [← this]; congr 1; omega
      simp only [Sys.results, workersFrom, hc, this]
      congr 2
      obtain ⟨i, rfl⟩ : ∃ k, i = k + 1 := ⟨i - 1, by omega⟩
      rfl
  unfold Sys.combined executeParallel
  cases hcs : J.chunks with
  | nil => rfl
  | cons c cs =>
    have h0 := hr 0 c (by rw [hcs]; rfl)
    rw [h0]
    simp only
    rw [key cs 1 (by omega) fun j c' hj => by rw [hcs, Nat.add_comm]; simpa using hj]
    congr 2
    unfold Job.result Job.start Job.env worker0 runWorker
    cases J.old <;> rfl

/-- An automaton that accepts nothing. -/
def exIdle : QDfa := ⟨2, 3, fun _ _ => 0, fun _ => 0, fun _ => .none, fun _ => 0, fun _ => 0, fun _ => []⟩

/-- Two chunks and an interleaved schedule that finishes both. -/
example : (Sys.exec ⟨exIdle, none, fun _ => .other, none, ["[1,".toList, "2]".toList]⟩
    [.main, .worker 0, .main, .worker 1, .worker 0, .worker 1, .worker 1, .worker 0, .worker 0]).joined
      ⟨exIdle, none, fun _ => .other, none, ["[1,".toList, "2]".toList]⟩ := by
  intro i hi
  match i, hi with
  | 0, _ => exact ⟨_, rfl⟩
  | 1, _ => exact ⟨_, rfl⟩

end JPS
