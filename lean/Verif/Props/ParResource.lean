import Verif.ParResource
import Verif.Props.ParallelPieces
/-!
# C52: the storage of parallel runs
-/

set_option autoImplicit false

namespace JPS

/-! ### Storage -/

theorem Heap.read_lt {α : Type} {h : Heap α} {p : Nat} {a : α} (e : h.read p = some a) : p < List.length h := by
  unfold Heap.read at e
  cases e1 : h[p]? with
  | none => rw [e1] at e; simp at e
  | some x => exact (List.getElem?_eq_some_iff.1 e1).1

theorem Heap.read_append_left {α : Type} (h t : Heap α) (p : Nat) (hp : p < List.length h) : Heap.read (h ++ t) p = h.read p := by
  unfold Heap.read
  rw [List.getElem?_append_left hp]

theorem Heap.read_append_at {α : Type} (h t : Heap α) (x : Option α) : Heap.read (h ++ x :: t) (List.length h) = x := by
  unfold Heap.read
  simp

theorem Heap.read_write_self {α : Type} {h : Heap α} {p : Nat} {a : α} (e : h.read p = some a) (b : α) : (h.write p b).read p = some b := by
  unfold Heap.read Heap.write
  simp [Heap.read_lt e]

theorem Heap.write_append {α : Type} {h : Heap α} {p : Nat} {a : α} (e : h.read p = some a) (t : Heap α) (b : α) :
    Heap.write (h ++ t) p b = h.write p b ++ t := by
  unfold Heap.write
  rw [List.set_append_left _ _ (Heap.read_lt e)]

theorem Heap.write_last {α : Type} (h : Heap α) (a b : α) : Heap.write (h ++ [some a]) (List.length h) b = h ++ [some b] := by
  unfold Heap.write
  simp

theorem Heap.write_write {α : Type} (h : Heap α) (p : Nat) (a b : α) : Heap.write (h.write p a) p b = h.write p b := by
  unfold Heap.write
  simp

theorem Heap.length_write {α : Type} (h : Heap α) (p : Nat) (a : α) : List.length (h.write p a) = List.length h := by
  unfold Heap.write
  simp

theorem Heap.free_at {α : Type} (h t : Heap α) (a : α) : Heap.free (h ++ some a :: t) (List.length h) = some (h ++ none :: t) := by
  unfold Heap.free
  rw [Heap.read_append_at]
  simp

/-- Exactly one object of the kind is allocated. -/
def Heap.Only {α : Type} (h : Heap α) (p : Nat) (a : α) : Prop := h.read p = some a ∧ ∀ j, j ≠ p → h.read j = none

/-- No object of the kind is allocated. -/
def Heap.Clear {α : Type} (h : Heap α) : Prop := ∀ j, h.read j = none

theorem Heap.Clear.append {α : Type} {h : Heap α} (c : h.Clear) (n : Nat) : Heap.Clear (h ++ List.replicate n none) := by
  intro j
  unfold Heap.read
  have := c j
  unfold Heap.read at this
  rw [List.getElem?_append]
  split
  · exact this
  · rw [List.getElem?_replicate]
    split <;> rfl

theorem Heap.Clear.alloc {α : Type} {h : Heap α} (c : h.Clear) (a : α) : Heap.Only (h.alloc a) (List.length h) a := by
  refine ⟨Heap.read_append_at h [] (some a), fun j hj => ?_⟩
  unfold Heap.read Heap.alloc
  have := c j
  unfold Heap.read at this
  rw [List.getElem?_append]
  split
  · exact this
  · rw [List.getElem?_eq_none (by simp; omega)]
    rfl

theorem Heap.Only.append {α : Type} {h : Heap α} {p : Nat} {a : α} (c : h.Only p a) (n : Nat) : Heap.Only (h ++ List.replicate n none) p a := by
  refine ⟨by rw [Heap.read_append_left _ _ _ (Heap.read_lt c.1)]; exact c.1, fun j hj => ?_⟩
  unfold Heap.read
  have := c.2 j hj
  unfold Heap.read at this
  rw [List.getElem?_append]
  split
  · exact this
  · rw [List.getElem?_replicate]
    split <;> rfl

theorem Heap.Only.write {α : Type} {h : Heap α} {p : Nat} {a : α} (c : h.Only p a) (b : α) : (h.write p b).Only p b := by
  refine ⟨Heap.read_write_self c.1 b, fun j hj => ?_⟩
  have := c.2 j hj
  unfold Heap.read at this ⊢
  unfold Heap.write
  rw [List.getElem?_set_ne (fun e => hj e.symm)]
  exact this

theorem Heap.Only.free {α : Type} {h : Heap α} {p : Nat} {a : α} (c : h.Only p a) : ∃ h', h.free p = some h' ∧ h'.Clear := by
  refine ⟨List.set h p none, by unfold Heap.free; rw [c.1]; rfl, fun j => ?_⟩
  unfold Heap.read
  by_cases hj : j = p
  · subst hj
    rw [List.getElem?_set_self (Heap.read_lt c.1)]
    rfl
  · rw [List.getElem?_set_ne (fun e => hj e.symm)]
    exact c.2 j hj

/-! ### The threads of a piece -/

/-- The objects of the workers after their threads. -/
def ranObjs : Nat → Nat → List W → Heap WObj
  | _, _, [] => []
  | i, b, w :: ws => some ⟨i, b, .ran { w with q := { w.q with tl := [] } }⟩ :: ranObjs (i + 1) (b + 1) ws

theorem start_tl (starts : List Nat) : (QS.blank.start starts).1.tl = [] := rfl

theorem init_tl (starts : List Nat) (u : UState) (l : List MTuple) (h : l = []) :
    { W.init starts u with q := { (W.init starts u).q with tl := l } } = W.init starts u := by
  subst h
  have := start_tl starts
  unfold W.init
  dsimp only
  rw [← this]

theorem fresh_run (d : QDfa) (ct : Option CTable) (u : UState) (i : Nat) (c : Str) :
    Body.run d ct u i c [] .fresh = some (runWorker d ct u i c) := by
  unfold Body.run runWorker
  dsimp only
  rw [init_tl _ _ _ rfl]

theorem threadS_fresh (d : QDfa) (ct : Option CTable) (u : UState) (m : Store) (i c : Nat) (s : Str) (hs : m.texts.read c = some s) :
    threadS d ct u (createWorker m i).1 (createWorker m i).2 c =
      some { m with
        lists := m.lists ++ [some (runWorker d ct u i s).q.tl]
        workers := m.workers ++ ranObjs i (List.length m.lists) [runWorker d ct u i s] } := by
  unfold threadS createWorker Heap.alloc
  dsimp only
  rw [Heap.read_append_at]
  dsimp only
  rw [Heap.read_append_at, hs]
  dsimp only
  rw [fresh_run]
  dsimp only [Option.map_some]
  rw [Heap.write_last, Heap.write_last]
  rfl

theorem threadsS_eq (d : QDfa) (ct : Option CTable) (u : Nat → UState) : ∀ (ss : List Str) (i : Nat) (m : Store) (T : Heap Str),
    m.texts = T ++ ss.map some → threadsS d ct u i m (List.range' (List.length T) ss.length) =
      some ({ m with
        lists := m.lists ++ (workersFrom d ct u i ss).map fun x => some x.2.q.tl
        workers := m.workers ++ ranObjs i (List.length m.lists) ((workersFrom d ct u i ss).map (·.2)) },
        List.zip (List.range' (List.length T) ss.length) (List.range' (List.length m.workers) ss.length))
  | [], _, m, _, _ => by simp [threadsS, workersFrom, ranObjs]
  | s :: ss, i, m, T, h => by
    have hs : m.texts.read (List.length T) = some s := by rw [h]; exact Heap.read_append_at _ _ _
    rw [List.length_cons, List.range'_succ, List.range'_succ, List.zip_cons_cons]
    unfold threadsS
    dsimp only
    rw [threadS_fresh d ct (u i) m i _ s hs]
    dsimp only
    have ih := threadsS_eq d ct u ss (i + 1) { m with
        lists := m.lists ++ [some (runWorker d ct (u i) i s).q.tl]
        workers := m.workers ++ ranObjs i (List.length m.lists) [runWorker d ct (u i) i s] } (T ++ [some s]) (by simp [h])
    rw [List.length_append, List.length_singleton] at ih
    rw [ih]
    simp [workersFrom, ranObjs, createWorker]

theorem readThreads_eq : ∀ (xs : List (Str × W)) (i : Nat) (m : Store) (T : Heap Str) (A : Heap WObj) (L : Heap (List MTuple)),
    m.texts = T ++ (xs.map fun x => some x.1) → m.workers = A ++ ranObjs i (List.length L) (xs.map (·.2)) →
    m.lists = L ++ (xs.map fun x => some x.2.q.tl) →
    readThreads m (List.zip (List.range' (List.length T) xs.length) (List.range' (List.length A) xs.length)) = some xs
  | [], _, _, _, _, _, _, _, _ => rfl
  | x :: xs, i, m, T, A, L, h1, h2, h3 => by
    have ih := readThreads_eq xs (i + 1) m (T ++ [some x.1]) (A ++ [some ⟨i, List.length L, .ran { x.2 with q := { x.2.q with tl := [] } }⟩])
      (L ++ [some x.2.q.tl]) (by simp [h1]) (by simp [h2, ranObjs]) (by simp [h3])
    rw [List.length_append, List.length_append, List.length_singleton, List.length_singleton] at ih
    rw [List.length_cons, List.range'_succ, List.range'_succ, List.zip_cons_cons]
    unfold readThreads
    rw [ih]
    have e : readThread m (List.length T, List.length A) = some x := by
      unfold readThread
      dsimp only
      rw [h1, h2, h3]
      simp only [List.map_cons, ranObjs]
      rw [Heap.read_append_at]
      dsimp only
      rw [Heap.read_append_at, Heap.read_append_at]
    rw [e]

theorem freeWorkersS_eq : ∀ (ws : List W) (cs : List Nat) (i : Nat) (m : Store) (A : Heap WObj) (L : Heap (List MTuple)),
    cs.length = ws.length → 0 < i →
    m.workers = A ++ ranObjs i (List.length L) ws → m.lists = L ++ (ws.map fun w => some w.q.tl) →
    freeWorkersS m (List.zip cs (List.range' (List.length A) ws.length)) =
      some { m with workers := A ++ List.replicate ws.length none, lists := L ++ List.replicate ws.length none }
  | [], cs, _, m, _, _, hl, _, h2, h3 => by
    cases cs with
    | nil => cases m; simp_all [freeWorkersS, ranObjs]
    | cons _ _ => simp at hl
  | w :: ws, cs, i, m, A, L, hl, hi, h2, h3 => by
    cases cs with
    | nil => simp at hl
    | cons c cs =>
      rw [List.length_cons, List.range'_succ, List.zip_cons_cons]
      unfold freeWorkersS
      have e : freeWorker m (List.length A) = some { m with
          workers := A ++ none :: ranObjs (i + 1) (List.length L + 1) ws
          lists := L ++ none :: (ws.map fun w => some w.q.tl) } := by
        unfold freeWorker destroyWorker
        rw [h2, h3]
        simp only [List.map_cons, ranObjs]
        rw [Heap.read_append_at]
        dsimp only
        rw [if_pos hi, Heap.free_at]
        dsimp only [Option.map_some]
        rw [Heap.free_at]
        rfl
      rw [e]
      dsimp only
      have ih := freeWorkersS_eq ws cs (i + 1) { m with
          workers := A ++ none :: ranObjs (i + 1) (List.length L + 1) ws
          lists := L ++ none :: (ws.map fun w => some w.q.tl) } (A ++ [none]) (L ++ [none]) (by simpa using hl) (by omega)
        (by simp) (by simp)
      rw [List.length_append, List.length_singleton] at ih
      rw [ih]
      simp [List.replicate_succ]

theorem allocTexts_eq : ∀ (ss : List Str) (m : Store),
    allocTexts m ss = ({ m with texts := m.texts ++ ss.map some }, List.range' (List.length m.texts) ss.length)
  | [], m => by simp [allocTexts]
  | s :: ss, m => by
    unfold allocTexts
    rw [allocTexts_eq ss]
    simp [Heap.alloc, List.range'_succ]

theorem freeTexts_eq : ∀ (ss : List Str) (m : Store) (T : Heap Str), m.texts = T ++ ss.map some →
    freeTexts m (List.range' (List.length T) ss.length) = some { m with texts := T ++ List.replicate ss.length none }
  | [], m, T, h => by cases m; simp_all [freeTexts]
  | s :: ss, m, T, h => by
    rw [List.length_cons, List.range'_succ]
    unfold freeTexts
    rw [h, List.map_cons, Heap.free_at]
    dsimp only
    have ih := freeTexts_eq ss { m with texts := T ++ none :: ss.map some } (T ++ [none]) (by simp)
    rw [List.length_append, List.length_singleton] at ih
    rw [ih]
    simp [List.replicate_succ]

/-! ### A piece -/

/-- The values of `executeParallelS`. -/
def executeV (mg : Merge) (d : QDfa) (ct : Option CTable) (u : Nat → UState) (w : W) (c : Str) (cs : List Str) : K :=
  (mg (K.ofW w) c (workersFrom d ct u 1 cs)).orUb (decide (cs.length ≥ MAX_THREAD))

theorem workersFrom_fst (d : QDfa) (ct : Option CTable) (u : Nat → UState) : ∀ (cs : List Str) (i : Nat),
    (workersFrom d ct u i cs).map (fun x => some x.1) = cs.map some
  | [], _ => rfl
  | c :: cs, i => by simp [workersFrom, workersFrom_fst d ct u cs]

theorem workersFrom_len (d : QDfa) (ct : Option CTable) (u : Nat → UState) : ∀ (cs : List Str) (i : Nat),
    (workersFrom d ct u i cs).length = cs.length
  | [], _ => rfl
  | c :: cs, i => by simp [workersFrom, workersFrom_len d ct u cs]

/-- A piece when worker 0 exists. -/
theorem execute_major (mg : Merge) (d : QDfa) (ct : Option CTable) (u : Nat → UState) (m : Store) (a : PAR) (p q : Nat) (b : Body)
    (l : List MTuple) (c : Str) (cs : List Str) (T : Heap Str) (w : W) (hp : a.major = some p)
    (hw : m.workers.read p = some ⟨0, q, b⟩) (hl : m.lists.read q = some l) (ht : m.texts = T ++ (c :: cs).map some)
    (hb : b.run d ct (u 0) 0 c l = some w) :
    executeParallelS mg d ct u m a (List.range' (List.length T) (c :: cs).length) =
      some ({ m with
        lists := m.lists.write q (executeV mg d ct u w c cs).q.tl ++ List.replicate cs.length none
        workers := m.workers.write p ⟨0, q, .merged { executeV mg d ct u w c cs with
          q := { (executeV mg d ct u w c cs).q with tl := [] } }⟩ ++ List.replicate cs.length none },
        { a with tl := some q, major := some p }, executeV mg d ct u w c cs) := by
  rw [List.length_cons, List.range'_succ]
  unfold executeParallelS
  rw [hp]
  dsimp only
  have hc : m.texts.read (List.length T) = some c := by rw [ht]; exact Heap.read_append_at _ _ _
  have e1 : threadS d ct (u 0) m p (List.length T) = some { m with
      lists := m.lists.write q w.q.tl
      workers := m.workers.write p ⟨0, q, .ran { w with q := { w.q with tl := [] } }⟩ } := by
    unfold threadS
    rw [hw]
    dsimp only
    rw [hl, hc]
    dsimp only
    rw [hb]
    rfl
  rw [e1]
  dsimp only
  have e2 := threadsS_eq d ct u cs 1 { m with
      lists := m.lists.write q w.q.tl
      workers := m.workers.write p ⟨0, q, .ran { w with q := { w.q with tl := [] } }⟩ } (T ++ [some c]) (by simp [ht])
  rw [List.length_append, List.length_singleton] at e2
  rw [e2]
  dsimp only
  have hw1 := Heap.read_write_self hw ⟨0, q, .ran { w with q := { w.q with tl := [] } }⟩
  have hl1 := Heap.read_write_self hl w.q.tl
  have hlen := workersFrom_len d ct u cs 1
  have e3 := readThreads_eq (workersFrom d ct u 1 cs) 1 { m with
      lists := m.lists.write q w.q.tl ++ (workersFrom d ct u 1 cs).map fun x => some x.2.q.tl
      workers := m.workers.write p ⟨0, q, .ran { w with q := { w.q with tl := [] } }⟩ ++
        ranObjs 1 (List.length (m.lists.write q w.q.tl)) ((workersFrom d ct u 1 cs).map (·.2)) }
    (T ++ [some c]) _ _ (by rw [workersFrom_fst]; simp [ht]) rfl rfl
  rw [List.length_append, List.length_singleton, hlen] at e3
  have e4 : readThread { m with
      lists := m.lists.write q w.q.tl ++ (workersFrom d ct u 1 cs).map fun x => some x.2.q.tl
      workers := m.workers.write p ⟨0, q, .ran { w with q := { w.q with tl := [] } }⟩ ++
        ranObjs 1 (List.length (m.lists.write q w.q.tl)) ((workersFrom d ct u 1 cs).map (·.2)) } (List.length T, p) = some (c, w) := by
    unfold readThread
    dsimp only
    rw [Heap.read_append_left _ _ _ (Heap.read_lt hw1), hw1]
    dsimp only
    rw [Heap.read_append_left _ _ _ (Heap.read_lt hl1), hl1, hc]
  have hr : cs.length = (List.range' (List.length T + 1) cs.length).length := by simp
  have e5 : combineS mg (List.range' (List.length T + 1) cs.length).length { m with
      lists := m.lists.write q w.q.tl ++ (workersFrom d ct u 1 cs).map fun x => some x.2.q.tl
      workers := m.workers.write p ⟨0, q, .ran { w with q := { w.q with tl := [] } }⟩ ++
        ranObjs 1 (List.length (m.lists.write q w.q.tl)) ((workersFrom d ct u 1 cs).map (·.2)) } (List.length T, p)
      (List.zip (List.range' (List.length T + 1) cs.length)
        (List.range' (List.length (m.workers.write p ⟨0, q, .ran { w with q := { w.q with tl := [] } }⟩)) cs.length)) =
      some ({ m with
        lists := m.lists.write q (executeV mg d ct u w c cs).q.tl ++ (workersFrom d ct u 1 cs).map fun x => some x.2.q.tl
        workers := m.workers.write p ⟨0, q, .merged { executeV mg d ct u w c cs with
          q := { (executeV mg d ct u w c cs).q with tl := [] } }⟩ ++
          ranObjs 1 (List.length m.lists) ((workersFrom d ct u 1 cs).map (·.2)) }, q, executeV mg d ct u w c cs) := by
    unfold combineS
    rw [e4, e3]
    dsimp only
    rw [Heap.read_append_left _ _ _ (Heap.read_lt hw1), hw1]
    dsimp only
    rw [Heap.write_append hw1, Heap.write_append hl1, Heap.write_write, Heap.write_write, ← hr, Heap.length_write]
    rfl
  rw [e5]
  dsimp only
  have e6 := freeWorkersS_eq ((workersFrom d ct u 1 cs).map (·.2)) (List.range' (List.length T + 1) cs.length) 1 { m with
        lists := m.lists.write q (executeV mg d ct u w c cs).q.tl ++ (workersFrom d ct u 1 cs).map fun x => some x.2.q.tl
        workers := m.workers.write p ⟨0, q, .merged { executeV mg d ct u w c cs with
          q := { (executeV mg d ct u w c cs).q with tl := [] } }⟩ ++
          ranObjs 1 (List.length m.lists) ((workersFrom d ct u 1 cs).map (·.2)) }
    (m.workers.write p ⟨0, q, .merged { executeV mg d ct u w c cs with
          q := { (executeV mg d ct u w c cs).q with tl := [] } }⟩) (m.lists.write q (executeV mg d ct u w c cs).q.tl)
    (by simp [hlen]) (by omega) (by rw [Heap.length_write]) (by simp)
  rw [List.length_map, hlen, Heap.length_write] at e6
  rw [Heap.length_write, e6]
  rfl

/-- The values of `parallelPartialRunS`. -/
def partialV (mg : Merge) (g : Int) (O : NumOps) (d : QDfa) (ctx : QCtx) (ct : Option CTable) (u : Nat → UState) (cores : Nat)
    (c : Option ParallelCtx) (s : Str) : Option ParallelCtx :=
  match partition cores s with
  | none => none
  | some chunks =>
    if chunks.any Option.isNone then none
    else
      match chunks.filterMap id with
      | [] => none
      | x :: xs =>
        let k := executeV mg d ct u (worker0G g d ct (u 0) (c.map (·.k)) x) x xs
        let pf := match c with
          | some c => c.pf
          | none => PF.init ctx
        some ⟨k, generate O ctx pf k.tuples⟩

theorem partialV_combine (g : Int) (O : NumOps) (d : QDfa) (ctx : QCtx) (ct : Option CTable) (u : Nat → UState) (cores : Nat)
    (c : Option ParallelCtx) (s : Str) :
    partialV (combineLoop d) g O d ctx ct u cores c s = parallelPartialRunG g O d ctx ct u cores c s := by
  unfold partialV parallelPartialRunG
  cases partition cores s with
  | none => rfl
  | some chunks =>
    dsimp only
    split
    · rfl
    · cases chunks.filterMap id with
      | nil => rfl
      | cons x xs => rfl

theorem partition_ne (cores : Nat) (s : Str) (chunks : List (Option Str)) (h : partition cores s = some chunks)
    (hn : ¬ chunks.any Option.isNone = true) : chunks.filterMap id ≠ [] := by
  have e : ∃ l x, chunks = l ++ [x] := by
    unfold partition at h
    split at h
    · cases h
    · split at h
      · cases h
      · split at h
        · split at h
          · cases h
          · exact ⟨_, _, (Option.some.inj h).symm⟩
        · exact ⟨_, _, (Option.some.inj h).symm⟩
  obtain ⟨l, x, rfl⟩ := e
  cases x with
  | none => simp at hn
  | some x => simp

/-- The storage between two pieces: of the workers only worker 0, of the lists only its own, of the texts those in `T`. -/
def Between (g : Int) (m : Store) : Option ParRes → Option ParallelCtx → Prop
  | none, none => m.workers.Clear ∧ m.lists.Clear ∧ m.filters.Clear
  | some c, some z => c.pa.finish = g ∧ c.pf = z.pf ∧ c.k = z.k ∧ m.filters.Only c.filter () ∧
      ∃ p q, c.pa.major = some p ∧ m.workers.Only p ⟨0, q, .merged { z.k with q := { z.k.q with tl := [] } }⟩ ∧
        m.lists.Only q (if g = 0 then [] else z.k.q.tl)
  | _, _ => False

/-- `destroyParallelAutomata` at the end of a piece. -/
theorem destroy_piece (m : Store) (a : PAR) (p q : Nat) (b : Body) (l : List MTuple) (ha : a.tl = some q) (hp : a.major = some p)
    (hw : m.workers.Only p ⟨0, q, b⟩) (hl : m.lists.Only q l) :
    ∃ m' q', a.destroy m = some m' ∧ m'.texts = m.texts ∧ m'.filters = m.filters ∧ m'.workers.Only p ⟨0, q', b⟩ ∧
      m'.lists.Only q' (if a.finish = 0 then [] else l) := by
  unfold PAR.destroy
  rw [ha, hp]
  dsimp only
  by_cases h0 : a.finish = 0
  · obtain ⟨L, e, hc⟩ := hl.free
    simp only [if_pos h0, e, Option.map_some, hw.1]
    exact ⟨_, _, rfl, rfl, rfl, hw.write _, hc.alloc _⟩
  · simp only [if_neg h0]
    by_cases h1 : a.finish = 1
    · simp only [if_pos h1, destroyWorker, hw.1]
      exact ⟨_, _, rfl, rfl, rfl, hw, hl⟩
    · simp only [if_neg h1]
      exact ⟨_, _, rfl, rfl, rfl, hw, hl⟩

/-- One piece. -/
theorem piece_store (mg : Merge) (g : Int) (O : NumOps) (d : QDfa) (ctx : QCtx) (ct : Option CTable) (u : Nat → UState) (cores : Nat)
    (m : Store) (c : Option ParRes) (z : Option ParallelCtx) (s : Nat) (text : Str) (hs : m.texts.read s = some text)
    (hi : Between g m c z) :
    match partialV mg g O d ctx ct u cores z text with
    | none => parallelPartialRunS mg g O d ctx ct u cores m c s = .error .chunks
    | some z' => ∃ m' c' n, parallelPartialRunS mg g O d ctx ct u cores m c s = .ok (m', c') ∧
        m'.texts = m.texts ++ List.replicate n none ∧ Between g m' (some c') (some z') := by
  unfold partialV parallelPartialRunS
  rw [hs]
  simp only [stored, bind, Except.bind]
  cases hpart : partition cores text with
  | none => rfl
  | some chunks =>
    dsimp only
    by_cases hn : chunks.any Option.isNone = true
    · simp only [if_pos hn]
    · simp only [if_neg hn]
      have hne := partition_ne cores text chunks hpart hn
      cases hch : chunks.filterMap id with
      | nil => exact absurd hch hne
      | cons x xs =>
        rw [allocTexts_eq]
        dsimp only
        -- the storage with worker 0
        have key : ∃ (m1 : Store) (a1 : PAR) (p q : Nat) (b : Body) (l : List MTuple),
            executeParallelS mg d ct u { m with texts := m.texts ++ (x :: xs).map some }
              (paStart g c) (List.range' (List.length m.texts) (x :: xs).length) =
            executeParallelS mg d ct u { m1 with texts := m.texts ++ (x :: xs).map some } a1
              (List.range' (List.length m.texts) (x :: xs).length) ∧ a1.major = some p ∧ a1.finish = g ∧
            m1.workers.Only p ⟨0, q, b⟩ ∧ m1.lists.Only q l ∧ m1.filters = m.filters ∧
            b.run d ct (u 0) 0 x l = some (worker0G g d ct (u 0) (z.map (·.k)) x) := by
          cases c with
          | none =>
            cases z with
            | some z => exact hi.elim
            | none =>
              obtain ⟨h1, h2, h3⟩ := hi
              refine ⟨(createWorker m 0).1, { PAR.init g with major := some (createWorker m 0).2 }, _, _, _, _, ?_, rfl, rfl,
                h1.alloc _, h2.alloc _, rfl, fresh_run d ct (u 0) 0 x⟩
              rw [List.length_cons, List.range'_succ]
              rfl
          | some c =>
            cases z with
            | none => exact hi.elim
            | some z =>
              obtain ⟨h1, h2, h3, h4, p, q, h5, h6, h7⟩ := hi
              exact ⟨m, c.pa, p, q, _, _, rfl, h5, h1, h6, h7, rfl, rfl⟩
        obtain ⟨m1, a1, p, q, b, l, e, hp, hf, hw, hl, hfl, hb⟩ := key
        rw [e, execute_major mg d ct u { m1 with texts := m.texts ++ (x :: xs).map some } a1 p q b l x xs m.texts _ hp hw.1 hl.1 rfl hb]
        generalize hk : executeV mg d ct u (worker0G g d ct (u 0) (z.map fun x => x.k) x) x xs = k
        dsimp only [Option.bind_some]
        have hl1 := (hl.write k.q.tl).append xs.length
        rw [hl1.1]
        dsimp only
        have hw1 := (hw.write ⟨0, q, .merged { k with q := { k.q with tl := [] } }⟩).append xs.length
        have tail : ∀ (m2 : Store) (f : Nat) (pf pf' : PF), m2.texts = m.texts ++ (x :: xs).map some →
            m2.workers.Only p ⟨0, q, .merged { k with q := { k.q with tl := [] } }⟩ → m2.lists.Only q k.q.tl →
            m2.filters.Only f () → pf = pf' →
            ∃ m' c' n, (match m2.filters.read f with
              | none => Except.error Fault.storage
              | some _ =>
                match (freeTexts m2 (List.range' (List.length m.texts) (x :: xs).length)).bind fun m =>
                  PAR.destroy m { a1 with tl := some q, major := some p } with
                | none => Except.error Fault.storage
                | some m => Except.ok (m, (⟨{ a1 with tl := some q, major := some p }, f,
                    generate O ctx pf (k.q.tl.map fun t => ⟨t.st, t.text.getD []⟩), k⟩ : ParRes))) = Except.ok (m', c') ∧
              m'.texts = m.texts ++ List.replicate n none ∧ Between g m' (some c') (some ⟨k, generate O ctx pf' k.tuples⟩) := by
          intro m2 f pf pf' t1 t2 t3 t4 t5
          rw [t4.1]
          dsimp only
          rw [freeTexts_eq _ m2 _ t1]
          obtain ⟨m', q', e1, e2, e3, e4, e5⟩ := destroy_piece { m2 with texts := m.texts ++ List.replicate (x :: xs).length none }
            { a1 with tl := some q, major := some p } p q _ _ rfl rfl t2 t3
          dsimp only [Option.bind_some]
          rw [e1]
          refine ⟨m', _, _, rfl, e2, hf, by rw [t5]; rfl, rfl, by rw [e3]; exact t4, p, q', rfl, e4, ?_⟩
          rw [← hf]
          exact e5
        cases c with
        | none =>
          cases z with
          | some z => exact hi.elim
          | none =>
            exact tail _ _ _ _ rfl hw1 hl1 (by
              dsimp only [createFilter]
              rw [hfl]
              exact hi.2.2.alloc ()) rfl
        | some c =>
          cases z with
          | none => exact hi.elim
          | some z =>
            exact tail _ _ _ _ rfl hw1 hl1 (by
              dsimp only
              rw [hfl]
              exact hi.2.2.2.1) hi.2.1

/-! ### The run -/

/-- The values of `parallelPiecesS`. -/
def piecesV (mg : Merge) (g : Int) (O : NumOps) (d : QDfa) (ctx : QCtx) (ct : Option CTable) (u : Nat → Nat → UState) (cores : Nat) :
    Nat → Option ParallelCtx → List Str → Option (Option ParallelCtx)
  | _, c, [] => some c
  | n, c, p :: ps =>
    match partialV mg g O d ctx ct (u n) cores c p with
    | none => none
    | some c => piecesV mg g O d ctx ct u cores (n + 1) (some c) ps

theorem piecesV_combine (g : Int) (O : NumOps) (d : QDfa) (ctx : QCtx) (ct : Option CTable) (u : Nat → Nat → UState) (cores : Nat) :
    ∀ (ps : List Str) (n : Nat) (c : Option ParallelCtx),
    piecesV (combineLoop d) g O d ctx ct u cores n c ps = parallelPiecesG g O d ctx ct u cores n c ps
  | [], _, _ => rfl
  | p :: ps, n, c => by
    unfold piecesV parallelPiecesG
    rw [partialV_combine]
    cases parallelPartialRunG g O d ctx ct (u n) cores c p with
    | none => rfl
    | some z => exact piecesV_combine g O d ctx ct u cores ps _ _

theorem Heap.Clear.piece {α : Type} {h : Heap α} (c : h.Clear) (a : α) (n : Nat) :
    ∃ h', Heap.free (h.alloc a ++ List.replicate n none) (List.length h) = some h' ∧ h'.Clear :=
  ((c.alloc a).append n).free

theorem pieces_store (mg : Merge) (g : Int) (O : NumOps) (d : QDfa) (ctx : QCtx) (ct : Option CTable) (u : Nat → Nat → UState)
    (cores : Nat) : ∀ (ps : List Str) (n : Nat) (m : Store) (c : Option ParRes) (z : Option ParallelCtx),
    m.texts.Clear → Between g m c z →
    match piecesV mg g O d ctx ct u cores n z ps with
    | none => parallelPiecesS mg g O d ctx ct u cores n m c ps = .error .chunks
    | some z' => ∃ m' c', parallelPiecesS mg g O d ctx ct u cores n m c ps = .ok (m', c') ∧ m'.texts.Clear ∧ Between g m' c' z' ∧
        (ps ≠ [] → c'.isSome = true)
  | [], _, m, c, _, ht, hi => ⟨m, c, rfl, ht, hi, fun h => absurd rfl h⟩
  | p :: ps, n, m, c, z, ht, hi => by
    have hi' : Between g { m with texts := m.texts.alloc p } c z := by
      cases c <;> cases z <;> exact hi
    have h1 := piece_store mg g O d ctx ct (u n) cores { m with texts := m.texts.alloc p } c z (List.length m.texts) p
      (Heap.read_append_at m.texts [] (some p)) hi'
    unfold piecesV parallelPiecesS
    cases e : partialV mg g O d ctx ct (u n) cores z p with
    | none =>
      rw [e] at h1
      dsimp only at h1 ⊢
      rw [h1]
      rfl
    | some z' =>
      rw [e] at h1
      obtain ⟨m', c', k, h2, h3, h4⟩ := h1
      dsimp only
      rw [h2]
      obtain ⟨t, h5, h6⟩ := ht.piece p k
      dsimp only [bind, Except.bind]
      rw [h3, h5]
      dsimp only [stored]
      have ih := pieces_store mg g O d ctx ct u cores ps (n + 1) { m' with texts := t } (some c') (some z') h6 h4
      revert ih
      cases piecesV mg g O d ctx ct u cores (n + 1) (some z') ps with
      | none => exact id
      | some z'' =>
        rintro ⟨m'', c'', a1, a2, a3, a4⟩
        refine ⟨m'', c'', a1, a2, a3, fun _ => ?_⟩
        cases c'' with
        | some _ => rfl
        | none =>
          cases ps with
          | cons _ _ => exact a4 (by simp)
          | nil =>
            simp only [parallelPiecesS, Except.ok.injEq, Prod.mk.injEq] at a1
            exact absurd a1.2 (by simp)

/-- The values a context contains. -/
def ParRes.values (c : ParRes) : ParallelCtx := ⟨c.k, c.pf⟩

/-- What is left when a run over at least one piece has ended: worker 0, which has not been released, and its list.  Every other
worker, list, text and array has been released. -/
def Leftover (m : Store) : Prop :=
  m.texts.Clear ∧ m.filters.Clear ∧ ∃ p q b l, m.workers.Only p ⟨0, q, b⟩ ∧ m.lists.Only q l

theorem run_store (mg : Merge) (g : PGarbage) (O : NumOps) (d : QDfa) (ctx : QCtx) (ct : Option CTable) (u : Nat → Nat → UState)
    (cores : Nat) (ps : List Str) (hps : ps ≠ []) :
    match piecesV mg g.finish O d ctx ct u cores 0 none ps with
    | none => parallelRunS mg g O d ctx ct u cores ps = .error .chunks
    | some z => ∃ m c, parallelRunS mg g O d ctx ct u cores ps = .ok (m, c) ∧ Leftover m ∧ c.map ParRes.values = z := by
  have clear : ∀ (α : Type), Heap.Clear ([] : Heap α) := fun _ _ => by simp [Heap.read]
  have h := pieces_store mg g.finish O d ctx ct u cores ps 0 ⟨[], [], [], []⟩ none none (clear _) ⟨clear _, clear _, clear _⟩
  unfold parallelRunS
  cases e : piecesV mg g.finish O d ctx ct u cores 0 none ps with
  | none =>
    rw [e] at h
    dsimp only at h ⊢
    rw [h]
    rfl
  | some z =>
    rw [e] at h
    obtain ⟨m, c, h1, h2, h3, h4⟩ := h
    dsimp only
    rw [h1]
    dsimp only [bind, Except.bind]
    cases c with
    | none => exact absurd (h4 hps) (by simp)
    | some c =>
      cases z with
      | none => exact h3.elim
      | some z =>
        obtain ⟨a1, a2, a3, a4, p, q, a5, a6, a7⟩ := h3
        have e1 : PAR.destroy m { c.pa with finish := 1 } = some m := by
          unfold PAR.destroy
          dsimp only
          rw [a5]
          cases c.pa.tl <;> simp [destroyWorker, a6.1]
        obtain ⟨f, e2, e3⟩ := a4.free
        unfold contextDestroyS
        dsimp only
        rw [e1]
        dsimp only
        rw [e2]
        dsimp only [stored, Option.map_some]
        refine ⟨_, _, rfl, ⟨h2, e3, p, q, _, _, a6, a7⟩, ?_⟩
        rw [Option.map_some]
        unfold ParRes.values
        rw [a2, a3]

/-- **C52 (all files with a piece; missing: the empty file, `c52_false_empty`)**: whatever the fields contain that no function
writes, and whatever `combine` computes (with or without reprocessing), a parallel run over at least one piece never touches
released storage, never releases an object twice, and never follows a pointer that was not written. -/
theorem c52_live_partial (mg : Merge) (g : PGarbage) (O : NumOps) (d : QDfa) (ctx : QCtx) (ct : Option CTable)
    (u : Nat → Nat → UState) (cores : Nat) (ps : List Str) (hps : ps ≠ []) :
    parallelRunS mg g O d ctx ct u cores ps ≠ .error .storage := by
  have h := run_store mg g O d ctx ct u cores ps hps
  revert h
  cases piecesV mg g.finish O d ctx ct u cores 0 none ps with
  | none => intro h; rw [h]; simp
  | some z => rintro ⟨m, c, h, _⟩; rw [h]; simp

/-- **C52, releases (missing: worker 0 and its list, `c52_false_left`)**: when the run ends, every worker automaton but worker 0,
every tuple list but its own, every input piece and chunk, and the arrays of the filter have been released. -/
theorem c52_left_partial (mg : Merge) (g : PGarbage) (O : NumOps) (d : QDfa) (ctx : QCtx) (ct : Option CTable)
    (u : Nat → Nat → UState) (cores : Nat) (ps : List Str) (hps : ps ≠ []) (m : Store) (c : Option ParRes)
    (h : parallelRunS mg g O d ctx ct u cores ps = .ok (m, c)) : Leftover m := by
  have h1 := run_store mg g O d ctx ct u cores ps hps
  revert h1
  cases piecesV mg g.finish O d ctx ct u cores 0 none ps with
  | none => intro h1; rw [h1] at h; cases h
  | some z =>
    rintro ⟨m', c', h1, h2, _⟩
    rw [h1] at h
    cases h
    exact h2

theorem pieces_ne (B : Nat) (file : Str) (hB : 0 < B) (hf : file ≠ []) : pieces B file (file.length + 1) 0 ≠ [] := by
  have : B ≠ 0 := by omega
  simp [pieces, loadBounded, this, hf]

/-- **C52, values**: on a nonempty file the run with storage computes what the models of the values compute (`Verif/Carry.lean`, and
`Verif/Combine.lean` if `finish_flag` holds 0): the sharing of worker 0 and of its list between the copies of `pa` is harmless, and
of the fields that no function writes only `finish_flag` matters. -/
theorem c52_values (g : PGarbage) (O : NumOps) (B cores : Nat) (u : Nat → Nat → UState) (t : Ast) (file : Str) (hB : 0 < B)
    (hf : file ≠ []) :
    (parallelFileS g O B cores u t file).bind (fun r => r.toOption.map fun x => x.2.map ParRes.values) =
      parallelRunG g.finish O B cores u t file := by
  unfold parallelFileS parallelRunG
  cases buildQuery t with
  | none => rfl
  | some q =>
    dsimp only [Option.map_some, Option.bind_some]
    have h1 := run_store (combineLoop q.1) g O q.1 q.2 none u cores _ (pieces_ne B file hB hf)
    rw [piecesV_combine] at h1
    revert h1
    cases parallelPiecesG g.finish O q.1 q.2 none u cores 0 none (pieces B file (file.length + 1) 0) with
    | none => intro h1; rw [h1]; rfl
    | some z => rintro ⟨m, c, h1, _, h2⟩; rw [h1]; exact congrArg some h2

/-- **C52, one piece**: a file of at most `B` characters is processed the same way whatever the fields contain. -/
theorem c52_single (g : PGarbage) (O : NumOps) (B cores : Nat) (u : Nat → Nat → UState) (t : Ast) (file : Str)
    (hf : file ≠ []) (hB : file.length ≤ B) :
    (parallelFileS g O B cores u t file).bind (fun r => r.toOption.map fun x => x.2.map ParRes.values) =
      parallelRun O B cores u t file := by
  have hl : file.length ≠ 0 := by simpa using hf
  rw [c52_values g O B cores u t file (by omega) hf, c51_single g.finish O B cores u t file hf hB]

/-- **C52 is false for the empty file**: it has no piece, and `destroyStreamingContext` follows pointers that were never written. -/
theorem c52_false_empty (mg : Merge) (g : PGarbage) (O : NumOps) (d : QDfa) (ctx : QCtx) (ct : Option CTable)
    (u : Nat → Nat → UState) (cores : Nat) (B : Nat) :
    parallelRunS mg g O d ctx ct u cores (pieces B [] 1 0) = .error .storage ↔ ¬ (g.majorNull = true ∧ g.filterNull = true) := by
  have : pieces B [] 1 0 = [] := by simp [pieces, loadBounded]
  rw [this]
  obtain ⟨f, a, b⟩ := g
  cases a <;> cases b <;> simp [parallelRunS, parallelPiecesS, contextDestroyS, stored, bind, Except.bind]

/-- **C52 is false about worker 0**: when a run over at least one piece ends, worker 0 and its list are still allocated. -/
theorem c52_false_left (mg : Merge) (g : PGarbage) (O : NumOps) (d : QDfa) (ctx : QCtx) (ct : Option CTable)
    (u : Nat → Nat → UState) (cores : Nat) (ps : List Str) (hps : ps ≠ []) (m : Store) (c : Option ParRes)
    (h : parallelRunS mg g O d ctx ct u cores ps = .ok (m, c)) : ¬ m.workers.Clear ∧ ¬ m.lists.Clear := by
  obtain ⟨_, _, p, q, b, l, h1, h2⟩ := c52_left_partial mg g O d ctx ct u cores ps hps m c h
  exact ⟨fun hc => (by have := hc p; rw [h1.1] at this; cases this), fun hc => (by have := hc q; rw [h2.1] at this; cases this)⟩

/-- Not vacuous: `$.x` on `exFourKeys` in two pieces, each cut for two threads; the run ends normally. -/
example : (parallelFileS ⟨0, false, false⟩ intOps 16 2 (fun _ _ => .other) (astOf [.prop ['x']]) exFourKeys.render).map
    (fun r => r.toOption.map fun x => (x.2.map fun c => c.pf.output, x.1.workers.map (·.isSome), x.1.texts.map (·.isSome))) =
    some (some (some ["1".toList], [true, false, false], [false, false, false, false, false, false])) := by decide +kernel

end JPS
