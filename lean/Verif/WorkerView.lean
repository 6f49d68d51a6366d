import Verif.LevelProofs
/-!
# A worker as seen from one of its start states

`P` is the worker of `Verif/Worker.lean` (without constraint table) with one state instead of many: one path of
entries and one list of tuples.  For each start state the worker does what `P` does.
-/

set_option autoImplicit false

namespace JPS
open Spec

/-! ### One path -/

/-- The fields of `W` (worker_automaton.c:117-176) for one start state: `p` is the path from the current entry down
to the start state, `out` are the tuples found in the current unit. -/
structure P where
  p : List Elt
  out : List MTuple
  ss : List Sym
  shadow : List Sym
  syms : List (USym × Nat)
  st : UState
  units : List (List (USym × Nat) × List MTuple)

/-- `getMatchedType`, worker_automaton.c:12-45 for an entry that is (not) the start of its path. -/
def Elt.matched (d : QDfa) (root : Bool) (e : Elt) : WAcc :=
  Node.matched d ⟨e.st, e.count, e.ms, if root then some [] else some [0]⟩

/-- The next state, multi_stack.h:124-136. -/
def Elt.next (d : QDfa) (root : Bool) (e : Elt) (k : Option Str) : Nat :=
  Node.next d ⟨e.st, e.count, e.ms, if root then some [] else some [0]⟩ k

/-- What a loop body does to one entry: tuple found, new count, new start. -/
abbrev PAct := Bool → Elt → Option MTuple × Nat × Option Nat

/-- The entry afterwards. -/
def PAct.upd (act : PAct) (b : Bool) (e : Elt) : Elt := ⟨e.st, (act b e).2.1, (act b e).2.2⟩

/-- A loop over the current level (worker_automaton.c:191-210 and the like), for one path. -/
def P.cur (act : PAct) (v : P) : P :=
  match v.p with
  | e :: t => { v with p := act.upd (t == []) e :: t, out := v.out ++ (act (t == []) e).1.toList }
  | [] => v

/-- A loop over the level below (worker_automaton.c:379-404), for one path. -/
def P.below (act : PAct) (v : P) : P :=
  match v.p with
  | e :: e1 :: t => { v with p := e :: act.upd (t == []) e1 :: t, out := v.out ++ (act (t == []) e1).1.toList }
  | _ => v

/-- `closeOut` (worker_automaton.c:217-237 and 379-404) for one entry. -/
def closeAct (E : WEnv) (arr : Bool) (pos : Nat) : PAct := fun b e =>
  match e.ms with
  | some p0 =>
    if E.selects (e.matched E.d b) then
      (some (if E.id0 then .ofText e.st (substring E.s p0 pos) else .ofSpan e.st p0 pos), e.count, none)
    else if arr && e.matched E.d b == .incomplete then (some (.ofText e.st [']']), e.count, e.ms)
    else (none, e.count, e.ms)
  | none => (none, e.count, e.ms)

/-- The loop of `case LCB`, worker_automaton.c:191-210, for one entry. -/
def lcbAct (E : WEnv) (pos : Nat) : PAct := fun b e =>
  if E.selects (e.matched E.d b) then (none, e.count, some (pos - 1))
  else if e.matched E.d b = .predicate then (some (.ofText e.st ['{']), e.count, e.ms)
  else if e.matched E.d b = .condition then (some (.ofText e.st []), e.count, e.ms)
  else (none, e.count, e.ms)

/-- The loop of `case LB`, worker_automaton.c:358-373, for one entry. -/
def lbAct (E : WEnv) (pos : Nat) : PAct := fun b e =>
  if E.selects (e.matched E.d b) then (none, e.count, some (pos - 1))
  else if e.matched E.d b = .condition then (some (.ofText e.st []), e.count, e.ms)
  else (none, e.count, e.ms)

/-- `elemEnd` (worker_automaton.c:289-305, 320-333) for one entry. -/
def elemAct (E : WEnv) (root : Bool) : PAct := fun b e =>
  (if e.matched E.d b = .predicate then some (.ofText e.st ['}'])
   else if root && e.matched E.d b == .incomplete then some (.ofText e.st ['}']) else none, e.count + 1, e.ms)

/-- `count++` (worker_automaton.c:438-445, 461-468) for one entry. -/
def incrAct : PAct := fun _ e => (none, e.count + 1, e.ms)

/-- `priOut` (worker_automaton.c:518-530, 565-576) for one entry. -/
def priAct (E : WEnv) (t : Str) (inc : Bool) : PAct := fun b e =>
  (if E.selects (e.matched E.d b) || e.matched E.d b == .condition then some (.ofText e.st t) else none,
    if inc then e.count + 1 else e.count, e.ms)

/-- `queryStacksPush` for one path, multi_stack.h:100-217. -/
def P.pushQ (d : QDfa) (k : Option Str) (v : P) : P :=
  match v.p with
  | e :: t => { v with p := ⟨e.next d (t == []) k, 0, none⟩ :: e :: t }
  | [] => v

/-- `queryStacksPop` for one path, multi_stack.h:220-234. -/
def P.popQ (v : P) : P := { v with p := v.p.tail }

/-- `W.closeUnit` (worker_automaton.c:241-252) for the start state `s0`. -/
def P.close (s0 : Nat) (v : P) : P :=
  if v.st = .matched then ⟨[⟨s0, 0, none⟩], [], [], [], [], v.st, v.units ++ [(v.syms, v.out)]⟩ else v

/-- `addUnmatchedSymbol`, unit.h:98-103. -/
def P.addSym (v : P) (x : USym) (i : Nat) : P := { v with syms := v.syms ++ [(x, i)], st := .unmatched }

/-- As `W.inferred` (worker_automaton.c:263, 411, 541). -/
def P.inferred (v : P) (x : TT) (rest : List Tok) : P :=
  if v.shadow = [] then
    { v with shadow := match infer x rest with
        | some y => [y]
        | none => [] }
  else v

/-- `case RCB`, worker_automaton.c:213-337. -/
def P.rcb (E : WEnv) (s0 pos : Nat) (rest : List Tok) (v : P) : P :=
  if v.ss.length = 0 then (v.close s0).addSym .rcb (pos - 1)
  else
    let v := v.cur (closeAct E false pos)
    if v.ss.length = 1 then
      let v := v.inferred .rcb rest
      if v.shadow = [] then { v with ss := pop v.ss }
      else if top v.shadow = some .ky then (v.close s0).addSym .object 0
      else if top v.shadow = some .lb then P.cur (elemAct E true) { v with ss := pop v.ss }
      else v
    else if secondTop v.ss = some .ky then
      let v := v.popQ
      { v with ss := pop (pop v.ss) }
    else if secondTop v.ss = some .lb then P.cur (elemAct E false) { v with ss := pop v.ss }
    else v

/-- `case RB`, worker_automaton.c:376-491. -/
def P.rb (E : WEnv) (s0 pos : Nat) (rest : List Tok) (v : P) : P :=
  if v.ss.length = 0 then (v.close s0).addSym .rb (pos - 1)
  else
    let v := v.below (closeAct E true pos)
    if v.ss.length = 1 then
      let v := v.inferred .rb rest
      if v.shadow = [] then
        let v := v.popQ
        { v with ss := pop v.ss }
      else if top v.shadow = some .ky then (v.close s0).addSym .array 0
      else if top v.shadow = some .lb then
        let v := v.popQ
        P.cur incrAct { v with ss := pop v.ss }
      else v
    else if secondTop v.ss = some .ky then
      let v := v.popQ.popQ
      { v with ss := pop (pop v.ss) }
    else if secondTop v.ss = some .lb then
      let v := v.popQ
      P.cur incrAct { v with ss := pop v.ss }
    else v

/-- `case PRI`, worker_automaton.c:515-579. -/
def P.pri (E : WEnv) (s0 : Nat) (t : Str) (rest : List Tok) (v : P) : P :=
  if v.ss.length ≥ 1 then
    let v := v.cur (priAct E t (decide (top v.ss = some .lb)))
    if top v.ss = some .ky then
      let v := v.popQ
      { v with ss := pop v.ss }
    else v
  else
    let t := if v.shadow = [] then clobber t rest else t
    let v := v.inferred .pri rest
    if top v.shadow = some .ky then (v.close s0).addSym .pri 0
    else if top v.shadow = some .lb then P.cur (priAct E t true) { v with st := .matched }
    else v

/-- One iteration of the loop, worker_automaton.c:179-583. -/
def P.step (E : WEnv) (s0 : Nat) (v : P) (t : Tok) (rest : List Tok) : P :=
  match t with
  | .lcb p => P.cur (lcbAct E p) { v with st := .matched, ss := push v.ss .lcb }
  | .rcb p => v.rcb E s0 p rest
  | .lb p =>
    let v := P.pushQ E.d none (P.cur (lbAct E p) { v with st := .matched })
    { v with ss := push v.ss .lb }
  | .rb p => v.rb E s0 p rest
  | .com => v
  | .ky k =>
    let v := P.pushQ E.d (some k) { v with st := .matched }
    { v with ss := push v.ss .ky }
  | .pri x => v.pri E s0 x rest

/-- The loop of `executeWorkerAutomaton`, worker_automaton.c:179-583. -/
def P.run (E : WEnv) (s0 : Nat) : P → List Tok → P
  | v, [] => v
  | v, t :: ts => P.run E s0 (v.step E s0 t ts) ts

/-- The start, worker_automaton.c:136-176. -/
def P.init (s0 : Nat) (u : UState) : P := ⟨[⟨s0, 0, none⟩], [], [], [], [], u, []⟩

/-! ### Failures are kept -/

theorem QS.orUb_ub {q : QS} {b : Bool} (h : q.ub = true) : (q.orUb b).ub = true := by simp [QS.orUb, h]

theorem addTo_ub {q : QS} {t : MTuple} {r : Nat} (h : q.ub = true) : (q.addTo t r).ub = true := by
  unfold QS.addTo
  cases q.heads r <;> simp [h]

theorem addToAll_ub {t : MTuple} : ∀ (rs : List Nat) {q : QS}, q.ub = true →
    (rs.foldl (fun q r => q.addTo t r) q).ub = true
  | [], _, h => h
  | _ :: rs, _, h => addToAll_ub rs (addTo_ub h)

theorem addInfo_ub {q : QS} {i : Nat} {t : MTuple} (h : q.ub = true) : (q.addInfo i t).ub = true := by
  unfold QS.addInfo
  cases q.nodes[i]? with
  | none => rfl
  | some n =>
    cases hn : n.roots with
    | none => simp [hn]
    | some rs =>
      cases rs with
      | nil => simpa [hn] using addTo_ub h
      | cons a as => simpa [hn] using addToAll_ub (a :: as) h

theorem addText_ub {q : QS} {i s : Nat} {t : Str} (h : q.ub = true) : (q.addText i s t).ub = true :=
  QS.orUb_ub (addInfo_ub h)

theorem addSpan_ub {q : QS} {i s b e : Nat} (h : q.ub = true) : (q.addSpan i s b e).ub = true := addInfo_ub h

theorem setMs_ub {q : QS} {i : Nat} {m : Option Nat} (h : q.ub = true) : (q.setMs i m).ub = true := by
  unfold QS.setMs; cases q.nodes[i]? <;> simp [h]

theorem incr_ub {q : QS} {i : Nat} (h : q.ub = true) : (q.incr i).ub = true := by
  unfold QS.incr; cases q.nodes[i]? <;> simp [h]

theorem each_ub {f : Nat → Node → QS → QS} (hf : ∀ i n q, q.ub = true → (f i n q).ub = true) : ∀ (is : List Nat) (q : QS),
    q.ub = true → (is.foldl (fun q i => match q.nodes[i]? with
      | some n => (f i n q).orUb (decide (n.roots = none))
      | none => { q with ub := true }) q).ub = true
  | [], _, h => h
  | i :: is, q, h => by
    rw [List.foldl_cons]
    apply each_ub hf is
    cases q.nodes[i]? with
    | none => rfl
    | some n => exact QS.orUb_ub (hf i n q h)

/-- Something went wrong. -/
def W.bad (w : W) : Bool := w.ub || w.q.ub

theorem W.each_bad {f : Nat → Node → QS → QS} (hf : ∀ i n q, q.ub = true → (f i n q).ub = true) {r : Rng} {w : W}
    (h : w.bad = true) : (w.each r f).bad = true := by
  unfold W.bad at h ⊢
  rw [Bool.or_eq_true] at h ⊢
  rcases h with h | h
  · exact .inl h
  · exact .inr (each_ub hf r.list w.q h)

theorem W.closeOut_bad {E : WEnv} {arr : Bool} {pos : Nat} {r : Rng} {w : W} (h : w.bad = true) :
    (w.closeOut E arr pos r).bad = true := by
  refine W.each_bad (fun i n q hq => ?_) h
  cases n.ms with
  | none => exact hq
  | some b =>
    dsimp only
    split
    · refine setMs_ub ?_
      split
      · exact QS.orUb_ub (addText_ub hq)
      · exact addSpan_ub hq
    · split
      · exact addText_ub hq
      · exact hq

theorem W.elemEnd_bad {E : WEnv} {root : Bool} {w : W} (h : w.bad = true) : (w.elemEnd E root).bad = true := by
  refine W.each_bad (fun i n q hq => ?_) h
  dsimp only
  split
  · exact addText_ub (incr_ub hq)
  · split
    · exact addText_ub (incr_ub hq)
    · exact incr_ub hq

theorem W.incrAll_bad {w : W} (h : w.bad = true) : w.incrAll.bad = true :=
  W.each_bad (fun _ _ _ hq => incr_ub hq) h

theorem W.priOut_bad {E : WEnv} {t : Str} {inc : Bool} {w : W} (h : w.bad = true) : (w.priOut E t inc).bad = true := by
  refine W.each_bad (fun i n q hq => ?_) h
  dsimp only
  have : (if (E.selects (n.matched E.d) || n.matched E.d == .condition) = true then q.addText i n.st t else q).ub = true := by
    split
    · exact addText_ub hq
    · exact hq
  split
  · exact incr_ub this
  · exact this

theorem W.popQ_bad {w : W} (h : w.bad = true) : w.popQ.bad = true := by
  unfold W.bad W.popQ QS.pop at *
  cases w.q.items <;> simp_all

theorem W.addSym_bad {w : W} {x : USym} {i : Nat} (h : w.bad = true) : (w.addSym x i).bad = true := by
  simp only [W.bad, W.addSym, Bool.or_eq_true] at h ⊢
  rcases h with h | h
  · exact .inl (.inl h)
  · exact .inr h

theorem W.closeUnit_bad {E : WEnv} {w : W} (h : w.bad = true) : (w.closeUnit E).bad = true := by
  unfold W.closeUnit
  split
  · cases E.starts with
    | none => simp [W.bad]
    | some st =>
      simp only [W.bad, QS.start, Bool.or_eq_true] at h ⊢
      rcases h with h | h
      · exact .inl (.inl (.inl h))
      · exact .inr (.inl h)
  · exact h

theorem W.inferred_bad {x : TT} {rest : List Tok} {w : W} (h : w.bad = true) : (w.inferred x rest).bad = true := by
  unfold W.inferred
  split
  · exact h
  · exact h

theorem push_bad {d : QDfa} {k : Option Str} {q : QS} {elt : Rng} (h : q.ub = true) : (q.push d elt k).1.ub = true := by
  simp [QS.push, h]

theorem W.pushQ_bad {d : QDfa} {k : Option Str} {w : W} {ss : List Sym} (h : w.bad = true) :
    W.bad { w with ss := ss, q := (w.q.push d w.elt k).1, elt := (w.q.push d w.elt k).2 } = true := by
  simp only [W.bad, Bool.or_eq_true] at h ⊢
  rcases h with h | h
  · exact .inl h
  · exact .inr (push_bad h)

theorem W.pruned_bad {E : WEnv} {k : CKey} {w : W} (h : w.bad = true) : (w.pruned E k).bad = true := by
  unfold W.pruned
  cases E.ct with
  | none => exact h
  | some ct =>
    dsimp only
    split
    · cases ct.lookup k with
      | none =>
        simp only [W.bad, Bool.or_eq_true] at h ⊢
        rcases h with h | h
        · exact .inl (.inl h)
        · exact .inr h
      | some ks =>
        simp only [W.bad, Bool.or_eq_true] at h ⊢
        rcases h with h | h
        · exact .inl (.inl h)
        · refine .inr ?_
          unfold QS.prune
          split
          · exact h
          · simp [h]
    · exact h

theorem W.step_bad {E : WEnv} {w : W} {t : Tok} {rest : List Tok} (h : w.bad = true) :
    (w.step E t rest).bad = true := by
  have hm : w.mark.bad = true := h
  have hss : ∀ (w : W) ss, w.bad = true → W.bad { w with ss := ss } = true := fun w ss h => h
  cases t with
  | lcb p =>
    show (w.lcb E p).bad = true
    unfold W.lcb
    refine W.each_bad (fun i n q hq => ?_) h
    split
    · exact setMs_ub hq
    · split
      · exact addText_ub hq
      · split
        · exact addText_ub hq
        · exact hq
  | rcb p =>
    show (w.rcb E p rest).bad = true
    simp only [W.rcb]
    split
    · exact W.addSym_bad (W.closeUnit_bad h)
    · have h1 := W.closeOut_bad (E := E) (arr := false) (pos := p) (r := w.elt) h
      split
      · have h2 := W.inferred_bad (x := .rcb) (rest := rest) h1
        split
        · exact h2
        · split
          · exact W.addSym_bad (W.closeUnit_bad h2)
          · split
            · exact W.elemEnd_bad (hss _ _ h2)
            · exact h2
      · split
        · exact W.popQ_bad h1
        · split
          · exact W.elemEnd_bad (hss _ _ h1)
          · exact h1
  | lb p =>
    show (w.lb E p).bad = true
    simp only [W.lb]
    refine W.pushQ_bad (W.each_bad (fun i n q hq => ?_) (W.pruned_bad (w := w.mark) h))
    split
    · exact setMs_ub hq
    · split
      · exact addText_ub hq
      · exact hq
  | rb p =>
    show (w.rb E p rest).bad = true
    simp only [W.rb]
    split
    · exact W.addSym_bad (W.closeUnit_bad h)
    · have h1 : (w.rbOut E p).bad = true := by
        unfold W.rbOut
        cases w.q.items with
        | nil => simp [W.orUb, W.bad]
        | cons r rs => exact W.closeOut_bad h
      generalize w.rbOut E p = w1 at h1
      simp only [W.rbEnd]
      split
      · have h2 := W.inferred_bad (x := .rb) (rest := rest) h1
        split
        · exact W.popQ_bad h2
        · split
          · exact W.addSym_bad (W.closeUnit_bad h2)
          · split
            · exact W.incrAll_bad (hss _ _ (W.popQ_bad h2))
            · exact h2
      · split
        · exact W.popQ_bad (w := { w1 with q := w1.q.pop.1 }) (W.popQ_bad h1)
        · split
          · exact W.incrAll_bad (hss _ _ (W.popQ_bad h1))
          · exact h1
  | com => exact h
  | ky k =>
    show (w.ky E k).bad = true
    simp only [W.ky]
    exact W.pushQ_bad (W.pruned_bad (w := w.mark) h)
  | pri x =>
    show (w.pri E x rest).bad = true
    simp only [W.pri]
    split
    · have h1 := W.priOut_bad (E := E) (t := x) (inc := decide (top w.ss = some .lb)) h
      split
      · exact W.popQ_bad h1
      · exact h1
    · have h2 := W.inferred_bad (x := .pri) (rest := rest) h
      split
      · exact W.addSym_bad (W.closeUnit_bad h2)
      · split
        · exact W.priOut_bad (w := (w.inferred .pri rest).mark) h2
        · exact h2

theorem W.run_bad {E : WEnv} : ∀ {ts : List Tok} {w : W}, w.bad = true → (w.run E ts).bad = true
  | [], _, h => h
  | t :: ts, w, h => by
    show (W.run E (w.step E t ts) ts).bad = true
    exact W.run_bad (W.step_bad h)

/-! ### Fields that stay -/

theorem cur_fields (v : P) (a : PAct) : (v.cur a).units = v.units ∧ (v.cur a).syms = v.syms ∧ (v.cur a).st = v.st ∧
    (v.cur a).ss = v.ss ∧ (v.cur a).shadow = v.shadow := by
  unfold P.cur; cases v.p <;> exact ⟨rfl, rfl, rfl, rfl, rfl⟩

theorem below_fields (v : P) (a : PAct) : (v.below a).units = v.units ∧ (v.below a).syms = v.syms ∧ (v.below a).st = v.st ∧
    (v.below a).ss = v.ss ∧ (v.below a).shadow = v.shadow := by
  unfold P.below
  split <;> exact ⟨rfl, rfl, rfl, rfl, rfl⟩

theorem cur_len (v : P) (a : PAct) : (v.cur a).p.length = v.p.length := by
  unfold P.cur; cases h : v.p <;> simp [h]

theorem below_len (v : P) (a : PAct) : (v.below a).p.length = v.p.length := by
  unfold P.below; split <;> simp_all

end JPS
