import Verif.ParChunk
import Verif.Spec.Level
/-!
# The syntax part of a worker and of `combine`

The syntax stack, the shadow stack and the unmatched symbols depend neither on the query nor on the constraint table.
-/

set_option autoImplicit false

namespace JPS
open Spec

/-! ### Worker -/

/-- The part of `W` (worker_automaton.c:117-176) that concerns syntax; the unmatched symbols without their index. -/
structure Y where
  ss : List Sym
  shadow : List Sym
  syms : List USym
  st : UState
  units : List (List USym)

/-- The syntax part of a worker, worker_automaton.c:117-176. -/
def W.syn (w : W) : Y := ⟨w.ss, w.shadow, w.unit.syms.map (·.1), w.unit.state, w.units.map fun u => u.syms.map (·.1)⟩

/-- `W.closeUnit`, worker_automaton.c:241-252. -/
def Y.close (y : Y) : Y := if y.st = .matched then ⟨[], [], [], y.st, y.units ++ [y.syms]⟩ else y

/-- `W.addSym`, unit.h:98-103. -/
def Y.add (y : Y) (x : USym) : Y := { y with syms := y.syms ++ [x], st := .unmatched }

/-- `W.inferred`, worker_automaton.c:54-60. -/
def Y.inferred (y : Y) (x : TT) (rest : List Tok) : Y :=
  if y.shadow = [] then
    { y with shadow := match infer x rest with
        | some y => [y]
        | none => [] }
  else y

/-- `case RCB` and `case RB`, worker_automaton.c:213-337, 376-491; `a`, `b` are the symbols recorded. -/
def Y.closing (x : TT) (a b : USym) (rest : List Tok) (y : Y) : Y :=
  if y.ss.length = 0 then y.close.add a
  else if y.ss.length = 1 then
    let y := y.inferred x rest
    if y.shadow = [] then { y with ss := pop y.ss }
    else if top y.shadow = some .ky then y.close.add b
    else if top y.shadow = some .lb then { y with ss := pop y.ss }
    else y
  else if secondTop y.ss = some .ky then { y with ss := pop (pop y.ss) }
  else if secondTop y.ss = some .lb then { y with ss := pop y.ss }
  else y

/-- `case PRI`, worker_automaton.c:515-579. -/
def Y.prim (rest : List Tok) (y : Y) : Y :=
  if y.ss.length ≥ 1 then
    if top y.ss = some .ky then { y with ss := pop y.ss } else y
  else
    let y := y.inferred .pri rest
    if top y.shadow = some .ky then y.close.add .pri
    else if top y.shadow = some .lb then { y with st := .matched }
    else y

/-- One iteration, worker_automaton.c:179-583. -/
def Y.step (y : Y) (t : Tok) (rest : List Tok) : Y :=
  match t with
  | .lcb _ => { y with ss := push y.ss .lcb, st := .matched }
  | .lb _ => { y with ss := push y.ss .lb, st := .matched }
  | .ky _ => { y with ss := push y.ss .ky, st := .matched }
  | .com => y
  | .rcb _ => y.closing .rcb .rcb .object rest
  | .rb _ => y.closing .rb .rb .array rest
  | .pri _ => y.prim rest

/-- The loop, worker_automaton.c:179-583. -/
def Y.run : Y → List Tok → Y
  | y, [] => y
  | y, t :: ts => Y.run (y.step t ts) ts

theorem syn_close {E : WEnv} {st : List Nat} (hE : E.starts = some st) (w : W) : (w.closeUnit E).syn = w.syn.close := by
  unfold W.closeUnit Y.close
  by_cases h : w.unit.state = .matched
  · rw [if_pos h, if_pos (show w.syn.st = .matched from h)]
    dsimp only
    rw [hE]
    simp [W.syn, PUnit.init]
  · rw [if_neg h, if_neg (show ¬ w.syn.st = .matched from h)]

theorem syn_add (w : W) (x : USym) (i : Nat) : (w.addSym x i).syn = w.syn.add x := by
  simp [W.addSym, W.syn, Y.add]

theorem syn_closeAdd {E : WEnv} {st : List Nat} (hE : E.starts = some st) (w : W) (x : USym) (i : Nat) :
    ((w.closeUnit E).addSym x i).syn = w.syn.close.add x := by rw [syn_add, syn_close hE]

theorem syn_inferred (w : W) (x : TT) (rest : List Tok) : (w.inferred x rest).syn = w.syn.inferred x rest := by
  unfold W.inferred Y.inferred
  by_cases h : w.shadow = []
  · rw [if_pos h, if_pos (show w.syn.shadow = [] from h)]; rfl
  · rw [if_neg h, if_neg (show ¬ w.syn.shadow = [] from h)]

theorem syn_pruned (E : WEnv) (k : CKey) (w : W) : (w.pruned E k).syn = w.syn := by
  unfold W.pruned
  split
  · rfl
  · split
    · split <;> rfl
    · rfl

theorem syn_rcb {E : WEnv} {st : List Nat} (hE : E.starts = some st) (p : Nat) (rest : List Tok) (w : W) :
    (w.rcb E p rest).syn = w.syn.closing .rcb .rcb .object rest := by
  unfold W.rcb Y.closing
  have hi := syn_inferred (w.closeOut E false p w.elt) .rcb rest
  have h1 : (w.closeOut E false p w.elt).syn = w.syn := rfl
  rw [h1] at hi
  rw [← hi]
  by_cases h0 : w.ss.length = 0
  · rw [if_pos h0, if_pos (show w.syn.ss.length = 0 from h0), syn_closeAdd hE]
  · rw [if_neg h0, if_neg (show ¬ w.syn.ss.length = 0 from h0)]
    by_cases h2 : w.ss.length = 1
    · rw [if_pos (show w.syn.ss.length = 1 from h2)]
      dsimp only
      rw [if_pos (show (w.closeOut E false p w.elt).ss.length = 1 from h2)]
      generalize (w.closeOut E false p w.elt).inferred .rcb rest = w'
      by_cases ha : w'.shadow = []
      · rw [if_pos ha, if_pos (show w'.syn.shadow = [] from ha)]; rfl
      · rw [if_neg ha, if_neg (show ¬ w'.syn.shadow = [] from ha)]
        by_cases hb : top w'.shadow = some .ky
        · rw [if_pos hb, if_pos (show top w'.syn.shadow = some .ky from hb), syn_closeAdd hE]
        · rw [if_neg hb, if_neg (show ¬ top w'.syn.shadow = some .ky from hb)]
          by_cases hc : top w'.shadow = some .lb
          · rw [if_pos hc, if_pos (show top w'.syn.shadow = some .lb from hc)]; rfl
          · rw [if_neg hc, if_neg (show ¬ top w'.syn.shadow = some .lb from hc)]
    · rw [if_neg (show ¬ w.syn.ss.length = 1 from h2)]
      dsimp only
      rw [if_neg (show ¬ (w.closeOut E false p w.elt).ss.length = 1 from h2)]
      by_cases hb : secondTop w.ss = some .ky
      · rw [if_pos (show secondTop (w.closeOut E false p w.elt).ss = some .ky from hb),
          if_pos (show secondTop w.syn.ss = some .ky from hb)]; rfl
      · rw [if_neg (show ¬ secondTop (w.closeOut E false p w.elt).ss = some .ky from hb),
          if_neg (show ¬ secondTop w.syn.ss = some .ky from hb)]
        by_cases hc : secondTop w.ss = some .lb
        · rw [if_pos (show secondTop (w.closeOut E false p w.elt).ss = some .lb from hc),
            if_pos (show secondTop w.syn.ss = some .lb from hc)]; rfl
        · rw [if_neg (show ¬ secondTop (w.closeOut E false p w.elt).ss = some .lb from hc),
            if_neg (show ¬ secondTop w.syn.ss = some .lb from hc)]; rfl

theorem syn_rb {E : WEnv} {st : List Nat} (hE : E.starts = some st) (p : Nat) (rest : List Tok) (w : W) :
    (w.rb E p rest).syn = w.syn.closing .rb .rb .array rest := by
  unfold W.rb Y.closing
  have h1 : (w.rbOut E p).syn = w.syn := by unfold W.rbOut; split <;> rfl
  by_cases h0 : w.ss.length = 0
  · rw [if_pos h0, if_pos (show w.syn.ss.length = 0 from h0), syn_closeAdd hE]
  · rw [if_neg h0, if_neg (show ¬ w.syn.ss.length = 0 from h0), ← h1]
    generalize w.rbOut E p = w
    unfold W.rbEnd
    by_cases h2 : w.ss.length = 1
    · rw [if_pos h2, if_pos (show w.syn.ss.length = 1 from h2), ← syn_inferred]
      dsimp only
      generalize w.inferred .rb rest = w'
      by_cases ha : w'.shadow = []
      · rw [if_pos ha, if_pos (show w'.syn.shadow = [] from ha)]; rfl
      · rw [if_neg ha, if_neg (show ¬ w'.syn.shadow = [] from ha)]
        by_cases hb : top w'.shadow = some .ky
        · rw [if_pos hb, if_pos (show top w'.syn.shadow = some .ky from hb), syn_closeAdd hE]
        · rw [if_neg hb, if_neg (show ¬ top w'.syn.shadow = some .ky from hb)]
          by_cases hc : top w'.shadow = some .lb
          · rw [if_pos hc, if_pos (show top w'.syn.shadow = some .lb from hc)]; rfl
          · rw [if_neg hc, if_neg (show ¬ top w'.syn.shadow = some .lb from hc)]
    · rw [if_neg h2, if_neg (show ¬ w.syn.ss.length = 1 from h2)]
      by_cases hb : secondTop w.ss = some .ky
      · rw [if_pos hb, if_pos (show secondTop w.syn.ss = some .ky from hb)]; rfl
      · rw [if_neg hb, if_neg (show ¬ secondTop w.syn.ss = some .ky from hb)]
        by_cases hc : secondTop w.ss = some .lb
        · rw [if_pos hc, if_pos (show secondTop w.syn.ss = some .lb from hc)]; rfl
        · rw [if_neg hc, if_neg (show ¬ secondTop w.syn.ss = some .lb from hc)]

theorem syn_pri {E : WEnv} {st : List Nat} (hE : E.starts = some st) (t : Str) (rest : List Tok) (w : W) :
    (w.pri E t rest).syn = w.syn.prim rest := by
  unfold W.pri Y.prim
  by_cases h0 : w.ss.length ≥ 1
  · rw [if_pos h0, if_pos (show w.syn.ss.length ≥ 1 from h0)]
    dsimp only
    by_cases hb : top w.ss = some .ky
    · rw [if_pos (show top w.syn.ss = some .ky from hb)]
      rw [if_pos (show top (w.priOut E t (decide (top w.ss = some .lb))).ss = some .ky from hb)]; rfl
    · rw [if_neg (show ¬ top w.syn.ss = some .ky from hb)]
      rw [if_neg (show ¬ top (w.priOut E t (decide (top w.ss = some .lb))).ss = some .ky from hb)]; rfl
  · rw [if_neg h0, if_neg (show ¬ w.syn.ss.length ≥ 1 from h0), ← syn_inferred]
    dsimp only
    generalize (if w.shadow = [] then clobber t rest else t) = t'
    generalize w.inferred .pri rest = w'
    by_cases hb : top w'.shadow = some .ky
    · rw [if_pos hb, if_pos (show top w'.syn.shadow = some .ky from hb), syn_closeAdd hE]
    · rw [if_neg hb, if_neg (show ¬ top w'.syn.shadow = some .ky from hb)]
      by_cases hc : top w'.shadow = some .lb
      · rw [if_pos hc, if_pos (show top w'.syn.shadow = some .lb from hc)]; rfl
      · rw [if_neg hc, if_neg (show ¬ top w'.syn.shadow = some .lb from hc)]

/-- The syntax part of a worker goes its own way. -/
theorem syn_step {E : WEnv} {st : List Nat} (hE : E.starts = some st) (w : W) (t : Tok) (rest : List Tok) :
    (w.step E t rest).syn = w.syn.step t rest := by
  cases t with
  | lcb p => rfl
  | rcb p => exact syn_rcb hE p rest w
  | lb p =>
    have h := syn_pruned E none w.mark
    show Y.mk _ _ _ _ _ = Y.mk _ _ _ _ _
    have h1 : (w.mark.pruned E none).ss = w.ss := congrArg Y.ss h
    have h2 : (w.mark.pruned E none).shadow = w.shadow := congrArg Y.shadow h
    have h3 : (w.mark.pruned E none).unit.syms.map (·.1) = w.unit.syms.map (·.1) := congrArg Y.syms h
    have h4 : (w.mark.pruned E none).unit.state = .matched := congrArg Y.st h
    have h5 : (w.mark.pruned E none).units.map (fun u => u.syms.map (·.1)) = w.units.map fun u => u.syms.map (·.1) :=
      congrArg Y.units h
    exact Y.mk.injEq .. ▸ ⟨congrArg (fun l => push l Sym.lb) h1, h2, h3, h4, h5⟩
  | rb p => exact syn_rb hE p rest w
  | com => rfl
  | ky k =>
    have h := syn_pruned E (some k) w.mark
    show Y.mk _ _ _ _ _ = Y.mk _ _ _ _ _
    have h1 : (w.mark.pruned E (some k)).ss = w.ss := congrArg Y.ss h
    have h2 : (w.mark.pruned E (some k)).shadow = w.shadow := congrArg Y.shadow h
    have h3 : (w.mark.pruned E (some k)).unit.syms.map (·.1) = w.unit.syms.map (·.1) := congrArg Y.syms h
    have h4 : (w.mark.pruned E (some k)).unit.state = .matched := congrArg Y.st h
    have h5 : (w.mark.pruned E (some k)).units.map (fun u => u.syms.map (·.1)) = w.units.map fun u => u.syms.map (·.1) :=
      congrArg Y.units h
    exact Y.mk.injEq .. ▸ ⟨congrArg (fun l => push l Sym.ky) h1, h2, h3, h4, h5⟩
  | pri x => exact syn_pri hE x rest w

theorem syn_run {E : WEnv} {st : List Nat} (hE : E.starts = some st) : ∀ (ts : List Tok) (w : W),
    (w.run E ts).syn = w.syn.run ts
  | [], _ => rfl
  | t :: ts, w => by
    show ((w.step E t ts).run E ts).syn = (w.syn.step t ts).run ts
    rw [syn_run hE ts, syn_step hE]

/-! ### `combine` -/

/-- The syntax stack after an unmatched symbol, parallel_automata_execution.h:163-268. -/
def yrep (ss : List Sym) : USym → List Sym
  | .rcb | .rb =>
    if ss.length = 1 then pop ss
    else if ss.length > 1 then
      if secondTop ss = some .ky then pop (pop ss)
      else if secondTop ss = some .lb then pop ss
      else ss
    else ss
  | .object | .array => pop ss
  | .pri => ss

theorem rcbEnd_ss (d : QDfa) (c : Node) (k : K) : (k.rcbEnd d c).ss = yrep k.ss .rcb := by
  unfold K.rcbEnd
  simp only [yrep]
  split
  · rfl
  · split
    · split
      · rfl
      · split
        · split <;> rfl
        · rfl
    · rfl

theorem rbEnd_ss (k : K) : k.rbEnd.ss = yrep k.ss .rb := by
  unfold K.rbEnd
  simp only [yrep]
  split
  · rfl
  · split
    · split
      · rfl
      · split <;> rfl
    · rfl

theorem rbOut_ss (d : QDfa) (left right : Str) (i : Nat) (k : K) : (k.rbOut d left right i).ss = k.ss := by
  unfold K.rbOut
  split
  · split
    · rfl
    · split
      · rfl
      · split
        · split <;> rfl
        · rfl
  · rfl

theorem sym_ss {d : QDfa} {left right : Str} {k : K} {x : USym × Nat} (hb : (k.sym d left right x).bad = false) :
    (k.sym d left right x).ss = yrep k.ss x.1 := by
  obtain ⟨x, i⟩ := x
  cases x with
  | rcb =>
    simp only [K.sym] at hb ⊢
    unfold K.rcb at hb ⊢
    cases h : k.cur with
    | none => rw [h] at hb; simp [K.orUb, K.bad] at hb
    | some c =>
      dsimp only
      rw [rcbEnd_ss]
      congr 1
      unfold K.rcbOut
      split
      · split <;> rfl
      · rfl
  | rb => simp only [K.sym, K.rb, rbEnd_ss, rbOut_ss]
  | object => rfl
  | array => rfl
  | pri => rfl

theorem notBad_foldl {α : Type} {f : K → α → K} (hf : ∀ k x, k.bad = true → (f k x).bad = true) {xs : List α} {k : K}
    (hb : (xs.foldl f k).bad = false) : k.bad = false := by
  cases e : k.bad with
  | false => rfl
  | true => rw [foldl_bad hf xs e] at hb; cases hb

theorem syms_ss {d : QDfa} {left right : Str} : ∀ (xs : List (USym × Nat)) {k : K},
    (xs.foldl (K.sym d left right) k).bad = false → (xs.foldl (K.sym d left right) k).ss = (xs.map (·.1)).foldl yrep k.ss
  | [], _, _ => rfl
  | x :: xs, k, hb => by
    have h1 := notBad_foldl (f := K.sym d left right) (fun _ _ => K.sym_bad) (xs := xs) hb
    rw [List.foldl_cons, syms_ss xs hb, sym_ss h1]; rfl

theorem collect_ss (d : QDfa) (right : Str) (k : K) (t : MTuple) : (k.collect d right t).ss = k.ss := by
  have ha : ∀ (k : K), (k.addTuple right t).ss = k.ss := by intro k; unfold K.addTuple; split <;> rfl
  have he : ∀ (k : K) (s : Nat), (k.expire d s).ss = k.ss := by
    intro k s; unfold K.expire; split
    · rfl
    · split <;> rfl
  unfold K.collect
  split
  · rfl
  · split
    · rfl
    · split
      · exact ha _
      · dsimp only
        split
        · rw [he]; rfl
        · split
          · rw [he]; rfl
          · rw [ha]; split <;> rfl

theorem collects_ss (d : QDfa) (right : Str) : ∀ (ts : List MTuple) (k : K), (ts.foldl (K.collect d right) k).ss = k.ss
  | [], _ => rfl
  | t :: ts, k => by rw [List.foldl_cons, collects_ss d right ts, collect_ss]

theorem unit_ss {d : QDfa} {left right : Str} {tl : List MTuple} {k : K} {u : PUnit}
    (hb : (k.unit d left right tl u).bad = false) : (k.unit d left right tl u).ss = (u.syms.map (·.1)).foldl yrep k.ss := by
  have h1 : (u.syms.foldl (K.sym d left right) k).bad = false := by
    cases e : (u.syms.foldl (K.sym d left right) k).bad with
    | false => rfl
    | true =>
      have : (k.unit d left right tl u).bad = true := by
        unfold K.unit
        dsimp only
        split
        · exact K.orUb_bad e
        · split
          · exact e
          · exact K.orUb_bad e
          · exact e
          · split
            · exact K.orUb_bad e
            · exact foldl_bad (fun _ _ => K.collect_bad) _ e
      rw [this] at hb; cases hb
  rw [← syms_ss u.syms h1]
  unfold K.unit
  dsimp only
  split
  · rfl
  · split
    · rfl
    · rfl
    · rfl
    · split
      · rfl
      · exact collects_ss _ _ _ _

theorem units_ss {d : QDfa} {left right : Str} {tl : List MTuple} : ∀ (us : List PUnit) {k : K},
    (us.foldl (K.unit d left right tl) k).bad = false →
    (us.foldl (K.unit d left right tl) k).ss = (us.map fun u => u.syms.map (·.1)).flatten.foldl yrep k.ss
  | [], _, _ => rfl
  | u :: us, k, hb => by
    have h1 := notBad_foldl (f := K.unit d left right tl) (fun _ _ => K.unit_bad) (xs := us) hb
    rw [List.foldl_cons, units_ss us hb, unit_ss h1]
    simp

/-! ### Both together -/

/-- What the units of a worker say about the tokens it has read: a unit begins by closing what earlier text left open, as
far as the lowest level its tokens reach; then its content comes back to that level, except that the last unit leaves
`rest` open. -/
def Replays (rest : List Sym) : List Sym → List (List USym) → List Tok → Prop
  | _, [], _ => False
  | ss, [u], ts => ts.foldl ssStep ss = rest ++ u.foldl yrep ss ∧ u.foldl yrep ss = bottom (lowest ssStep ss ts) ss
  | ss, u :: us, ts => ∃ a b, ts = a ++ b ∧ a.foldl ssStep ss = u.foldl yrep ss ∧
      u.foldl yrep ss = bottom (lowest ssStep ss a) ss ∧ Replays rest (u.foldl yrep ss) us b

theorem lowest_snoc {σ τ : Type} (f : List σ → τ → List σ) : ∀ (a : List τ) (t : τ) (ss : List σ),
    lowest f ss (a ++ [t]) = min (lowest f ss a) (f (a.foldl f ss) t).length
  | [], t, ss => by simp [lowest]
  | x :: a, t, ss => by
    simp only [List.cons_append, lowest, List.foldl_cons, lowest_snoc f a t]
    omega

theorem lowest_le {σ τ : Type} (f : List σ → τ → List σ) (a : List τ) (ss : List σ) : lowest f ss a ≤ ss.length := by
  cases a <;> simp [lowest]; omega

theorem bottom_of {σ : Type} {c ss : List σ} (h : c <:+ ss) : c = bottom c.length ss := by
  obtain ⟨l, rfl⟩ := h
  simp [bottom]

/-- Where the worker is: `B` is the stack at which its current unit began, `a` the tokens of the unit so far, `C` what is
left of `B`. -/
structure Syn (B : List Sym) (a : List Tok) (m : Mode) (y : Y) (C : List Sym) : Prop where
  rep : y.syms.foldl yrep B = C
  ser : a.foldl ssStep B = y.ss ++ C
  suf : C <:+ B
  low : C.length = lowest ssStep B a
  wf : wfStack (y.ss ++ C)
  mode : modeOK (y.ss ++ C) m
  key : top C ≠ some .ky
  shadow : y.shadow = [] ∨ (y.shadow = [.lb] ∧ top C = some .lb)
  fresh : y.st ≠ .matched → y.ss = [] ∧ y.shadow = []

theorem yrep_close {x : Sym} {r : List Sym} (hw : wfStack (x :: r)) (hx : x ≠ .ky) (t : Tok) (u : USym)
    (h : (∃ p, t = .rcb p ∧ u = .rcb) ∨ ∃ p, t = .rb p ∧ u = .rb) :
    ssStep (x :: r) t = yrep (x :: r) u ∧ ssStep (x :: r) t <:+ r ∧ top (ssStep (x :: r) t) ≠ some .ky := by
  have h2 : ssStep (x :: r) t = yrep (x :: r) u := by
    rcases h with ⟨p, rfl, rfl⟩ | ⟨p, rfl, rfl⟩
    all_goals
      rcases wf_below hw hx with rfl | ⟨q, rfl⟩ | ⟨q, rfl⟩ <;> simp [ssStep, yrep, secondTop, pop]
  refine ⟨h2, ?_⟩
  have h3 : ssStep (x :: r) t = ssStep (x :: r) (.rcb 0) := by rcases h with ⟨p, rfl, rfl⟩ | ⟨p, rfl, rfl⟩ <;> rfl
  rw [h3]
  rcases wf_below hw hx with rfl | ⟨q, rfl⟩ | ⟨q, rfl⟩
  · exact ⟨by simp [ssStep, pop], by simp [ssStep, pop, top]⟩
  · exact ⟨by simp [ssStep, secondTop, pop], by simp [ssStep, secondTop, pop, top]⟩
  · exact ⟨by simp [ssStep, secondTop, pop], by simp [ssStep, secondTop, pop, top]⟩

section
variable {B C : List Sym} {a : List Tok} {m : Mode} {y : Y}

/-- A step that closes nothing of `C`. -/
theorem Syn.keep (h : Syn B a m y C) {t : Tok} (hf : fits (y.ss ++ C) m t) {y' : Y} (h1 : y'.syms = y.syms)
    (h2 : ssStep (y.ss ++ C) t = y'.ss ++ C) (h3 : y'.shadow = [] ∨ (y'.shadow = [.lb] ∧ top C = some .lb))
    (h4 : y'.st ≠ .matched → y'.ss = [] ∧ y'.shadow = []) : Syn B (a ++ [t]) t.mode y' C := by
  have hw := wf_step h.wf h.mode hf
  rw [h2] at hw
  refine ⟨by rw [h1]; exact h.rep, by rw [List.foldl_append, h.ser]; exact h2, h.suf, ?_, hw.1, hw.2, h.key, h3, h4⟩
  rw [lowest_snoc, ← h.low, h.ser, h2, List.length_append]
  omega

/-- One step: the unit goes on, or a new one begins. -/
theorem Syn.step (h : Syn B a m y C) {t : Tok} {rest : List Tok} (hf : fitsAll (y.ss ++ C) m (t :: rest)) :
    (∃ C', (y.step t rest).units = y.units ∧ Syn B (a ++ [t]) t.mode (y.step t rest) C') ∨
    (y.ss = [] ∧ (y.step t rest).units = y.units ++ [y.syms] ∧ ∃ C', Syn C [t] t.mode (y.step t rest) C') := by
  obtain ⟨hf, hr⟩ := hf
  have hopen : ∀ x : Sym, (y.ss ++ C).length < MAX_STACK → push (y.ss ++ C) x = push y.ss x ++ C := by
    intro x hl
    rw [push_eq hl, push_eq (by rw [List.length_append] at hl; omega)]
    rfl
  have hclose : ∀ (x : Sym) (z : TT) (u b : USym), x ≠ .ky → top (y.ss ++ C) = some x →
      (∃ p, t = .rcb p ∧ z = .rcb ∧ u = .rcb) ∨ (∃ p, t = .rb p ∧ z = .rb ∧ u = .rb) → y.step t rest = y.closing z u b rest →
      (∃ C', (y.step t rest).units = y.units ∧ Syn B (a ++ [t]) t.mode (y.step t rest) C') ∨
      (y.ss = [] ∧ (y.step t rest).units = y.units ++ [y.syms] ∧ ∃ C', Syn C [t] t.mode (y.step t rest) C') := by
    intro x z u b hx htop hz he
    have htu : (∃ p, t = .rcb p ∧ u = .rcb) ∨ ∃ p, t = .rb p ∧ u = .rb := by
      rcases hz with ⟨p, h1, _, h2⟩ | ⟨p, h1, _, h2⟩
      · exact .inl ⟨p, h1, h2⟩
      · exact .inr ⟨p, h1, h2⟩
    have hmode : t.mode = .post := by rcases htu with ⟨p, rfl, _⟩ | ⟨p, rfl, _⟩ <;> rfl
    have hstep : ∀ L, ssStep L t = ssStep L (.rcb 0) := by
      intro L; rcases htu with ⟨p, rfl, _⟩ | ⟨p, rfl, _⟩ <;> rfl
    rw [he]
    unfold Y.closing
    cases hs : y.ss with
    | nil =>
      rw [if_pos (by rfl)]
      rw [hs, List.nil_append] at htop
      obtain ⟨r, rfl⟩ : ∃ r, C = x :: r := by
        cases C with
        | nil => cases htop
        | cons z r => exact ⟨r, by simp [top] at htop; rw [htop]⟩
      have hw := h.wf
      rw [hs, List.nil_append] at hw
      obtain ⟨c1, c2, c3⟩ := yrep_close hw hx t u htu
      have hw' := wf_step hw (by have := h.mode; rwa [hs] at this) (by rwa [hs] at hf)
      by_cases hm : y.st = .matched
      · right
        refine ⟨rfl, by simp [Y.close, if_pos hm, Y.add], ssStep (x :: r) t, ?_⟩
        simp only [Y.close, if_pos hm, Y.add]
        refine ⟨by simp [c1], rfl, List.IsSuffix.trans c2 (List.suffix_cons _ _), ?_, hw'.1, hw'.2, c3, .inl rfl, fun _ => ⟨rfl, rfl⟩⟩
        have := c2.length_le
        simp only [lowest, List.length_cons]
        omega
      · left
        obtain ⟨f1, f2⟩ := h.fresh hm
        refine ⟨ssStep (x :: r) t, by simp [Y.close, if_neg hm, Y.add], ?_⟩
        simp only [Y.close, if_neg hm, Y.add]
        have hser := h.ser
        rw [hs, List.nil_append] at hser
        refine ⟨by simp [h.rep, c1], by simp [hser, hs], List.IsSuffix.trans c2 (List.IsSuffix.trans (List.suffix_cons _ _) h.suf), ?_,
          by simpa [hs] using hw'.1, by simpa [hs] using hw'.2, c3, .inl f2, fun _ => ⟨hs, f2⟩⟩
        rw [lowest_snoc, ← h.low, hser]
        have := c2.length_le
        simp only [List.length_cons]
        omega
    | cons z1 q =>
      left
      have hz1 : z1 = x := by rw [hs] at htop; simpa [top] using htop
      subst hz1
      have hfr : y.st = .matched := by
        cases e : y.st with
        | matched => rfl
        | unmatched => have := (h.fresh (by rw [e]; simp)).1; rw [hs] at this; cases this
        | other => have := (h.fresh (by rw [e]; simp)).1; rw [hs] at this; cases this
      rw [if_neg (by simp)]
      have hw := h.wf
      rw [hs, List.cons_append] at hw
      rw [hs, List.cons_append, hstep, hmode] at hr
      cases q with
      | nil =>
        rw [if_pos (by rfl)]
        rw [List.nil_append] at hw hr
        have hpop : ∀ y' : Y, y'.syms = y.syms → y'.ss = [] → y'.st = y.st →
            (y'.shadow = [] ∨ (y'.shadow = [.lb] ∧ top C = some .lb)) → Syn B (a ++ [t]) t.mode y' C := by
          intro y' e1 e2 e3 e4
          refine h.keep hf e1 ?_ e4 (fun hne => absurd (e3.trans hfr) hne)
          rw [hs, hstep, e2]
          rcases wf_below hw hx with rfl | ⟨q, rfl⟩ | ⟨q, rfl⟩
          · rfl
          · simp [ssStep, secondTop, pop]
          · exact absurd rfl h.key
        have hun : ∀ y' : Y, y'.units = y.units → y'.syms = y.syms → y'.ss = [] → y'.st = y.st →
            (y'.shadow = [] ∨ (y'.shadow = [.lb] ∧ top C = some .lb)) →
            ∃ C', y'.units = y.units ∧ Syn B (a ++ [t]) t.mode y' C' := fun y' e e1 e2 e3 e4 => ⟨C, e, hpop y' e1 e2 e3 e4⟩
        dsimp only
        rcases h.shadow with h0 | ⟨h0, hC⟩
        · have hinf : infer z rest = none ∨ (infer z rest = some .lb ∧ top C = some .lb) := by
            have hnone : rest = [] → infer z rest = none := by
              rintro rfl
              rcases hz with ⟨_, _, rfl, _⟩ | ⟨_, _, rfl, _⟩ <;> rfl
            rcases wf_below hw hx with rfl | ⟨q, rfl⟩ | ⟨q, rfl⟩
            · exact .inl (hnone (fits_end hr))
            · by_cases hrest : rest = []
              · exact .inl (hnone hrest)
              · right
                have := (infer_lb (L := Sym.lb :: q) rfl (by simpa [ssStep, secondTop, pop] using hr)).2 hrest
                rcases hz with ⟨_, _, rfl, _⟩ | ⟨_, _, rfl, _⟩
                · exact ⟨this.1, rfl⟩
                · exact ⟨this.2, rfl⟩
            · exact absurd rfl h.key
          unfold Y.inferred
          rw [if_pos h0]
          rcases hinf with hi | ⟨hi, hC⟩
          · rw [hi]
            dsimp only
            rw [if_pos rfl]
            exact hun _ rfl rfl (by simp [hs, pop]) rfl (.inl rfl)
          · rw [hi]
            dsimp only
            rw [if_neg (by simp), if_neg (by simp [top]), if_pos (by simp [top])]
            exact hun _ rfl rfl (by simp [hs, pop]) rfl (.inr ⟨rfl, hC⟩)
        · have hinf : y.inferred z rest = y := by unfold Y.inferred; rw [if_neg (by rw [h0]; simp)]
          rw [hinf]
          rw [if_neg (by rw [h0]; simp), if_neg (by rw [h0]; simp [top]), if_pos (by rw [h0]; simp [top])]
          exact hun _ rfl rfl (by simp [hs, pop]) rfl (.inr ⟨h0, hC⟩)
      | cons z2 q =>
        rw [if_neg (by simp)]
        have hkeep : ∀ y' : Y, y'.units = y.units → y'.syms = y.syms → y'.st = y.st → y'.shadow = y.shadow →
            ssStep (y.ss ++ C) t = y'.ss ++ C → ∃ C', y'.units = y.units ∧ Syn B (a ++ [t]) t.mode y' C' :=
          fun y' e e1 e2 e3 e4 => ⟨C, e, h.keep hf e1 e4 (by rw [e3]; exact h.shadow) (fun hne => absurd (e2.trans hfr) hne)⟩
        rcases wf_below hw hx with he | ⟨q', he⟩ | ⟨q', he⟩
        · cases he
        · obtain ⟨rfl, _⟩ := List.cons.inj he
          rw [if_neg (by simp [secondTop]), if_pos (by simp [secondTop])]
          exact hkeep _ rfl rfl rfl rfl (by rw [hs, hstep]; simp [ssStep, secondTop, pop])
        · obtain ⟨rfl, _⟩ := List.cons.inj he
          rw [if_pos (by simp [secondTop])]
          refine hkeep _ rfl rfl rfl rfl ?_
          rw [hs, hstep]
          simp [ssStep, secondTop, pop]
  cases t with
  | lcb p => exact .inl ⟨C, rfl, h.keep hf rfl (hopen .lcb hf.2) h.shadow (fun hne => absurd rfl hne)⟩
  | lb p => exact .inl ⟨C, rfl, h.keep hf rfl (hopen .lb hf.2) h.shadow (fun hne => absurd rfl hne)⟩
  | ky k => exact .inl ⟨C, rfl, h.keep hf rfl (hopen .ky hf.2.2) h.shadow (fun hne => absurd rfl hne)⟩
  | com => exact .inl ⟨C, rfl, h.keep hf rfl rfl h.shadow h.fresh⟩
  | rcb p => exact hclose .lcb .rcb .rcb .object (by simp) hf.1 (.inl ⟨p, rfl, rfl, rfl⟩) rfl
  | rb p => exact hclose .lb .rb .rb .array (by simp) hf.1 (.inr ⟨p, rfl, rfl, rfl⟩) rfl
  | pri x =>
    left
    refine ⟨C, ?_⟩
    show (y.prim rest).units = y.units ∧ Syn B (a ++ [.pri x]) .post (y.prim rest) C
    unfold Y.prim
    cases hs : y.ss with
    | cons z q =>
      rw [if_pos (by simp)]
      have hfr : y.st = .matched := by
        cases e : y.st with
        | matched => rfl
        | unmatched => have := (h.fresh (by rw [e]; simp)).1; rw [hs] at this; cases this
        | other => have := (h.fresh (by rw [e]; simp)).1; rw [hs] at this; cases this
      by_cases hz : z = .ky
      · subst hz
        rw [if_pos (by rfl)]
        exact ⟨rfl, h.keep (t := .pri x) hf rfl (by rw [hs]; simp [ssStep, top, pop]) h.shadow (fun hne => absurd hfr hne)⟩
      · rw [if_neg (by simpa [top] using hz)]
        exact ⟨rfl, h.keep (t := .pri x) hf rfl (by rw [hs]; simp [ssStep, top, hz]) h.shadow (fun hne => absurd hfr hne)⟩
    | nil =>
      rw [if_neg (by simp)]
      have hC : top C = some .lb := by
        rcases hf.1 with hv | ⟨hv, _⟩
        · rcases h.mode.1 hv with h1 | h1
          · exact absurd h1 hf.2
          · rw [hs] at h1; exact absurd h1 h.key
        · rwa [hs] at hv
      have hr' : fitsAll C .post rest := by
        rw [hs, List.nil_append] at hr
        rwa [show ssStep C (.pri x) = C by simp [ssStep, hC]] at hr
      have hi := (infer_lb hC hr').1
      dsimp only
      have hsh : (y.inferred .pri rest).shadow = [.lb] := by
        unfold Y.inferred
        rcases h.shadow with h0 | ⟨h0, _⟩
        · rw [if_pos h0, hi]
        · rw [if_neg (by rw [h0]; simp), h0]
      have hot : (y.inferred .pri rest).units = y.units ∧ (y.inferred .pri rest).syms = y.syms ∧ (y.inferred .pri rest).ss = y.ss := by
        unfold Y.inferred; split <;> exact ⟨rfl, rfl, rfl⟩
      rw [if_neg (by rw [hsh]; simp [top]), if_pos (by rw [hsh]; simp [top])]
      refine ⟨hot.1, h.keep (t := .pri x) hf hot.2.1 ?_ (.inr ⟨hsh, hC⟩) (fun hne => absurd rfl hne)⟩
      show _ = (y.inferred .pri rest).ss ++ C
      rw [hot.2.2, hs, List.nil_append]
      simp [ssStep, hC]

end

theorem Replays.cons {rest ss : List Sym} {u : List USym} {us : List (List USym)} {a b : List Tok}
    (h1 : a.foldl ssStep ss = u.foldl yrep ss) (h2 : u.foldl yrep ss = bottom (lowest ssStep ss a) ss)
    (h3 : Replays rest (u.foldl yrep ss) us b) : Replays rest ss (u :: us) (a ++ b) := by
  cases us with
  | nil => cases h3
  | cons u' us => exact ⟨a, b, rfl, h1, h2, h3⟩

/-- The units of a worker tell what its tokens close. -/
theorem Syn.run : ∀ (ts : List Tok) {B C : List Sym} {a : List Tok} {m : Mode} {y : Y}, Syn B a m y C →
    fitsAll (y.ss ++ C) m ts → ∃ us, (y.run ts).units = y.units ++ us ∧
      Replays (y.run ts).ss B (us ++ [(y.run ts).syms]) (a ++ ts)
  | [], B, C, a, m, y, h, _ => ⟨[], by simp [Y.run], by
      rw [List.append_nil]
      refine ⟨by rw [h.ser]; show _ = y.ss ++ y.syms.foldl yrep B; rw [h.rep], ?_⟩
      show y.syms.foldl yrep B = _
      rw [h.rep, ← h.low]
      exact bottom_of h.suf⟩
  | t :: ts, B, C, a, m, y, h, hf => by
    have hr := hf.2
    show ∃ us, ((y.step t ts).run ts).units = _ ∧ Replays ((y.step t ts).run ts).ss B _ _
    rcases h.step hf with ⟨C', h1, h2⟩ | ⟨h0, h1, C', h2⟩
    · have h3 : ssStep (y.ss ++ C) t = (y.step t ts).ss ++ C' := by rw [← h2.ser, List.foldl_append, h.ser]; rfl
      rw [h3] at hr
      obtain ⟨us, g1, g2⟩ := Syn.run ts h2 hr
      exact ⟨us, by rw [g1, h1], by rwa [List.append_assoc] at g2⟩
    · have h3 : ssStep (y.ss ++ C) t = (y.step t ts).ss ++ C' := by rw [← h2.ser, h0]; rfl
      rw [h3] at hr
      obtain ⟨us, g1, g2⟩ := Syn.run ts h2 hr
      refine ⟨y.syms :: us, by rw [g1, h1]; simp, ?_⟩
      refine Replays.cons (by rw [h.ser, h0, h.rep]; rfl) ?_ (by rw [h.rep]; exact g2)
      rw [h.rep, ← h.low]
      exact bottom_of h.suf

/-- All units together. -/
theorem Replays.all {rest : List Sym} : ∀ (us : List (List USym)) {ss : List Sym} {ts : List Tok}, Replays rest ss us ts →
    ts.foldl ssStep ss = rest ++ us.flatten.foldl yrep ss
  | [], _, _, h => h.elim
  | [u], _, _, h => by simpa using h.1
  | u :: u' :: us, ss, ts, h => by
    obtain ⟨a, b, rfl, h1, _, h3⟩ := h
    rw [List.foldl_append, h1, Replays.all (u' :: us) h3]
    simp

end JPS
