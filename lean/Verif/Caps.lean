import Verif.ParMerge
import Verif.Reprocess
/-!
# The flags of the parallel run are set whenever an array is too small

The model has lists where the code has arrays, and a flag that is set where an array would be left.  Here: as long as the flag is not set, every list
is as short as the array of the code is long.  The numbers are those of the headers, written out.
-/

set_option autoImplicit false

namespace JPS

/-- The lists of a query stack fit into the arrays of the code: `queryStack[MAX_STACK]` (multi_stack.h:8, 44), `node[MAX_NODE]` (multi_stack.h:9),
`tuple[MAX_TUPLE_LIST]` and `text[MAX_TEXT]` (tuple_list.h). -/
structure QS.Within (q : QS) : Prop where
  items : q.items.length ≤ 100
  nodes : q.nodes.length ≤ 500
  tuples : q.tl.length ≤ 5000000
  texts : ∀ t ∈ q.tl, ∀ s, t.text = some s → s.length + 2 ≤ 1000

/-- The flag is set or everything fits. -/
def QS.Sound (q : QS) : Prop := q.ub = true ∨ q.Within

section
variable {q : QS}

theorem QS.Sound.orUb (h : q.Sound) (b : Bool) : (q.orUb b).Sound := by
  rcases h with h | h
  · left; show (q.ub || b) = true; rw [h]; rfl
  · right; exact ⟨h.items, h.nodes, h.tuples, h.texts⟩

theorem QS.Sound.flag (q : QS) : QS.Sound { q with ub := true } := .inl rfl

theorem linkTuples_length (tl : List MTuple) (i n : Nat) : (linkTuples tl i n).length = tl.length := by
  unfold linkTuples; split <;> simp

theorem linkTuples_text {tl : List MTuple} {i n : Nat} {P : Option Str → Prop} (h : ∀ t ∈ tl, P t.text) : ∀ t ∈ linkTuples tl i n, P t.text := by
  unfold linkTuples
  split
  · rename_i x hx
    intro t ht
    rcases List.mem_or_eq_of_mem_set ht with ht | ht
    · exact h t ht
    · rw [ht]; exact h x (List.mem_of_getElem? hx)
  · exact h

theorem texts_append {tl : List MTuple} {t : MTuple} (h : ∀ t ∈ tl, ∀ s, t.text = some s → s.length + 2 ≤ 1000)
    (ht : ∀ s, t.text = some s → s.length + 2 ≤ 1000) : ∀ x ∈ tl ++ [t], ∀ s, x.text = some s → s.length + 2 ≤ 1000 := by
  intro x hx
  rcases List.mem_append.1 hx with hx | hx
  · exact h x hx
  · rw [List.mem_singleton] at hx; rw [hx]; exact ht

theorem QS.Sound.addTo (h : q.Sound) {t : MTuple} (ht : ∀ s, t.text = some s → s.length + 2 ≤ 1000) (r : Nat) : (q.addTo t r).Sound := by
  unfold QS.addTo
  rcases h with h | h
  · left
    dsimp only
    split <;> simp [h]
  · by_cases hn : q.tl.length ≥ MAX_TUPLE_LIST
    · left
      dsimp only
      split <;> simp [hn]
    · have hlen : q.tl.length + 1 ≤ 5000000 := by
        have : MAX_TUPLE_LIST = 5000000 := rfl
        omega
      dsimp only
      split
      · exact .inr ⟨h.items, h.nodes, by rw [linkTuples_length]; simpa using hlen,
          linkTuples_text (P := fun o => ∀ s, o = some s → s.length + 2 ≤ 1000) (texts_append h.texts ht)⟩
      · exact .inr ⟨h.items, h.nodes, by simpa using hlen, texts_append h.texts ht⟩
      · exact .inl rfl

theorem addTo_fold_sound {t : MTuple} (ht : ∀ s, t.text = some s → s.length + 2 ≤ 1000) : ∀ (rs : List Nat) {q : QS}, q.Sound →
    (rs.foldl (fun q r => q.addTo t r) q).Sound
  | [], _, h => h
  | r :: rs, _, h => addTo_fold_sound ht rs (h.addTo ht r)

theorem QS.Sound.addInfo (h : q.Sound) {t : MTuple} (ht : ∀ s, t.text = some s → s.length + 2 ≤ 1000) (i : Nat) : (q.addInfo i t).Sound := by
  unfold QS.addInfo
  split
  · exact .inl rfl
  · split
    · exact .inl rfl
    · exact h.addTo ht i
    · exact addTo_fold_sound ht _ h

theorem QS.Sound.addText (h : q.Sound) (i s : Nat) (t : Str) : (q.addText i s t).Sound := by
  unfold QS.addText
  by_cases hl : strcopyBytes t.length > MAX_TEXT
  · left
    show (_ || decide (strcopyBytes t.length > MAX_TEXT)) = true
    rw [decide_eq_true hl, Bool.or_true]
  · refine QS.Sound.orUb (h.addInfo ?_ i) _
    intro x hx
    have : t = x := by simpa [MTuple.ofText] using hx
    subst this
    have h1 : MAX_TEXT = 1000 := rfl
    unfold strcopyBytes at hl
    omega

theorem QS.Sound.addSpan (h : q.Sound) (i s b e : Nat) : (q.addSpan i s b e).Sound :=
  h.addInfo (by intro x hx; cases hx) i

theorem QS.Sound.setNode (h : q.Sound) (i : Nat) (x : Node) : QS.Sound { q with nodes := q.nodes.set i x } := by
  rcases h with h | h
  · exact .inl h
  · exact .inr ⟨h.items, by simpa using h.nodes, h.tuples, h.texts⟩

theorem QS.Sound.setMs (h : q.Sound) (i : Nat) (m : Option Nat) : (q.setMs i m).Sound := by
  unfold QS.setMs
  split
  · exact h.setNode _ _
  · exact .inl rfl

theorem QS.Sound.incr (h : q.Sound) (i : Nat) : (q.incr i).Sound := by
  unfold QS.incr
  split
  · exact h.setNode _ _
  · exact .inl rfl

theorem QS.Sound.pop (h : q.Sound) : q.pop.1.Sound := by
  unfold QS.pop
  split
  · rename_i r rs e
    rcases h with h | h
    · exact .inl h
    · refine .inr ⟨?_, ?_, h.tuples, h.texts⟩
      · have := h.items; rw [e] at this; simp at this ⊢; omega
      · have := h.nodes; simp; omega
  · exact .inl rfl

theorem QS.Sound.push {d : QDfa} (h : q.Sound) (elt : Rng) (k : Option Str) : (q.push d elt k).1.Sound := by
  rcases h with h | h
  · left
    show (_ || _ || _ || _ || _ || _) = true
    rw [h]; simp
  · by_cases h1 : q.items.length ≥ MAX_STACK
    · left
      show (_ || decide (q.items.length ≥ MAX_STACK) || _ || _ || _ || _) = true
      rw [decide_eq_true h1]; simp
    · by_cases h2 : (q.nodes ++ pushNodes d q.nodes k elt.list).length > MAX_NODE
      · left
        show (_ || _ || _ || decide ((q.nodes ++ pushNodes d q.nodes k elt.list).length > MAX_NODE) || _ || _) = true
        rw [decide_eq_true h2]; simp
      · have e1 : MAX_STACK = 100 := rfl
        have e2 : MAX_NODE = 500 := rfl
        refine .inr ⟨?_, ?_, h.tuples, h.texts⟩
        · show (elt :: q.items).length ≤ 100
          simp; omega
        · show (q.nodes ++ pushNodes d q.nodes k elt.list).length ≤ 500
          omega

theorem QS.Sound.start (h : q.Sound) (sts : List Nat) : (q.start sts).1.Sound := by
  rcases h with h | h
  · left
    show (q.ub || _) = true
    rw [h]; rfl
  · by_cases h2 : sts.length > MAX_NODE
    · left
      show (_ || decide (sts.length > MAX_NODE)) = true
      rw [decide_eq_true h2]; simp
    · have e2 : MAX_NODE = 500 := rfl
      exact .inr ⟨by show 0 ≤ 100; omega, by show (sts.map _).length ≤ 500; rw [List.length_map]; omega, h.tuples, h.texts⟩

theorem QS.Sound.prune (h : q.Sound) {ks : List Nat} (hk : ks.length ≤ 500) : (q.prune ks).1.Sound := by
  unfold QS.prune
  split
  · exact h
  · rcases h with h | h
    · left; simp [h]
    · exact .inr ⟨h.items, by simpa using hk, h.tuples, h.texts⟩

theorem copyLevel_sound {src : List Node} {r : Nat} {p : QS × Rng} (h : p.1.Sound) (level : Rng) : (copyLevel src r p level).1.Sound := by
  have e1 : MAX_STACK = 100 := rfl
  have e2 : MAX_NODE = 500 := rfl
  unfold copyLevel
  rcases h with h | h
  · left
    dsimp only
    split <;> simp [h]
  · by_cases h1 : p.1.items.length ≥ MAX_STACK
    · left
      dsimp only
      split <;> simp [h1]
    · dsimp only
      split
      · by_cases h2 : p.1.nodes.length ≥ MAX_NODE
        · left; simp [h2]
        · exact .inr ⟨by simp; omega, by simp; omega, h.tuples, h.texts⟩
      · exact .inr ⟨by simp; omega, h.nodes, h.tuples, h.texts⟩

theorem copyLevels_sound {src : List Node} {r : Nat} : ∀ (ls : List Rng) {p : QS × Rng}, p.1.Sound → (ls.foldl (copyLevel src r) p).1.Sound
  | [], _, h => h
  | l :: ls, _, h => copyLevels_sound ls (copyLevel_sound h l)

theorem QS.Sound.combine (h : q.Sound) (elt : Rng) (src : QS) (selt : Rng) : (q.combine elt src selt).1.Sound := by
  unfold QS.combine
  split
  · exact .inl rfl
  · have h0 := h.orUb (decide (src.items.length ≥ MAX_STACK))
    dsimp only
    split
    · exact h0
    · split
      · exact copyLevels_sound _ h0
      · exact h0

end

/-! ### Workers -/

/-- A unit fits: `unmatched_symbol[MAX_UNMATCHED_SYMBOL]`, `start_states[MAX_STATE]` (unit.h:8, 9). -/
structure PUnit.Within (u : PUnit) : Prop where
  syms : u.syms.length ≤ 100
  roots : u.roots.length ≤ 100

/-- The lists of a worker fit: those of its query stack, its units (`MAX_UNIT`, unit.h:14) and the unmatched symbols of the unit it is in. -/
structure W.Within (w : W) : Prop where
  q : w.q.Within
  syms : w.unit.syms.length ≤ 100
  units : w.units.length ≤ 100
  each : ∀ u ∈ w.units, u.Within

/-- The flag is set or everything fits. -/
def W.Sound (w : W) : Prop := w.ub = true ∨ (w.q.Sound ∧ w.unit.syms.length ≤ 100 ∧ w.units.length ≤ 100 ∧ ∀ u ∈ w.units, u.Within)

theorem W.Sound.within {w : W} (h : w.Sound) (hb : w.bad = false) : w.Within := by
  have h1 : w.ub = false ∧ w.q.ub = false := by simpa [W.bad] using hb
  rcases h with h | ⟨h2, h3, h4, h5⟩
  · rw [h1.1] at h; cases h
  · rcases h2 with h2 | h2
    · rw [h1.2] at h2; cases h2
    · exact ⟨h2, h3, h4, h5⟩

/-- The entries of a constraint table are no longer than the array of nodes. -/
def CTable.Short (ct : CTable) : Prop := ∀ i ∈ ct.info, i.states.length ≤ 500

section
variable {w : W} {E : WEnv}

theorem W.Sound.setQ (h : w.Sound) {q : QS} (hq : w.q.Sound → q.Sound) (e : Rng) (s s' : List Sym) :
    W.Sound { w with q := q, elt := e, ss := s, shadow := s' } := by
  rcases h with h | ⟨h2, h3⟩
  · exact .inl h
  · exact .inr ⟨hq h2, h3⟩

theorem W.Sound.orUb (h : w.Sound) (b : Bool) : (w.orUb b).Sound := by
  rcases h with h | h
  · left; show (w.ub || b) = true; rw [h]; rfl
  · exact .inr h

theorem W.Sound.each {f : Nat → Node → QS → QS} (h : w.Sound) (hf : ∀ i x q, q.Sound → (f i x q).Sound) {r : Rng} : (w.each r f).Sound := by
  refine W.Sound.setQ h (fun hq => ?_) w.elt w.ss w.shadow
  generalize w.q = q at hq
  generalize r.list = is
  induction is generalizing q with
  | nil => exact hq
  | cons i is ih =>
    rw [List.foldl_cons]
    refine ih _ ?_
    cases hx : q.nodes[i]? with
    | none => exact .inl rfl
    | some x => exact (hf i x q hq).orUb _

theorem W.Sound.popQ (h : w.Sound) : w.popQ.Sound := h.setQ (fun hq => hq.pop) _ w.ss w.shadow

theorem W.Sound.addSym (h : w.Sound) (x : USym) (i : Nat) : (w.addSym x i).Sound := by
  have e1 : MAX_UNMATCHED_SYMBOL = 100 := rfl
  unfold W.addSym
  rcases h with h | ⟨h2, h3, h4⟩
  · left; simp [h]
  · by_cases hs : w.unit.syms.length ≥ MAX_UNMATCHED_SYMBOL
    · left; simp [hs]
    · exact .inr ⟨h2, by simp; omega, h4⟩

theorem W.Sound.closeUnit (h : w.Sound) : (w.closeUnit E).Sound := by
  have e1 : MAX_UNIT = 100 := rfl
  have e2 : MAX_STATE = 100 := rfl
  unfold W.closeUnit
  split
  · dsimp only
    split
    · rename_i st _
      rcases h with h | ⟨h2, h3, h4, h5⟩
      · left; simp [h]
      · by_cases hr : (w.q.copyRoots (List.range w.q.nodes.length)).length > MAX_STATE
        · left; simp [hr]
        · by_cases hu : w.units.length ≥ MAX_UNIT
          · left; simp [hu]
          · refine .inr ⟨h2.start st, by simp [PUnit.init], by simp; omega, ?_⟩
            intro u hu
            rcases List.mem_append.1 hu with hu | hu
            · exact h5 u hu
            · rw [List.mem_singleton] at hu
              rw [hu]
              exact ⟨h3, by show (w.q.copyRoots _).length ≤ 100; omega⟩
    · exact .inl rfl
  · exact h

theorem W.Sound.finish (h : w.Sound) : w.finish.Sound := by
  have e1 : MAX_UNIT = 100 := rfl
  have e2 : MAX_STATE = 100 := rfl
  unfold W.finish
  dsimp only
  generalize (if w.q.nodes = [] then [] else w.q.copyRoots (((w.elt :: w.q.items).getLast?).getD w.elt).list) = roots
  rcases h with h | ⟨h2, h3, h4, h5⟩
  · left; simp [h]
  · by_cases hr : roots.length > MAX_STATE
    · left; simp [hr]
    · by_cases hu : w.units.length ≥ MAX_UNIT
      · left; simp [hu]
      · refine .inr ⟨h2, h3, by simp; omega, ?_⟩
        intro u hu
        rcases List.mem_append.1 hu with hu | hu
        · exact h5 u hu
        · rw [List.mem_singleton] at hu
          rw [hu]
          exact ⟨h3, by show roots.length ≤ 100; omega⟩

theorem W.Sound.mark (h : w.Sound) : w.mark.Sound := h

theorem W.Sound.inferred (h : w.Sound) (x : TT) (rest : List Tok) : (w.inferred x rest).Sound := by
  unfold W.inferred
  split
  · exact h
  · exact h

theorem W.Sound.closeOut (h : w.Sound) (arr : Bool) (pos : Nat) (r : Rng) : (w.closeOut E arr pos r).Sound := by
  refine h.each fun i x q hq => ?_
  split
  · split
    · refine QS.Sound.setMs ?_ _ _
      split
      · exact (hq.addText _ _ _).orUb _
      · exact hq.addSpan _ _ _ _
    · split
      · exact hq.addText _ _ _
      · exact hq
  · exact hq

theorem W.Sound.elemEnd (h : w.Sound) (root : Bool) : (w.elemEnd E root).Sound := by
  refine h.each fun i x q hq => ?_
  dsimp only
  split
  · exact (hq.incr i).addText _ _ _
  · split
    · exact (hq.incr i).addText _ _ _
    · exact hq.incr i

theorem W.Sound.priOut (h : w.Sound) (t : Str) (inc : Bool) : (w.priOut E t inc).Sound := by
  refine h.each fun i x q hq => ?_
  dsimp only
  have : (if (E.selects (x.matched E.d) || x.matched E.d == .condition) = true then q.addText i x.st t else q).Sound := by
    split
    · exact hq.addText _ _ _
    · exact hq
  split
  · exact this.incr i
  · exact this

theorem W.Sound.incrAll (h : w.Sound) : w.incrAll.Sound := h.each fun i _ _ hq => hq.incr i

theorem W.Sound.pruned (h : w.Sound) (hct : ∀ ct, E.ct = some ct → ct.Short) (k : CKey) : (w.pruned E k).Sound := by
  unfold W.pruned
  split
  · exact h
  · rename_i ct hx
    split
    · dsimp only
      have : (match ct.lookup k with
        | some ks => { w with q := (w.q.prune ks).1, elt := (w.q.prune ks).2 }
        | none => w).Sound := by
        split
        · rename_i ks hks
          refine h.setQ (fun hq => hq.prune ?_) _ w.ss w.shadow
          obtain ⟨i, h1, h2⟩ := Option.map_eq_some_iff.1 hks
          rw [← h2]
          exact hct ct hx i (List.mem_of_find?_eq_some h1)
        · exact h
      exact this.orUb (longKey k)
    · exact h

theorem W.Sound.step (h : w.Sound) (hct : ∀ ct, E.ct = some ct → ct.Short) (t : Tok) (rest : List Tok) : (w.step E t rest).Sound := by
  cases t with
  | lcb p =>
    refine W.Sound.each (w := { w.mark with ss := push w.ss .lcb }) h fun i x q hq => ?_
    split
    · exact hq.setMs _ _
    · split
      · exact hq.addText _ _ _
      · split
        · exact hq.addText _ _ _
        · exact hq
  | rcb p =>
    show (w.rcb E p rest).Sound
    unfold W.rcb
    split
    · exact h.closeUnit.addSym _ _
    · have h1 := h.closeOut (E := E) false p w.elt
      have h2 := h1.inferred .rcb rest
      dsimp only
      split
      · split
        · exact h2
        · split
          · exact h2.closeUnit.addSym _ _
          · split
            · exact W.Sound.elemEnd (w := { (w.closeOut E false p w.elt).inferred .rcb rest with ss := _ }) h2 true
            · exact h2
      · split
        · exact h1.popQ
        · split
          · exact W.Sound.elemEnd (w := { w.closeOut E false p w.elt with ss := _ }) h1 false
          · exact h1
  | lb p =>
    show (w.lb E p).Sound
    unfold W.lb
    dsimp only
    refine W.Sound.setQ (w := W.each (W.pruned E none w.mark).elt _ (W.pruned E none w.mark)) ?_ (fun hq => hq.push _ _) _ _ _
    refine W.Sound.each (h.mark.pruned hct none) fun i x q hq => ?_
    split
    · exact hq.setMs _ _
    · split
      · exact hq.addText _ _ _
      · exact hq
  | rb p =>
    show (w.rb E p rest).Sound
    unfold W.rb
    split
    · exact h.closeUnit.addSym _ _
    · have h1 : (w.rbOut E p).Sound := by
        unfold W.rbOut
        split
        · exact h.closeOut true p _
        · exact h.orUb true
      generalize w.rbOut E p = w at h1
      have h2 := h1.inferred .rb rest
      unfold W.rbEnd
      dsimp only
      split
      · split
        · exact h2.popQ
        · split
          · exact h2.closeUnit.addSym _ _
          · split
            · exact W.Sound.incrAll (w := { (w.inferred .rb rest).popQ with ss := _ }) h2.popQ
            · exact h2
      · split
        · exact W.Sound.popQ (w := { w with q := w.q.pop.1 }) h1.popQ
        · split
          · exact W.Sound.incrAll (w := { w.popQ with ss := _ }) h1.popQ
          · exact h1
  | com => exact h
  | ky k =>
    show (w.ky E k).Sound
    exact W.Sound.setQ (h.mark.pruned hct (some k)) (fun hq => hq.push _ _) _ _ _
  | pri x =>
    show (w.pri E x rest).Sound
    unfold W.pri
    split
    · have h1 := h.priOut (E := E) x (decide (top w.ss = some .lb))
      dsimp only
      split
      · exact h1.popQ
      · exact h1
    · have h2 := h.inferred .pri rest
      dsimp only
      split
      · exact h2.closeUnit.addSym _ _
      · split
        · exact W.Sound.priOut (w := (w.inferred .pri rest).mark) h2 _ true
        · exact h2

end

/-- The worker after the first `n` tokens of its text: the state at the beginning of the iteration `n` of the loop worker_automaton.c:179-583. -/
def W.runN (E : WEnv) : Nat → W → List Tok → W
  | 0, w, _ => w
  | _ + 1, w, [] => w
  | n + 1, w, t :: ts => W.runN E n (w.step E t ts) ts

theorem W.run_sound {E : WEnv} (hct : ∀ ct, E.ct = some ct → ct.Short) : ∀ (ts : List Tok) {w : W}, w.Sound → (w.run E ts).Sound
  | [], _, h => h
  | t :: ts, _, h => W.run_sound hct ts (h.step hct t ts)

theorem W.runN_within {E : WEnv} (hct : ∀ ct, E.ct = some ct → ct.Short) : ∀ (n : Nat) (ts : List Tok) {w : W}, w.Sound →
    (w.run E ts).bad = false → (W.runN E n w ts).Within
  | 0, ts, w, h, hb => h.within (by
      cases hw : w.bad with
      | false => rfl
      | true => rw [W.run_bad hw] at hb; cases hb)
  | _ + 1, [], _, h, hb => h.within hb
  | n + 1, t :: ts, _, h, hb => W.runN_within hct n ts (h.step hct t ts) hb

theorem QS.Sound.blank : QS.blank.Sound := .inr ⟨by decide, by decide, by simp [QS.blank], by simp [QS.blank]⟩

theorem W.Sound.init (sts : List Nat) (u : UState) : (W.init sts u).Sound :=
  .inr ⟨QS.Sound.blank.start sts, by simp [W.init, PUnit.init], by simp [W.init], by simp [W.init]⟩

theorem W.Sound.resume {q : QS} (h : q.Sound) (elt : Rng) (ss : List Sym) (u : UState) : (W.resume q elt ss u).Sound :=
  .inr ⟨h, by simp [W.resume, PUnit.init], by simp [W.resume], by simp [W.resume]⟩

theorem runWorker_sound {d : QDfa} {ct : Option CTable} (hct : ∀ c, ct = some c → c.Short) (u : UState) (i : Nat) (s : Str) :
    (runWorker d ct u i s).Sound := by
  unfold runWorker
  exact (W.Sound.finish (W.run_sound hct _ (W.Sound.init _ _))).orUb _

/-! ### `combine` -/

/-- The flag is set or the query stack fits. -/
def K.Sound (k : K) : Prop := k.ub = true ∨ k.q.Sound

theorem K.Sound.within {k : K} (h : k.Sound) (hb : k.bad = false) : k.q.Within := by
  have h1 : k.ub = false ∧ k.q.ub = false := by simpa [K.bad] using hb
  rcases h with h | h | h
  · rw [h1.1] at h; cases h
  · rw [h1.2] at h; cases h
  · exact h

section
variable {k : K}

theorem K.Sound.orUb (h : k.Sound) (b : Bool) : (k.orUb b).Sound := by
  rcases h with h | h
  · left; show (k.ub || b) = true; rw [h]; rfl
  · exact .inr h

theorem K.Sound.flag (k : K) : (k.orUb true).Sound := by left; show (k.ub || true) = true; simp

theorem K.Sound.setQ (h : k.Sound) {q : QS} (hq : k.q.Sound → q.Sound) (e : Rng) (s : List Sym) : K.Sound { k with q := q, elt := e, ss := s } := by
  rcases h with h | h
  · exact .inl h
  · exact .inr (hq h)

theorem K.Sound.popQ (h : k.Sound) : k.popQ.Sound := h.setQ (fun hq => hq.pop) _ k.ss
theorem K.Sound.incr (h : k.Sound) : k.incr.Sound := h.setQ (fun hq => hq.incr _) _ k.ss

theorem K.Sound.rcb (h : k.Sound) (d : QDfa) (left right : Str) (i : Nat) : (k.rcb d left right i).Sound := by
  unfold K.rcb
  split
  · exact .flag k
  · rename_i c _
    have h1 : (k.rcbOut d left right i c).Sound := by
      unfold K.rcbOut
      split
      · split
        · exact K.Sound.orUb (h.setQ (fun hq => (hq.addText _ _ _).setMs _ _) _ k.ss) _
        · exact h
      · exact h
    generalize k.rcbOut d left right i c = k at h1
    unfold K.rcbEnd
    split
    · exact h1
    · split
      · split
        · exact h1.popQ
        · split
          · have h2 : (K.incr { k with ss := pop k.ss }).Sound := K.Sound.incr (k := { k with ss := pop k.ss }) h1
            dsimp only
            split
            · exact h2.setQ (fun hq => hq.addText _ _ _) _ _
            · exact h2
          · exact h1
      · exact h1

theorem K.Sound.rb (h : k.Sound) (d : QDfa) (left right : Str) (i : Nat) : (k.rb d left right i).Sound := by
  unfold K.rb
  have h1 : (k.rbOut d left right i).Sound := by
    unfold K.rbOut
    split
    · split
      · exact .flag k
      · split
        · exact .flag k
        · split
          · split
            · exact .flag _
            · exact h
          · exact h
    · exact h
  generalize k.rbOut d left right i = k at h1
  unfold K.rbEnd
  split
  · exact h1.popQ
  · split
    · split
      · exact K.Sound.popQ (k := { k with q := k.q.pop.1 }) h1.popQ
      · split
        · exact K.Sound.incr (k := { k.popQ with ss := _ }) h1.popQ
        · exact h1
    · exact h1

theorem K.Sound.sym (h : k.Sound) (d : QDfa) (left right : Str) (s : USym × Nat) : (k.sym d left right s).Sound := by
  unfold K.sym
  split
  · exact h.rcb d left right _
  · exact h.rb d left right _
  · exact h.popQ
  · exact h.popQ
  · exact h

theorem K.Sound.addTuple (h : k.Sound) (right : Str) (t : MTuple) : (k.addTuple right t).Sound := by
  have e1 : MAX_TUPLE_LIST = 5000000 := rfl
  have e2 : MAX_TEXT = 1000 := rfl
  have key : ∀ (s : Str) (b : Bool), (strcopyBytes s.length > MAX_TEXT → b = true) → (k.q.tl.length ≥ MAX_TUPLE_LIST → b = true) →
      (K.orUb { k with q := { k.q with tl := k.q.tl ++ [MTuple.ofText t.st s] } } b).Sound := by
    intro s b h1 h2
    cases b with
    | true => exact .flag _
    | false =>
      refine K.Sound.orUb (h.setQ (fun hq => ?_) _ k.ss) _
      rcases hq with hq | hq
      · exact .inl hq
      · have h3 : ¬ strcopyBytes s.length > MAX_TEXT := fun hx => by cases h1 hx
        have h4 : ¬ k.q.tl.length ≥ MAX_TUPLE_LIST := fun hx => by cases h2 hx
        unfold strcopyBytes at h3
        refine .inr ⟨hq.items, hq.nodes, by simp; omega, texts_append hq.texts ?_⟩
        intro x hx
        have : s = x := by simpa [MTuple.ofText] using hx
        subst this
        omega
  unfold K.addTuple
  split
  · exact key _ _ (fun hx => by simp [hx]) (fun hx => by simp [hx])
  · exact key _ _ (fun hx => by simp [hx]) (fun hx => by simp [hx])

theorem K.Sound.expire (h : k.Sound) (d : QDfa) (st : Nat) : (k.expire d st).Sound := by
  unfold K.expire
  split
  · exact .flag k
  · split
    · exact h.setQ (fun hq => hq.setNode _ _) _ k.ss
    · exact h

theorem K.Sound.collect (h : k.Sound) (d : QDfa) (right : Str) (t : MTuple) : (k.collect d right t).Sound := by
  unfold K.collect
  split
  · exact .flag k
  · split
    · exact h
    · split
      · exact h.addTuple right t
      · have h1 := h.orUb (decide (t.text = none))
        dsimp only
        split
        · exact h1.incr.expire d _
        · split
          · exact h1.expire d _
          · refine K.Sound.addTuple ?_ right t
            split
            · exact h1.incr
            · exact h1

theorem foldl_sound {α : Type} {f : K → α → K} (hf : ∀ k x, k.Sound → (f k x).Sound) : ∀ (l : List α) {k : K}, k.Sound → (l.foldl f k).Sound
  | [], _, h => h
  | x :: l, _, h => foldl_sound hf l (hf _ x h)

theorem K.Sound.unit (h : k.Sound) (d : QDfa) (left right : Str) (tl : List MTuple) (u : PUnit) : (k.unit d left right tl u).Sound := by
  unfold K.unit
  have h1 : (u.syms.foldl (K.sym d left right) k).Sound := foldl_sound (fun _ x hk => hk.sym d left right x) _ h
  generalize u.syms.foldl (K.sym d left right) k = k at h1
  dsimp only
  split
  · exact .flag k
  · split
    · exact h1
    · exact .flag k
    · exact h1
    · split
      · exact .flag k
      · exact foldl_sound (fun _ x hk => hk.collect d right x) _ h1

theorem K.Sound.merge (h : k.Sound) (w : W) : (k.merge w).Sound := h.setQ (fun hq => hq.combine _ _ _) _ _

theorem K.Sound.chunk (h : k.Sound) (d : QDfa) (left right : Str) (w : W) : (k.chunk d left right w).Sound := by
  unfold K.chunk
  exact K.Sound.orUb (K.Sound.merge (foldl_sound (fun _ x hk => hk.unit d left right _ x) _ h) w) _

end

theorem combineLoop_sound {d : QDfa} : ∀ (l : List (Str × W)) {k : K} {left : Str}, k.Sound → (combineLoop d k left l).Sound
  | [], _, _, h => h
  | (right, w) :: r, _, left, h => combineLoop_sound r (h.chunk d left right w)

theorem K.Sound.ofW {w : W} (h : w.Sound) : (K.ofW w).Sound := by
  rcases h with h | h
  · left; show (w.ub || w.q.ub) = true; rw [h]; rfl
  · exact .inr h.1

theorem worker0_sound {d : QDfa} {ct : Option CTable} (hct : ∀ c, ct = some c → c.Short) {old : Option K} (hold : ∀ k, old = some k → k.q.Sound)
    (u : UState) (s : Str) : (worker0 d ct u old s).Sound := by
  unfold worker0
  split
  · exact runWorker_sound hct u 0 s
  · rename_i k
    have hk : QS.Sound { k.q with tl := [] } := by
      rcases hold k rfl with h | h
      · exact .inl h
      · exact .inr ⟨h.items, h.nodes, by simp, by simp⟩
    exact (W.Sound.finish (W.run_sound hct _ (W.Sound.resume hk _ _ _))).orUb _

end JPS
