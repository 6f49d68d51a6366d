import Verif.PieceSim
import Verif.Constraint
import Verif.Props.Caps
import Verif.Props.StateCount
import Verif.Props.Index
/-!
# C35 and C61: the flags of the serial run and of the constraint table are set whenever an array of the code is left

As `Props/Caps` for the serial automaton, the filter and the table.  The numbers are those of the headers, written out.
-/

set_option autoImplicit false

namespace JPS

/-! ### The automaton -/

/-- The lists of the automaton fit into the arrays of the code: both stacks (`MAX_STACK`, stack.h:6), the tuples and their texts (`MAX_TUPLE_LIST`, `MAX_TEXT`,
tuple_list.h:6, 7). -/
structure SA.Within (a : SA) : Prop where
  ss : a.ss.length ≤ 100
  qs : a.qs.length ≤ 100
  tuples : a.tl.length ≤ 5000000
  texts : ∀ t ∈ a.tl, t.text.length + 2 ≤ 1000

/-- The flag is set or everything fits. -/
def SA.Sound (a : SA) : Prop := a.ub = true ∨ a.Within

theorem push_cap {α : Type} {s : List α} (h : s.length ≤ 100) (x : α) : (push s x).length ≤ 100 := by
  have e : MAX_STACK = 100 := rfl
  unfold push
  split
  · simp; omega
  · exact h

theorem pop_cap {α : Type} {s : List α} (h : s.length ≤ 100) : (pop s).length ≤ 100 := by
  unfold pop; simp; omega

section
variable {a : SA}

theorem SA.Sound.setElt (h : a.Sound) (e : Elt) : SA.Sound { a with elt := e } := by
  rcases h with h | h
  · exact .inl h
  · exact .inr ⟨h.ss, h.qs, h.tuples, h.texts⟩

theorem SA.Sound.setSs (h : a.Sound) {s : List Sym} (hs : a.ss.length ≤ 100 → s.length ≤ 100) : SA.Sound { a with ss := s } := by
  rcases h with h | h
  · exact .inl h
  · exact .inr ⟨hs h.ss, h.qs, h.tuples, h.texts⟩

theorem SA.Sound.setQs (h : a.Sound) {s : List Elt} (hs : a.qs.length ≤ 100 → s.length ≤ 100) : SA.Sound { a with qs := s } := by
  rcases h with h | h
  · exact .inl h
  · exact .inr ⟨h.ss, hs h.qs, h.tuples, h.texts⟩

theorem SA.Sound.flag (h : a.Sound) (b : Bool) : SA.Sound { a with ub := a.ub || b } := by
  rcases h with h | h
  · left; show (a.ub || b) = true; rw [h]; rfl
  · exact .inr ⟨h.ss, h.qs, h.tuples, h.texts⟩

theorem SA.Sound.addTuple (h : a.Sound) (s : Nat) (t : Str) : (a.addTuple s t).Sound := by
  have e1 : MAX_TUPLE_LIST = 5000000 := rfl
  have e2 : MAX_TEXT = 1000 := rfl
  unfold SA.addTuple
  rcases h with h | h
  · left; simp [h]
  · by_cases h1 : strcopyBytes t.length > MAX_TEXT
    · left; simp [h1]
    · by_cases h2 : a.tl.length ≥ MAX_TUPLE_LIST
      · left; simp [h2]
      · unfold strcopyBytes at h1
        refine .inr ⟨h.ss, h.qs, by simp; omega, ?_⟩
        intro x hx
        rcases List.mem_append.1 hx with hx | hx
        · exact h.texts x hx
        · rw [List.mem_singleton] at hx; rw [hx]; show t.length + 2 ≤ 1000; omega

theorem SA.Sound.popQ (h : a.Sound) : a.popQ.Sound := by
  unfold SA.popQ
  split
  · rename_i e qs hq
    exact SA.Sound.setElt (a := { a with qs := qs }) (h.setQs fun hl => by rw [hq] at hl; simp at hl; omega) e
  · exact .inl rfl

theorem SA.Sound.closeOutput (h : a.Sound) (d : QDfa) (s : Str) (pos : Nat) (e : Elt) : (a.closeOutput d s pos e).Sound := by
  unfold SA.closeOutput
  split
  · split
    · exact ((h.addTuple _ _).flag _).flag _
    · exact h
  · exact h

theorem SA.Sound.step (h : a.Sound) (d : QDfa) (s : Str) (t : Tok) : (step d s a t).Sound := by
  cases t with
  | lcb p =>
    show (stepLcb d p a).Sound
    unfold stepLcb
    have h1 : SA.Sound { a with ss := push a.ss .lcb } := h.setSs fun hl => push_cap hl _
    dsimp only
    split
    · exact h1.setElt _
    · exact h1.addTuple _ _
    · exact h1.addTuple _ _
    · exact h1
  | rcb p =>
    show (stepRcb d s p a).Sound
    unfold stepRcb
    have h1 : (rcbOutput d s p a).Sound := by
      unfold rcbOutput
      dsimp only
      split
      · exact (h.closeOutput d s p a.elt).setElt _
      · exact h.closeOutput d s p a.elt
    generalize rcbOutput d s p a = a at h1
    dsimp only
    split
    · exact h1.setSs fun hl => pop_cap hl
    · split
      · split
        · exact h1.popQ.setSs fun hl => pop_cap (pop_cap hl)
        · split
          · have h2 : SA.Sound { a with ss := pop a.ss, elt := { a.elt with count := a.elt.count + 1 } } :=
              SA.Sound.setElt (a := { a with ss := pop a.ss }) (h1.setSs fun hl => pop_cap hl) _
            split
            · exact h2.addTuple _ _
            · exact h2
          · exact h1
      · exact h1
  | lb p =>
    show (stepLb d p a).Sound
    unfold stepLb
    have h1 : (match d.matchedType a.elt.st a.elt.count with
        | .output => { a with elt := { a.elt with ms := some (p - 1) } }
        | .condition => a.addTuple a.elt.st []
        | _ => a).Sound := by
      split
      · exact h.setElt _
      · exact h.addTuple _ _
      · exact h
    have tail : ∀ b : SA, b.Sound → SA.Sound { b with ss := push b.ss .lb, qs := push b.qs b.elt, elt := d.enter b.elt none } := fun b h1 =>
      SA.Sound.setElt (a := { b with ss := push b.ss .lb, qs := push b.qs b.elt })
        (SA.Sound.setQs (a := { b with ss := push b.ss .lb }) (h1.setSs fun hl => push_cap hl _) fun hl => push_cap hl _) _
    exact tail _ h1
  | rb p =>
    show (stepRb d s p a).Sound
    unfold stepRb
    split
    · have h1 : (match top a.qs with
          | some e => a.closeOutput d s p e
          | none => a).Sound := by
        split
        · exact h.closeOutput d s p _
        · exact h
      have tail : ∀ b : SA, b.Sound → SA.Sound (if b.ss.length = 1 then { b.popQ with ss := pop b.popQ.ss }
          else if secondTop b.ss = some .ky then
            { ({ b with qs := pop b.qs } : SA).popQ with ss := pop (pop ({ b with qs := pop b.qs } : SA).popQ.ss) }
          else if secondTop b.ss = some .lb then { b.popQ with ss := pop b.popQ.ss, elt := { b.popQ.elt with count := b.popQ.elt.count + 1 } }
          else b) := by
        intro b h1
        split
        · exact h1.popQ.setSs fun hl => pop_cap hl
        · split
          · exact (SA.Sound.popQ (a := { b with qs := pop b.qs }) (h1.setQs fun hl => pop_cap hl)).setSs fun hl => pop_cap (pop_cap hl)
          · split
            · exact SA.Sound.setElt (a := { b.popQ with ss := pop b.popQ.ss }) (h1.popQ.setSs fun hl => pop_cap hl) _
            · exact h1
      exact tail _ h1
    · exact h
  | com => exact h
  | ky k =>
    exact SA.Sound.setElt (a := { a with ss := push a.ss .ky, qs := push a.qs a.elt })
      (SA.Sound.setQs (a := { a with ss := push a.ss .ky }) (h.setSs fun hl => push_cap hl _) fun hl => push_cap hl _) _
  | pri x =>
    show (stepPri d x a).Sound
    unfold stepPri
    split
    · have h1 : (match d.matchedType a.elt.st a.elt.count with
          | .output => a.addTuple a.elt.st x
          | .condition => a.addTuple a.elt.st x
          | _ => a).Sound := by
        split
        · exact h.addTuple _ _
        · exact h.addTuple _ _
        · exact h
      have tail : ∀ b : SA, b.Sound → SA.Sound (if top b.ss = some .ky then { b.popQ with ss := pop b.popQ.ss }
          else if top b.ss = some .lb then { b with elt := { b.elt with count := b.elt.count + 1 } } else b) := by
        intro b h1
        split
        · exact h1.popQ.setSs fun hl => pop_cap hl
        · split
          · exact h1.setElt _
          · exact h1
      exact tail _ h1
    · exact h

end

theorem runToks_sound (d : QDfa) (s : Str) : ∀ (ts : List Tok) {a : SA}, a.Sound → (runToks d s a ts).Sound
  | [], _, h => h
  | t :: ts, _, h => runToks_sound d s ts (h.step d s t)

theorem SA.Sound.within {a : SA} (h : a.Sound) (hb : a.ub = false) : a.Within := by
  rcases h with h | h
  · rw [hb] at h; cases h
  · exact h

/-! ### The tokenizer -/

/-- The text of a token fits into the `MAX_SIZE_PRIMITIVE` bytes of `content`, lexing.h:18, 40. -/
def RTok.fitsContent : RTok → Prop
  | .ky k => k.length + 2 ≤ 4000
  | .pri v => v.length + 2 ≤ 4000
  | _ => True

/-- The same for tokens. -/
def Tok.fitsContent : Tok → Prop
  | .ky k => k.length + 2 ≤ 4000
  | .pri v => v.length + 2 ≤ 4000
  | _ => True

theorem lexLoop_fits (s : Str) (lx : Lexer) : ∀ (rest : Str) (p start tokp st : Nat), (lexLoop s lx rest p start tokp st).2.ub = false →
    (lexLoop s lx rest p start tokp st).1.fitsContent
  | [], _, _, _, _, _ => trivial
  | c :: rest, p, start, tokp, 0, h => by
    simp only [lexLoop] at h ⊢
    by_cases c1 : c = '{'
    · rw [if_pos c1]; trivial
    by_cases c2 : c = '}'
    · rw [if_neg c1, if_pos c2]; trivial
    by_cases c3 : c = '['
    · rw [if_neg c1, if_neg c2, if_pos c3]; trivial
    by_cases c4 : c = ']'
    · rw [if_neg c1, if_neg c2, if_neg c3, if_pos c4]; trivial
    by_cases c5 : c = ','
    · rw [if_neg c1, if_neg c2, if_neg c3, if_neg c4, if_pos c5]; trivial
    rw [if_neg c1, if_neg c2, if_neg c3, if_neg c4, if_neg c5] at h ⊢
    by_cases c6 : c = '"'
    · rw [if_pos c6] at h ⊢; exact lexLoop_fits s lx rest _ _ _ _ h
    rw [if_neg c6] at h ⊢
    by_cases c7 : c = ' ' ∨ c = '\t'
    · rw [if_pos c7] at h ⊢; exact lexLoop_fits s lx rest _ _ _ _ h
    rw [if_neg c7] at h ⊢
    by_cases c8 : isAlnum c = true
    · rw [if_pos c8] at h ⊢; exact lexLoop_fits s lx rest _ _ _ _ h
    · rw [if_neg c8] at h ⊢; exact lexLoop_fits s lx rest _ _ _ _ h
  | c :: rest, p, start, tokp, 1, h => by
    have e : MAX_SIZE_PRIMITIVE = 4000 := rfl
    have i1 := lexLoop_fits s lx rest (p + 1) start tokp 1
    simp only [lexLoop] at h ⊢
    by_cases hc : c = '"'
    · simp only [hc, if_true] at h ⊢
      by_cases hb : backslashes s p % 2 = 1
      · simp only [hb, if_true] at h ⊢; exact i1 h
      · simp only [hb, if_false] at h ⊢
        unfold stringFound at h ⊢
        dsimp only at h ⊢
        split at h
        · have := of_decide_eq_false (Bool.or_eq_false_iff.1 h).2
          unfold strcopyBytes at this
          show List.length _ + 2 ≤ 4000
          omega
        · have := of_decide_eq_false (Bool.or_eq_false_iff.1 h).2
          show List.length _ + 2 ≤ 4000
          simp
          omega
    · simp only [hc, if_false] at h ⊢; exact i1 h
  | c :: rest, p, start, tokp, st + 2, h => by
    have e : MAX_SIZE_PRIMITIVE = 4000 := rfl
    simp only [lexLoop] at h ⊢
    by_cases hc : c = '}' ∨ c = ']' ∨ c = ',' ∨ c = ' ' ∨ c = '\t'
    · rw [if_pos hc] at h ⊢
      unfold primitiveFound at h ⊢
      have := of_decide_eq_false (Bool.or_eq_false_iff.1 h).2
      unfold strcopyBytes at this
      show List.length _ + 2 ≤ 4000
      omega
    · rw [if_neg hc] at h ⊢; exact lexLoop_fits s lx rest _ _ _ _ h

theorem lexFrom_fits (s : Str) : ∀ (n : Nat) (lx : Lexer), lexUb s n lx = false → ∀ t ∈ lexFrom s n lx, t.fitsContent
  | 0, _, _, t, ht => by simp [lexFrom] at ht
  | n + 1, lx, h, t, ht => by
    simp only [lexUb, Bool.or_eq_false_iff] at h
    have h1 : (nextToken s lx).1.fitsContent := lexLoop_fits s lx _ _ _ _ 0 h.1
    simp only [lexFrom] at ht
    have h2 := h.2
    cases hz : (nextToken s lx).1.toTok (nextToken s lx).2 with
    | none => rw [hz] at ht; cases ht
    | some x =>
      rw [hz] at ht h2
      rcases List.mem_cons.1 ht with ht | ht
      · subst ht
        revert h1 hz
        cases (nextToken s lx).1 <;> intro h1 hz <;> simp only [RTok.toTok, Option.some.injEq] at hz <;>
          first | (subst hz; exact h1) | (subst hz; trivial) | (cases hz)
      · exact lexFrom_fits s n _ h2 t ht

/-- **C35, the automaton**: if the flag is not set at the end of a text, then after every prefix of its tokens both stacks have at most 100 entries and there are at
most 5000000 tuples with texts of at most 1000 bytes, and the text of every token fits into the 4000 bytes of the tokenizer (all with the two bytes `strcopy`
adds). -/
theorem c35_flag_partial (d : QDfa) (s : Str) {a : SA} (ha : a.Within) (hb : (execAutomaton d s a).ub = false) :
    (∀ ts us, lexAll s = ts ++ us → (runToks d s a ts).Within) ∧ (execAutomaton d s a).Within ∧ ∀ t ∈ lexAll s, t.fitsContent := by
  unfold execAutomaton at hb ⊢
  rw [execLoop_eq] at hb ⊢
  have h1 : (runToks d s a (lexFrom s (s.length + 1) Lexer.init)).ub = false ∧ lexUb s (s.length + 1) Lexer.init = false := by
    simpa [SA.orUb] using hb
  refine ⟨fun ts us e => (runToks_sound d s ts (.inr ha)).within ?_, ?_, lexFrom_fits s _ _ h1.2⟩
  · cases hx : (runToks d s a ts).ub with
    | false => rfl
    | true =>
      have h2 := runToks_ub d s us _ hx
      have h3 := h1.1
      rw [show lexFrom s (s.length + 1) Lexer.init = ts ++ us from e, runToks, List.foldl_append] at h3
      rw [show List.foldl (step d s) (List.foldl (step d s) a ts) us = runToks d s (runToks d s a ts) us from rfl, h2] at h3
      cases h3
  · have h2 := (runToks_sound d s (lexFrom s (s.length + 1) Lexer.init) (.inr ha)).within h1.1
    exact ⟨h2.ss, h2.qs, h2.tuples, h2.texts⟩

/-! ### Tokens in parallel runs -/

theorem contentUb_fits {s : Str} (h : contentUb s = false) : ∀ t ∈ lexAll s, t.fitsContent := by
  have e : MAX_SIZE_PRIMITIVE = 4000 := rfl
  intro t ht
  have h1 := List.any_eq_false.1 h t ht
  cases t with
  | ky k =>
    have h2 : ¬ strcopyBytes k.length > MAX_SIZE_PRIMITIVE := fun hx => h1 (decide_eq_true hx)
    unfold strcopyBytes at h2
    show k.length + 2 ≤ 4000
    omega
  | pri v =>
    have h2 : ¬ strcopyBytes v.length > MAX_SIZE_PRIMITIVE := fun hx => h1 (decide_eq_true hx)
    unfold strcopyBytes at h2
    show v.length + 2 ≤ 4000
    omega
  | _ => trivial

theorem W.orUb_flag {w : W} {b : Bool} (h : (w.orUb b).bad = false) : b = false := by
  have h1 : ((w.ub || b) || w.q.ub) = false := h
  cases b with
  | false => rfl
  | true => rw [Bool.or_true] at h1; cases h1

theorem workersFrom_mem {d : QDfa} {ct : Option CTable} {u : Nat → UState} : ∀ (cs : List Str) (i : Nat), ∀ c ∈ cs,
    ∃ j, (c, runWorker d ct (u j) j c) ∈ workersFrom d ct u i cs
  | [], _, _, hc => by cases hc
  | x :: cs, i, c, hc => by
    rcases List.mem_cons.1 hc with hc | hc
    · exact ⟨i, by rw [hc]; exact List.mem_cons_self ..⟩
    · obtain ⟨j, hj⟩ := workersFrom_mem cs (i + 1) c hc
      exact ⟨j, List.mem_cons_of_mem _ hj⟩

/-- **C45, tokens**: if no flag is set in a parallel run, the text of every token of every chunk fits into the 4000 bytes of the tokenizer of its thread. -/
theorem c45_content_partial {d : QDfa} {ct : Option CTable} {u : Nat → UState} {old : Option K} {c : Str} {cs : List Str} {k : K}
    (h : executeParallel d ct u old (c :: cs) = some k) (hb : k.bad = false) : ∀ x ∈ c :: cs, ∀ t ∈ lexAll x, t.fitsContent := by
  have e := Option.some.inj h
  rw [← e] at hb
  obtain ⟨h1, _⟩ := K.bad_orUb hb
  intro x hx
  rcases List.mem_cons.1 hx with hx | hx
  · rw [hx]
    apply contentUb_fits
    have hw : (worker0 d ct (u 0) old c).bad = false := by
      cases hx : (worker0 d ct (u 0) old c).bad with
      | false => rfl
      | true =>
        have h3 : (K.ofW (worker0 d ct (u 0) old c)).bad = true := by
          show (((worker0 d ct (u 0) old c).ub || (worker0 d ct (u 0) old c).q.ub) || _) = true
          rw [show ((worker0 d ct (u 0) old c).ub || (worker0 d ct (u 0) old c).q.ub) = true from hx]; rfl
        rw [combineLoop_bad _ h3] at h1; cases h1
    cases old with
    | none => exact W.orUb_flag hw
    | some k => exact W.orUb_flag hw
  · obtain ⟨j, hj⟩ := workersFrom_mem (d := d) (ct := ct) (u := u) cs 1 x hx
    exact contentUb_fits (W.orUb_flag (workers_not_bad _ h1 _ hj))

set_option maxRecDepth 100000 in
/-- The hypotheses hold for the two chunks of `Props/Caps`. -/
example : ∃ k, executeParallel exAgainDfa none (fun _ => .other) none [exAgainLeft, "{\"c\": 5, \"b\": 8}]}".toList] = some k ∧ k.bad = false ∧
    Tok.ky ['c'] ∈ lexAll "{\"c\": 5, \"b\": 8}]}".toList :=
  ⟨_, rfl, by decide, by decide⟩

/-! ### The filter -/

/-- The lists of the filter fit: its stack (`MAX_STACK_ELEMENT`, predicate.h:10), the buffer and the output (`MAX_OUTPUT`, `MAX_STRING`, output.h:6, 7). -/
structure PF.Within (p : PF) : Prop where
  stack : p.stack.length ≤ 100
  buffer : p.buffer.length ≤ 800000
  output : p.output.length ≤ 800000
  btexts : ∀ t ∈ p.buffer, t.length + 2 ≤ 1000
  otexts : ∀ t ∈ p.output, t.length + 2 ≤ 1000

/-- The flag is set or everything fits. -/
def PF.Sound (p : PF) : Prop := p.ub = true ∨ p.Within

section
variable {p : PF}

theorem append_fits {l : List Str} {t : Str} (h : ∀ t ∈ l, t.length + 2 ≤ 1000) (ht : t.length + 2 ≤ 1000) : ∀ x ∈ l ++ [t], x.length + 2 ≤ 1000 := by
  intro x hx
  rcases List.mem_append.1 hx with hx | hx
  · exact h x hx
  · rw [List.mem_singleton] at hx; rw [hx]; exact ht

theorem PF.Sound.addOutput (h : p.Sound) (t : Str) : (p.addOutput t).Sound := by
  have e1 : MAX_OUTPUT = 800000 := rfl
  have e2 : MAX_STRING = 1000 := rfl
  unfold PF.addOutput
  rcases h with h | h
  · left; simp [h]
  · by_cases h1 : strcopyBytes t.length > MAX_STRING
    · left; simp [h1]
    · by_cases h2 : p.output.length ≥ MAX_OUTPUT
      · left; simp [h2]
      · unfold strcopyBytes at h1
        exact .inr ⟨h.stack, h.buffer, by simp; omega, h.btexts, append_fits h.otexts (by omega)⟩

theorem PF.Sound.addBuffer (h : p.Sound) (t : Str) : (p.addBuffer t).Sound := by
  have e1 : MAX_OUTPUT = 800000 := rfl
  have e2 : MAX_STRING = 1000 := rfl
  unfold PF.addBuffer
  rcases h with h | h
  · left; simp [h]
  · by_cases h1 : strcopyBytes t.length > MAX_STRING
    · left; simp [h1]
    · by_cases h2 : p.buffer.length ≥ MAX_OUTPUT
      · left; simp [h2]
      · unfold strcopyBytes at h1
        exact .inr ⟨h.stack, by simp; omega, h.output, append_fits h.btexts (by omega), h.otexts⟩

theorem PF.Sound.takeBuffer (h : p.Sound) (n : Nat) : PF.Sound { p with buffer := p.buffer.take n } := by
  rcases h with h | h
  · exact .inl h
  · exact .inr ⟨h.stack, by have := h.buffer; simp; omega, h.output, fun t ht => h.btexts t (List.mem_of_mem_take ht), h.otexts⟩

theorem foldl_pf_sound {α : Type} {f : PF → α → PF} (hf : ∀ p t, p.Sound → (f p t).Sound) : ∀ (l : List α) {p : PF}, p.Sound → (l.foldl f p).Sound
  | [], _, h => h
  | t :: l, _, h => foldl_pf_sound hf l (hf _ t h)

theorem foldl_addOutput_buffer : ∀ (l : List Str) (p : PF), (l.foldl PF.addOutput p).buffer = p.buffer
  | [], _ => rfl
  | t :: l, p => by rw [List.foldl_cons, foldl_addOutput_buffer l]; rfl

theorem foldl_addOutput_stack : ∀ (l : List Str) (p : PF), (l.foldl PF.addOutput p).stack = p.stack
  | [], _ => rfl
  | t :: l, p => by rw [List.foldl_cons, foldl_addOutput_stack l]; rfl

theorem PF.Sound.release (h : p.Sound) (v : Bool) (fi : Nat) (last : Bool) : (pfRelease v fi last p).Sound := by
  unfold pfRelease
  split
  · split
    · have h1 : ((p.buffer.drop fi).foldl PF.addOutput p).Sound := foldl_pf_sound (fun _ t hp => hp.addOutput t) _ h
      have h2 := h1.takeBuffer fi
      rw [foldl_addOutput_buffer] at h2
      exact h2
    · exact h
  · exact h.takeBuffer fi

theorem PF.Sound.step (h : p.Sound) (O : NumOps) (ctx : QCtx) (t : Tuple) : (pfStep O ctx p t).Sound := by
  unfold pfStep
  split
  · have e1 : MAX_STACK_ELEMENT = 100 := rfl
    unfold pfOpen
    rcases h with h | h
    · left; simp [h]
    · by_cases h1 : p.stack.length ≥ MAX_STACK_ELEMENT
      · left; simp [h1]
      · exact .inr ⟨by simp; omega, h.buffer, h.output, h.btexts, h.otexts⟩
  · split
    · unfold pfClose
      split
      · exact .inl rfl
      · rename_i s fi rest hs
        split
        · exact .inl rfl
        · rename_i v _
          have h1 := h.release v fi rest.isEmpty
          dsimp only
          rcases h1 with h1 | h1
          · exact .inl h1
          · have hst : (pfRelease v fi rest.isEmpty p).stack = p.stack := by
              unfold pfRelease
              split
              · split
                · show (List.foldl PF.addOutput p _).stack = p.stack
                  exact foldl_addOutput_stack _ _
                · rfl
              · rfl
            refine .inr ⟨?_, h1.buffer, h1.output, h1.btexts, h1.otexts⟩
            have h2 := h1.stack
            rw [hst, hs] at h2
            simp at h2 ⊢
            omega
    · unfold pfOther
      split
      · exact h
      · split
        · exact h.addBuffer _
        · split
          · exact .inl rfl
          · exact h.addBuffer _
          · split
            · exact .inl rfl
            · split
              · rcases h with h | h
                · exact .inl h
                · exact .inr ⟨h.stack, h.buffer, h.output, h.btexts, h.otexts⟩
              · exact h.addBuffer _

theorem PF.Sound.generate (h : p.Sound) (O : NumOps) (ctx : QCtx) (ts : List Tuple) : (generate O ctx p ts).Sound := by
  unfold JPS.generate
  split
  · exact foldl_pf_sound (fun _ t hp => hp.addOutput t.text) _ h
  · exact foldl_pf_sound (fun _ t hp => hp.step O ctx t) _ h

end

/-- **C35, the filter**: if the flag is not set after the tuples of a text, then at most 100 elements are open, buffer and output have at most 800000
entries of at most 1000 bytes, after every prefix of the tuples. -/
theorem c35_filter_flag_partial (O : NumOps) (ctx : QCtx) {p : PF} (hp : p.Within) (ts us : List Tuple) (hb : (generate O ctx p (ts ++ us)).ub = false) :
    (generate O ctx p ts).Within := by
  have h := PF.Sound.generate (.inr hp) O ctx ts
  rcases h with h | h
  · rw [← generate_append, generate_ub us h] at hb; cases hb
  · exact h

/-- **C35, serial runs**: if neither flag is set in the end, automaton and filter fit into their arrays. -/
theorem c35_serial_flag_partial (O : NumOps) (d : QDfa) (ctx : QCtx) (ps : List Str) (r : SerialCtx) (h : serialPieces O d ctx ps = some r)
    (h1 : r.sa.ub = false) (h2 : r.pf.ub = false) : r.sa.Within ∧ r.pf.Within := by
  have key : ∀ (ps : List Str) (c : Option SerialCtx), (∀ x, c = some x → x.sa.Sound ∧ x.pf.Sound) →
      ∀ r, ps.foldl (fun c s => some (serialPartialRun O d ctx c s)) c = some r → r.sa.Sound ∧ r.pf.Sound := by
    intro ps
    induction ps with
    | nil => intro c hc r hr; exact hc r hr
    | cons s ps ih =>
      intro c hc r hr
      refine ih _ ?_ r hr
      intro x hx
      rw [← Option.some.inj hx]
      cases c with
      | none =>
        constructor
        · show (execAutomaton d s SA.init).Sound
          unfold execAutomaton
          rw [execLoop_eq]
          exact (runToks_sound d s _ (.inr ⟨by decide, by decide, by simp [SA.init], by simp [SA.init]⟩)).flag _
        · exact PF.Sound.generate (.inr ⟨by simp [PF.init], by simp [PF.init], by simp [PF.init], by simp [PF.init], by simp [PF.init]⟩) O ctx _
      | some c =>
        have ha : SA.Sound { c.sa with tl := [] } := by
          rcases (hc c rfl).1 with h | h
          · exact .inl h
          · exact .inr ⟨h.ss, h.qs, by simp, by simp⟩
        constructor
        · show (execAutomaton d s { c.sa with tl := [] }).Sound
          unfold execAutomaton
          rw [execLoop_eq]
          exact (runToks_sound d s _ ha).flag _
        · exact PF.Sound.generate (hc c rfl).2 O ctx _
  have hs := key ps none (fun x hx => by cases hx) r h
  refine ⟨hs.1.within h1, ?_⟩
  rcases hs.2 with h | h
  · rw [h2] at h; cases h
  · exact h

theorem serial_init_flag (O : NumOps) (d : QDfa) (ctx : QCtx) (hi : (PF.init ctx).ub = true) : ∀ (ps : List Str) (c : Option SerialCtx),
    (∀ x, c = some x → x.pf.ub = true) → ∀ r, ps.foldl (fun c s => some (serialPartialRun O d ctx c s)) c = some r → r.pf.ub = true
  | [], _, hc, r, hr => hc r hr
  | s :: ps, c, hc, r, hr => by
    refine serial_init_flag O d ctx hi ps _ ?_ r hr
    intro x hx
    rw [← Option.some.inj hx]
    cases c with
    | none => exact generate_ub _ hi
    | some c => exact generate_ub _ (hc c rfl)

/-- **C35, the array of predicates**: if the filter of a serial run is not flagged in the end, the states of all predicates are indexes of `predicate_conditions`
(`MAX_PREDICATE_STATE`, predicate.h:9, 30) and every property a predicate tests has a name. -/
theorem c35_pred_flag_partial (O : NumOps) (d : QDfa) (ctx : QCtx) (ps : List Str) (r : SerialCtx) (h : serialPieces O d ctx ps = some r)
    (hb : r.pf.ub = false) : ∀ s ∈ ctx.predStates, s < 100 ∧ ∀ c ∈ ctx.mapping s, ∃ name, condName ctx c = some name := by
  have e : MAX_PREDICATE_STATE = 100 := rfl
  have hi : (PF.init ctx).ub = false := by
    cases hx : (PF.init ctx).ub with
    | false => rfl
    | true => rw [serial_init_flag O d ctx hx ps none (fun _ hc => by cases hc) r h] at hb; cases hb
  obtain ⟨h1, h2⟩ := Bool.or_eq_false_iff.1 (show (_ || _) = false from hi)
  intro s hs
  constructor
  · have h3 : ¬ s ≥ MAX_PREDICATE_STATE := fun hx => List.any_eq_false.1 h1 s hs (decide_eq_true hx)
    omega
  · intro c hc
    cases hn : condName ctx c with
    | some n => exact ⟨n, rfl⟩
    | none =>
      exact absurd (List.any_eq_true.2 ⟨c, hc, by rw [hn]; rfl⟩) (List.any_eq_false.1 h2 s hs)

/-! ### The constraint table -/

/-- The table fits: `MAX_CONSTRAINT` entries of `MAX_STATES` states, the names of keys within `MAX_KEY_TEXT`, constraint.h:7-9. -/
structure CTable.Within (ct : CTable) : Prop where
  info : ct.info.length ≤ 1000
  states : ∀ i ∈ ct.info, i.states.length ≤ 100
  names : ∀ i ∈ ct.info, i.type = .ky → i.name.length + 2 ≤ 100

theorem addIn_names {k : CKey} {s : Nat} : ∀ {is js : List CInfo}, addIn k s is = some js → (∀ i ∈ is, i.type = .ky → i.name.length + 2 ≤ 100) →
    ∀ i ∈ js, i.type = .ky → i.name.length + 2 ≤ 100
  | [], _, h, _ => by cases h
  | i :: is, js, h, hn => by
    unfold addIn at h
    split at h
    · rw [← Option.some.inj h]
      intro j hj
      rcases List.mem_cons.1 hj with hj | hj
      · have h1 : (i.addState s).type = i.type ∧ (i.addState s).name = i.name := by
          unfold CInfo.addState; split <;> exact ⟨rfl, rfl⟩
        rw [hj, h1.1, h1.2]
        exact hn i (List.mem_cons_self ..)
      · exact hn j (List.mem_cons_of_mem _ hj)
    · obtain ⟨r, h1, h2⟩ := Option.map_eq_some_iff.1 h
      rw [← h2]
      intro j hj
      rcases List.mem_cons.1 hj with hj | hj
      · rw [hj]; exact hn i (List.mem_cons_self ..)
      · exact addIn_names h1 (fun x hx => hn x (List.mem_cons_of_mem _ hx)) j hj

theorem addIn_length {k : CKey} {s : Nat} : ∀ {is js : List CInfo}, addIn k s is = some js → js.length = is.length
  | [], _, h => by cases h
  | i :: is, js, h => by
    unfold addIn at h
    split at h
    · rw [← Option.some.inj h]; rfl
    · obtain ⟨r, h1, h2⟩ := Option.map_eq_some_iff.1 h
      rw [← h2, List.length_cons, List.length_cons, addIn_length h1]

theorem CTable.add_sound {g : Nat → Str} {ct : CTable} (h : ct.ub = true ∨ ct.Within) (s : Nat) (k : CKey) :
    (ct.add g s k).ub = true ∨ (ct.add g s k).Within := by
  have e1 : MAX_CONSTRAINT = 1000 := rfl
  have e2 : MAX_STATES = 100 := rfl
  unfold CTable.add
  split
  · rename_i is hi
    rcases h with h | h
    · left; simp [h]
    · by_cases hx : (is.any fun i => decide (i.states.length > MAX_STATES)) = true
      · left; simp only [hx, Bool.or_true]
      · refine .inr ⟨by show is.length ≤ 1000; rw [addIn_length hi]; exact h.info, ?_, addIn_names hi h.names⟩
        intro i hii
        by_cases hl : i.states.length > MAX_STATES
        · exact absurd (List.any_eq_true.2 ⟨i, hii, decide_eq_true hl⟩) hx
        · omega
  · rcases h with h | h
    · left; simp [h]
    · by_cases hl : ct.info.length ≥ MAX_CONSTRAINT
      · left; simp [hl]
      · cases k with
        | none =>
          refine .inr ⟨by simp; omega, ?_, ?_⟩
          · intro i hi
            rcases List.mem_append.1 hi with hi | hi
            · exact h.states i hi
            · rw [List.mem_singleton] at hi; rw [hi]; show [s].length ≤ 100; simp
          · intro i hi
            rcases List.mem_append.1 hi with hi | hi
            · exact h.names i hi
            · rw [List.mem_singleton] at hi
              rw [hi]
              intro hx
              cases hx
        | some k =>
          have e3 : MAX_KEY_TEXT = 100 := rfl
          by_cases h3 : strcopyBytes k.length > MAX_KEY_TEXT
          · left; simp [h3]
          · unfold strcopyBytes at h3
            refine .inr ⟨by simp; omega, ?_, ?_⟩
            · intro i hi
              rcases List.mem_append.1 hi with hi | hi
              · exact h.states i hi
              · rw [List.mem_singleton] at hi; rw [hi]; show [s].length ≤ 100; simp
            · intro i hi
              rcases List.mem_append.1 hi with hi | hi
              · exact h.names i hi
              · rw [List.mem_singleton] at hi
                rw [hi]
                intro _
                show k.length + 2 ≤ 100
                omega

/-- **C61**: if the flag is not set after the recordings of a run, the table has at most 1000 entries with at most 100 states, and keys of at most 98
characters.  Such a table has short entries, as
the theorems about parallel runs ask for. -/
theorem c61_flag_partial (g : Nat → Str) (h : List (Nat × CKey)) (hb : (CTable.empty.addAll g h).ub = false) :
    (CTable.empty.addAll g h).Within ∧ (CTable.empty.addAll g h).Short := by
  have key : ∀ (h : List (Nat × CKey)) (ct : CTable), (ct.ub = true ∨ ct.Within) → ((ct.addAll g h).ub = true ∨ (ct.addAll g h).Within) := by
    intro h
    induction h with
    | nil => intro ct hc; exact hc
    | cons r h ih => intro ct hc; exact ih _ (CTable.add_sound hc r.1 r.2)
  rcases key h CTable.empty (.inr ⟨by simp [CTable.empty], by simp [CTable.empty], by simp [CTable.empty]⟩) with h1 | h1
  · rw [h1] at hb; cases hb
  · exact ⟨h1, fun i hi => Nat.le_trans (h1.states i hi) (by decide)⟩

/-- **C61 and C45, learning and the optimised run**: if neither learning the table nor the parallel run with it sets a flag, the table, the lists of the result and the
threads fit into their arrays. -/
theorem c61_flag_run_partial {d : QDfa} {g : Nat → Str} {h : List (Nat × CKey)} {u : Nat → UState} {ru : Nat → Nat → UState} {c : Str} {cs : List Str} {k : K}
    (ht : (CTable.empty.addAll g h).ub = false) (hr : executeParallelR d (some (CTable.empty.addAll g h)) u ru none (c :: cs) = some k) (hb : k.bad = false) :
    (CTable.empty.addAll g h).Within ∧ k.q.Within ∧ (c :: cs).length ≤ 100 := by
  obtain ⟨h1, h2⟩ := c61_flag_partial g h ht
  exact ⟨h1, c45_flag_again_partial (ct := some (CTable.empty.addAll g h)) (fun c hc => by rw [← Option.some.inj hc]; exact h2) (fun k hk => by cases hk) hr hb⟩

set_option maxRecDepth 100000 in
/-- The recordings of a run over `{"a": [{"b": 1}]}`, and a run on two chunks with that table in which the values 1 and 8 are found. -/
example : recordsOf exAgainDfa "{\"a\": [{\"b\": 1}]}".toList SA.init (lexAll "{\"a\": [{\"b\": 1}]}".toList) =
      [(1, some ['a']), (2, none), (3, some ['b'])] ∧
    (CTable.empty.addAll (fun _ => []) [(1, some ['a']), (2, none), (3, some ['b'])]).ub = false ∧
    ∃ k, executeParallelR exAgainDfa (some (CTable.empty.addAll (fun _ => []) [(1, some ['a']), (2, none), (3, some ['b'])])) (fun _ => .other)
      (fun _ _ => .other) none [exAgainLeft, "{\"b\": 8}]}".toList] = some k ∧ k.bad = false ∧ k.tuples = [⟨4, "1".toList⟩, ⟨4, "8".toList⟩] :=
  ⟨by decide, by decide, _, rfl, by decide, by decide⟩

set_option maxRecDepth 100000 in
/-- The hypotheses hold: `$.a[*].b` on `{"a": [{"b": 1}, {"c": 5, "b": 8}]}`. -/
example : SA.init.Within ∧ (execAutomaton exAgainDfa "{\"a\": [{\"b\": 1}, {\"c\": 5, \"b\": 8}]}".toList SA.init).ub = false ∧
    (execAutomaton exAgainDfa "{\"a\": [{\"b\": 1}, {\"c\": 5, \"b\": 8}]}".toList SA.init).tl = [⟨4, ['1']⟩, ⟨4, ['8']⟩] :=
  ⟨⟨by decide, by decide, by simp [SA.init], by simp [SA.init]⟩, by decide, by decide⟩

/-- The filter of `Props/Index` on nested elements, cut after the second tuple. -/
example (O : NumOps) : (PF.init exCtx).Within ∧
    (generate O exCtx (PF.init exCtx) ((forestTuples exForest).take 2 ++ (forestTuples exForest).drop 2)).ub = false ∧
    (generate O exCtx (PF.init exCtx) ((forestTuples exForest).take 2 ++ (forestTuples exForest).drop 2)).output = [['r'], ['s'], ['u']] :=
  ⟨⟨by simp [PF.init], by simp [PF.init], by simp [PF.init], by simp [PF.init], by simp [PF.init]⟩,
    by with_unfolding_all rfl, by with_unfolding_all rfl⟩

/-- A serial run over two pieces, cut between the elements. -/
example : (serialPieces intOps exAgainDfa ⟨4, fun _ => none, fun _ => [], []⟩
      ["{\"a\": [{\"b\": 1}, ".toList, "{\"c\": 5, \"b\": 8}]}".toList]).map (fun r => (r.sa.ub, r.pf.ub, r.pf.output)) =
    some (false, false, [['1'], ['8']]) := by decide +kernel

/-- A run with the predicates of `Props/Index`. -/
example : (serialPieces intOps exAgainDfa exCtx ["{\"a\": [{\"b\": 1}]}".toList]).map (fun r => r.pf.ub) = some false ∧ exCtx.predStates = [1, 2, 6] ∧
    exCtx.mapping 1 = [some 3] ∧ condName exCtx (some 3) = some ['x'] := by decide +kernel

/-- Recordings of two states for a key and one for arrays. -/
example : (CTable.empty.addAll (fun _ => []) [(1, some ['a']), (2, some ['a']), (3, none)]).ub = false ∧
    (CTable.empty.addAll (fun _ => []) [(1, some ['a']), (2, some ['a']), (3, none)]).info = [⟨['a'], .ky, [1, 2]⟩, ⟨[], .lb, [3]⟩] := by decide

end JPS
