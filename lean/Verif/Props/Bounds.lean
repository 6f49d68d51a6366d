import Verif.Combine
import Verif.Reprocess
/-!
# C35 and C45: what the flags for copies mean

The model sets a flag when a copy of a part of a text leaves a buffer.  Here the flags are compared with the bytes that are read.
-/

set_option autoImplicit false

namespace JPS

/-- The bytes `substring(pText, begin, end)` and `substring_in_place` read, utility.c:27-40 and 47-57: `temp[i]` for `begin ≤ i < end`, where `temp` is
the text without leading blanks; a text of length `n` has `n + 1` bytes. -/
def readsInside (s : Str) (b e : Nat) : Prop := ∀ i : Nat, b ≤ i → i < e → lead s + i < s.length + 1

/-- `substringOOB` is the flag for reading beyond the terminating NUL, whatever the beginning, if anything is read. -/
theorem substringOOB_iff (s : Str) (b e : Nat) (h : b < e) : substringOOB s e = false ↔ readsInside s b e := by
  unfold substringOOB readsInside
  rw [decide_eq_false_iff_not]
  constructor
  · intro h1 i _ h3; omega
  · intro h1
    have := h1 (e - 1) (by omega) (by omega)
    omega

/-- **C45, texts across a cut**: the flag is not set if and only if the beginning lies in the previous chunk, and the two copies of
parallel_automata_execution.h:179-184 and 230-235 (the previous chunk from `b` to its end, the current one up to and with index `i`)
read no byte behind the terminating NUL of their chunk. -/
theorem c45_cross_flag_partial (left right : Str) (b i : Nat) (hb : b < left.length) :
    crossUb left right b i = false ↔ readsInside left b left.length ∧ readsInside right 0 (i + 1) := by
  unfold crossUb
  rw [Bool.or_eq_false_iff, Bool.or_eq_false_iff, substringOOB_iff left b left.length hb, substringOOB_iff right 0 (i + 1) (by omega)]
  constructor
  · rintro ⟨⟨_, h1⟩, h2⟩; exact ⟨h1, h2⟩
  · rintro ⟨h1, h2⟩; exact ⟨⟨decide_eq_false (by omega), h1⟩, h2⟩

/-- A beginning outside the previous chunk is flagged. -/
theorem c45_cross_start_partial (left right : Str) (b i : Nat) (hb : left.length < b) : crossUb left right b i = true := by
  unfold crossUb
  rw [show decide (b > left.length) = true from decide_eq_true hb]
  rfl

/-- `{"a": {"b": 1, ` and `"c": 2}}`: an object from offset 6 of the first to index 6 of the second; the flag is not set, and it is
set for index 9, behind the NUL. -/
example : 6 < "{\"a\": {\"b\": 1, ".toList.length ∧ crossUb "{\"a\": {\"b\": 1, ".toList "\"c\": 2}}".toList 6 6 = false ∧
    crossText "{\"a\": {\"b\": 1, ".toList "\"c\": 2}}".toList 6 6 = "{\"b\": 1, \"c\": 2}".toList ∧
    crossUb "{\"a\": {\"b\": 1, ".toList "\"c\": 2}}".toList 6 9 = true := by
  refine ⟨by decide, by decide, by decide, by decide⟩

/-- **C35, texts of selected objects and arrays**: when a bracket closes an element that is to be shown, the flag is not set by this step if and only if the text
begins before the bracket, the copy reads no byte behind the terminating NUL, it fits with two bytes into the 1000 bytes of a text, and a place among the 5000000
tuples is left. -/
theorem c35_close_flag_partial (d : QDfa) (s : Str) (pos b : Nat) (e : Elt) (a : SA) (hm : e.ms = some b) (ho : d.matchedType e.st e.count = .output)
    (hb : b ≠ pos) :
    (a.closeOutput d s pos e).ub = false ↔
      a.ub = false ∧ b < pos ∧ readsInside s b pos ∧ (substring s b pos).length + 2 ≤ 1000 ∧ a.tl.length < 5000000 := by
  have e1 : MAX_TEXT = 1000 := rfl
  have e2 : MAX_TUPLE_LIST = 5000000 := rfl
  have e3 : ∀ n, strcopyBytes n = n + 2 := fun _ => rfl
  unfold SA.closeOutput
  simp only [hm, ho, if_true, SA.addTuple, Bool.or_eq_false_iff, decide_eq_false_iff_not, e3]
  constructor
  · rintro ⟨⟨⟨⟨h1, h2⟩, h3⟩, h4⟩, h5⟩
    exact ⟨h1, by omega, (substringOOB_iff s b pos (by omega)).1 h4, by omega, by omega⟩
  · rintro ⟨h1, h2, h3, h4, h5⟩
    exact ⟨⟨⟨⟨h1, by omega⟩, by omega⟩, (substringOOB_iff s b pos h2).2 h3⟩, by omega⟩

/-- **C45, texts copied at the merge**: a tuple of a worker that only has a beginning and an end is copied from the chunk without a flag exactly if the copy reads no
byte behind the terminating NUL, the bytes that are allocated and the text with two bytes fit, and a place among the 5000000 tuples is left. -/
theorem c45_span_flag_partial (right : Str) (k : K) (t : MTuple) (b e : Nat) (hs : t.span = some (b, e)) (hbe : b < e) :
    (k.addTuple right t).ub = false ↔
      k.ub = false ∧ readsInside right b e ∧ e - b + 1 ≤ 1000 ∧ (substring right b e).length + 2 ≤ 1000 ∧ k.q.tl.length < 5000000 := by
  have e1 : MAX_TEXT = 1000 := rfl
  have e2 : MAX_TUPLE_LIST = 5000000 := rfl
  have e3 : ∀ n, strcopyBytes n = n + 2 := fun _ => rfl
  unfold K.addTuple
  simp only [hs, K.orUb, Bool.or_eq_false_iff, decide_eq_false_iff_not, e3]
  constructor
  · rintro ⟨h1, ⟨⟨h2, h3⟩, h4⟩, h5⟩
    exact ⟨h1, (substringOOB_iff right b e hbe).1 h2, by omega, by omega, by omega⟩
  · rintro ⟨h1, h2, h3, h4, h5⟩
    exact ⟨h1, ⟨⟨(substringOOB_iff right b e hbe).2 h2, by omega⟩, by omega⟩, by omega⟩

/-- An automaton that selects the whole document, for the examples. -/
def exAllDfa : QDfa :=
  { statesNum := 2, inputsNum := 3, table := fun _ _ => 0, stop := fun _ => 0, accept := fun s => if s = 1 then .output else .none
    lower := fun _ => 0, upper := fun _ => 0, names := fun _ => [] }

/-- A selected object from 0 to 8: no flag; with an end behind the NUL the flag is set. -/
example : exAllDfa.matchedType 1 0 = .output ∧
    (SA.init.closeOutput exAllDfa "{\"a\": 1}".toList 8 ⟨1, 0, some 0⟩).ub = false ∧
    (SA.init.closeOutput exAllDfa "{\"a\": 1}".toList 8 ⟨1, 0, some 0⟩).tl = [⟨1, "{\"a\": 1}".toList⟩] ∧
    (SA.init.closeOutput exAllDfa "{\"a\": 1}".toList 10 ⟨1, 0, some 0⟩).ub = true := by decide

/-- A tuple from 6 to 14 of a chunk, and one that ends behind it. -/
example : ((K.ofW (W.init [1] .other)).addTuple "{\"a\": {\"b\": 1}}".toList (.ofSpan 1 6 14)).ub = false ∧
    ((K.ofW (W.init [1] .other)).addTuple "{\"a\": {\"b\": 1}}".toList (.ofSpan 1 6 14)).q.tl.map (·.text) = [some "{\"b\": 1}".toList] ∧
    ((K.ofW (W.init [1] .other)).addTuple "{\"a\": {\"b\": 1}}".toList (.ofSpan 1 6 18)).ub = true := by decide

theorem setMs_ub_of {q : QS} {i : Nat} {m : Option Nat} (h : (q.setMs i m).ub = false) : q.ub = false := by
  unfold QS.setMs at h
  split at h
  · exact h
  · cases h

/-- **C45, texts in the first chunk**: when the thread of the first chunk closes a selected element (its ranges have one node) and no flag is set, the text does not
begin behind the bracket and the copy reads no byte behind the terminating NUL. -/
theorem c45_first_flag_partial (E : WEnv) (arr : Bool) (pos i b : Nat) (w : W) (n : Node) (h0 : E.id0 = true) (hn : w.q.nodes[i]? = some n)
    (hm : n.ms = some b) (hs : E.selects (n.matched E.d) = true) (hb : (w.closeOut E arr pos ⟨i, i + 1⟩).q.ub = false) :
    b ≤ pos ∧ readsInside E.s b pos := by
  have hl : Rng.list ⟨i, i + 1⟩ = [i] := by simp [Rng.list]
  simp only [W.closeOut, W.each, hl, List.foldl_cons, List.foldl_nil, hn, hm, hs, h0, if_true, QS.orUb, Bool.or_eq_false_iff] at hb
  have h1 := setMs_ub_of hb.1
  simp only [Bool.or_eq_false_iff, decide_eq_false_iff_not] at h1
  refine ⟨by omega, ?_⟩
  rcases Nat.lt_or_ge b pos with h | h
  · exact (substringOOB_iff E.s b pos h).1 h1.2.1
  · intro j h2 h3; omega

/-- **C44, the text of a unit processed again**: if no flag is set, the copy of the unit (parallel_automata_execution.h:285-288) reads no byte behind the terminating
NUL of the chunk. -/
theorem c44_copy_flag_partial (d : QDfa) (ct : Option CTable) (right : Str) (u : UState) (b e : Nat) (k : K)
    (hb : (K.again d ct right u (some b, e) k).1.ub = false) : readsInside right b e := by
  intro i h1 h2
  simp only [K.again, if_pos (show e > b by omega), K.reprocess, K.orUb, Bool.or_eq_false_iff] at hb
  exact (substringOOB_iff right b e (by omega)).1 hb.1.2 i h1 h2

/-- A thread of the first chunk in the object from 0 to 8. -/
def exFirst : W := { W.init [1] .other with q := (W.init [1] .other).q.setMs 0 (some 0), ss := [.lcb] }

/-- The hypotheses hold; with an end behind the NUL the flag is set. -/
example : (WEnv.mk exAllDfa true "{\"a\": 1}".toList none none).selects ((exFirst.q.nodes[0]?).map (Node.matched exAllDfa) |>.getD .none) = true ∧
    (exFirst.q.nodes[0]?).map (·.ms) = some (some 0) ∧
    (exFirst.closeOut (WEnv.mk exAllDfa true "{\"a\": 1}".toList none none) false 8 ⟨0, 1⟩).q.ub = false ∧
    (exFirst.closeOut (WEnv.mk exAllDfa true "{\"a\": 1}".toList none none) false 10 ⟨0, 1⟩).q.ub = true := by decide

set_option maxRecDepth 100000 in
/-- A unit from 2 to 11 of a chunk, and one that ends behind it. -/
example : (K.again exAllDfa none "5, {\"b\": 1}]".toList .other (some 2, 11) (K.ofW (W.init [1] .other))).1.ub = false ∧
    (K.again exAllDfa none "5, {\"b\": 1}]".toList .other (some 2, 14) (K.ofW (W.init [1] .other))).1.ub = true := by decide

end JPS
