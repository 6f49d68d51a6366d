import Verif.CharSet
/-!
# `Lexer/equivalence_class.cpp` and `Lexer/ecset_converter.cpp`

Characters that no set and no character of a model tells apart are given one number.  The
compiler of JSONPath queries does not use these passes; they are modelled for their own sake.
A result `none` stands for undefined behaviour (an index outside `vec`, or one of the cases of
`CharSet`).
-/

set_option autoImplicit false

namespace JPS

/-- `EquivalenceClass`, equivalence_class.hpp:17-44. -/
structure EClass where
  sum : Nat
  vec : List Nat
deriving DecidableEq, Repr

/-- `EquivalenceClass::EquivalenceClass`, equivalence_class.cpp:7, equivalence_class.hpp:42. -/
def EClass.init : EClass := ⟨1, List.replicate 256 1⟩

/-- `vec[k]` for an index in range. -/
def EClass.at (e : EClass) (k : Nat) : Nat := (e.vec[k]?).getD 0

/-- `Add(ch)` with `insert(k)`, equivalence_class.cpp:11 and 47. -/
def EClass.addChar (e : EClass) (k : Nat) : Option EClass :=
  if k < e.vec.length then some ⟨e.sum + 1, e.vec.set k (e.sum + 1)⟩ else none

/-- `m.find(key)` on the map from old to new numbers, equivalence_class.cpp:53 and 72. -/
def mapGet (m : List (Nat × Nat)) (k : Nat) : Option Nat :=
  match m with
  | [] => none
  | (k', v) :: r => if k' = k then some v else mapGet r k

/-- The search for the new number of a class, equivalence_class.cpp:53-60 and 72-79: the number,
the map and `eclass_sum` afterwards. -/
def newClass (sum : Nat) (m : List (Nat × Nat)) (key : Nat) : Nat × List (Nat × Nat) × Nat :=
  match mapGet m key with
  | some v => (v, m, sum)
  | none => (sum + 1, (key, sum + 1) :: m, sum + 1)

/-- `insert(k, m)`, equivalence_class.cpp:49-62. -/
def EClass.insertOne (e : EClass) (m : List (Nat × Nat)) (k : Nat) :
    Option (EClass × List (Nat × Nat)) :=
  if k < e.vec.length then
    let r := newClass e.sum m (e.at k)
    some (⟨r.2.2, e.vec.set k r.1⟩, r.2.1)
  else none

/-- The loop of `insert(p, q, m)`, equivalence_class.cpp:66-84, over `n` characters from `k` on.
`cache` is the pair of `cache_key` and `cache_value`; the initial key -1 is no number of a class
and is modelled as no pair. -/
def EClass.insertSpan : Nat → EClass → List (Nat × Nat) → Option (Nat × Nat) → Nat →
    Option (EClass × List (Nat × Nat))
  | 0, e, m, _, _ => some (e, m)
  | n + 1, e, m, cache, k =>
    if k < e.vec.length then
      let key := e.at k
      match cache with
      | some (ck, cv) =>
        if key = ck then insertSpan n ⟨e.sum, e.vec.set k cv⟩ m cache (k + 1)
        else
          let r := newClass e.sum m key
          insertSpan n ⟨r.2.2, e.vec.set k r.1⟩ r.2.1 (some (key, r.1)) (k + 1)
      | none =>
        let r := newClass e.sum m key
        insertSpan n ⟨r.2.2, e.vec.set k r.1⟩ r.2.1 (some (key, r.1)) (k + 1)
    else none

/-- The loop of `Add(CharSet&)`, equivalence_class.cpp:21-30, over the intervals of the map. -/
def EClass.addSpans : List (Nat × Nat) → EClass → List (Nat × Nat) →
    Option EClass
  | [], e, _ => some e
  | (p, q) :: r, e, m =>
    if p = q then (e.insertOne m p).bind fun t => addSpans r t.1 t.2
    else (EClass.insertSpan (q + 1 - p) e m none p).bind fun t => addSpans r t.1 t.2

/-- `Add(CharSet&)`, equivalence_class.cpp:17-31. -/
def EClass.addSet (e : EClass) (c : CharSet) : Option EClass :=
  c.map.spans.bind fun sp => EClass.addSpans sp e []

/-- The loop of `Rearrage` that numbers the marked classes, equivalence_class.cpp:37-40, on the
marks from class 1 on; `p` numbers have been given. -/
def numberLoop : List Bool → Nat → List Nat
  | [], _ => []
  | true :: r, p => (p + 1) :: numberLoop r (p + 1)
  | false :: r, p => 0 :: numberLoop r p

/-- The array `v` of `Rearrage`, equivalence_class.cpp:34-40. -/
def EClass.numbers (e : EClass) : List Nat :=
  0 :: numberLoop ((List.range e.sum).map fun i => e.vec.contains (i + 1)) 0

/-- `Rearrage`, equivalence_class.cpp:33-45. -/
def EClass.rearrage (e : EClass) : EClass :=
  ⟨((List.range e.sum).filter fun i => e.vec.contains (i + 1)).length,
    (e.vec.map fun i => (e.numbers[i]?).getD 0).set 0 0⟩

/-- `getClass`, equivalence_class.cpp:131-134. -/
def EClass.getClass (e : EClass) (c : Nat) : Nat := if c ≥ e.vec.length then 0 else e.at c

/-- One change of `class_set`, equivalence_class.cpp:108-111 and 120-123. -/
def classPut (neg : Bool) (cs : List Nat) (c : Nat) : List Nat :=
  if neg then cs.filter (· != c) else c :: cs

/-- The loop of `makeSet` over the characters of an interval, equivalence_class.cpp:117-125. -/
def EClass.makeSpan (neg : Bool) (e : EClass) : Nat → Nat → Nat → List Nat → Option (List Nat)
  | 0, _, _, cs => some cs
  | n + 1, k, last, cs =>
    if k < e.vec.length then
      if last ≠ e.at k then makeSpan neg e n (k + 1) (e.at k) (classPut neg cs (e.at k))
      else makeSpan neg e n (k + 1) last cs
    else none

/-- The loop of `makeSet` over the intervals, equivalence_class.cpp:106-127. -/
def EClass.makeLoop (neg : Bool) (e : EClass) : List (Nat × Nat) → List Nat → Option (List Nat)
  | [], cs => some cs
  | (p, q) :: r, cs =>
    if p = q then
      if p < e.vec.length then makeLoop neg e r (classPut neg cs (e.at p)) else none
    else (e.makeSpan neg (q + 1 - p) p 0 cs).bind (makeLoop neg e r)

/-- `makeSet`, equivalence_class.cpp:99-129. -/
def EClass.makeSet (e : EClass) (c : CharSet) : Option (List Nat) :=
  c.map.spans.bind fun sp =>
    e.makeLoop c.negate sp (if c.negate then (List.range e.sum).map (· + 1) else [])

/-- A letter of a regular expression: `RegexChar` (regex_model.hpp:158-204) or `RegexSet`
(211-258) with its text. -/
inductive Letter where
  | chr (c : Nat)
  | set (text : List Nat)
deriving DecidableEq, Repr

/-- `ECSetConverter::Prescan`, ecset_converter.cpp:13-28. -/
def Letter.prescan (lf : Bool) (e : EClass) : Letter → Option EClass
  | .chr c => e.addChar c
  | .set text => (CharSet.ofString lf text).bind e.addSet

/-- `PrescanAll` over the letters of all rules, ecset_converter.cpp:48-51 and 62-83. -/
def prescanAll (lf : Bool) : List Letter → EClass → Option EClass
  | [], e => some e
  | l :: r, e => (l.prescan lf e).bind (prescanAll lf r)

/-- `ECSetConverter::Convert`, ecset_converter.cpp:30-44: the classes accepted by the letter
afterwards (`isEdge`, regex_model.hpp:175 and 230-232). -/
def Letter.convert (lf : Bool) (e : EClass) : Letter → Option (List Nat)
  | .chr c => some [e.getClass c]
  | .set text => (CharSet.ofString lf text).bind e.makeSet

/-- `ECSetConverter::Execute`, ecset_converter.cpp:46-60, up to `ConvertAll`: the classes. -/
def ecClasses (lf : Bool) (ls : List Letter) : Option EClass :=
  (prescanAll lf ls EClass.init).map EClass.rearrage

end JPS
