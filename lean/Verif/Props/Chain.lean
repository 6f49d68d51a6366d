import Verif.WorkerTrack
/-!
# C34: the tuples of a start state

The tuples a worker finds for all its start states lie in one list; those of one start state are chained by
`next_index`, and each unit keeps the first tuple of each start state.
-/

set_option autoImplicit false

namespace JPS
open Spec

/-! ## The chains as such -/

/-- The state before any tuple is found: `R` roots without tuples, on top of the list `tl`. -/
def chainStart (tl : List MTuple) (R : Nat) : QS := ((QS.mk [] (fun _ => .junk) [] tl false).start (List.replicate R 0)).1

/-- Tuples found one after the other, each for one root. -/
def chainRun (tl : List MTuple) (R : Nat) (found : List (Nat × MTuple)) : QS :=
  found.foldl (fun q x => q.addTo x.2 x.1) (chainStart tl R)

/-- The tuples reached from the first tuple of a root; the second component tells whether the pointers could be
followed. -/
def chainOf (tl : List MTuple) : Head → List MTuple × Bool
  | .junk => ([], false)
  | .empty => ([], true)
  | .chain f _ =>
    match chainFrom tl tl.length (some f) with
    | some ts => (ts.map MTuple.strip, true)
    | none => ([], false)

theorem chainOf_follows {tl : List MTuple} {h : Head} {out : List MTuple} (hf : Follows tl h out) :
    chainOf tl h = (out, true) := by
  rcases hf tl (by simp) with ⟨rfl, rfl⟩ | ⟨f, l, ts, rfl, h1, h2⟩
  · rfl
  · simp [chainOf, h1, h2]

/-- **C34 (chains)** In whatever order tuples are found for whatever roots, following the links from a root's first tuple
visits exactly the tuples found for this root, in the order found. -/
theorem c34_chain (tl : List MTuple) (R : Nat) (found : List (Nat × MTuple))
    (hf : ∀ x ∈ found, x.1 < R ∧ x.2.next = none) (r : Nat) (hr : r < R) :
    chainOf (chainRun tl R found).tl ((chainRun tl R found).heads r) =
      ((found.filter fun x => x.1 == r).map (·.2), true) := by
  have h0 : Logged tl (chainStart tl R) R [] := by
    have := (QInv.start (List.replicate R 0) (QS.mk [] (fun _ => .junk) [] tl false)).2.1
    rwa [List.length_replicate] at this
  have key : ∀ (found : List (Nat × MTuple)) (q : QS) (log : List (Nat × MTuple)), Logged tl q R log →
      (∀ x ∈ found, x.1 < R ∧ x.2.next = none) →
      Logged tl (found.foldl (fun q x => q.addTo x.2 x.1) q) R (log ++ found) := by
    intro found
    induction found with
    | nil => intro q log h _; simpa using h
    | cons x found ih =>
      intro q log h hx
      have h1 := h.addTo (hx x (by simp)).2 (hx x (by simp)).1
      have := ih _ _ h1 fun y hy => hx y (List.mem_cons_of_mem _ hy)
      simpa [List.append_assoc] using this
  have hl := key found _ [] h0 hf
  rw [List.nil_append] at hl
  exact chainOf_follows fun tl' ht => hl.walk hr tl' ht

/-- Two roots, five tuples. -/
example : let found := [(0, MTuple.ofText 3 ['a']), (1, .ofText 4 ['b']), (1, .ofSpan 4 0 2), (0, .ofText 3 ['c']), (1, .ofText 4 ['d'])]
    (∀ x ∈ found, x.1 < 2 ∧ x.2.next = none) ∧
    chainOf (chainRun [] 2 found).tl ((chainRun [] 2 found).heads 1) =
      ([.ofText 4 ['b'], .ofSpan 4 0 2, .ofText 4 ['d']], true) := by decide

/-! ## Workers -/

/-- The tuples of start state number `r`, unit by unit: what the links give. -/
def W.found (w : W) (r : Nat) : List (List MTuple × Bool) :=
  w.units.map fun u => chainOf w.q.tl ((u.roots[r]?.map (·.2)).getD .junk)

theorem Tracks.finish {sts : List Nat} {r s0 : Nat} {w : W} {v : P} (h : Tracks sts r s0 w v) :
    All2 (UnitOK sts r s0 w.q.tl) w.finish.units (v.units ++ [(v.syms, v.out)]) ∧
    (sts.length = 1 → w.q.tl.map MTuple.strip = ((v.units ++ [(v.syms, v.out)]).map (·.2)).flatten) := by
  obtain ⟨hs, hi, ⟨base, log, hl, he, hu, h4⟩, hv, h1, h2, h3⟩ := h
  have hlt := (List.getElem?_eq_some_iff.1 hs).1
  have hroots := hi.roots_le
  have hne : sts ≠ [] := by rintro rfl; simp at hlt
  obtain ⟨c1, c2, _⟩ := copyRoots_prefix hi sts.length hroots (Nat.le_refl _)
  constructor
  · rw [W.finish_units hi hne]
    have hu' : All2 (UnitOK sts r s0 w.q.tl) w.units v.units := by
      refine hu.imp_mem fun u _ x hu => ⟨hu.syms, hu.states, ?_⟩
      obtain ⟨hd, h1, h2⟩ := hu.root
      exact ⟨hd, h1, h2.mono hl.base_take⟩
    refine Spec.All2.append hu' (.cons ⟨by simp [h3], c1, _, c2 r s0 hs, ?_⟩ .nil)
    intro tl' ht
    rw [← he]
    exact hl.walk hlt tl' ht
  · intro h5
    rw [h4 h5]
    simp

theorem All2.found {sts : List Nat} {r s0 : Nat} {tl : List MTuple} {us : List PUnit}
    {xs : List (List (USym × Nat) × List MTuple)} (h : All2 (UnitOK sts r s0 tl) us xs) :
    us.map (fun u => chainOf tl ((u.roots[r]?.map (·.2)).getD .junk)) = xs.map fun x => (x.2, true) := by
  induction h with
  | nil => rfl
  | cons hu _ ih =>
    obtain ⟨hd, e1, e2⟩ := hu.root
    rw [List.map_cons, List.map_cons, ih, e1]
    simp only [Option.map_some, Option.getD_some, chainOf_follows e2]

/-- **C34 (workers)** After a worker without constraint table has finished, following the links from the first tuple of
a start state gives, unit by unit, all tuples that a worker started in this state alone finds on the chunk, in the order
found. -/
theorem c34_worker (d : QDfa) (id0 : Bool) (s : Str) (sts : List Nat) (u : UState) (toks : List Tok) (r s0 : Nat)
    (hr : sts[r]? = some s0)
    (hmany : (W.run ⟨d, id0, s, none, some sts⟩ (W.init sts u) toks).bad = false)
    (hone : (W.run ⟨d, id0, s, none, some [s0]⟩ (W.init [s0] u) toks).bad = false) :
    let many := (W.run ⟨d, id0, s, none, some sts⟩ (W.init sts u) toks).finish
    let one := (W.run ⟨d, id0, s, none, some [s0]⟩ (W.init [s0] u) toks).finish
    (∀ x ∈ many.found r, x.2 = true) ∧ ((many.found r).map (·.1)).flatten = one.q.tl.map MTuple.strip ∧
    many.found r = one.found 0 := by
  have h1 := Tracks.run (E := ⟨d, id0, s, none, some sts⟩) (.inl rfl) rfl u hr toks hmany
  have h2 := Tracks.run (E := ⟨d, id0, s, none, some [s0]⟩) (r := 0) (.inl rfl) rfl u rfl toks hone
  have hE : ∀ (t : List Tok) (v : P), P.run ⟨d, id0, s, none, some [s0]⟩ s0 v t = P.run ⟨d, id0, s, none, some sts⟩ s0 v t := by
    intro t
    induction t with
    | nil => intro v; rfl
    | cons x t ih => intro v; exact ih _
  rw [hE] at h2
  have f1 := All2.found h1.finish.1
  have f2 := All2.found h2.finish.1
  have f3 := h2.finish.2 rfl
  have e1 : ∀ w : W, w.finish.q = w.q := fun _ => rfl
  simp only [W.found, e1]
  rw [f1, f2]
  refine ⟨?_, ?_, rfl⟩
  · intro x hx
    obtain ⟨y, _, rfl⟩ := List.mem_map.1 hx
    rfl
  · rw [f3, List.map_map]; rfl

/-- `$..a` on a chunk with several units, from its second and third state. -/
def exWorker : QDfa :=
  { statesNum := 3, inputsNum := 4
    table := fun s c => if s = 0 then 0 else if c = 3 then 2 else 1
    stop := fun _ => 0, accept := fun s => if s = 2 then .output else .none, lower := fun _ => 0, upper := fun _ => 0
    names := fun c => if c = 3 then ['a'] else [] }

set_option maxRecDepth 100000 in
/-- The hypotheses are met: the second unit holds two tuples of start state 1. -/
example : let s := "\"a\": 1}, {\"b\": {\"a\": 2, \"a\": 3}}".toList
    (W.run ⟨exWorker, false, s, none, some [0, 1, 2]⟩ (W.init [0, 1, 2] .other) (lexAll s)).bad = false ∧
    (W.run ⟨exWorker, false, s, none, some [1]⟩ (W.init [1] .other) (lexAll s)).bad = false ∧
    (W.run ⟨exWorker, false, s, none, some [0, 1, 2]⟩ (W.init [0, 1, 2] .other) (lexAll s)).finish.found 1 =
      [([.ofText 2 "1".toList], true), ([.ofText 2 "2".toList, .ofText 2 "3".toList], true)] := by
  refine ⟨by decide, by decide, by decide⟩

end JPS
