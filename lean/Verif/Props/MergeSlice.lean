import Verif.MergeSlice
import Verif.Props.Parallel
/-!
# C60 The merge keeps the results of the elements in the slice
-/

set_option autoImplicit false

namespace JPS
open Spec

/-- **C60** When a unit is merged whose tuples, for the current state, are the results of consecutive elements of a sliced array with a mark
after each element, exactly the results of the elements whose index lies in the slice are added, in order; the index goes on from the
count of the entry; and the entry keeps its state as long as elements of the slice may follow. -/
theorem c60_kept (d : QDfa) (left right : Str) (tl : List MTuple) (k : K) (u : PUnit) (c : Node)
    (hc : (u.syms.foldl (K.sym d left right) k).cur = some c) (hs : c.st ≠ 0)
    (hr : ¬ (d.lower c.st = 0 ∧ d.upper c.st = 0)) (ha : d.accept c.st ≠ .output)
    (f l : Nat) (hf : (u.roots.find? fun r => r.1 == c.st) = some (c.st, .chain f l))
    (ts : List MTuple) (ht : chainFrom tl tl.length (some f) = some ts)
    (gs : List (List (Nat × Str))) (hm : Marked gs ts)
    (hroom : (u.syms.foldl (K.sym d left right) k).q.tl.length +
      (inSliceOf (d.lower c.st) (d.upper c.st) c.count gs).length ≤ MAX_TUPLE_LIST) :
    (k.unit d left right tl u).q.tl = (u.syms.foldl (K.sym d left right) k).q.tl ++
      (inSliceOf (d.lower c.st) (d.upper c.st) c.count gs).map (fun x => MTuple.ofText x.1 x.2) ∧
    (k.unit d left right tl u).ub = (u.syms.foldl (K.sym d left right) k).ub ∧
    ∃ c', (k.unit d left right tl u).cur = some c' ∧
      (if ((c.count + gs.length : Nat) : Int) < d.upper c.st then c' = { c with count := c.count + gs.length }
       else gs ≠ [] → c'.st = 0) := by
  have e : k.unit d left right tl u = ts.foldl (K.collect d right) (u.syms.foldl (K.sym d left right) k) := by
    unfold K.unit
    simp only [hc, hf, ht]
  rw [e]
  generalize u.syms.foldl (K.sym d left right) k = k0 at hc hroom ⊢
  obtain ⟨c', h1, h2⟩ := collect_marked d right hm k0 k0 c [] ⟨hc, rfl, rfl, by simp, rfl, rfl, rfl⟩ hs hr ha hroom
  refine ⟨by simpa [resultTuples] using h1.tl, h1.ub, c', h1.cur, ?_⟩
  by_cases hg : gs = []
  · subst hg
    rw [if_pos rfl] at h2
    subst h2
    by_cases hu : ((c'.count + ([] : List (List (Nat × Str))).length : Nat) : Int) < d.upper c'.st
    · rw [if_pos hu]; rfl
    · rw [if_neg hu]; intro h; exact absurd rfl h
  · rw [if_neg hg] at h2
    by_cases hu : ((c.count + gs.length : Nat) : Int) < d.upper c.st
    · rw [if_pos hu] at h2 ⊢; exact h2
    · rw [if_neg hu] at h2 ⊢; exact fun _ => h2.1

/-- The two chunks of `[{"b": 1}, {"b": 2}, {"a": 0, "b": 3}, {"b": 4}, {"b": 5}, {"c": 0}, {"b": 7, "d": 0}]`, cut before the third `"b"`. -/
def exSliceChunks : Str × Str :=
  ("[{\"b\": 1}, {\"b\": 2}, {\"a\": 0, ".toList,
    "\"b\": 3}, {\"b\": 4}, {\"b\": 5}, {\"c\": 0}, {\"b\": 7, \"d\": 0}]".toList)

/-- What the merge of `$[3:5].b` has before the second unit of the second chunk: the current entry, the chain of its state, the bounds of the state and
whether it is an output state; and the texts of the list after the unit. -/
def exSliceMerge : Option (Option Node × Option (List MTuple) × Int × Int × Acc × List (Option Str)) :=
  (buildQuery (astOf [.slice (some 3) (some 5), .prop ['b']])).bind fun q =>
    let w := runWorker q.1 none .other 1 exSliceChunks.2
    let k := (w.units.take 1).foldl (K.unit q.1 exSliceChunks.1 exSliceChunks.2 w.q.tl)
      (K.ofW (runWorker q.1 none .other 0 exSliceChunks.1))
    w.units[1]?.bind fun u =>
      (u.syms.foldl (K.sym q.1 exSliceChunks.1 exSliceChunks.2) k).cur.map fun c =>
        (some c, (u.roots.find? fun r => r.1 == c.st).bind (fun r => match r.2 with
            | .chain f _ => chainFrom w.q.tl w.q.tl.length (some f)
            | _ => none),
          q.1.lower c.st, q.1.upper c.st, q.1.accept c.st,
          (k.unit q.1 exSliceChunks.1 exSliceChunks.2 w.q.tl u).q.tl.map (·.text))

set_option maxRecDepth 100000 in
/-- The hypotheses of `c60_kept` are met in a run: the entry has count 3, the chain is that of the groups `4`, `5`, nothing, `7`; added are `4` and `5`. -/
example : exSliceMerge = some (some ⟨2, 3, none, some [0]⟩,
    some [⟨3, some ['4'], none, some 3⟩, ⟨2, some ['}'], none, some 4⟩, ⟨3, some ['5'], none, some 6⟩, ⟨2, some ['}'], none, some 8⟩,
      ⟨2, some ['}'], none, some 9⟩, ⟨3, some ['7'], none, some 11⟩, ⟨2, some ['}'], none, none⟩], 3, 5, .none, [some ['4'], some ['5']]) ∧
    Marked [[(3, ['4'])], [(3, ['5'])], [], [(3, ['7'])]]
      [⟨3, some ['4'], none, some 3⟩, ⟨2, some ['}'], none, some 4⟩, ⟨3, some ['5'], none, some 6⟩, ⟨2, some ['}'], none, some 8⟩,
      ⟨2, some ['}'], none, some 9⟩, ⟨3, some ['7'], none, some 11⟩, ⟨2, some ['}'], none, none⟩] ∧
    inSliceOf 3 5 3 [[(3, ['4'])], [(3, ['5'])], [], [(3, ['7'])]] = [(3, ['4']), (3, ['5'])] := by
  have r : ∀ (x : Char) (n : Option Nat), x ≠ '}' → x ≠ ']' → MTuple.Result ⟨3, some [x], none, n⟩ 3 [x] := fun x n h1 h2 =>
    ⟨rfl, rfl, rfl, by simpa using h1, by simpa using h2, (by decide : strcopyBytes 1 ≤ MAX_TEXT)⟩
  have m : ∀ n : Option Nat, MTuple.isMark ⟨2, some ['}'], none, n⟩ := fun n => .inl rfl
  refine ⟨by with_unfolding_all rfl, ?_, by decide⟩
  exact .res _ _ _ _ _ _ (r _ _ (by decide) (by decide)) (.mark _ _ _ (m _) (.res _ _ _ _ _ _ (r _ _ (by decide) (by decide))
    (.mark _ _ _ (m _) (.mark _ _ _ (m _) (.res _ _ _ _ _ _ (r _ _ (by decide) (by decide)) (.mark _ _ _ (m _) .nil))))))

end JPS
