import Verif.LevelProofs
/-!
# What `pruneQueryPaths` does to the query stacks of a worker

The nodes of the kept states move to the front; the tuples found so far for a kept state stay reachable.
-/

set_option autoImplicit false

namespace JPS
open Spec

/-- Query stacks that hold roots only. -/
theorem QInv.ofRoots {sts : List Nat} {q : QS} (hl : q.nodes.length = sts.length) (hi : q.items = [])
    (hget : ∀ (i : Nat) (n : Node), q.nodes[i]? = some n → n.roots = some [] ∧ sts[i]? = some n.st) :
    QInv sts q ⟨0, sts.length⟩ := by
  refine ⟨?_, hl, fun i n _ hn => hget i n hn, ?_, ?_⟩
  · rw [hi]; rfl
  · intro i n h1 hn
    have := (List.getElem?_eq_some_iff.1 hn).1
    omega
  · intro rng hr
    rw [hi] at hr
    have hr := List.mem_singleton.1 hr
    subst hr
    have key : ∀ l : List Nat, (∀ i ∈ l, i < sts.length) → orgsOf q.nodes l = l := by
      intro l
      induction l with
      | nil => intro _; rfl
      | cons i l ih =>
        intro hl'
        have ih := ih fun j hj => hl' j (List.mem_cons_of_mem _ hj)
        have hi : q.nodes[i]? = some (q.nodes[i]'(by rw [hl]; exact hl' i (by simp))) := List.getElem?_eq_getElem _
        have := (hget i _ hi).1
        unfold orgsOf at ih ⊢
        rw [List.flatMap_cons, ih, hi]
        simp [Node.org, Node.origins, this]
    have hr : Rng.list ⟨0, sts.length⟩ = List.range sts.length := by
      simp [Rng.list, List.range_eq_range']
    rw [hr, key _ fun i hi => by simpa using hi]

/-- The log for the numbering of the kept states; entries of dropped states get numbers that are not used. -/
def relog (keep : List Nat) (log : List (Nat × MTuple)) : List (Nat × MTuple) := log.map fun x => (keep.idxOf x.1, x.2)

theorem idxOf_eq_iff {keep : List Nat} (hn : keep.Nodup) {r s : Nat} (h : keep[r]? = some s) (x : Nat) :
    keep.idxOf x = r ↔ x = s := by
  obtain ⟨h1, h2⟩ := List.getElem?_eq_some_iff.1 h
  constructor
  · intro e
    have hlt : keep.idxOf x < keep.length := by omega
    have := List.getElem_idxOf hlt
    subst e
    rw [← this, h2]
  · intro e
    rw [e, ← h2]
    exact hn.idxOf_getElem r h1

theorem idx_relog {keep : List Nat} (hn : keep.Nodup) {r s : Nat} (h : keep[r]? = some s) : ∀ (log : List (Nat × MTuple)) (b : Nat),
    idx r b (relog keep log) = idx s b log
  | [], _ => rfl
  | x :: log, b => by
    have ih := idx_relog hn h log (b + 1)
    unfold relog at ih ⊢
    simp only [List.map_cons, idx, ih, idxOf_eq_iff hn h]

theorem emits_relog {keep : List Nat} (hn : keep.Nodup) {r s : Nat} (h : keep[r]? = some s) : ∀ (log : List (Nat × MTuple)),
    emits r (relog keep log) = emits s log
  | [] => rfl
  | x :: log => by
    have ih := emits_relog hn h log
    unfold relog emits at ih ⊢
    simp only [List.map_cons, List.filter_cons]
    have : (keep.idxOf x.1 == r) = (x.1 == s) := by
      rw [Bool.eq_iff_iff]; simpa using idxOf_eq_iff hn h x.1
    rw [this]
    cases x.1 == s with
    | true => simpa using ih
    | false => simpa using ih

/-- Pruning on the root level. -/
theorem QInv.prune {n : Nat} {q : QS} {elt : Rng} {base : List MTuple} {log : List (Nat × MTuple)} {keep : List Nat}
    (h : QInv (List.range n) q elt) (hi : q.items = []) (hl : Logged base q n log) (hk : keep.Nodup) (hne : keep ≠ [])
    (hlt : ∀ s ∈ keep, s < n) :
    QInv keep (q.prune keep).1 (q.prune keep).2 ∧ Logged base (q.prune keep).1 keep.length (relog keep log) ∧
    (q.prune keep).1.items = [] ∧
    ∀ r s e, keep[r]? = some s → View q elt s [e] → View (q.prune keep).1 (q.prune keep).2 r [e] := by
  have hc := h.contig
  rw [hi, List.length_range] at hc
  have hc : elt = ⟨0, n⟩ := hc
  have hlen := h.len
  rw [hc] at hlen
  have hlen : q.nodes.length = n := hlen
  have hnode : ∀ s, s < n → ∃ m, q.nodes[s]? = some m ∧ m.roots = some [] ∧ m.st = s := by
    intro s hs
    have hg : q.nodes[s]? = some (q.nodes[s]'(by omega)) := List.getElem?_eq_getElem _
    have := h.root s _ (by simpa using hs) hg
    rw [List.getElem?_range hs] at this
    exact ⟨_, hg, this.1, (Option.some.inj this.2).symm⟩
  have hq : q.prune keep = ({ q with
       nodes := keep.map fun s => (q.nodes[s]?).getD ⟨0, 0, none, none⟩
       heads := fun i => match keep[i]? with
         | some s => q.heads s
         | none => q.heads i
       ub := q.ub || keep.any fun s => decide (s ≥ q.nodes.length) }, ⟨0, keep.length⟩) := by
    unfold QS.prune; rw [if_neg hne]; rfl
  rw [hq]
  have hget : ∀ (i : Nat) (m : Node), (keep.map fun s => (q.nodes[s]?).getD ⟨0, 0, none, none⟩)[i]? = some m →
      ∃ s, keep[i]? = some s ∧ q.nodes[s]? = some m ∧ m.roots = some [] ∧ m.st = s := by
    intro i m hm
    rw [List.getElem?_map] at hm
    cases hs : keep[i]? with
    | none => rw [hs] at hm; cases hm
    | some s =>
      rw [hs] at hm
      obtain ⟨m', a1, a2, a3⟩ := hnode s (hlt s (List.mem_of_getElem? hs))
      simp only [Option.map_some, a1, Option.getD_some, Option.some.injEq] at hm
      subst hm
      exact ⟨s, rfl, a1, a2, a3⟩
  refine ⟨?_, ⟨?_, ?_, ?_, ?_⟩, hi, ?_⟩
  · refine QInv.ofRoots (by simp) hi fun i m hm => ?_
    obtain ⟨s, a1, a2, a3, a4⟩ := hget i m hm
    exact ⟨a3, by rw [a4]; exact a1⟩
  · obtain ⟨rest, e1, e2⟩ := hl.tl
    exact ⟨rest, e1, by rw [e2]; simp [relog]⟩
  · intro x hx
    obtain ⟨y, hy, rfl⟩ := List.mem_map.1 hx
    exact hl.dom y hy
  · intro r hr
    have hs : keep[r]? = some (keep[r]) := List.getElem?_eq_getElem hr
    dsimp only
    rw [idx_relog hk hs, hs]
    exact hl.heads _ (hlt _ (List.getElem_mem hr))
  · intro r hr
    have hs : keep[r]? = some (keep[r]) := List.getElem?_eq_getElem hr
    rw [idx_relog hk hs]
    exact hl.linked _ (hlt _ (List.getElem_mem hr))
  · intro r s e hs hv
    obtain ⟨m, a1, a2, a3⟩ := hnode s (hlt s (List.mem_of_getElem? hs))
    unfold View at hv ⊢
    dsimp only
    rw [hi] at hv ⊢
    cases hv with
    | cons hx _ =>
      obtain ⟨m', ⟨i, o1, o2, o3⟩, o4⟩ := hx
      have hi' := mem_rlist.1 o1
      have hin : i < n := by rw [hc] at hi'; exact hi'.2
      obtain ⟨m'', b1, b2, b3⟩ := hnode i hin
      rw [o2] at b1; cases b1
      have his : s = i := by simpa [Node.org, Node.origins, b2] using o3
      subst his
      rw [a1] at o2; cases o2
      refine .cons ⟨m, ⟨r, ?_, ?_, ?_⟩, o4⟩ .nil
      · rw [mem_rlist]; exact ⟨Nat.zero_le _, (List.getElem?_eq_some_iff.1 hs).1⟩
      · simp [hs, a1]
      · simp [Node.org, Node.origins, a2]

end JPS
