import Verif.Stream
/-!
# `multi_stack.h` and the linked tuples of `tuple_list.h`

The node array of `QueryStacks` is a list; the tuple pointers of the nodes are kept apart from the rest of
the node (`heads`, by node index).  Ranges `start..end` are written half open.  The parent pointers
(`parent_range`, `parent_pointers`) are never read except to keep their own count, and are left out; the
root pointers of a node are kept with the node.
-/

set_option autoImplicit false

namespace JPS

/-- `Range` and `QueryStacksElement`, multi_stack.h:12-15 and 35: from `s` up to, not including, `e`
(`end` of the code plus one). -/
structure Rng where
  s : Nat
  e : Nat
deriving DecidableEq, Repr

/-- `TreeNode`, multi_stack.h:17-32, without parent and tuple pointers.  `roots` are the entries of
`root_pointers` in `root_range`; `some []` is a root (`root_range.end == -1`), `none` an indeterminate
range. -/
structure Node where
  st : Nat
  count : Nat
  ms : Option Nat
  roots : Option (List Nat)
deriving DecidableEq, Repr

/-- `first_tuple_index` and `last_tuple_index` of a node: never written, both -1, or both set. -/
inductive Head where
  | junk
  | empty
  | chain (first last : Nat)
deriving DecidableEq, Repr

/-- `Tuple`, tuple_list.h:9-17.  `text = none`: bytes never written; `span = none`: `start_position == -1`;
`next = none`: `next_index == -1`. -/
structure MTuple where
  st : Nat
  text : Option Str
  span : Option (Nat × Nat)
  next : Option Nat
deriving DecidableEq, Repr

/-- `QueryStacks`, multi_stack.h:37-49, and the `TupleList` that goes with it.  The head of `items` is
`item[top_item]`.  `ub`: an array was left or an indeterminate value read. -/
structure QS where
  nodes : List Node
  heads : Nat → Head
  items : List Rng
  tl : List MTuple
  ub : Bool

/-- `MAX_NODE`, multi_stack.h:9. -/
def MAX_NODE : Nat := 500

/-- The state before `initQueryStacks`: nothing written. -/
def QS.blank : QS := ⟨[], fun _ => .junk, [], [], false⟩

/-- Record a failure. -/
def QS.orUb (q : QS) (b : Bool) : QS := { q with ub := q.ub || b }

/-- `initQueryStacks`, multi_stack.h:51-75. -/
def QS.start (q : QS) (states : List Nat) : QS × Rng :=
  ({ nodes := states.map fun s => ⟨s, 0, none, some []⟩
     heads := fun i => if i < states.length then .empty else q.heads i
     items := []
     tl := q.tl
     ub := q.ub || decide (states.length > MAX_NODE) },
   ⟨0, states.length⟩)

/-- `pruneQueryPaths`, multi_stack.h:77-98 (called with at least one state).  Keeping a node keeps its tuple
pointers.  A state that is not an index of a node reads outside the used part of the array. -/
def QS.prune (q : QS) (keep : List Nat) : QS × Rng :=
  if keep = [] then (q, ⟨0, q.nodes.length⟩)
  else
    ({ q with
       nodes := keep.map fun s => (q.nodes[s]?).getD ⟨0, 0, none, none⟩
       heads := fun i => match keep[i]? with
         | some s => q.heads s
         | none => q.heads i
       ub := q.ub || keep.any fun s => decide (s ≥ q.nodes.length) },
     ⟨0, keep.length⟩)

/-- The next state of a node, multi_stack.h:124-136: a root, whose element index is not known, is only
compared with the upper bound. -/
def Node.next (d : QDfa) (n : Node) (k : Option Str) : Nat :=
  if n.roots = some [] then
    if (d.lower n.st = 0 ∧ d.upper n.st = 0) ∨ (n.count : Int) < d.upper n.st then d.nextByStr n.st k else 0
  else if d.inRange n.st n.count then d.nextByStr n.st k else 0

/-- The roots a child inherits from the node at index `i`, multi_stack.h:147-159 and 180-192. -/
def Node.origins (n : Node) (i : Nat) : Option (List Nat) :=
  if n.roots = some [] then some [i] else n.roots

/-- One iteration of the loop 119-194 of `queryStacksPush` on the nodes created so far: add the origins to
the node of the state, or create it. -/
def addPath (acc : List Node) (s : Nat) (r : Option (List Nat)) : List Node :=
  if acc.any (fun n => n.st == s) then
    acc.map fun n => if n.st = s then
        { n with roots := match n.roots, r with
            | some a, some b => some (a ++ b)
            | _, _ => none }
      else n
  else acc ++ [⟨s, 0, none, r⟩]

/-- The indices of a range in increasing order. -/
def Rng.list (r : Rng) : List Nat := List.range' r.s (r.e - r.s)

/-- The new nodes of `queryStacksPush` for the nodes at the given indices. -/
def pushNodes (d : QDfa) (nodes : List Node) (k : Option Str) (is : List Nat) : List Node :=
  is.foldl (fun acc i => match nodes[i]? with
    | some n => addPath acc (n.next d k) (n.origins i)
    | none => acc) []

/-- Number of root pointers in use. -/
def rootPtrs (nodes : List Node) : Nat := (nodes.map fun n => (n.roots.getD []).length).sum

/-- `queryStacksPush`, multi_stack.h:100-217.  The code relies on the current nodes being the last ones
(`num_node == qs_elt.end + 1`); other calls are counted as undefined. -/
def QS.push (d : QDfa) (q : QS) (elt : Rng) (k : Option Str) : QS × Rng :=
  let new := pushNodes d q.nodes k elt.list
  let nodes := q.nodes ++ new
  ({ q with
     nodes := nodes
     items := elt :: q.items
     ub := q.ub || decide (q.items.length ≥ MAX_STACK) || decide (q.nodes.length ≠ elt.e) ||
       decide (nodes.length > MAX_NODE) || decide (rootPtrs nodes > MAX_NODE) ||
       new.any (fun n => decide (n.roots = none) || decide (n.st ≥ MAX_NODE)) },
   ⟨elt.e, nodes.length⟩)

/-- `queryStacksPop`, multi_stack.h:220-234.  On an empty stack `start` is indeterminate. -/
def QS.pop (q : QS) : QS × Rng :=
  match q.items with
  | r :: rs => ({ q with nodes := q.nodes.take r.e, items := rs }, r)
  | [] => ({ q with ub := true }, ⟨0, 0⟩)

/-- `linkTuples`, tuple_list.h:60-63. -/
def linkTuples (tl : List MTuple) (i n : Nat) : List MTuple :=
  match tl[i]? with
  | some t => tl.set i { t with next := some n }
  | none => tl

/-- Append a tuple and link it to the chain of the root `r`: the bodies of the loops
multi_stack.h:322-335 and 365-379, and the cases 338-353 and 382-397. -/
def QS.addTo (q : QS) (t : MTuple) (r : Nat) : QS :=
  let n := q.tl.length
  match q.heads r with
  | .chain f l =>
    { q with
      tl := linkTuples (q.tl ++ [t]) l n
      heads := fun i => if i = r then .chain f n else q.heads i
      ub := q.ub || decide (n ≥ MAX_TUPLE_LIST) }
  | .empty =>
    { q with
      tl := q.tl ++ [t]
      heads := fun i => if i = r then .chain n n else q.heads i
      ub := q.ub || decide (n ≥ MAX_TUPLE_LIST) }
  | .junk => { q with tl := q.tl ++ [t], ub := true }

/-- `addTupleInfo` and `addVirtualTupleInfo`, multi_stack.h:314-398, for the node at index `i`: one tuple for
each root of the node, or for the node itself if it is a root. -/
def QS.addInfo (q : QS) (i : Nat) (t : MTuple) : QS :=
  match q.nodes[i]? with
  | none => { q with ub := true }
  | some n =>
    match n.roots with
    | none => { q with ub := true }
    | some [] => q.addTo t i
    | some rs => rs.foldl (fun q r => q.addTo t r) q

/-- A tuple with a text, tuple_list.h:42-49 (`addTuple`). -/
def MTuple.ofText (s : Nat) (t : Str) : MTuple := ⟨s, some t, none, none⟩

/-- A tuple with positions, tuple_list.h:51-58 (`addVirtualTuple`). -/
def MTuple.ofSpan (s b e : Nat) : MTuple := ⟨s, none, some (b, e), none⟩

/-- `addTupleInfo`, multi_stack.h:314-354: the text is copied with `strcopy`. -/
def QS.addText (q : QS) (i s : Nat) (t : Str) : QS :=
  (q.addInfo i (.ofText s t)).orUb (decide (strcopyBytes t.length > MAX_TEXT))

/-- `addVirtualTupleInfo`, multi_stack.h:357-398. -/
def QS.addSpan (q : QS) (i s b e : Nat) : QS := q.addInfo i (.ofSpan s b e)

/-- `qs.node[i].matched_start = m`. -/
def QS.setMs (q : QS) (i : Nat) (m : Option Nat) : QS :=
  match q.nodes[i]? with
  | some n => { q with nodes := q.nodes.set i { n with ms := m } }
  | none => { q with ub := true }

/-- `qs.node[i].count++`. -/
def QS.incr (q : QS) (i : Nat) : QS :=
  match q.nodes[i]? with
  | some n => { q with nodes := q.nodes.set i { n with count := n.count + 1 } }
  | none => { q with ub := true }

/-- First node of a level that descends from the root `r`, multi_stack.h:430-455. -/
def findNode (nodes : List Node) (r : Nat) (level : Rng) : Option Node :=
  (level.list.filterMap fun i => nodes[i]?).find? fun n => decide (r ∈ n.roots.getD [])

/-- One level copied by `combineQueryStacks`, multi_stack.h:428-455.  The ranges of the new node are not
written. -/
def copyLevel (src : List Node) (r : Nat) (p : QS × Rng) (level : Rng) : QS × Rng :=
  let q := p.1
  match findNode src r level with
  | some n =>
    ({ q with
       items := p.2 :: q.items
       nodes := q.nodes ++ [⟨n.st, n.count, n.ms, none⟩]
       ub := q.ub || decide (q.items.length ≥ MAX_STACK) || decide (q.nodes.length ≥ MAX_NODE) },
     ⟨q.nodes.length, q.nodes.length + 1⟩)
  | none => ({ q with items := p.2 :: q.items, ub := q.ub || decide (q.items.length ≥ MAX_STACK) }, p.2)

/-- First index of the range whose node has state `s`, multi_stack.h:414-422. -/
def findRoot (nodes : List Node) (s : Nat) (level : Rng) : Option Nat :=
  level.list.find? fun i => match nodes[i]? with
    | some n => n.st == s
    | none => false

/-- `combineQueryStacks`, multi_stack.h:401-459: `dst` with current range `elt`, `src` with current range
`selt`. -/
def QS.combine (dst : QS) (elt : Rng) (src : QS) (selt : Rng) : QS × Rng :=
  match dst.nodes[elt.s]? with
  | none => ({ dst with ub := true }, elt)
  | some c =>
    let dst := dst.orUb (decide (src.items.length ≥ MAX_STACK))              -- 404
    match (selt :: src.items).reverse with
    | [] => (dst, elt)
    | l0 :: levels =>
      match findRoot src.nodes c.st l0 with
      | some r => levels.foldl (copyLevel src.nodes r) (dst, elt)
      | none => (dst, elt)

end JPS
