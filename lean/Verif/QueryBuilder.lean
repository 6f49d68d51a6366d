import Verif.Ast
import Verif.Mixer
import Verif.Compressed
/-!
# `dfa_builder.cpp`: from the syntax tree to the automaton tables
-/

namespace JPS

/-- `INT_MAX`. -/
def intMax : Int := 2147483647

/-- `StackElement`, dfa_builder.cpp:25-29 and 40-72. -/
inductive SE where
  | dotAll | parentAll | dotProp (s : Str) | parentProp (s : Str) | arrayAll | arrayIndex (a b : Int)
deriving DecidableEq, Repr

/-- `to_string(int)`. -/
def intText (i : Int) : Str := (toString i).toList

/-- The text of one element in `getOutput`, dfa_builder.cpp:103-110. -/
def SE.text : SE → Str
  | .dotAll => ['.', '*']
  | .parentAll => ['.', '.', '*']
  | .dotProp s => '.' :: s
  | .parentProp s => '.' :: '.' :: s
  | .arrayAll => ['[', '*', ']']
  | .arrayIndex a b => '[' :: intText a ++ ':' :: intText b ++ [']']

/-- `getOutput`, dfa_builder.cpp:100-113. -/
def getOutput (st : List SE) : Str := '$' :: st.flatMap SE.text

/-- `StackContext`, dfa_builder.cpp:74-93.  `names` is `input_mapping` from index 3 on and also
represents `name_mapping`; `check` is the key set of the map `check`; the members that are
not initialised by the constructor are `none`. -/
structure SCtx where
  rules : List (List Item)
  st : List SE
  lastGen : Option Bool
  lastId : Option Nat
  names : List Str
  check : List Str
  ranges : List (Int × Int)
  trees : List (Option Ast)
  mapping : List (Nat × List Nat)
deriving Repr

/-- The constructor, dfa_builder.cpp:92. -/
def SCtx.init : SCtx := ⟨[], [], none, none, [], [], [], [], []⟩

/-- `push`, dfa_builder.cpp:95-98. -/
def SCtx.push (c : SCtx) (e : SE) : SCtx := { c with st := c.st ++ [e], lastGen := some false }

/-- Registration of new names, dfa_builder.cpp:133-141. -/
def addName (names : List Str) (e : SE) : List Str :=
  match e with
  | .dotProp s => if s ∈ names then names else names ++ [s]
  | .parentProp s => if s ∈ names then names else names ++ [s]
  | _ => names

/-- `name_mapping[s]`: columns 1 and 2 are "other" and "array", dfa_builder.cpp:82. -/
def nameCol (names : List Str) (s : Str) : Nat := names.idxOf s + 3

/-- The items created for one element, dfa_builder.cpp:145-172. -/
def SE.items (names : List Str) : SE → List Item
  | .dotAll => [⟨none, .none⟩]
  | .parentAll => [⟨none, .plus⟩]
  | .dotProp s => [⟨some (nameCol names s), .none⟩]
  | .parentProp s => [⟨none, .star⟩, ⟨some (nameCol names s), .none⟩]
  | .arrayAll => [⟨some 2, .none⟩]
  | .arrayIndex _ _ => [⟨some 2, .none⟩]

/-- `create_dfa(in_predicate)`, dfa_builder.cpp:127-178; the Boolean result is `true` when the
path has been seen before and is ignored. -/
def SCtx.createDfa (c : SCtx) (inPred : Bool) : SCtx × Bool :=
  if getOutput c.st ∈ c.check then (c, true)
  else
    let names := c.st.foldl addName c.names
    ({ c with
        check := c.check ++ [getOutput c.st]
        lastGen := some true
        names := names
        rules := c.rules ++ [c.st.flatMap (SE.items names)]
        lastId := if inPred then c.lastId else some (c.rules.length + 1)
        ranges := c.ranges ++ [(0, 0)]
        trees := c.trees ++ [none] }, false)

/-- Splitting at dots: the `getline` loop of `construct_filter`, dfa_builder.cpp:183-189.  For a text that is empty or ends
with a dot `getline` gives no last empty part; such texts do not occur here, because references are names of the scanner
(scanner_j.l:21-23) joined by dots (`evaluatorModifyReference`). -/
def splitDots : Str → List Str
  | [] => [[]]
  | c :: r =>
    if c = '.' then [] :: splitDots r
    else match splitDots r with
      | t :: ts => (c :: t) :: ts
      | [] => [[c]]

/-- `states_mapping[h].push_back(x)`. -/
def mapPush (m : List (Nat × List Nat)) (h x : Nat) : List (Nat × List Nat) :=
  m.map fun p => if p.1 = h then (p.1, p.2 ++ [x]) else p

/-- `construct_filter`, dfa_builder.cpp:180-206; `h` is `state_handle_now`. -/
def constructFilter (h : Nat) : Ast → SCtx → SCtx
  | .var s, c =>
    let c1 := (splitDots s).foldl (fun c t => c.push (.dotProp t)) c
    let r := c1.createDfa true
    let c2 := if r.2 then r.1 else
      { r.1 with mapping := mapPush r.1.mapping h (r.1.rules.length - 1)
                 trees := r.1.trees.set (r.1.rules.length - 1) (some (.var s)) }
    { c2 with st := c2.st.take c.st.length }
  | .concat l r, c => constructFilter h r (constructFilter h l c)
  | .parentConcat l r, c => constructFilter h r (constructFilter h l c)
  | .predicate l r, c => constructFilter h r (constructFilter h l c)
  | .script l, c => constructFilter h l c
  | .filter l, c => constructFilter h l c
  | .not l, c => constructFilter h l c
  | .bin _ l r, c => constructFilter h r (constructFilter h l c)
  | _, c => c

/-- `states_mapping[h] = vector<int>(0)`, dfa_builder.cpp:260. -/
def mapReset (m : List (Nat × List Nat)) (h : Nat) : List (Nat × List Nat) :=
  m.filter (fun p => p.1 ≠ h) ++ [(h, [])]

/-- The cases of `construct_dfa` for the right child, dfa_builder.cpp:213-274. -/
def constructRight (node : Ast) (c : SCtx) : SCtx :=
  match node with
  | .concat _ .wildcard => c.push .dotAll
  | .concat _ (.id s) => c.push (.dotProp s)
  | .parentConcat _ .wildcard => c.push .parentAll
  | .parentConcat _ (.id s) => c.push (.parentProp s)
  | .predicate _ (.range a b) =>
    let lo := (a.map Num.toInt).getD intMin
    let hi := (b.map Num.toInt).getD intMax
    let c := ((c.push (.arrayIndex lo hi)).createDfa false).1
    { c with ranges := c.ranges.set (c.rules.length - 1) (lo, hi) }
  | .predicate _ .wildcard => c.push .arrayAll
  | .predicate _ (.filter e) =>
    let c := ((c.push .arrayAll).createDfa false).1
    let e := modRef e
    let h := c.rules.length - 1
    let c := { c with mapping := mapReset c.mapping h, trees := c.trees.set h (some e) }
    constructFilter h e c
  | _ => c

/-- `construct_dfa`, dfa_builder.cpp:208-275. -/
def construct : Ast → SCtx → SCtx
  | .concat l r, c => constructRight (.concat l r) (construct l c)
  | .parentConcat l r, c => constructRight (.parentConcat l r) (construct l c)
  | .predicate l r, c => constructRight (.predicate l r) (construct l c)
  | _, c => c

/-- Lines 368-371 of `buildJSONQueryDFAFromAST`: the context after `construct_dfa` and the
final `create_dfa`.  `none`: `last_st_generated` is read without having been initialised,
which happens exactly when the path has no step with an effect. -/
def buildCtx (t : Ast) : Option SCtx :=
  let c := construct t .init
  match c.lastGen with
  | none => none
  | some true => some c
  | some false => some (c.createDfa false).1

/-- `accept_type` and `array_index` of a state, dfa_builder.cpp:290-314, given the stop value
`k`, whether the state is entered by the array letter, and the context. -/
def acceptOf (c : SCtx) (k : Nat) (byArray : Bool) : Acc :=
  if k = 0 then .none
  else
    let a : Acc := if c.lastId = some k then .output else if byArray then .predicate else .condition
    let r := c.ranges.getD (k - 1) (0, 0)
    if (r.1 ≠ 0 ∨ r.2 ≠ 0) ∧ a ≠ .output then .none else a

/-- `stop_state` of a state, dfa_builder.cpp:291-292 and 308-309. -/
def stopOf (c : SCtx) (k : Nat) : Nat :=
  let r := c.ranges.getD (k - 1) (0, 0)
  if (r.1 ≠ 0 ∨ r.2 ≠ 0) ∧ c.lastId ≠ some k then 0 else k

/-- `create_dfa(ctx, cpd_dfa)`, dfa_builder.cpp:283-321, with the compressed table of the
pipeline 374-383. -/
def tableOf (c : SCtx) : QDfa :=
  let m := c.names.length + 3
  let b := buildDfa c.rules m
  let cp := compress b.rows
  let n := b.rows.length + 1
  { statesNum := n
    inputsNum := m
    table := fun s a => if s < n ∧ a < m then cp.nextState s a else 0
    stop := fun s => if s < n then stopOf c (b.stop s) else 0
    accept := fun s =>
      if s < n then acceptOf c (b.stop s) ((List.range n).any fun j => cp.nextState j 2 == s) else .none
    lower := fun s => if s < n ∧ b.stop s ≠ 0 then (c.ranges.getD (b.stop s - 1) (0, 0)).1 else 0
    upper := fun s => if s < n ∧ b.stop s ≠ 0 then (c.ranges.getD (b.stop s - 1) (0, 0)).2 else 0
    names := fun a => if a = 1 then "other".toList else if a = 2 then "array".toList
      else (c.names[a - 3]?).getD [] }

/-- `acc_id2state`, dfa_builder.cpp:323-330 (`none` is -1). -/
def accIdState (b : SDfa) (acc : Nat) : Option Nat :=
  (List.range (b.rows.length + 1)).find? fun i => b.stop i == acc

/-- `JSONQueryDFAContext`, dfa_builder.h:16-21. -/
structure QCtx where
  statesNum : Nat
  subtrees : Nat → Option Ast
  mapping : Nat → List (Option Nat)
  predStates : List Nat

/-- `create_context`, dfa_builder.cpp:332-356. -/
def contextOf (c : SCtx) : QCtx :=
  let d := tableOf c
  let b := buildDfa c.rules (c.names.length + 3)
  { statesNum := d.statesNum
    subtrees := fun i => if d.stop i = 0 then none else (c.trees.getD (d.stop i - 1) none)
    mapping := fun i =>
      if d.stop i = 0 then []
      else (((c.mapping.find? (fun p => p.1 == d.stop i - 1)).map Prod.snd).getD []).map
        (fun x => accIdState b (x + 1))
    predStates := (List.range d.statesNum).filter fun i => d.stop i ≠ 0 && d.accept i == .predicate }

/-- `buildJSONQueryDFAFromAST`, dfa_builder.cpp:364-396. -/
def buildQuery (t : Ast) : Option (QDfa × QCtx) :=
  (buildCtx t).map fun c => (tableOf c, contextOf c)

end JPS
