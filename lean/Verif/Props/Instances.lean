import Verif.Props.Automaton
import Verif.Props.Stream
import Verif.Props.SyntaxStack
import Verif.Props.LoadBuffer
import Verif.Props.NonGreedy
import Verif.Props.Expr
import Verif.Props.Worker
/-!
# Instances of theorems on concrete cases

Each example applies a theorem of another file of this directory to a concrete case, so that its hypotheses are seen to be met.
-/

set_option autoImplicit false

namespace JPS
open Spec

theorem exQuery_mentions (k : Str) : exQuery.mentions k ↔ k = ['a'] := by
  constructor
  · rintro ⟨c, h1, h2, h3⟩
    have h2 : c < 4 := h2
    have : c = 3 := by omega
    subst this
    exact h3.symm
  · rintro rfl
    exact ⟨3, by decide, by decide, rfl⟩

/-- `c10_unmentioned_keys`: `$.a` treats `b` and `c` alike. -/
example : exQuery.nextByStr 1 (some ['b']) = exQuery.nextByStr 1 (some ['c']) :=
  c10_unmentioned_keys exQuery 1 ['b'] ['c'] (by rw [exQuery_mentions]; decide) (by rw [exQuery_mentions]; decide)

/-- `c10_renaming`: with every key but `a` renamed to `z`, the location `.b[2].a` is one of `.z[2].a` and has the same state. -/
example : locState exQuery 1 0 [.key ['z'], .elem 2, .key ['a']] = locState exQuery 1 0 [.key ['b'], .elem 2, .key ['a']] :=
  c10_renaming exQuery (fun k => if k = ['a'] then k else ['z'])
    (fun k hk => by rw [exQuery_mentions] at hk; simp [hk])
    (fun k hk => by rw [exQuery_mentions] at hk ⊢; simp [hk]) [.key ['b'], .elem 2, .key ['a']] 1 0

/-- `[1, {"b": 2}]`, a value inside the text `{"a": [1, {"b": 2}], "c": 3}`. -/
def exInsideArr : J := .arr [] (.cons [] (.lit ['1']) [] (.cons [' '] (.obj [] (.cons [] ['b'] [] [' '] (.lit ['2']) [] .nil)) [] .nil))

/-- `c17_member_balanced`: `"a": [1, {"b": 2}]` read from a configuration inside an object. -/
example : let a : SA := { SA.init with elt := ⟨1, 5, none⟩, ss := [.lcb, .lb], qs := [⟨1, 0, none⟩] }
    let a' := runToks exQuery "{\"a\": [1, {\"b\": 2}], \"c\": 3}".toList a (.ky ['a'] :: toks id 6 exInsideArr)
    a'.elt = a.elt ∧ a'.ss = a.ss ∧ a'.qs = a.qs :=
  c17_member_balanced exQuery "{\"a\": [1, {\"b\": 2}], \"c\": 3}".toList (by decide) exInsideArr ['a'] id 6 ", \"c\": 3}".toList (by decide) _
    (by decide) (by decide)

/-- `c17_element_balanced`: `[1, {"b": 2}]` read as the sixth element of an array. -/
example : let a : SA := { SA.init with elt := ⟨2, 5, none⟩, ss := [.lb, .ky, .lcb], qs := [⟨1, 0, none⟩] }
    let a' := runToks exQuery "{\"a\": [1, {\"b\": 2}], \"c\": 3}".toList a (toks id 6 exInsideArr)
    a'.elt.st = 2 ∧ a'.elt.count = 6 ∧ a'.ss = a.ss ∧ a'.qs = a.qs :=
  c17_element_balanced exQuery "{\"a\": [1, {\"b\": 2}], \"c\": 3}".toList (by decide) exInsideArr id 6 ", \"c\": 3}".toList (by decide) _ _ rfl
    (by decide) (by decide)

/-- `c40_dead_silent`: the same value as an element in the dead state. -/
example : ∃ ms, runToks exQuery "{\"a\": [1, {\"b\": 2}], \"c\": 3}".toList
      { SA.init with elt := ⟨0, 5, none⟩, ss := [.lb, .ky, .lcb], qs := [⟨1, 0, none⟩] } (toks id 6 exInsideArr) =
    { SA.init with elt := ⟨0, 6, ms⟩, ss := [.lb, .ky, .lcb], qs := [⟨1, 0, none⟩] } :=
  (c40_dead_silent exQuery ⟨rfl, fun c => by simp [exQuery]⟩ "{\"a\": [1, {\"b\": 2}], \"c\": 3}".toList (by decide) exInsideArr id 6
    ", \"c\": 3}".toList (by decide) { SA.init with elt := ⟨0, 5, none⟩, ss := [.lb, .ky, .lcb], qs := [⟨1, 0, none⟩] } rfl
    (by decide) (by decide)).2 _ rfl

/-- Two chunks of `{"a": [1, {"b": 2}], "c": 3}`. -/
def exTwoChunks : List Str := ["{\"a\": [1, {".toList, "\"b\": 2}], \"c\": 3}".toList]

/-- `c39_run`: the run over the two chunks ends without a fault, and its syntax stack is that of one run. -/
example : ∃ k, executeParallel exMiddleDfa none (fun _ => .other) none exTwoChunks = some k ∧ k.bad = false ∧
    k.ss = (exTwoChunks.map lexAll).flatten.foldl ssStep [] := by
  have h : ((executeParallel exMiddleDfa none (fun _ => .other) none exTwoChunks).any fun k => !k.bad) = true := by decide +kernel
  cases hk : executeParallel exMiddleDfa none (fun _ => .other) none exTwoChunks with
  | none => rw [hk] at h; exact absurd h (by decide)
  | some k =>
    rw [hk] at h
    have hb : k.bad = false := by simpa using h
    exact ⟨k, rfl, hb, c39_run exMiddleDfa none _ _ k hk
      ⟨by decide, fitsAll_of _ _ _ (by decide), by decide, fitsAll_of _ _ _ (by decide), trivial⟩ hb⟩

/-- `c53_copies`: the copy of the comment `/` `x*?` `/` accepts the longer comment too. -/
example : let t := RTree.node false .none exComment
    (t.copy.build.dfa 3).stop ([1, 2, 1, 2, 1].foldl (t.copy.build.dfa 3).next 1) = 1 ↔
      reLang (fun cs x => cs.contains x) t [1, 2, 1, 2, 1] :=
  c53_copies (.node false .none exComment) 3 [1, 2, 1, 2, 1] (by decide) (by decide)

/-- `c54_no_quotes`: a file of 2006 blanks after a bracket and footprint 3. -/
example (bl : Str) (hl : bl.length = 2006) (hb : ∀ c ∈ bl, c = ' ') :
    loadsUb 3 ('[' :: bl) (('[' :: bl).length + 1) 0 = true :=
  c54_no_quotes 3 _ (by decide) (by simp [hl, MAX_EXTENSION]) (fun c hc => by
    have : c = ' ' := hb c (List.mem_of_mem_drop (by simpa using hc))
    subst this; decide)

/-- `c27_ordering_partial`: `@.a < 3` on an element without `a` compares zero. -/
example : evaluate intOps (modRef (exprTree (.bin .lt (.prop [['a']]) (.num ⟨false, 3, []⟩)))) (condsOf [[['a']]] fun _ => none) =
    some true :=
  c27_ordering_partial intOps .lt (by decide) [['a']] (by decide) (by decide) ⟨false, 3, []⟩ none

/-- `c26_logical_total`: `@.a == 3 && @.b` on an element without `a` whose `b` is a string. -/
example : ∃ x, Expr.eval (arith intOps) (fun p => textValue intOps (if p = [['b']] then some ['"', 'x', '"'] else none))
      (.bin .and (.bin .eq (.prop [['a']]) (.num ⟨false, 3, []⟩)) (.prop [['b']])) = some x ∧
    evaluate intOps (modRef (exprTree (.bin .and (.bin .eq (.prop [['a']]) (.num ⟨false, 3, []⟩)) (.prop [['b']]))))
      (condsOf [[['a']], [['b']]] fun p => if p = [['b']] then some ['"', 'x', '"'] else none) = some (x.truth (arith intOps)) :=
  c26_logical_total intOps _ (by decide) _ _ (by decide) (by decide)

end JPS
