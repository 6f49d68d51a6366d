import Verif.Predicate
import Verif.Spec.Forest
import Verif.Props.Pieces
/-!
# C24, C25: nested filters
-/

set_option autoImplicit false

namespace JPS
open Spec

/-- The tuples of a forest, as the streaming automaton emits them: an element is bracketed by the texts
`{` and `}` under its predicate state. -/
def forestTuples : Forest → List Tuple
  | .nil => []
  | .cand st t rest => ⟨st, t⟩ :: forestTuples rest
  | .cond st _ t rest => ⟨st, t⟩ :: forestTuples rest
  | .elem s inner rest => ⟨s, ['{']⟩ :: forestTuples inner ++ ⟨s, ['}']⟩ :: forestTuples rest

/-- A state whose texts are candidates inside an element of the predicate `s`: it has no subtree, or the predicate
tests no property, or it tests none of the name of the subtree. -/
def CandState (ctx : QCtx) (names : Nat → List Str) (s st : Nat) : Prop :=
  ctx.subtrees st = none ∨ names s = [] ∨ ∃ node n, ctx.subtrees st = some node ∧ node.str? = some n ∧ n ∉ names s

/-- The forest fits the compiled query: inside an element, candidates carry candidate states, a condition carries the
state of a variable named in the condition list of the enclosing predicate, elements carry predicate
states, and no text is a lone bracket. -/
def Fits (ctx : QCtx) (names : Nat → List Str) (encl : Option Nat) : Forest → Prop
  | .nil => True
  | .cand st t rest => (∀ s, encl = some s → CandState ctx names s st) ∧ t ≠ ['{'] ∧ t ≠ ['}'] ∧ Fits ctx names encl rest
  | .cond st n t rest => ctx.subtrees st = some (.var n) ∧ (∀ s, encl = some s → n ∈ names s) ∧
      t ≠ ['{'] ∧ t ≠ ['}'] ∧ Fits ctx names encl rest
  | .elem s inner rest => Fits ctx names (some s) inner ∧ Fits ctx names encl rest

/-- The condition table with the texts `r`. -/
def condTable (ns : List Str) (r : Str → Option Str) : Conds := ns.map fun n => (n, r n)

/-- The predicate with number `s` gives the verdict `holds s r` on the recorded texts `r`. -/
def Verdict (O : NumOps) (ctx : QCtx) (names : Nat → List Str)
    (holds : Nat → (Str → Option Str) → Bool) (s : Nat) (r : Str → Option Str) : Prop :=
  ∃ e, ctx.subtrees s = some e ∧ evaluate O e (condTable (names s) r) = some (holds s r)

/-- Every element's predicate has distinct condition names and gives a verdict on the texts recorded for
that element. -/
def Decided (O : NumOps) (ctx : QCtx) (names : Nat → List Str)
    (holds : Nat → (Str → Option Str) → Bool) : Forest → Prop
  | .nil => True
  | .cand _ _ rest => Decided O ctx names holds rest
  | .cond _ _ _ rest => Decided O ctx names holds rest
  | .elem s inner rest => ((names s).Nodup ∧ Verdict O ctx names holds s inner.recorded) ∧
      Decided O ctx names holds inner ∧ Decided O ctx names holds rest

/-- A predicate with distinct condition names that gives a verdict on every element. -/
structure Judged (O : NumOps) (ctx : QCtx) (names : Nat → List Str)
    (holds : Nat → (Str → Option Str) → Bool) (s : Nat) : Prop where
  nodup : (names s).Nodup
  verdict : ∃ e, ctx.subtrees s = some e ∧
    ∀ r, evaluate O e (condTable (names s) r) = some (holds s r)

theorem decided_of_judged {O : NumOps} {ctx : QCtx} {names : Nat → List Str}
    {holds : Nat → (Str → Option Str) → Bool} : ∀ (f : Forest),
    (∀ x ∈ f.preds, Judged O ctx names holds x) → Decided O ctx names holds f
  | .nil, _ => trivial
  | .cand _ _ rest, h => decided_of_judged rest h
  | .cond _ _ _ rest, h => decided_of_judged rest h
  | .elem s inner rest, h => by
    have hs := h s (by simp [Forest.preds])
    obtain ⟨e, h1, h2⟩ := hs.verdict
    exact ⟨⟨hs.nodup, e, h1, h2 _⟩, decided_of_judged inner (fun x hx => h x (by simp [Forest.preds, hx])),
      decided_of_judged rest (fun x hx => h x (by simp [Forest.preds, hx]))⟩

theorem condTable_set (ns : List Str) (hn : ns.Nodup) (r : Str → Option Str) (n t : Str) (h : n ∈ ns) :
    Conds.set n t (condTable ns r) = condTable ns (fun m => if n = m then some t else r m) := by
  unfold condTable
  induction ns with
  | nil => simp at h
  | cons a ns ih =>
    rw [List.nodup_cons] at hn
    simp only [List.map_cons, Conds.set]
    by_cases ha : a = n
    · subst ha
      rw [if_pos rfl, if_pos rfl]
      congr 1
      apply List.map_congr_left
      intro m hm
      rw [if_neg]
      rintro rfl; exact hn.1 hm
    · rw [if_neg ha, if_neg (Ne.symm ha)]
      rw [ih hn.2 (by rcases List.mem_cons.1 h with h | h; exact absurd h.symm ha; exact h)]

theorem condTable_clear (ns : List Str) (r : Str → Option Str) :
    (condTable ns r).clear = condTable ns (fun _ => none) := by
  simp [condTable, Conds.clear]

theorem setConds_same {f : Nat → Option Conds} {s : Nat} {cs : Conds} (h : f s = some cs) :
    setConds f s cs = f := by
  funext x
  unfold setConds
  split
  · rename_i hx; rw [hx, h]
  · rfl

theorem setConds_twice (f : Nat → Option Conds) (s : Nat) (a b : Conds) :
    setConds (setConds f s a) s b = setConds f s b := by
  funext x; unfold setConds; split <;> rfl

/-- `setConds f s` of the recorded texts. -/
def over (names : Nat → List Str) (f : Nat → Option Conds) (s : Nat) (r : Str → Option Str) :
    Nat → Option Conds := setConds f s (condTable (names s) r)

/-- A candidate inside an element goes into the buffer. -/
theorem cand_step {O : NumOps} {ctx : QCtx} {names : Nat → List Str} {p : PF} {st s fi : Nat} {t : Str} {rest : List (Nat × Nat)}
    {r : Str → Option Str} (hs : CandState ctx names s st) (h1 : t ≠ ['{']) (h2 : t ≠ ['}']) (hstk : p.stack = (s, fi) :: rest)
    (hc : p.conds s = some (condTable (names s) r)) : pfStep O ctx p ⟨st, t⟩ = p.addBuffer t := by
  unfold pfStep
  rw [if_neg h1, if_neg h2]
  unfold pfOther
  rw [hstk]
  rcases hs with hs | hs | ⟨node, n, hs, hn, hm⟩
  · simp only [hs]
  · simp only [hc, hs, condTable, List.map_nil]
    cases ctx.subtrees st <;> rfl
  · simp only [hs, hc]
    cases hns : names s with
    | nil => rfl
    | cons a l =>
      have hany : ¬ (condTable (names s) r).any (fun c => c.1 == n) = true := by
        rw [List.any_eq_true]
        rintro ⟨x, hx, hxn⟩
        simp only [condTable, List.mem_map] at hx
        obtain ⟨m, hm', rfl⟩ := hx
        simp only [beq_iff_eq] at hxn
        exact hm (hxn ▸ hm')
      rw [hns] at hany
      simp only [condTable, List.map_cons, hn] at hany ⊢
      rw [if_neg hany]

/-- Values of the filter, without the overrun flag. -/
structure Is (p : PF) (conds : Nat → Option Conds) (stack : List (Nat × Nat)) (buffer output : List Str) : Prop where
  conds : p.conds = conds
  stack : p.stack = stack
  buffer : p.buffer = buffer
  output : p.output = output

theorem foldl_addOutput_values : ∀ (ts : List Str) (p : PF),
    Is (ts.foldl PF.addOutput p) p.conds p.stack p.buffer (p.output ++ ts)
  | [], p => ⟨rfl, rfl, rfl, by simp⟩
  | t :: ts, p => by
    have h := foldl_addOutput_values ts (p.addOutput t)
    exact ⟨h.conds, h.stack, h.buffer, by rw [List.foldl_cons, h.output]; simp [PF.addOutput]⟩

/-- The end of an element with predicate `s`. -/
theorem close_values {O : NumOps} {ctx : QCtx} {names : Nat → List Str}
    {holds : Nat → (Str → Option Str) → Bool} {s fi : Nat}
    {p : PF} {c : Nat → Option Conds} {rest : List (Nat × Nat)} {b o : List Str} {r : Str → Option Str}
    (hj : Verdict O ctx names holds s r) (h : Is p c ((s, fi) :: rest) b o) (hc : c s = some (condTable (names s) r)) :
    Is (pfStep O ctx p ⟨s, ['}']⟩) (setConds c s (condTable (names s) fun _ => none)) rest
      (if holds s r && !rest.isEmpty then b else b.take fi)
      (o ++ if holds s r && rest.isEmpty then b.drop fi else []) := by
  obtain ⟨e, he, hv⟩ := hj
  have hver : pfVerdict O ctx p s = some (holds s r) := by
    unfold pfVerdict
    rw [h.conds, hc, he]
    exact hv
  unfold pfStep
  rw [if_neg (by simp), if_pos rfl]
  unfold pfClose
  rw [h.stack]
  simp only [hver]
  have hq : Is (pfRelease (holds s r) fi rest.isEmpty p) c ((s, fi) :: rest)
      (if holds s r && !rest.isEmpty then b else b.take fi)
      (o ++ if holds s r && rest.isEmpty then b.drop fi else []) := by
    unfold pfRelease
    cases holds s r with
    | false => exact ⟨h.conds, h.stack, by simp [h.buffer], by simp [h.output]⟩
    | true =>
      cases rest.isEmpty with
      | false => exact ⟨h.conds, h.stack, by simp [h.buffer], by simp [h.output]⟩
      | true =>
        have := foldl_addOutput_values (p.buffer.drop fi) p
        exact ⟨by simp only [if_true]; rw [this.conds, h.conds], by simp only [if_true]; rw [this.stack, h.stack],
          by simp [h.buffer], by simp only [if_true]; rw [this.output, h.buffer, h.output]; rfl⟩
  refine ⟨?_, rfl, hq.buffer, hq.output⟩
  simp only
  rw [hq.conds, hc]
  simp only [Option.getD_some, condTable_clear]

theorem unnested_elem {s : Nat} {inner rest : Forest} (h : (Forest.elem s inner rest).unnested = true) :
    s ∉ inner.preds ∧ inner.unnested = true ∧ rest.unnested = true := by
  simp only [Forest.unnested, Bool.and_eq_true, Bool.not_eq_true'] at h
  refine ⟨?_, h.1.2, h.2⟩
  intro hm
  have : inner.preds.contains s = true := by simpa using hm
  rw [this] at h; exact absurd h.1.1 (by simp)

/-- The filter inside an element. -/
theorem inner_values {O : NumOps} {ctx : QCtx} {names : Nat → List Str}
    {holds : Nat → (Str → Option Str) → Bool} : ∀ (f : Forest) (p : PF) (c : Nat → Option Conds)
    (s fi : Nat) (rest : List (Nat × Nat)) (b o : List Str) (r : Str → Option Str),
    Decided O ctx names holds f → Fits ctx names (some s) f → f.unnested = true →
    Is p c ((s, fi) :: rest) b o → c s = some (condTable (names s) r) → (names s).Nodup →
    (∀ x ∈ f.preds, x ≠ s ∧ c x = some (condTable (names x) fun _ => none)) →
    Is ((forestTuples f).foldl (pfStep O ctx) p)
      (over names c s (fun n => (f.recorded n).orElse fun _ => r n)) ((s, fi) :: rest)
      (b ++ f.released holds) o
  | .nil, p, c, s, fi, rest, b, o, r, _, _, _, h, hc, _, _ => by
    refine ⟨?_, h.stack, by simp [forestTuples, h.buffer, Forest.released], h.output⟩
    simp only [forestTuples, List.foldl_nil, h.conds, over]
    rw [setConds_same]
    rw [hc]; simp [Forest.recorded]
  | .cand st t f, p, c, s, fi, rest, b, o, r, hj, hf, hu, h, hc, hnd, hp => by
    obtain ⟨hs, h1, h2, hf⟩ := hf
    have hstep : Is (pfStep O ctx p ⟨st, t⟩) c ((s, fi) :: rest) (b ++ [t]) o := by
      rw [cand_step (hs s rfl) h1 h2 h.stack (by rw [h.conds]; exact hc)]
      exact ⟨h.conds, h.stack, by simp [PF.addBuffer, h.buffer], h.output⟩
    have := inner_values f _ c s fi rest (b ++ [t]) o r hj hf hu hstep hc hnd hp
    refine ⟨this.conds, this.stack, ?_, this.output⟩
    simp only [forestTuples, List.foldl_cons, this.buffer, Forest.released]
    simp
  | .cond st n t f, p, c, s, fi, rest, b, o, r, hj, hf, hu, h, hc, hnd, hp => by
    obtain ⟨hs, hn, h1, h2, hf⟩ := hf
    have hn := hn s rfl
    have hstep : Is (pfStep O ctx p ⟨st, t⟩) (setConds c s (condTable (names s)
        (fun m => if n = m then some t else r m))) ((s, fi) :: rest) b o := by
      unfold pfStep
      rw [if_neg h1, if_neg h2]
      unfold pfOther
      rw [h.stack]
      simp only [hs, h.conds, hc]
      have hne : ∃ a l, condTable (names s) r = a :: l := by
        cases hns : names s with
        | nil => rw [hns] at hn; simp at hn
        | cons a l => exact ⟨_, _, rfl⟩
      obtain ⟨a, l, hal⟩ := hne
      rw [hal]
      simp only [Ast.str?]
      rw [← hal]
      have hany : (condTable (names s) r).any (fun c => c.1 == n) = true := by
        rw [List.any_eq_true]
        exact ⟨(n, r n), by simp only [condTable, List.mem_map]; exact ⟨n, hn, rfl⟩, by simp⟩
      rw [if_pos hany, condTable_set _ hnd _ _ _ hn]
      exact ⟨rfl, rfl, h.buffer, h.output⟩
    have := inner_values f _ _ s fi rest b o (fun m => if n = m then some t else r m) hj hf hu hstep
      (by simp [setConds]) hnd (fun x hx => ⟨(hp x hx).1, by
        unfold setConds; rw [if_neg (hp x hx).1]; exact (hp x hx).2⟩)
    refine ⟨?_, this.stack, ?_, this.output⟩
    · simp only [forestTuples, List.foldl_cons, this.conds, over, setConds_twice]
      congr 1
      congr 1
      funext m
      simp only [Forest.recorded]
      cases f.recorded m with
      | some x => rfl
      | none =>
        by_cases hm : n = m
        · simp [hm]
        · simp [hm]
    · simp only [forestTuples, List.foldl_cons, this.buffer, Forest.released]
  | .elem s' inner f, p, c, s, fi, rest, b, o, r, hj, hf, hu, h, hc, hnd, hp => by
    obtain ⟨hfi, hf⟩ := hf
    obtain ⟨hns, hui, hu⟩ := unnested_elem hu
    have hs' := hp s' (by simp [Forest.preds])
    have hopen : Is (pfStep O ctx p ⟨s', ['{']⟩) c ((s', b.length) :: (s, fi) :: rest) b o := by
      unfold pfStep
      rw [if_pos rfl]
      exact ⟨h.conds, by simp [pfOpen, h.stack, h.buffer], h.buffer, h.output⟩
    obtain ⟨⟨hnd', hj'⟩, hji, hj⟩ := hj
    have hin := inner_values inner _ c s' b.length ((s, fi) :: rest) b o (fun _ => none)
      hji hfi hui hopen hs'.2 hnd'
      (fun x hx => ⟨by rintro rfl; exact hns hx, (hp x (by simp [Forest.preds, hx])).2⟩)
    have hcl := close_values hj' hin (r := inner.recorded) (by
      simp only [over, setConds, if_true]
      congr 2
      funext m
      cases inner.recorded m <;> rfl)
    have hcs : setConds (over names c s' (fun n => (inner.recorded n).orElse fun _ => none)) s'
        (condTable (names s') fun _ => none) = c := by
      unfold over
      rw [setConds_twice]
      exact setConds_same hs'.2
    rw [hcs] at hcl
    have := inner_values f _ c s fi rest _ _ r hj hf hu hcl hc
      hnd (fun x hx => hp x (by simp [Forest.preds, hx]))
    simp only [forestTuples, List.cons_append, List.foldl_cons, List.foldl_append]
    refine ⟨this.conds, this.stack, ?_, ?_⟩
    · rw [this.buffer]
      simp only [Forest.released, List.isEmpty_cons, Bool.not_false, Bool.and_true]
      cases holds s' inner.recorded <;> simp
    · rw [this.output]; simp

/-- The filter on a forest of elements. -/
theorem forest_values {O : NumOps} {ctx : QCtx} {names : Nat → List Str}
    {holds : Nat → (Str → Option Str) → Bool} : ∀ (f : Forest) (p : PF) (c : Nat → Option Conds)
    (o : List Str),
    Decided O ctx names holds f → Fits ctx names none f → f.unnested = true →
    Is p c [] [] o → (∀ x ∈ f.preds, c x = some (condTable (names x) fun _ => none)) →
    Is ((forestTuples f).foldl (pfStep O ctx) p) c [] [] (o ++ f.output holds)
  | .nil, p, c, o, _, _, _, h, _ => by
    exact ⟨h.conds, h.stack, h.buffer, by simp [forestTuples, Forest.output, h.output]⟩
  | .cand st t f, p, c, o, hj, hf, hu, h, hp => by
    obtain ⟨_, h1, h2, hf⟩ := hf
    have hstep : pfStep O ctx p ⟨st, t⟩ = p := by
      unfold pfStep pfOther
      rw [if_neg h1, if_neg h2, h.stack]
    simp only [forestTuples, List.foldl_cons, hstep, Forest.output]
    exact forest_values f p c o hj hf hu h hp
  | .cond st n t f, p, c, o, hj, hf, hu, h, hp => by
    obtain ⟨_, _, h1, h2, hf⟩ := hf
    have hstep : pfStep O ctx p ⟨st, t⟩ = p := by
      unfold pfStep pfOther
      rw [if_neg h1, if_neg h2, h.stack]
    simp only [forestTuples, List.foldl_cons, hstep, Forest.output]
    exact forest_values f p c o hj hf hu h hp
  | .elem s inner f, p, c, o, hj, hf, hu, h, hp => by
    obtain ⟨hfi, hf⟩ := hf
    obtain ⟨hns, hui, hu⟩ := unnested_elem hu
    have hs := hp s (by simp [Forest.preds])
    have hopen : Is (pfStep O ctx p ⟨s, ['{']⟩) c [(s, 0)] [] o := by
      unfold pfStep
      rw [if_pos rfl]
      exact ⟨h.conds, by simp [pfOpen, h.stack, h.buffer], h.buffer, h.output⟩
    obtain ⟨⟨hnd', hj'⟩, hji, hj⟩ := hj
    have hin := inner_values inner _ c s 0 [] [] o (fun _ => none)
      hji hfi hui hopen hs hnd'
      (fun x hx => ⟨by rintro rfl; exact hns hx, hp x (by simp [Forest.preds, hx])⟩)
    have hcl := close_values hj' hin (r := inner.recorded) (by
      simp only [over, setConds, if_true]
      congr 2
      funext m
      cases inner.recorded m <;> rfl)
    have hcs : setConds (over names c s (fun n => (inner.recorded n).orElse fun _ => none)) s
        (condTable (names s) fun _ => none) = c := by
      unfold over
      rw [setConds_twice]
      exact setConds_same hs
    rw [hcs] at hcl
    have hcl' : Is (pfStep O ctx ((forestTuples inner).foldl (pfStep O ctx) (pfStep O ctx p ⟨s, ['{']⟩))
        ⟨s, ['}']⟩) c [] [] (o ++ if holds s inner.recorded then inner.released holds else []) := by
      refine ⟨hcl.conds, hcl.stack, ?_, ?_⟩
      · rw [hcl.buffer]; simp
      · rw [hcl.output]; simp
    have := forest_values f _ c _ hj hf hu hcl'
      (fun x hx => hp x (by simp [Forest.preds, hx]))
    simp only [forestTuples, List.cons_append, List.foldl_cons, List.foldl_append]
    refine ⟨this.conds, this.stack, this.buffer, ?_⟩
    rw [this.output]
    simp [Forest.output]

/-- Without results outside elements, everything released is put out. -/
theorem output_released (holds : Nat → (Str → Option Str) → Bool) : ∀ (f : Forest), f.elemsOnly = true →
    f.output holds = f.released holds
  | .nil, _ => rfl
  | .cand _ _ _, h => by simp [Forest.elemsOnly] at h
  | .cond _ _ _ _, h => by simp [Forest.elemsOnly] at h
  | .elem s inner f, h => by
    simp only [Forest.output, Forest.released, output_released holds f (by simpa [Forest.elemsOnly] using h)]

/-- **C24** For any nesting of filtered elements in which no element contains another element of the
same filter, the filter outputs exactly the candidates that lie in an element and all of whose enclosing elements
satisfy their predicate on their own recorded properties, in order, provided each of these predicates gives a verdict on
the properties recorded for its element; afterwards its buffer, stack and tables are as
before. -/
theorem c24_nested (O : NumOps) (ctx : QCtx) (names : Nat → List Str)
    (holds : Nat → (Str → Option Str) → Bool) (f : Forest) (p : PF)
    (hone : ∃ s < MAX_PREDICATE_STATE, (p.conds s).isSome = true)
    (hj : Decided O ctx names holds f)
    (hf : Fits ctx names none f) (hu : f.unnested = true)
    (hs : p.stack = []) (hb : p.buffer = [])
    (hp : ∀ x ∈ f.preds, p.conds x = some (condTable (names x) fun _ => none)) :
    let q := generate O ctx p (forestTuples f)
    q.output = p.output ++ f.output holds ∧ q.buffer = [] ∧ q.stack = [] ∧ q.conds = p.conds := by
  have hgen : generate O ctx p (forestTuples f) = (forestTuples f).foldl (pfStep O ctx) p := by
    unfold generate
    rw [if_neg]
    intro hall
    obtain ⟨s, hs1, hs2⟩ := hone
    have := List.all_eq_true.1 hall s (List.mem_range.2 hs1)
    cases hc : p.conds s with
    | none => rw [hc] at hs2; cases hs2
    | some _ => rw [hc] at this; cases this
  have := forest_values f p p.conds p.output hj hf hu ⟨rfl, hs, hb, rfl⟩ hp
  simp only [hgen]
  exact ⟨this.output, this.buffer, this.stack, this.conds⟩

end JPS
