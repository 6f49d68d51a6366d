import Verif.ParSafeAll
import Verif.Spec.Nest
import Verif.PathSerial
import Verif.DocCuts
import Verif.Props.PiecesDoc
/-!
# Documents within the limits of a parallel run
-/

set_option autoImplicit false

namespace JPS
open Spec

/-! ### The stack stays small -/

/-- Before and after each token the stack has at most `L` entries, at most `D` of them for keys and arrays. -/
def bounded (L D : Nat) : List Sym → List Tok → Prop
  | ss, [] => ss.length ≤ L ∧ nk ss ≤ D
  | ss, t :: ts => (ss.length ≤ L ∧ nk ss ≤ D) ∧ bounded L D (ssStep ss t) ts

theorem bounded_now {L D : Nat} {ss : List Sym} : ∀ {ts : List Tok}, bounded L D ss ts → ss.length ≤ L ∧ nk ss ≤ D
  | [], h => h
  | _ :: _, h => h.1

theorem bounded_append {L D : Nat} : ∀ (xs ys : List Tok) (ss : List Sym), bounded L D ss (xs ++ ys) ↔
    bounded L D ss xs ∧ bounded L D (xs.foldl ssStep ss) ys
  | [], ys, ss => by
    simp only [List.nil_append, bounded, List.foldl_nil]
    exact ⟨fun h => ⟨bounded_now h, h⟩, fun h => h.2⟩
  | t :: xs, ys, ss => by
    simp only [List.cons_append, bounded, List.foldl_cons, bounded_append xs ys]
    exact and_assoc.symm

theorem bounded_shift {L D k : Nat} : ∀ {ts : List Tok} {ss : List Sym}, bounded L D ss (ts.map (Tok.shift k)) ↔ bounded L D ss ts
  | [], _ => Iff.rfl
  | t :: ts, ss => by
    simp only [List.map_cons, bounded]
    have : ssStep ss (Tok.shift k t) = ssStep ss t := by cases t <;> rfl
    rw [this, bounded_shift (ts := ts)]

theorem bounded_shallow {L D : Nat} : ∀ {ts : List Tok} {ss : List Sym}, bounded L D ss ts → shallow (D + 1) ss ts
  | [], _, h => Nat.lt_succ_of_le h.2
  | _ :: _, _, h => ⟨Nat.lt_succ_of_le h.1.2, bounded_shallow h.2⟩

theorem nk_afterV (ss : List Sym) : nk (afterV ss) ≤ nk ss ∧ (afterV ss).length ≤ ss.length := by
  unfold afterV
  split
  · cases ss with
    | nil => exact ⟨Nat.le_refl _, Nat.le_refl _⟩
    | cons x ss => cases x <;> simp [pop, nk]
  · exact ⟨Nat.le_refl _, Nat.le_refl _⟩

mutual
theorem bounded_value {L D : Nat} (hL : L ≤ MAX_STACK) : ∀ (v : J) (obs : Str → Str) (off : Nat) (ss : List Sym), atValue ss →
    ss.length + v.depth ≤ L → nk ss + v.nest ≤ D → bounded L D ss (toks obs off v)
  | .lit t, obs, off, ss, _, hd, hn => by
    have := nk_afterV ss
    simp only [J.depth, J.nest] at hd hn
    have he : ssStep ss (.pri (obs t)) = afterV ss := by simp [ssStep, afterV]
    simp only [toks, bounded, he]
    omega
  | .str t, obs, off, ss, _, hd, hn => by
    have := nk_afterV ss
    simp only [J.depth, J.nest] at hd hn
    simp only [toks, bounded]
    refine ⟨by omega, ?_⟩
    have he : ∀ x, ssStep ss (.pri x) = afterV ss := by intro x; simp [ssStep, afterV]
    rw [he]; omega
  | .arr w es, obs, off, ss, ha, hd, hn => by
    rw [J.depth] at hd
    rw [J.nest] at hn
    have hp : push ss Sym.lb = .lb :: ss := push_lt (by omega)
    have h1 := bounded_elems (L := L) (D := D) hL es (off + 1 + w.length) ss (by omega) (by omega)
    have h3 := (ok_elems es (off + 1 + w.length) ss (by omega)).2
    have h4 := (ok_value (.arr w es) obs off ss ha (by rw [J.depth]; omega)).2
    have h5 := nk_afterV ss
    simp only [toks, List.cons_append, List.foldl_cons, ssStep, hp, List.foldl_append, h3, List.foldl_nil] at h4
    simp only [toks, List.cons_append, bounded, ssStep, hp, bounded_append, h3]
    refine ⟨by omega, h1, by simp only [List.length_cons, nk]; omega, ?_⟩
    rw [h4]; omega
  | .obj w ms, obs, off, ss, ha, hd, hn => by
    rw [J.depth] at hd
    rw [J.nest] at hn
    have hp : push ss Sym.lcb = .lcb :: ss := push_lt (by omega)
    have h1 := bounded_members (L := L) (D := D) hL ms (off + 1 + w.length) ss (by omega) (by omega)
    have h3 := (ok_members ms (off + 1 + w.length) ss (by omega)).2
    have h4 := (ok_value (.obj w ms) obs off ss ha (by rw [J.depth]; omega)).2
    have h5 := nk_afterV ss
    simp only [toks, List.cons_append, List.foldl_cons, ssStep, hp, List.foldl_append, h3, List.foldl_nil] at h4
    simp only [toks, List.cons_append, bounded, ssStep, hp, bounded_append, h3]
    refine ⟨by omega, h1, by simp only [List.length_cons, nk]; omega, ?_⟩
    rw [h4]; omega
theorem bounded_elems {L D : Nat} (hL : L ≤ MAX_STACK) : ∀ (es : Elems) (off : Nat) (ss : List Sym),
    ss.length + 1 + es.depth ≤ L → nk ss + 1 + es.nest ≤ D → bounded L D (.lb :: ss) (toksE off es)
  | .nil, off, ss, hd, hn => by
    simp only [toksE, bounded, List.length_cons, nk]
    omega
  | .cons pre v post rest, off, ss, hd, hn => by
    rw [Elems.depth] at hd
    rw [Elems.nest] at hn
    have h1 := bounded_value (L := L) (D := D) hL v (litObs false post (nextE rest)) (off + pre.length) (.lb :: ss) (.inr (.inr rfl))
      (by simp; omega) (by simp only [nk]; omega)
    have h3 := (ok_value v (litObs false post (nextE rest)) (off + pre.length) (.lb :: ss)
      (.inr (.inr rfl)) (by simp; omega)).2
    rw [show afterV (Sym.lb :: ss) = .lb :: ss by simp [afterV, top]] at h3
    simp only [toksE, bounded_append, h3]
    refine ⟨h1, ?_⟩
    match rest, hd, hn with
    | .nil, _, _ => simp only [Elems.sep, bounded, List.length_cons, nk]; omega
    | .cons a b c d, hd, hn =>
      have := bounded_elems (L := L) (D := D) hL (.cons a b c d) (off + pre.length + v.render.length + post.length + 1) ss (by omega) (by omega)
      simp only [Elems.sep, bounded, ssStep]
      exact ⟨by simp only [List.length_cons, nk]; omega, this⟩
theorem bounded_members {L D : Nat} (hL : L ≤ MAX_STACK) : ∀ (ms : Members) (off : Nat) (ss : List Sym),
    ss.length + 1 + ms.depth ≤ L → nk ss + 1 + ms.nest ≤ D → bounded L D (.lcb :: ss) (toksM off ms)
  | .nil, off, ss, hd, hn => by
    simp only [toksM, bounded, List.length_cons, nk]
    omega
  | .cons pre k mid pre2 v post rest, off, ss, hd, hn => by
    rw [Members.depth] at hd
    rw [Members.nest] at hn
    have hp : push (Sym.lcb :: ss) Sym.ky = .ky :: .lcb :: ss := push_lt (by simp; omega)
    have h1 := bounded_value (L := L) (D := D) hL v (litObs pre2.isEmpty post (nextM rest))
      (off + pre.length + (k.length + 2) + mid.length + 1 + pre2.length) (.ky :: .lcb :: ss) (.inr (.inl rfl))
      (by simp; omega) (by simp only [nk]; omega)
    have h3 := (ok_value v (litObs pre2.isEmpty post (nextM rest))
      (off + pre.length + (k.length + 2) + mid.length + 1 + pre2.length) (.ky :: .lcb :: ss)
      (.inr (.inl rfl)) (by simp; omega)).2
    rw [show afterV (Sym.ky :: .lcb :: ss) = .lcb :: ss by simp [afterV, top, pop]] at h3
    simp only [toksM, List.cons_append, bounded, ssStep, hp, bounded_append, h3]
    refine ⟨by simp only [List.length_cons, nk]; omega, h1, ?_⟩
    match rest, hd, hn with
    | .nil, _, _ => simp only [Members.sep, bounded, List.length_cons, nk]; omega
    | .cons a b c e f g i, hd, hn =>
      have := bounded_members (L := L) (D := D) hL (.cons a b c e f g i)
        (off + pre.length + (k.length + 2) + mid.length + 1 + pre2.length + v.render.length + post.length + 1) ss (by omega) (by omega)
      simp only [Members.sep, bounded, ssStep]
      exact ⟨by simp only [List.length_cons, nk]; omega, this⟩
end

/-! ### Keys and scalars are short -/

theorem shortToks_append {xs ys : List Tok} : shortToks (xs ++ ys) ↔ shortToks xs ∧ shortToks ys := by
  unfold shortToks
  simp only [List.mem_append]
  exact ⟨fun h => ⟨fun t ht => h t (.inl ht), fun t ht => h t (.inr ht)⟩, fun h t ht => ht.elim (h.1 t) (h.2 t)⟩

theorem shortToks_nil : shortToks [] := fun t ht => by simp at ht

theorem shortToks_cons {t : Tok} {ts : List Tok} : shortToks (t :: ts) ↔ shortToks [t] ∧ shortToks ts := by
  rw [← shortToks_append]; rfl

theorem shortToks_shift {k : Nat} {ts : List Tok} : shortToks (ts.map (Tok.shift k)) ↔ shortToks ts := by
  have key : ∀ (t : Tok) (x : Str), (Tok.shift k t = .pri x ∨ Tok.shift k t = .ky x) ↔ (t = .pri x ∨ t = .ky x) := by
    intro t x; cases t <;> simp [Tok.shift]
  unfold shortToks
  simp only [List.forall_mem_map, key]

theorem shortToks_lcb (p : Nat) : shortToks [.lcb p] := by
  intro t ht x hx; simp only [List.mem_singleton] at ht; subst ht; rcases hx with hx | hx <;> cases hx
theorem shortToks_rcb (p : Nat) : shortToks [.rcb p] := by
  intro t ht x hx; simp only [List.mem_singleton] at ht; subst ht; rcases hx with hx | hx <;> cases hx
theorem shortToks_lb (p : Nat) : shortToks [.lb p] := by
  intro t ht x hx; simp only [List.mem_singleton] at ht; subst ht; rcases hx with hx | hx <;> cases hx
theorem shortToks_rb (p : Nat) : shortToks [.rb p] := by
  intro t ht x hx; simp only [List.mem_singleton] at ht; subst ht; rcases hx with hx | hx <;> cases hx
theorem shortToks_com : shortToks [.com] := by
  intro t ht x hx; simp only [List.mem_singleton] at ht; subst ht; rcases hx with hx | hx <;> cases hx
theorem shortToks_ky {k : Str} (h : k.length ≤ 998) : shortToks [.ky k] := by
  intro t ht x hx
  simp only [List.mem_singleton] at ht; subst ht
  rcases hx with hx | hx <;> cases hx
  simp only [strcopyBytes, MAX_TEXT]; omega
theorem shortToks_pri {k : Str} (h : k.length ≤ 998) : shortToks [.pri k] := by
  intro t ht x hx
  simp only [List.mem_singleton] at ht; subst ht
  rcases hx with hx | hx <;> cases hx
  simp only [strcopyBytes, MAX_TEXT]; omega

theorem shortToks_scalar (direct : Bool) (post : Str) (c : Char) (off : Nat) (v : J)
    (hv : v.isContainer = false) (h : scalarSize v post ≤ 996) : shortToks (toks (litObs direct post c) off v) := by
  cases v with
  | lit t =>
    have := litObs_length direct post c t
    simp only [scalarSize] at h
    simp only [toks]
    exact shortToks_pri (by omega)
  | str r =>
    simp only [scalarSize] at h
    simp only [toks]
    exact shortToks_pri (by simp; omega)
  | arr _ _ => cases hv
  | obj _ _ => cases hv

mutual
theorem shortToks_doc (obs : Str → Str) (off : Nat) : ∀ v : J, v.isContainer = true → v.short 996 = true → shortToks (toks obs off v)
  | .lit _, h, _ => by cases h
  | .str _, h, _ => by cases h
  | .arr w es, _, h => by
    have := shortToks_elems (off + 1 + w.length) es h
    simp only [toks, List.cons_append]
    rw [shortToks_cons, shortToks_append]
    exact ⟨shortToks_lb _, this, shortToks_rb _⟩
  | .obj w ms, _, h => by
    have := shortToks_members (off + 1 + w.length) ms h
    simp only [toks, List.cons_append]
    rw [shortToks_cons, shortToks_append]
    exact ⟨shortToks_lcb _, this, shortToks_rcb _⟩
theorem shortToks_elems (off : Nat) : ∀ es : Elems, es.short 996 = true → shortToks (toksE off es)
  | .nil, _ => shortToks_nil
  | .cons pre v post rest, h => by
    simp only [Elems.short, Bool.and_eq_true, decide_eq_true_eq] at h
    obtain ⟨⟨h1, h2⟩, h3⟩ := h
    have hv : shortToks (toks (litObs false post (nextE rest)) (off + pre.length) v) := by
      by_cases hc : v.isContainer = true
      · exact shortToks_doc _ _ v hc h2
      · exact shortToks_scalar _ _ _ _ v (by simpa using hc) h1
    simp only [toksE, shortToks_append]
    refine ⟨hv, ?_⟩
    have hr := shortToks_elems (off + pre.length + v.render.length + post.length + 1) rest h3
    cases rest with
    | nil => exact shortToks_nil
    | cons a b c d => simp only [Elems.sep]; rw [shortToks_cons]; exact ⟨shortToks_com, hr⟩
theorem shortToks_members (off : Nat) : ∀ ms : Members, ms.short 996 = true → shortToks (toksM off ms)
  | .nil, _ => shortToks_nil
  | .cons pre k mid pre2 v post rest, h => by
    simp only [Members.short, Bool.and_eq_true, decide_eq_true_eq] at h
    obtain ⟨⟨⟨h0, h1⟩, h2⟩, h3⟩ := h
    have hv : shortToks (toks (litObs pre2.isEmpty post (nextM rest))
        (off + pre.length + (k.length + 2) + mid.length + 1 + pre2.length) v) := by
      by_cases hc : v.isContainer = true
      · exact shortToks_doc _ _ v hc h2
      · exact shortToks_scalar _ _ _ _ v (by simpa using hc) h1
    simp only [toksM, List.cons_append]
    rw [shortToks_cons, shortToks_append]
    refine ⟨shortToks_ky (by omega), hv, ?_⟩
    have hr := shortToks_members (off + pre.length + (k.length + 2) + mid.length + 1 + pre2.length + v.render.length + post.length + 1)
      rest h3
    cases rest with
    | nil => exact shortToks_nil
    | cons a b c d e f g => simp only [Members.sep]; rw [shortToks_cons]; exact ⟨shortToks_com, hr⟩
end

/-! ### Number of tokens, nesting -/

mutual
theorem toks_length (obs : Str → Str) (off : Nat) : ∀ v : J, (toks obs off v).length = v.tokenCount
  | .lit _ => rfl
  | .str _ => rfl
  | .arr w es => by simp [toks, J.tokenCount, toksE_length (off + 1 + w.length) es]
  | .obj w ms => by simp [toks, J.tokenCount, toksM_length (off + 1 + w.length) ms]
theorem toksE_length (off : Nat) : ∀ es : Elems, (toksE off es).length = es.tokenCount
  | .nil => rfl
  | .cons pre v post .nil => by simp [toksE, Elems.sep, Elems.tokenCount, toks_length _ (off + pre.length) v]
  | .cons pre v post (.cons a b c d) => by
    simp only [toksE, Elems.sep, Elems.tokenCount, List.length_append, toks_length _ (off + pre.length) v, List.length_cons,
      ← toksE_length (off + pre.length + v.render.length + post.length + 1) (.cons a b c d)]
    omega
theorem toksM_length (off : Nat) : ∀ ms : Members, (toksM off ms).length = ms.tokenCount
  | .nil => rfl
  | .cons pre k mid pre2 v post .nil => by
    simp [toksM, Members.sep, Members.tokenCount, toks_length _ (off + pre.length + (k.length + 2) + mid.length + 1 + pre2.length) v]
  | .cons pre k mid pre2 v post (.cons a b c d e f g) => by
    simp only [toksM, Members.sep, Members.tokenCount, List.length_append, List.length_cons,
      toks_length _ (off + pre.length + (k.length + 2) + mid.length + 1 + pre2.length) v,
      ← toksM_length (off + pre.length + (k.length + 2) + mid.length + 1 + pre2.length + v.render.length + post.length + 1)
        (.cons a b c d e f g)]
    omega
end

mutual
theorem nest_le_depth : ∀ v : J, v.nest ≤ v.depth
  | .lit _ => Nat.le_refl _
  | .str _ => Nat.le_refl _
  | .arr _ es => by rw [J.nest, J.depth]; have := nestE_le_depth es; omega
  | .obj _ ms => by rw [J.nest, J.depth]; have := nestM_le_depth ms; omega
theorem nestE_le_depth : ∀ es : Elems, es.nest ≤ es.depth
  | .nil => Nat.le_refl _
  | .cons _ v _ rest => by
    rw [Elems.nest, Elems.depth]; have := nest_le_depth v; have := nestE_le_depth rest; omega
theorem nestM_le_depth : ∀ ms : Members, ms.nest ≤ ms.depth
  | .nil => Nat.le_refl _
  | .cons _ _ _ _ v _ rest => by
    rw [Members.nest, Members.depth]; have := nest_le_depth v; have := nestM_le_depth rest; omega
end

/-! ### The tuples of a run without undefined behaviour -/

/-- While no undefined behaviour is met the tuples are short and few. -/
def SA.Fits (a : SA) : Prop := a.ub = false → shortTl a.tl ∧ a.tl.length ≤ MAX_TUPLE_LIST

theorem SA.Fits.of {a b : SA} (h : a.Fits) (ht : b.tl = a.tl) (hu : b.ub = false → a.ub = false) : b.Fits := by
  intro hb; rw [ht]; exact h (hu hb)

theorem SA.Fits.addTuple {a : SA} (h : a.Fits) (s : Nat) (t : Str) : (a.addTuple s t).Fits := by
  intro hb
  simp only [SA.addTuple, Bool.or_eq_false_iff, decide_eq_false_iff_not] at hb
  obtain ⟨⟨b1, b2⟩, b3⟩ := hb
  obtain ⟨h1, h2⟩ := h b1
  refine ⟨fun x hx => ?_, by simp only [SA.addTuple, List.length_append, List.length_cons, List.length_nil]; omega⟩
  rcases List.mem_append.1 hx with hx | hx
  · exact h1 x hx
  · simp only [List.mem_singleton] at hx; subst hx; exact Nat.le_of_not_lt b2

theorem SA.Fits.popQ {a : SA} (h : a.Fits) : a.popQ.Fits := by
  unfold SA.popQ
  split
  · exact h.of rfl id
  · exact h.of rfl (fun hb => by cases hb)

theorem SA.Fits.closeOutput {a : SA} (h : a.Fits) (d : QDfa) (s : Str) (pos : Nat) (e : Elt) : (a.closeOutput d s pos e).Fits := by
  unfold SA.closeOutput
  split
  · split
    · exact (h.addTuple _ _).of rfl (fun hb => by
        simp only [Bool.or_eq_false_iff] at hb; exact hb.1.1)
    · exact h
  · exact h

theorem SA.Fits.rcbOutput {a : SA} (h : a.Fits) (d : QDfa) (s : Str) (pos : Nat) : (rcbOutput d s pos a).Fits := by
  unfold JPS.rcbOutput
  dsimp only
  split
  · exact (h.closeOutput d s pos a.elt).of rfl id
  · exact h.closeOutput d s pos a.elt

theorem SA.Fits.step {a : SA} (h : a.Fits) (d : QDfa) (s : Str) (t : Tok) : (step d s a t).Fits := by
  cases t with
  | lcb p =>
    simp only [JPS.step, stepLcb]
    have h' : ({ a with ss := push a.ss .lcb } : SA).Fits := h.of rfl id
    split
    · exact h'.of rfl id
    · exact h'.addTuple _ _
    · exact h'.addTuple _ _
    · exact h'
  | rcb p =>
    simp only [JPS.step, stepRcb]
    have h' := h.rcbOutput d s p
    split
    · exact h'.of rfl id
    · split
      · split
        · exact h'.popQ.of rfl id
        · split
          · split
            · exact SA.Fits.addTuple (h'.of rfl id) _ _
            · exact h'.of rfl id
          · exact h'
      · exact h'
  | lb p =>
    simp only [JPS.step, stepLb]
    split
    · exact h.of rfl id
    · exact (h.addTuple _ _).of rfl id
    · exact h.of rfl id
  | rb p =>
    simp only [JPS.step, stepRb]
    have key : ∀ b : SA, b.Fits → SA.Fits (if b.ss.length = 1 then { b.popQ with ss := pop b.popQ.ss }
        else if secondTop b.ss = some .ky then
          { ({ b with qs := pop b.qs } : SA).popQ with ss := pop (pop ({ b with qs := pop b.qs } : SA).popQ.ss) }
        else if secondTop b.ss = some .lb then
          { b.popQ with ss := pop b.popQ.ss, elt := { b.popQ.elt with count := b.popQ.elt.count + 1 } }
        else b) := by
      intro b h'
      split
      · exact h'.popQ.of rfl id
      · split
        · exact (SA.Fits.popQ (a := { b with qs := pop b.qs }) (h'.of rfl id)).of rfl id
        · split
          · exact h'.popQ.of rfl id
          · exact h'
    split
    · refine key _ ?_
      split
      · exact h.closeOutput _ _ _ _
      · exact h
    · exact h
  | com => exact h
  | ky k => exact h.of rfl id
  | pri x =>
    simp only [JPS.step, stepPri]
    have key : ∀ b : SA, b.Fits → SA.Fits (if top b.ss = some .ky then { b.popQ with ss := pop b.popQ.ss }
        else if top b.ss = some .lb then { b with elt := { b.elt with count := b.elt.count + 1 } }
        else b) := by
      intro b h'
      split
      · exact h'.popQ.of rfl id
      · split
        · exact h'.of rfl id
        · exact h'
    split
    · refine key _ ?_
      split
      · exact h.addTuple _ _
      · exact h.addTuple _ _
      · exact h
    · exact h

theorem SA.Fits.run (d : QDfa) (s : Str) : ∀ (ts : List Tok) {a : SA}, a.Fits → (runToks d s a ts).Fits
  | [], _, h => h
  | t :: ts, _, h => SA.Fits.run d s ts (h.step d s t)

theorem exec_fits (d : QDfa) (s : Str) : (execAutomaton d s SA.init).Fits := by
  rw [execAutomaton_eq]
  refine (SA.Fits.run d s (lexAll s) (a := SA.init) ?_).of rfl (fun hb => ?_)
  · intro _; exact ⟨fun t ht => by simp [SA.init] at ht, by simp [SA.init]⟩
  · simp only [SA.orUb, Bool.or_eq_false_iff] at hb; exact hb.1

/-! ### Keys that fit into the buffer of the pruning code -/

theorem shortKeys_append {xs ys : List Tok} : shortKeys (xs ++ ys) ↔ shortKeys xs ∧ shortKeys ys := by
  unfold shortKeys
  constructor
  · exact fun h => ⟨fun t ht => h t (List.mem_append_left _ ht), fun t ht => h t (List.mem_append_right _ ht)⟩
  · rintro ⟨h1, h2⟩ t ht
    exact (List.mem_append.1 ht).elim (h1 t) (h2 t)

theorem shortKeys_nil : shortKeys [] := fun t ht => by simp at ht

theorem shortKeys_cons {t : Tok} {ts : List Tok} : shortKeys (t :: ts) ↔ shortKeys [t] ∧ shortKeys ts := by
  rw [← shortKeys_append]; rfl

theorem shortKeys_shift {k : Nat} {ts : List Tok} : shortKeys (ts.map (Tok.shift k)) ↔ shortKeys ts := by
  unfold shortKeys
  constructor
  · intro h t ht x e
    exact h _ (List.mem_map_of_mem ht) x (by rw [e]; rfl)
  · intro h t ht x e
    obtain ⟨y, hy, rfl⟩ := List.mem_map.1 ht
    refine h y hy x ?_
    cases y <;> simp [Tok.shift] at e
    rw [e]

theorem shortKeys_other {t : Tok} (h : ∀ k, t ≠ .ky k) : shortKeys [t] := by
  intro x hx k e
  simp only [List.mem_singleton] at hx
  exact absurd (hx ▸ e) (h k)

theorem shortKeys_ky {k : Str} (h : k.length ≤ 98) : shortKeys [.ky k] := by
  intro x hx k' e
  simp only [List.mem_singleton] at hx
  rw [hx] at e
  cases e
  have h2 : ¬ strcopyBytes k.length > MAX_KEY_TEXT := by simp only [strcopyBytes, MAX_KEY_TEXT]; omega
  exact decide_eq_false h2

mutual
theorem shortKeys_doc (obs : Str → Str) (off : Nat) : ∀ v : J, v.keysWithin 98 = true → shortKeys (toks obs off v)
  | .lit _, _ => shortKeys_other (by intro k h; cases h)
  | .str _, _ => shortKeys_other (by intro k h; cases h)
  | .arr w es, h => by
    have := shortKeys_elems (off + 1 + w.length) es h
    simp only [toks, List.cons_append]
    rw [shortKeys_cons, shortKeys_append]
    exact ⟨shortKeys_other (by intro k h; cases h), this, shortKeys_other (by intro k h; cases h)⟩
  | .obj w ms, h => by
    have := shortKeys_members (off + 1 + w.length) ms h
    simp only [toks, List.cons_append]
    rw [shortKeys_cons, shortKeys_append]
    exact ⟨shortKeys_other (by intro k h; cases h), this, shortKeys_other (by intro k h; cases h)⟩
theorem shortKeys_elems (off : Nat) : ∀ es : Elems, es.keysWithin 98 = true → shortKeys (toksE off es)
  | .nil, _ => shortKeys_nil
  | .cons pre v post rest, h => by
    simp only [Elems.keysWithin, Bool.and_eq_true] at h
    simp only [toksE, shortKeys_append]
    refine ⟨shortKeys_doc _ _ v h.1, ?_⟩
    have hr := shortKeys_elems (off + pre.length + v.render.length + post.length + 1) rest h.2
    cases rest with
    | nil => exact shortKeys_nil
    | cons a b c d => simp only [Elems.sep]; rw [shortKeys_cons]; exact ⟨shortKeys_other (by intro k h; cases h), hr⟩
theorem shortKeys_members (off : Nat) : ∀ ms : Members, ms.keysWithin 98 = true → shortKeys (toksM off ms)
  | .nil, _ => shortKeys_nil
  | .cons pre k mid pre2 v post rest, h => by
    simp only [Members.keysWithin, Bool.and_eq_true, decide_eq_true_eq] at h
    simp only [toksM, List.cons_append]
    rw [shortKeys_cons, shortKeys_append]
    refine ⟨shortKeys_ky h.1.1, shortKeys_doc _ _ v h.1.2, ?_⟩
    have hr := shortKeys_members (off + pre.length + (k.length + 2) + mid.length + 1 + pre2.length + v.render.length + post.length + 1)
      rest h.2
    cases rest with
    | nil => exact shortKeys_nil
    | cons a b c d e f g => simp only [Members.sep]; rw [shortKeys_cons]; exact ⟨shortKeys_other (by intro k h; cases h), hr⟩
end

/-! ### The chunks of a document -/

variable {pre trail : Str} {v : J} {ps : List Str}

theorem doc_chunksSmall (d : QDfa) {D : Nat} (h : DocOK pre trail v) (hsp : pre.head? ≠ some ' ')
    (hps : ps.flatten = pre ++ v.render ++ trail) (hne : [] ∉ ps) (hcut : CutsAtStrings pre v ps)
    (hq : ∀ xs ys, ps = xs ++ ys → xs ≠ [] → ys ≠ [] → ∃ r, (pre ++ v.render ++ trail).drop xs.flatten.length = '"' :: r)
    (hnest : v.nest < D) (hdep : v.depth < MAX_STACK) (hshort : v.short 996 = true)
    (hcount : 2 * d.statesNum * (lexAll (pre ++ v.render ++ trail)).length ≤ MAX_TUPLE_LIST) :
    ∀ (cs xs : List Str) (a : SA), ps = xs ++ cs → a.Is (ctlRun d Ctl.init (pieceToks 0 xs)) → ChunksSmall d D a cs
  | [], _, _, _, _ => trivial
  | c :: cs, xs, a, e, ha => by
    obtain ⟨h1, h2, hadj⟩ := doc_pieceToks h hps hne hcut
    have hbnd := bounded_value (L := MAX_STACK - 1) (D := D - 1) (by omega) v id pre.length [] (.inl rfl)
      (by simp only [List.length_nil]; omega) (by simp only [nk]; omega)
    have hsh := shortToks_doc id pre.length v h.container hshort
    rw [← h2, e, pieceToks_append, Nat.zero_add, bounded_append, pieceToks, bounded_append, bounded_shift] at hbnd
    obtain ⟨b1, b2, b3⟩ := hbnd
    rw [← h2, e, pieceToks_append, Nat.zero_add, shortToks_append, pieceToks, shortToks_append, shortToks_shift] at hsh
    obtain ⟨s1, s2, s3⟩ := hsh
    have hass : a.ss = (pieceToks 0 xs).foldl ssStep [] := by rw [← ha.ss, ctlRun_ss]; rfl
    rw [← hass] at b2
    have hxc : pieceToks 0 (xs ++ [c]) = pieceToks 0 xs ++ (lexAll c).map (Tok.shift xs.flatten.length) := by
      rw [pieceToks_append]; simp [pieceToks]
    have ha' : ({ a with tl := [] } : SA).Is (ctlRun d Ctl.init (pieceToks 0 xs)) := ⟨ha.e, ha.ss, ha.q⟩
    have hb := ha'.exec (d := d) (s := c) xs.flatten.length
    rw [← ctlRun_append, ← hxc] at hb
    have hlen : (lexAll c).length ≤ (lexAll (pre ++ v.render ++ trail)).length := by
      rw [h1, ← h2, e, pieceToks_append, pieceToks]
      simp only [List.length_append, List.length_map]
      omega
    refine ⟨?_, ?_, s2, ?_, ?_, doc_chunksSmall d h hsp hps hne hcut hq hnest hdep hshort hcount cs (xs ++ [c]) _ (by rw [e]; simp) hb⟩
    · by_cases hx : xs = []
      · subst hx
        have hl : lead (pre ++ v.render ++ trail) = 0 := h.lead hsp
        rw [← hps, e] at hl
        simp only [List.nil_append, List.flatten_cons] at hl
        cases c with
        | nil => exact absurd (by rw [e]; simp) hne
        | cons z c => simpa [lead] using hl
      · obtain ⟨r, hr⟩ := hq xs (c :: cs) e hx (by simp)
        rw [← hps, e, List.flatten_append, List.drop_left, List.flatten_cons] at hr
        cases c with
        | nil => exact absurd (by rw [e]; simp) hne
        | cons z c =>
          simp only [List.cons_append, List.cons.injEq] at hr
          rw [hr.1]; rfl
    · have := bounded_shallow b2
      rwa [show D - 1 + 1 = D by omega] at this
    · exact Nat.le_trans (Nat.mul_le_mul_left _ hlen) hcount
    · have := (bounded_now b2).1
      simp only [MAX_STACK] at this ⊢; omega

theorem doc_chunksKeys (h : DocOK pre trail v) (hps : ps.flatten = pre ++ v.render ++ trail) (hne : [] ∉ ps)
    (hcut : CutsAtStrings pre v ps) (hk : v.keysWithin 98 = true) : ∀ c ∈ ps, shortKeys (lexAll c) := by
  intro c hc
  obtain ⟨h1, h2, _⟩ := doc_pieceToks h hps hne hcut
  obtain ⟨xs, cs, e⟩ := List.append_of_mem hc
  have hsh := shortKeys_doc id pre.length v hk
  rw [← h2, e, pieceToks_append, Nat.zero_add, shortKeys_append, pieceToks, shortKeys_append, shortKeys_shift] at hsh
  exact hsh.2.1

end JPS
