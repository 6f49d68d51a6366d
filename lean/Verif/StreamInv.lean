import Verif.EmitV
/-!
# Invariants of the streaming automaton on arbitrary inputs, and stack heights
-/
set_option autoImplicit false

namespace JPS
open Spec

/-! ### Results on arbitrary inputs -/

/-- Offset `b` holds an opening bracket. -/
def OpenAt (s : Str) (b : Nat) : Prop := s[b]? = some '{' ∨ s[b]? = some '['
/-- Offset `e - 1` holds a closing bracket. -/
def CloseAt (s : Str) (e : Nat) : Prop := 0 < e ∧ (s[e - 1]? = some '}' ∨ s[e - 1]? = some ']')

/-- What the automaton may report. -/
def Reported (s : Str) (scal : List Str) (t : Str) : Prop :=
  t = [] ∨ t = ['{'] ∨ t = ['}'] ∨ t ∈ scal ∨
    ∃ b e, b < e ∧ OpenAt s b ∧ CloseAt s e ∧ t = substring s b e

/-- Remembered start positions are opening brackets before `n`. -/
def MsOk (s : Str) (n : Nat) (e : Elt) : Prop := ∀ b, e.ms = some b → b < n ∧ OpenAt s b

/-- The invariant. -/
structure Inv (s : Str) (scal : List Str) (n : Nat) (a : SA) : Prop where
  elt : MsOk s n a.elt
  qs : ∀ e ∈ a.qs, MsOk s n e
  tl : ∀ t ∈ a.tl, Reported s scal t.text

theorem MsOk.mono {s : Str} {n m : Nat} {e : Elt} (h : MsOk s n e) (hnm : n ≤ m) : MsOk s m e :=
  fun b hb => ⟨Nat.lt_of_lt_of_le (h b hb).1 hnm, (h b hb).2⟩

theorem Inv.mono {s : Str} {scal : List Str} {n m : Nat} {a : SA} (h : Inv s scal n a)
    (hnm : n ≤ m) : Inv s scal m a :=
  ⟨h.elt.mono hnm, fun e he => (h.qs e he).mono hnm, h.tl⟩

theorem Inv.addTuple {s : Str} {scal : List Str} {n : Nat} {a : SA} (h : Inv s scal n a)
    (st : Nat) {t : Str} (ht : Reported s scal t) : Inv s scal n (a.addTuple st t) := by
  refine ⟨h.elt, h.qs, ?_⟩
  intro u hu
  simp only [SA.addTuple, List.mem_append, List.mem_singleton] at hu
  rcases hu with hu | rfl
  · exact h.tl u hu
  · exact ht

theorem Inv.withUb {s : Str} {scal : List Str} {n : Nat} {a : SA} (h : Inv s scal n a) (b : Bool) :
    Inv s scal n { a with ub := b } := ⟨h.elt, h.qs, h.tl⟩

theorem Inv.withSs {s : Str} {scal : List Str} {n : Nat} {a : SA} (h : Inv s scal n a)
    (ss : List Sym) : Inv s scal n { a with ss := ss } := ⟨h.elt, h.qs, h.tl⟩

theorem Inv.withCount {s : Str} {scal : List Str} {n : Nat} {a : SA} (h : Inv s scal n a) (c : Nat) :
    Inv s scal n { a with elt := { a.elt with count := c } } := ⟨h.elt, h.qs, h.tl⟩

theorem Inv.popQ {s : Str} {scal : List Str} {n : Nat} {a : SA} (h : Inv s scal n a) :
    Inv s scal n a.popQ := by
  unfold SA.popQ
  cases hq : a.qs with
  | nil => exact ⟨h.elt, by simp [hq], h.tl⟩
  | cons e qs =>
    exact ⟨h.qs e (by simp [hq]), fun e' he' => h.qs e' (by simp [hq, he']), h.tl⟩

theorem mem_push {α : Type} {x y : α} {l : List α} (h : y ∈ push l x) : y = x ∨ y ∈ l := by
  unfold push at h
  split at h
  · simpa using h
  · exact Or.inr h

theorem Inv.closeOutput {s : Str} {scal : List Str} {n p : Nat} {a : SA} (h : Inv s scal n a)
    (d : QDfa) {e : Elt} (he : MsOk s n e) (hnp : n < p) (hp : CloseAt s p) :
    Inv s scal n (a.closeOutput d s p e) := by
  unfold SA.closeOutput
  cases hm : e.ms with
  | none => exact h
  | some b =>
    simp only
    split
    · obtain ⟨h1, h2⟩ := he b hm
      exact (h.addTuple _ (Or.inr (Or.inr (Or.inr (Or.inr ⟨b, p, by omega, h2, hp, rfl⟩))))).withUb _
    · exact h

theorem inv_step (d : QDfa) (s : Str) (scal : List Str) (n m : Nat) (a : SA) (t : Tok)
    (h : Inv s scal n a) (ht : TokAt s t)
    (hpos : match t with
      | .lcb p | .rcb p | .lb p | .rb p => n < p ∧ m = p
      | _ => m = n)
    (hscal : ∀ x, t = .pri x → x ∈ scal) :
    Inv s scal m (step d s a t) := by
  cases t with
  | lcb p =>
    obtain ⟨hn, rfl⟩ := hpos
    have h := (h.mono (Nat.le_of_lt hn)).withSs (push a.ss .lcb)
    simp only [step, stepLcb]
    split
    · refine ⟨?_, h.qs, h.tl⟩
      intro b hb
      simp only [Option.some.injEq] at hb
      subst hb
      exact ⟨by omega, Or.inl ht.2⟩
    · exact h.addTuple _ (Or.inr (Or.inl rfl))
    · exact h.addTuple _ (Or.inl rfl)
    · exact h
  | rcb p =>
    obtain ⟨hn, rfl⟩ := hpos
    have h1 : Inv s scal m (rcbOutput d s m a) := by
      have hc := (h.closeOutput d h.elt hn ⟨ht.1, Or.inl ht.2⟩).mono (Nat.le_of_lt hn)
      unfold rcbOutput
      simp only
      split
      · exact ⟨fun b hb => by simp at hb, hc.qs, hc.tl⟩
      · exact hc
    simp only [step, stepRcb]
    generalize rcbOutput d s m a = a' at h1
    split
    · exact h1.withSs _
    · split
      · split
        · exact h1.popQ.withSs _
        · split
          · split
            · refine Inv.addTuple (a := { a' with ss := pop a'.ss, elt := { a'.elt with count := a'.elt.count + 1 } }) ⟨h1.elt, h1.qs, h1.tl⟩ _ (Or.inr (Or.inr (Or.inl rfl)))
            · exact ⟨h1.elt, h1.qs, h1.tl⟩
          · exact h1
      · exact h1
  | lb p =>
    obtain ⟨hn, rfl⟩ := hpos
    have h := h.mono (Nat.le_of_lt hn)
    have hgen : ∀ a' : SA, Inv s scal m a' →
        Inv s scal m { a' with ss := push a'.ss .lb, qs := push a'.qs a'.elt,
                               elt := d.enter a'.elt none } := by
      intro a' h'
      refine ⟨fun b hb => by simp [QDfa.enter] at hb, ?_, h'.tl⟩
      intro e he
      rcases mem_push he with rfl | he
      · exact h'.elt
      · exact h'.qs e he
    simp only [step, stepLb]
    apply hgen
    split
    · refine ⟨?_, h.qs, h.tl⟩
      intro b hb
      simp only [Option.some.injEq] at hb
      subst hb
      exact ⟨by omega, Or.inr ht.2⟩
    · exact h.addTuple _ (Or.inl rfl)
    · exact h
  | rb p =>
    obtain ⟨hn, rfl⟩ := hpos
    simp only [step, stepRb]
    split
    · have hgen : ∀ a' : SA, Inv s scal m a' → Inv s scal m
          (if a'.ss.length = 1 then { a'.popQ with ss := pop a'.popQ.ss }
           else if secondTop a'.ss = some .ky then
             { ({ a' with qs := pop a'.qs } : SA).popQ with
               ss := pop (pop ({ a' with qs := pop a'.qs } : SA).popQ.ss) }
           else if secondTop a'.ss = some .lb then
             { a'.popQ with ss := pop a'.popQ.ss,
                            elt := { a'.popQ.elt with count := a'.popQ.elt.count + 1 } }
           else a') := by
        intro a' h1
        split
        · exact h1.popQ.withSs _
        · split
          · have h2 : Inv s scal m { a' with qs := pop a'.qs } :=
              ⟨h1.elt, fun e he => h1.qs e (List.mem_of_mem_tail he), h1.tl⟩
            exact h2.popQ.withSs _
          · split
            · exact ⟨h1.popQ.elt, h1.popQ.qs, h1.popQ.tl⟩
            · exact h1
      apply hgen
      split
      · rename_i e he
        have hmem : e ∈ a.qs := by
          cases hq : a.qs with
          | nil => simp [top, hq] at he
          | cons x l => simp [top, hq] at he; simp [he]
        exact (h.closeOutput d (h.qs e hmem) hn ⟨ht.1, Or.inr ht.2⟩).mono (Nat.le_of_lt hn)
      · exact h.mono (Nat.le_of_lt hn)
    · exact h.mono (Nat.le_of_lt hn)
  | com => subst hpos; exact h
  | ky k =>
    subst hpos
    simp only [step, stepKy]
    refine ⟨fun b hb => by simp [QDfa.enter] at hb, ?_, h.tl⟩
    intro e he
    rcases mem_push he with rfl | he
    · exact h.elt
    · exact h.qs e he
  | pri x =>
    subst hpos
    have hx := hscal x rfl
    simp only [step, stepPri]
    split
    · have hgen : ∀ a' : SA, Inv s scal m a' → Inv s scal m
          (if top a'.ss = some .ky then { a'.popQ with ss := pop a'.popQ.ss }
           else if top a'.ss = some .lb then
             { a' with elt := { a'.elt with count := a'.elt.count + 1 } }
           else a') := by
        intro a' h1
        split
        · exact h1.popQ.withSs _
        · split
          · exact h1.withCount _
          · exact h1
      apply hgen
      split
      · exact h.addTuple _ (Or.inr (Or.inr (Or.inr (Or.inl hx))))
      · exact h.addTuple _ (Or.inr (Or.inr (Or.inr (Or.inl hx))))
      · exact h
    · exact h

theorem inv_run (d : QDfa) (s : Str) (scal : List Str) : ∀ (k : Nat) (lx : Lexer) (n : Nat) (a : SA),
    n ≤ lx.nxt → Inv s scal n a → (∀ x, Tok.pri x ∈ lexFrom s k lx → x ∈ scal) →
    ∀ t ∈ (runToks d s a (lexFrom s k lx)).tl, Reported s scal t.text := by
  intro k
  induction k with
  | zero => intro lx n a _ h _; exact h.tl
  | succ k ih =>
    intro lx n a hn h hx
    rcases hp : nextToken_progress s lx with ⟨he, _⟩ | ⟨hne, hlt, _⟩
    · simp only [lexFrom, he, RTok.toTok, runToks_nil]; exact h.tl
    · simp only [lexFrom] at hx ⊢
      rcases ht : (nextToken s lx).1.toTok (nextToken s lx).2 with _ | t
      · simp only [runToks_nil]; exact h.tl
      · rw [ht] at hx
        simp only at hx ⊢
        rw [runToks_cons]
        have hat := lexLoop_tokAt s lx _ _ _ _ _ _ rfl ht
        have hst : ∃ m ≤ (nextToken s lx).2.nxt, Inv s scal m (step d s a t) := by
          have hmain := fun m hm => inv_step d s scal n m a t h hat hm (fun x hx' => hx x (by simp [hx']))
          cases h1 : (nextToken s lx).1 <;> rw [h1] at ht <;>
            simp only [RTok.toTok, Option.some.injEq, reduceCtorEq] at ht <;> subst ht
          · exact ⟨_, Nat.le_refl _, hmain _ ⟨by omega, rfl⟩⟩
          · exact ⟨_, Nat.le_refl _, hmain _ ⟨by omega, rfl⟩⟩
          · exact ⟨_, Nat.le_refl _, hmain _ ⟨by omega, rfl⟩⟩
          · exact ⟨_, Nat.le_refl _, hmain _ ⟨by omega, rfl⟩⟩
          · exact ⟨n, by omega, hmain _ rfl⟩
          · exact ⟨n, by omega, hmain _ rfl⟩
          · exact ⟨n, by omega, hmain _ rfl⟩
        obtain ⟨m, hm, hI⟩ := hst
        exact ih _ m _ hm hI (fun x hx' => hx x (by simp [hx']))

/-! ### Stack heights -/

/-- Brackets opened minus brackets closed. -/
def net : List Tok → Int
  | [] => 0
  | .lcb _ :: ts => net ts + 1
  | .lb _ :: ts => net ts + 1
  | .rcb _ :: ts => net ts - 1
  | .rb _ :: ts => net ts - 1
  | _ :: ts => net ts

theorem net_append (a b : List Tok) : net (a ++ b) = net a + net b := by
  induction a with
  | nil => simp [net]
  | cons t a ih => cases t <;> simp only [List.cons_append, net, ih] <;> omega

/-- Heights are bounded on all prefixes. -/
def Low (d : QDfa) (s : Str) (a : SA) (x y : Int) (ts : List Tok) : Prop :=
  ∀ p, p <+: ts → ((runToks d s a p).ss.length : Int) ≤ x + 2 * net p ∧
    ((runToks d s a p).qs.length : Int) ≤ y + net p

theorem prefix_append {α : Type} : ∀ {xs p ys : List α}, p <+: xs ++ ys →
    p <+: xs ∨ ∃ q, p = xs ++ q ∧ q <+: ys
  | [], p, ys, h => Or.inr ⟨p, rfl, h⟩
  | x :: xs, p, ys, h => by
    rcases List.prefix_cons_iff.1 h with rfl | ⟨q, rfl, hq⟩
    · exact Or.inl (List.nil_prefix)
    · rcases prefix_append hq with h | ⟨r, rfl, hr⟩
      · exact Or.inl (List.cons_prefix_cons.2 ⟨rfl, h⟩)
      · exact Or.inr ⟨r, rfl, hr⟩

theorem Low.append {d : QDfa} {s : Str} {a : SA} {x y : Int} {ts us : List Tok}
    (h1 : Low d s a x y ts)
    (h2 : Low d s (runToks d s a ts) (x + 2 * net ts) (y + net ts) us) : Low d s a x y (ts ++ us) := by
  intro p hp
  rcases prefix_append hp with h | ⟨q, rfl, hq⟩
  · exact h1 p h
  · rw [runToks_append, net_append]
    have := h2 q hq
    constructor <;> omega

theorem Low.weaken {d : QDfa} {s : Str} {a : SA} {x y x' y' : Int} {ts : List Tok}
    (h : Low d s a x y ts) (hx : x ≤ x') (hy : y ≤ y') : Low d s a x' y' ts := by
  intro p hp
  have := h p hp
  constructor <;> omega

theorem Low.single {d : QDfa} {s : Str} {a : SA} {x y : Int} {t : Tok}
    (h0 : (a.ss.length : Int) ≤ x ∧ (a.qs.length : Int) ≤ y)
    (h1 : ((step d s a t).ss.length : Int) ≤ x + 2 * net [t] ∧
      ((step d s a t).qs.length : Int) ≤ y + net [t]) : Low d s a x y [t] := by
  intro p hp
  rcases List.prefix_cons_iff.1 hp with rfl | ⟨q, rfl, hq⟩
  · simpa [net] using h0
  · have : q = [] := List.prefix_nil.1 hq
    subst this; exact h1

theorem Low.cons {d : QDfa} {s : Str} {a : SA} {x y : Int} {t : Tok} {ts : List Tok}
    (h0 : (a.ss.length : Int) ≤ x ∧ (a.qs.length : Int) ≤ y)
    (h1 : Low d s (step d s a t) (x + 2 * net [t]) (y + net [t]) ts) : Low d s a x y (t :: ts) := by
  intro p hp
  rcases List.prefix_cons_iff.1 hp with rfl | ⟨q, rfl, hq⟩
  · simpa [net] using h0
  · have h := h1 q hq
    have hn : net (t :: q) = net [t] + net q := by rw [← net_append]; rfl
    rw [hn, runToks_cons]
    constructor <;> omega

mutual
theorem net_toks (obs : Str → Str) (off : Nat) : ∀ v : J, net (toks obs off v) = 0
  | .lit _ => rfl
  | .str _ => rfl
  | .arr w es => by
    rw [toks, List.cons_append]
    simp only [net, net_append, net_toksE _ es]; omega
  | .obj w ms => by
    rw [toks, List.cons_append]
    simp only [net, net_append, net_toksM _ ms]; omega
theorem net_toksE (off : Nat) : ∀ es : Elems, net (toksE off es) = 0
  | .nil => rfl
  | .cons pre v post rest => by
    rw [toksE, net_append, net_toks _ _ v]
    have := fun o => net_toksE o rest
    cases rest with
    | nil => rfl
    | cons => simpa only [Elems.sep, net, Int.zero_add] using this _
theorem net_toksM (off : Nat) : ∀ ms : Members, net (toksM off ms) = 0
  | .nil => rfl
  | .cons pre k mid pre2 v post rest => by
    rw [toksM, List.cons_append]
    simp only [net, net_append]
    rw [net_toks _ _ v]
    have := fun o => net_toksM o rest
    cases rest with
    | nil => rfl
    | cons => simpa only [Members.sep, net, Int.zero_add] using this _
end

theorem stepPri_low (d : QDfa) (t : Str) (a : SA) :
    (stepPri d t a).ss.length ≤ a.ss.length ∧ (stepPri d t a).qs.length ≤ a.qs.length := by
  have hp : ∀ a : SA, a.popQ.ss = a.ss ∧ a.popQ.qs.length ≤ a.qs.length := by
    intro a; unfold SA.popQ; cases a.qs <;> simp
  unfold stepPri
  split
  · have hgen : ∀ a' : SA, a'.ss = a.ss → a'.qs = a.qs →
        (if top a'.ss = some .ky then { a'.popQ with ss := pop a'.popQ.ss }
           else if top a'.ss = some .lb then
             { a' with elt := { a'.elt with count := a'.elt.count + 1 } }
           else a' : SA).ss.length ≤ a.ss.length ∧
        (if top a'.ss = some .ky then { a'.popQ with ss := pop a'.popQ.ss }
           else if top a'.ss = some .lb then
             { a' with elt := { a'.elt with count := a'.elt.count + 1 } }
           else a' : SA).qs.length ≤ a.qs.length := by
      intro a' e1 e2
      split
      · have := hp a'
        simp only [pop, List.length_tail, e1, this.1]
        exact ⟨by omega, by rw [← e2]; exact this.2⟩
      · split <;> simp [e1, e2]
    apply hgen
    · split <;> simp
    · split <;> simp
  · simp


theorem Low.snoc {d : QDfa} {s : Str} {a : SA} {x y : Int} {ts : List Tok} {t : Tok}
    (h : Low d s a x y ts)
    (h1 : ((runToks d s a (ts ++ [t])).ss.length : Int) ≤ x + 2 * net (ts ++ [t]) ∧
      ((runToks d s a (ts ++ [t])).qs.length : Int) ≤ y + net (ts ++ [t])) :
    Low d s a x y (ts ++ [t]) := by
  intro p hp
  rcases prefix_append hp with hp | ⟨q, rfl, hq⟩
  · exact h p hp
  · rcases List.prefix_cons_iff.1 hq with rfl | ⟨r, rfl, hr⟩
    · simpa using h ts (List.prefix_refl _)
    · have : r = [] := List.prefix_nil.1 hr
      subst this; exact h1

/-- The configurations in which a value may start. -/
def Ready (a : SA) : Prop :=
  (∃ ss e qs, a.ss = .ky :: ss ∧ a.qs = e :: qs) ∨ (∃ ss, a.ss = .lb :: ss)

theorem ready_full (d : QDfa) (s : Str) (hl : lead s = 0) (v : J) (obs : Str → Str) (off : Nat)
    (tail : Str) (hs : s.drop off = v.render ++ tail) (a : SA)
    (h : Ready a ∨ (a.ss = [] ∧ v.isContainer = true))
    (hd : a.ss.length + v.depth ≤ MAX_STACK) (hq : a.qs.length + v.depth ≤ MAX_STACK) :
    (runToks d s a (toks obs off v)).ss.length ≤ a.ss.length ∧
      (runToks d s a (toks obs off v)).qs.length ≤ a.qs.length := by
  rcases h with (⟨ss, e, qs, h1, h2⟩ | ⟨ss, h1⟩) | ⟨h1, hc⟩
  · rw [(run_value d s hl v obs off tail hs).1 a ss e qs h1 h2 hd hq]
    simp [h1, h2]
  · obtain ⟨ms', hr⟩ := (run_value d s hl v obs off tail hs).2 a ss h1 hd hq
    rw [hr]; simp
  · obtain ⟨ms', hr⟩ := run_root d s hl v obs off tail hs hc a h1 (by simp [h1] at hd; omega) hq
    rw [hr]; simp [h1]

mutual
theorem low_value (d : QDfa) (s : Str) (hl : lead s = 0) : ∀ (v : J) (obs : Str → Str) (off : Nat)
    (tail : Str), s.drop off = v.render ++ tail → ∀ a : SA,
    (Ready a ∨ (a.ss = [] ∧ v.isContainer = true)) →
    a.ss.length + v.depth ≤ MAX_STACK → a.qs.length + v.depth ≤ MAX_STACK →
    Low d s a a.ss.length a.qs.length (toks obs off v)
  | .lit t, obs, off, tail, hs, a, h, hd, hq => by
    have := stepPri_low d (obs t) a
    refine Low.single ⟨by omega, by omega⟩ ?_
    simp only [step, net]; omega
  | .str r, obs, off, tail, hs, a, h, hd, hq => by
    have := stepPri_low d ('"' :: r ++ ['"']) a
    refine Low.single ⟨by omega, by omega⟩ ?_
    simp only [step, net]; omega
  | .arr w es, obs, off, tail, hs, a, h, hd, hq => by
    have hfull := ready_full d s hl (.arr w es) obs off tail hs a h hd hq
    have hnet := net_toks obs off (.arr w es)
    have hes : s.drop (off + 1 + w.length) = es.render ++ (']' :: tail) := by
      have h1 : s.drop off = ('[' :: w) ++ es.render ++ (']' :: tail) := by
        rw [hs]; simp [J.render]
      have := drop_cons_append h1
      rw [← this]; congr 1; simp; omega
    rw [J.depth] at hd hq
    rw [toks] at hfull hnet ⊢
    refine Low.snoc ?_ (by rw [hnet]; omega)
    refine Low.cons (by omega) ?_
    simp only [step, net]
    rw [stepLb_eq d _ a (by omega) (by omega)]
    refine (low_elems d s hl es _ _ hes _ a.ss (ctl_ss _ _ _ _) (by simp; omega)
      (by simp; omega)).weaken (by simp) (by simp)
  | .obj w ms, obs, off, tail, hs, a, h, hd, hq => by
    have hfull := ready_full d s hl (.obj w ms) obs off tail hs a h hd hq
    have hnet := net_toks obs off (.obj w ms)
    have hes : s.drop (off + 1 + w.length) = ms.render ++ ('}' :: tail) := by
      have h1 : s.drop off = ('{' :: w) ++ ms.render ++ ('}' :: tail) := by
        rw [hs]; simp [J.render]
      have := drop_cons_append h1
      rw [← this]; congr 1; simp; omega
    rw [J.depth] at hd hq
    rw [toks] at hfull hnet ⊢
    refine Low.snoc ?_ (by rw [hnet]; omega)
    refine Low.cons (by omega) ?_
    simp only [step, net]
    rw [stepLcb_eq d _ a (by omega)]
    refine (low_members d s hl ms _ _ hes _ (by simp; omega)
      (by simp; omega)).weaken (by simp; omega) (by simp)
theorem low_elems (d : QDfa) (s : Str) (hl : lead s = 0) :
    ∀ (es : Elems) (off : Nat) (tail : Str), s.drop off = es.render ++ tail →
      ∀ (a : SA) (ss : List Sym), a.ss = .lb :: ss →
        a.ss.length + es.depth ≤ MAX_STACK → a.qs.length + es.depth ≤ MAX_STACK →
        Low d s a a.ss.length a.qs.length (toksE off es)
  | .nil, off, tail, _ => by
    intro a ss h _ _ p hp
    have : p = [] := List.prefix_nil.1 hp
    subst this; simp [net]
  | .cons pre v post rest, off, tail, hs => by
    intro a ss h hd hdq
    rw [Elems.depth] at hd hdq
    obtain ⟨tl', hv⟩ : ∃ tl', s.drop (off + pre.length) = v.render ++ tl' := by
      rw [Elems.render, List.append_assoc (pre ++ v.render), List.append_assoc (pre ++ v.render)] at hs
      exact ⟨_, drop_cons_append hs⟩
    rw [toksE]
    refine Low.append (low_value d s hl v _ _ _ hv a (Or.inl (Or.inr ⟨ss, h⟩)) (by omega) (by omega)) ?_
    obtain ⟨ms', hstep⟩ := (run_value d s hl v (litObs false post (nextE rest)) _ _ hv).2 a ss h (by omega) (by omega)
    rw [hstep, net_toks]
    match rest, hs, hd, hdq with
    | .nil, hs, hd, hdq =>
      intro p hp
      have : p = [] := List.prefix_nil.1 hp
      subst this; simp [net]
    | .cons pre' v' post' rest', hs, hd, hdq =>
      have hrest : s.drop (off + pre.length + v.render.length + post.length + 1) =
          (Elems.cons pre' v' post' rest').render ++ tail := by
        have h1 : s.drop off = (pre ++ v.render ++ post ++ [',']) ++
            (Elems.cons pre' v' post' rest').render ++ tail := by
          rw [hs, Elems.render]; simp [Elems.sep]
        have := drop_cons_append h1
        rw [← this]; congr 1; simp; omega
      simp only [Elems.sep]
      refine Low.cons (by simp) ?_
      simp only [step, net]
      exact (low_elems d s hl (.cons pre' v' post' rest') _ _ hrest _ ss (by simp [h])
        (by simp only [ctl_ss]; omega) (by simp only [ctl_qs]; omega)).weaken (by simp) (by simp)
theorem low_members (d : QDfa) (s : Str) (hl : lead s = 0) :
    ∀ (ms : Members) (off : Nat) (tail : Str), s.drop off = ms.render ++ tail →
      ∀ (a : SA),
        a.ss.length + ms.depth ≤ MAX_STACK → a.qs.length + ms.depth ≤ MAX_STACK →
        Low d s a (a.ss.length + 1) (a.qs.length + 1) (toksM off ms)
  | .nil, off, tail, _ => by
    intro a _ _ p hp
    have : p = [] := List.prefix_nil.1 hp
    subst this; simp [net]; omega
  | .cons pre k mid pre2 v post rest, off, tail, hs => by
    intro a hd hdq
    rw [Members.depth] at hd hdq
    obtain ⟨tl', hv⟩ : ∃ tl', s.drop (off + pre.length + (k.length + 2) + mid.length + 1
        + pre2.length) = v.render ++ tl' := by
      rw [Members.render, List.append_assoc (_ ++ v.render), List.append_assoc (_ ++ v.render)] at hs
      refine ⟨post ++ rest.sep ',' rest.render ++ tail, ?_⟩
      rw [← drop_cons_append hs]; congr 1; simp; omega
    simp only [toksM, List.cons_append]
    refine Low.cons (by omega) ?_
    simp only [step, net]
    rw [stepKy_eq d k a (by omega) (by omega)]
    refine Low.append ((low_value d s hl v _ _ _ hv _ (Or.inl (Or.inl ⟨a.ss, a.elt, a.qs, rfl, rfl⟩))
      (by simp; omega) (by simp; omega)).weaken (by simp) (by simp)) ?_
    rw [(run_value d s hl v _ _ _ hv).1 _ a.ss a.elt a.qs (by simp) (by simp)
      (by simp; omega) (by simp; omega), net_toks]
    match rest, hs, hd, hdq with
    | .nil, hs, hd, hdq =>
      intro p hp
      have : p = [] := List.prefix_nil.1 hp
      subst this; simp [net]; omega
    | .cons pre' k' mid' pre2' v' post' rest', hs, hd, hdq =>
      have hrest : s.drop (off + pre.length + (k.length + 2) + mid.length + 1 + pre2.length
          + v.render.length + post.length + 1) =
          (Members.cons pre' k' mid' pre2' v' post' rest').render ++ tail := by
        have h1 : s.drop off = (pre ++ ('"' :: k ++ ['"']) ++ mid ++ (':' :: pre2) ++ v.render ++
            post ++ [',']) ++
            (Members.cons pre' k' mid' pre2' v' post' rest').render ++ tail := by
          rw [hs, Members.render]; simp [Members.sep]
        have := drop_cons_append h1
        rw [← this]; congr 1; simp; omega
      simp only [Members.sep]
      refine Low.cons (by simp; omega) ?_
      simp only [step, net]
      exact (low_members d s hl (.cons pre' k' mid' pre2' v' post' rest') _ _ hrest _
        (by simp; omega) (by simp; omega)).weaken (by simp) (by simp)
end

end JPS
