import Verif.Worklist
/-!
# `Lexer/regex_model.cpp`, `Lexer/regex_builder.cpp`, `Lexer/set_converter.cpp`

The regular expressions created for JSONPath (dfa_builder.cpp:143-172) are lists (`RegexList`
without `enableOr`, without operator) of one-letter items (`RegexChar` or the set `"^"`).
Only this class is modelled.  An item is identified by its index in the list instead of its
address; `nongreedy` is never set, so `keepout` stays false.
-/

namespace JPS

/-- `RegexExternOpt`, regex_model.hpp:38-43 (`re_optional` is not used by the compiler). -/
inductive Opt where
  | none | star | plus
deriving DecidableEq, Repr

/-- `RegexChar` (`ch = some c`, regex_model.hpp:158-204) or `RegexSet("^")` (`ch = none`,
211-258). -/
structure Item where
  ch : Option Nat
  opt : Opt
deriving DecidableEq, Repr

/-- `isEdge`, regex_model.hpp:175 and 230-232.  `SetConverter::Convert`, set_converter.cpp:8-31,
gives the set `"^"` all letters below 256. -/
def Item.edge (it : Item) (a : Nat) : Bool :=
  match it.ch with
  | none => decide (a < 256)
  | some c => a == c

/-- `BuildNullable` of an item, regex_model.cpp:62-65. -/
def Item.nullable (it : Item) : Bool := it.opt == .star

/-- The test of `RegexItem::BuildFollow`, regex_model.cpp:129. -/
def Item.rep (it : Item) : Bool := it.opt == .star || it.opt == .plus

/-- First loop of `RegexList::BuildFirstAndLast`, regex_model.cpp:115-119, on the items from
index `j` on; also the inner loop of `RegexList::BuildFollow`, 148-155. -/
def firstLoop : List Item → Nat → List Nat
  | [], _ => []
  | it :: r, j => j :: (if it.nullable then firstLoop r (j + 1) else [])

/-- Second loop of `RegexList::BuildFirstAndLast`, regex_model.cpp:120-124, on the reversed
list; `n` is the number of remaining items. -/
def lastLoop : List Item → List Nat
  | [] => []
  | it :: r => r.length :: (if it.nullable then lastLoop r else [])

/-- `lastpos` of the list. -/
def lastpos (items : List Item) : List Nat := lastLoop items.reverse

/-- `followpos` of the item with index `p`: regex_model.cpp:128-133 for the item itself and
147-155 for the items after it. -/
def follow (items : List Item) (p : Nat) : List Nat :=
  (match items[p]? with
   | some it => if it.rep then [p] else []
   | none => []) ++ firstLoop (items.drop (p + 1)) (p + 1)

/-- `followpos` including the local start item `ch` of `CreateDFA`, regex_builder.cpp:40-41,
which gets the index after the last item. -/
def followB (items : List Item) (p : Nat) : List Nat :=
  if p = items.length then firstLoop items 0 else follow items p

/-- `GetNextSet`, regex_builder.cpp:80-90, as an increasing list of indices. -/
def nextSet (items : List Item) (S : List Nat) (a : Nat) : List Nat :=
  (List.range items.length).filter fun f =>
    (match items[f]? with
     | some it => it.edge a
     | none => false) && S.any fun p => (followB items p).contains f

/-- The test `nextset.size() != 0`, regex_builder.cpp:57. -/
def bNext (items : List Item) (S : List Nat) (a : Nat) : Option (List Nat) :=
  if nextSet items S a = [] then none else some (nextSet items S a)

/-- `isTerminator` of a set: regex_builder.cpp:86 with `addTerminator`, regex_model.cpp:55-60. -/
def termSet (items : List Item) (S : List Nat) : Bool := S.any (lastpos items).contains

/-- A `DFASimple`: transition rows of states 1, 2, ... and their stop values
(dfa_simple.cpp:7-18, dfa.hpp:23-31). -/
structure SDfa where
  rows : List (List Nat)
  stops : List Nat
deriving Repr, DecidableEq

/-- `DFASimple::nextState`, dfa_simple.cpp:7-9 (only called with states from 1 on,
dfa_mixer.cpp:38). -/
def SDfa.next (d : SDfa) (s a : Nat) : Nat := rowsNext d.rows s a

/-- `isStopState`, dfa.hpp:23-26. -/
def SDfa.stop (d : SDfa) (s : Nat) : Nat := if s = 0 then 0 else (d.stops[s - 1]?).getD 0

/-- Enough iterations for the worklist of `CreateDFA`: there are `2^n` sets of items and the
start set. -/
def createFuel (items : List Item) : Nat := 2 ^ items.length + 2

/-- `RegexBuilder::CreateDFA`, regex_builder.cpp:35-78.  The stop value of a state is set when
it is pushed (64-66) and depends only on the set; the start state is never given one. -/
def createDFA (items : List Item) (m : Nat) : SDfa :=
  let r := wlLoop (bNext items) m (createFuel items) 0 [[items.length]] []
  { rows := r.2
    stops := r.1.map fun S => if termSet items S then 1 else 0 }

/-! ### Specification: the language of an item list -/

/-- Words matched by a list of items. -/
inductive Lang : List Item → List Nat → Prop
  | nil : Lang [] []
  | one {it r a w} : it.opt = .none → it.edge a = true → Lang r w → Lang (it :: r) (a :: w)
  | skip {it r w} : it.opt = .star → Lang r w → Lang (it :: r) w
  | more {it r a w} : it.opt = .star → it.edge a = true → Lang (it :: r) w → Lang (it :: r) (a :: w)
  | last {it r a w} : it.opt = .plus → it.edge a = true → Lang r w → Lang (it :: r) (a :: w)
  | again {it r a w} : it.opt = .plus → it.edge a = true → Lang (it :: r) w → Lang (it :: r) (a :: w)

/-- What may still be read of an item after it has read a letter. -/
def Item.after (it : Item) : List Item := if it.rep then [{ it with opt := .star }] else []

theorem edge_opt (it : Item) (o : Opt) (a : Nat) : ({ it with opt := o } : Item).edge a = it.edge a := rfl

theorem lang_plus_star {it : Item} {r : List Item} {w : List Nat} (hp : it.opt = .plus)
    (h : Lang (it :: r) w) : Lang ({ it with opt := .star } :: r) w := by
  generalize hL : it :: r = L at h
  induction h with
  | nil => cases hL
  | one h1 _ _ _ => cases hL; rw [hp] at h1; cases h1
  | skip h1 _ _ => cases hL; rw [hp] at h1; cases h1
  | more h1 _ _ _ => cases hL; rw [hp] at h1; cases h1
  | last h1 h2 h3 _ => cases hL; exact .more rfl h2 (.skip rfl h3)
  | again h1 h2 _ ih => cases hL; exact .more rfl h2 (ih rfl)

theorem lang_star_cases {it : Item} {r : List Item} {w : List Nat}
    (h : Lang ({ it with opt := .star } :: r) w) :
    Lang r w ∨ Lang ({ it with opt := .plus } :: r) w := by
  generalize hL : ({ it with opt := .star } :: r : List Item) = L at h
  induction h with
  | nil => cases hL
  | one h1 _ _ _ => cases hL; cases h1
  | skip h1 h2 _ => cases hL; exact .inl h2
  | more h1 h2 h3 ih =>
    cases hL
    right
    rcases ih rfl with h | h
    · exact .last rfl h2 h
    · exact .again rfl h2 h
  | last h1 _ _ _ => cases hL; cases h1
  | again h1 _ _ _ => cases hL; cases h1

theorem lang_cons {it : Item} {r : List Item} {a : Nat} {w : List Nat} :
    Lang (it :: r) (a :: w) ↔
      (it.nullable = true ∧ Lang r (a :: w)) ∨ (it.edge a = true ∧ Lang (it.after ++ r) w) := by
  obtain ⟨ch, opt⟩ := it
  cases opt with
  | none =>
    constructor
    · intro h; cases h with
      | one h1 h2 h3 => exact .inr ⟨h2, h3⟩
      | skip h1 _ => cases h1
      | more h1 _ _ => cases h1
      | last h1 _ _ => cases h1
      | again h1 _ _ => cases h1
    · rintro (⟨h, _⟩ | ⟨h1, h2⟩)
      · cases h
      · exact .one rfl h1 h2
  | star =>
    constructor
    · intro h; cases h with
      | one h1 _ _ => cases h1
      | skip h1 h2 => exact .inl ⟨rfl, h2⟩
      | more h1 h2 h3 => exact .inr ⟨h2, h3⟩
      | last h1 _ _ => cases h1
      | again h1 _ _ => cases h1
    · rintro (⟨_, h⟩ | ⟨h1, h2⟩)
      · exact .skip rfl h
      · exact .more rfl h1 h2
  | plus =>
    constructor
    · intro h; cases h with
      | one h1 _ _ => cases h1
      | skip h1 _ => cases h1
      | more h1 _ _ => cases h1
      | last h1 h2 h3 => exact .inr ⟨h2, .skip rfl h3⟩
      | again h1 h2 h3 => exact .inr ⟨h2, lang_plus_star rfl h3⟩
    · rintro (⟨h, _⟩ | ⟨h1, h2⟩)
      · cases h
      · rcases lang_star_cases (it := ⟨ch, .star⟩) h2 with h | h
        · exact .last rfl h1 h
        · exact .again rfl h1 h

theorem lang_nil {L : List Item} : Lang L [] ↔ L.all Item.nullable = true := by
  induction L with
  | nil => simp [Lang.nil]
  | cons it r ih =>
    rw [List.all_cons, Bool.and_eq_true, ← ih]
    constructor
    · intro h; cases h with
      | skip h1 h2 => exact ⟨by simp [Item.nullable, h1], h2⟩
    · rintro ⟨h1, h2⟩
      exact .skip (by simpa [Item.nullable] using h1) h2

/-- The first letter is read by some item before which everything may be empty. -/
theorem lang_first {L : List Item} {a : Nat} {w : List Nat} :
    Lang L (a :: w) ↔ ∃ k it, L[k]? = some it ∧ (L.take k).all Item.nullable = true ∧
      it.edge a = true ∧ Lang (it.after ++ L.drop (k + 1)) w := by
  induction L with
  | nil => simp; intro h; cases h
  | cons i0 r ih =>
    rw [lang_cons, ih]
    constructor
    · rintro (⟨h0, k, it, h1, h2, h3, h4⟩ | ⟨h1, h2⟩)
      · exact ⟨k + 1, it, by simpa using h1, by simp [h0]; simpa using h2, h3, by simpa using h4⟩
      · exact ⟨0, i0, by simp, by simp, h1, by simpa using h2⟩
    · rintro ⟨k, it, h1, h2, h3, h4⟩
      cases k with
      | zero =>
        simp at h1; subst h1
        exact .inr ⟨h3, by simpa using h4⟩
      | succ k =>
        simp only [List.take_succ_cons, List.all_cons, Bool.and_eq_true] at h2
        exact .inl ⟨h2.1, k, it, by simpa using h1, h2.2, h3, by simpa using h4⟩

/-! ### The sets -/

theorem mem_firstLoop {L : List Item} : ∀ {j i : Nat},
    i ∈ firstLoop L j ↔ ∃ k, i = j + k ∧ k < L.length ∧ (L.take k).all Item.nullable = true := by
  induction L with
  | nil => intro j i; simp [firstLoop]
  | cons it r ih =>
    intro j i
    rw [firstLoop, List.mem_cons]
    constructor
    · rintro (rfl | h)
      · exact ⟨0, by simp⟩
      · split at h
        · rename_i hn
          obtain ⟨k, h1, h2, h3⟩ := ih.1 h
          exact ⟨k + 1, by omega, by simpa using h2, by simp [hn]; simpa using h3⟩
        · cases h
    · rintro ⟨k, h1, h2, h3⟩
      cases k with
      | zero => exact .inl (by simpa using h1)
      | succ k =>
        simp only [List.take_succ_cons, List.all_cons, Bool.and_eq_true] at h3
        right
        rw [if_pos h3.1]
        exact ih.2 ⟨k, by omega, by simpa using h2, h3.2⟩

theorem mem_lastLoop {R : List Item} : ∀ {p : Nat},
    p ∈ lastLoop R ↔ p < R.length ∧ (R.take (R.length - 1 - p)).all Item.nullable = true := by
  induction R with
  | nil => intro p; simp [lastLoop]
  | cons it r ih =>
    intro p
    rw [lastLoop, List.mem_cons]
    constructor
    · rintro (rfl | h)
      · exact ⟨by simp, by simp⟩
      · split at h
        · rename_i hn
          obtain ⟨h1, h2⟩ := ih.1 h
          refine ⟨by simp; omega, ?_⟩
          rw [show (it :: r).length - 1 - p = (r.length - 1 - p) + 1 by simp; omega]
          simp [hn]; simpa using h2
        · cases h
    · rintro ⟨h1, h2⟩
      by_cases hp : p = r.length
      · exact .inl hp
      · right
        simp at h1
        rw [show (it :: r).length - 1 - p = (r.length - 1 - p) + 1 by simp; omega] at h2
        simp only [List.take_succ_cons, List.all_cons, Bool.and_eq_true] at h2
        rw [if_pos h2.1]
        exact ih.2 ⟨by omega, h2.2⟩

theorem mem_lastpos {items : List Item} {p : Nat} :
    p ∈ lastpos items ↔ p < items.length ∧ (items.drop (p + 1)).all Item.nullable = true := by
  unfold lastpos
  rw [mem_lastLoop, List.length_reverse, List.take_reverse, List.all_reverse]
  constructor
  · rintro ⟨h1, h2⟩
    refine ⟨h1, ?_⟩
    rwa [show items.length - (items.length - 1 - p) = p + 1 by omega] at h2
  · rintro ⟨h1, h2⟩
    refine ⟨h1, ?_⟩
    rwa [show items.length - (items.length - 1 - p) = p + 1 by omega]

/-- What may be read after the item with index `p` has read a letter. -/
def resid (items : List Item) (p : Nat) : List Item :=
  (match items[p]? with
   | some it => it.after
   | none => []) ++ items.drop (p + 1)

theorem after_nullable {it : Item} : it.after.all Item.nullable = true := by
  unfold Item.after; split <;> simp [Item.nullable]

/-- A word is read after position `p` through one of its follow positions. -/
theorem resid_step {items : List Item} {p : Nat} (hp : p < items.length) {a : Nat} {w : List Nat} :
    Lang (resid items p) (a :: w) ↔ ∃ f it, f ∈ follow items p ∧ items[f]? = some it ∧
      it.edge a = true ∧ Lang (resid items f) w := by
  have hgp : items[p]? = some items[p] := List.getElem?_eq_getElem hp
  have hdrop : ∀ {w}, (∃ k it, (items.drop (p + 1))[k]? = some it ∧
      ((items.drop (p + 1)).take k).all Item.nullable = true ∧ it.edge a = true ∧
      Lang (it.after ++ (items.drop (p + 1)).drop (k + 1)) w) ↔
      ∃ f it, f ∈ firstLoop (items.drop (p + 1)) (p + 1) ∧ items[f]? = some it ∧
        it.edge a = true ∧ Lang (resid items f) w := by
    intro w
    constructor
    · rintro ⟨k, it, h1, h2, h3, h4⟩
      rw [List.getElem?_drop] at h1
      have hlt := (List.getElem?_eq_some_iff.1 h1).1
      refine ⟨p + 1 + k, it, mem_firstLoop.2 ⟨k, rfl, by simp; omega, h2⟩, h1, h3, ?_⟩
      rw [resid, h1]
      rwa [List.drop_drop, show p + 1 + (k + 1) = p + 1 + k + 1 by omega] at h4
    · rintro ⟨f, it, h1, h2, h3, h4⟩
      obtain ⟨k, rfl, _, h5⟩ := mem_firstLoop.1 h1
      refine ⟨k, it, by rw [List.getElem?_drop]; exact h2, h5, h3, ?_⟩
      rw [resid, h2] at h4
      rwa [List.drop_drop, show p + 1 + (k + 1) = p + 1 + k + 1 by omega]
  unfold follow
  rw [hgp]
  simp only
  cases hrep : items[p].rep with
  | false =>
    simp only [Bool.false_eq_true, if_false, List.nil_append]
    rw [← hdrop, ← lang_first]
    simp [resid, hgp, Item.after, hrep]
  | true =>
    have hr : resid items p = { items[p] with opt := .star } :: items.drop (p + 1) := by
      simp [resid, hgp, Item.after, hrep]
    rw [hr, lang_cons, lang_first, hdrop]
    simp only [if_true, List.cons_append, List.nil_append, List.mem_cons]
    constructor
    · rintro (⟨_, f, it, h⟩ | ⟨h1, h2⟩)
      · exact ⟨f, it, .inr h.1, h.2⟩
      · refine ⟨p, items[p], .inl rfl, hgp, h1, ?_⟩
        rw [hr]; simpa [Item.after, Item.rep] using h2
    · rintro ⟨f, it, rfl | h1, h2, h3, h4⟩
      · right
        rw [hgp] at h2; cases h2
        refine ⟨h3, ?_⟩
        rw [hr] at h4; simpa [Item.after, Item.rep] using h4
      · exact .inl ⟨by simp [Item.nullable], f, it, h1, h2, h3, h4⟩

theorem resid_nil {items : List Item} {p : Nat} (hp : p < items.length) :
    Lang (resid items p) [] ↔ p ∈ lastpos items := by
  rw [lang_nil, mem_lastpos, resid, List.all_append, Bool.and_eq_true]
  have hgp : items[p]? = some items[p] := List.getElem?_eq_getElem hp
  simp [hgp, after_nullable, hp]

/-- Word accepted from a set of positions. -/
def ResS (items : List Item) (S : List Nat) (w : List Nat) : Prop :=
  ∃ p ∈ S, Lang (resid items p) w

theorem mem_nextSet {items : List Item} {S : List Nat} {a f : Nat} :
    f ∈ nextSet items S a ↔ ∃ it p, items[f]? = some it ∧ it.edge a = true ∧ p ∈ S ∧
      f ∈ followB items p := by
  unfold nextSet
  simp only [List.mem_filter, List.mem_range, Bool.and_eq_true, List.any_eq_true,
    List.contains_iff_mem]
  constructor
  · rintro ⟨h1, h2, p, h3, h4⟩
    rw [List.getElem?_eq_getElem h1] at h2
    exact ⟨items[f], p, List.getElem?_eq_getElem h1, h2, h3, h4⟩
  · rintro ⟨it, p, h1, h2, h3, h4⟩
    exact ⟨(List.getElem?_eq_some_iff.1 h1).1, by rw [h1]; exact h2, p, h3, h4⟩

theorem resS_step {items : List Item} {S : List Nat} (hS : ∀ p ∈ S, p < items.length)
    {a : Nat} {w : List Nat} : ResS items S (a :: w) ↔ ResS items (nextSet items S a) w := by
  constructor
  · rintro ⟨p, hp, h⟩
    obtain ⟨f, it, h1, h2, h3, h4⟩ := (resid_step (hS p hp)).1 h
    refine ⟨f, mem_nextSet.2 ⟨it, p, h2, h3, hp, ?_⟩, h4⟩
    have := hS p hp
    rwa [followB, if_neg (by omega)]
  · rintro ⟨f, hf, h⟩
    obtain ⟨it, p, h1, h2, h3, h4⟩ := mem_nextSet.1 hf
    have := hS p h3
    rw [followB, if_neg (by omega)] at h4
    exact ⟨p, h3, (resid_step this).2 ⟨f, it, h4, h1, h2, h⟩⟩

theorem resS_begin {items : List Item} {a : Nat} {w : List Nat} :
    Lang items (a :: w) ↔ ResS items (nextSet items [items.length] a) w := by
  rw [lang_first]
  constructor
  · rintro ⟨k, it, h1, h2, h3, h4⟩
    refine ⟨k, mem_nextSet.2 ⟨it, items.length, h1, h3, by simp, ?_⟩, ?_⟩
    · rw [followB, if_pos rfl]
      exact mem_firstLoop.2 ⟨k, by simp, (List.getElem?_eq_some_iff.1 h1).1, h2⟩
    · rw [resid, h1]; exact h4
  · rintro ⟨f, hf, h⟩
    obtain ⟨it, p, h1, h2, h3, h4⟩ := mem_nextSet.1 hf
    simp at h3; subst h3
    rw [followB, if_pos rfl] at h4
    obtain ⟨k, h5, _, h6⟩ := mem_firstLoop.1 h4
    have h5 : f = k := by omega
    subst h5
    refine ⟨f, it, h1, h6, h2, ?_⟩
    rwa [resid, h1] at h

theorem nextSet_lt {items : List Item} {S : List Nat} {a : Nat} :
    ∀ p ∈ nextSet items S a, p < items.length := by
  intro p hp; simp [nextSet] at hp; exact hp.1

theorem termSet_iff {items : List Item} {S : List Nat} (hS : ∀ p ∈ S, p < items.length) :
    termSet items S = true ↔ ResS items S [] := by
  simp only [termSet, List.any_eq_true, List.contains_iff_mem, ResS]
  constructor
  · rintro ⟨p, h1, h2⟩; exact ⟨p, h1, (resid_nil (hS p h1)).2 h2⟩
  · rintro ⟨p, h1, h2⟩; exact ⟨p, h1, (resid_nil (hS p h1)).1 h2⟩

/-- All increasing sublists, the universe of the exploration. -/
def subs : List Nat → List (List Nat)
  | [] => [[]]
  | x :: xs => subs xs ++ (subs xs).map (x :: ·)

theorem filter_mem_subs (f : Nat → Bool) : ∀ l : List Nat, l.filter f ∈ subs l
  | [] => by simp [subs]
  | x :: xs => by
    have := filter_mem_subs f xs
    rw [List.filter_cons, subs]
    split <;> simp [this]

theorem length_subs : ∀ l : List Nat, (subs l).length = 2 ^ l.length
  | [] => rfl
  | x :: xs => by simp [subs, length_subs xs, Nat.pow_succ]; omega

theorem createDFA_explored (items : List Item) (m : Nat) :
    Explored (bNext items) m [items.length]
      (wlLoop (bNext items) m (createFuel items) 0 [[items.length]] []).1 (createDFA items m).rows := by
  refine wl_explored (bNext items) m [items.length] ([items.length] :: subs (List.range items.length))
    (by simp) ?_ _ ?_
  · intro s a t h
    unfold bNext at h
    split at h
    · cases h
    · cases h
      exact List.mem_cons_of_mem _ (filter_mem_subs _ _)
  · simp [length_subs, createFuel]

/-- Abstract run from a set. -/
theorem optRun_bNext {items : List Item} : ∀ (w : List Nat) (S : List Nat),
    (∀ p ∈ S, p < items.length) →
    (ResS items S w ↔ ∃ S', optRun (bNext items) (some S) w = some S' ∧ termSet items S' = true)
  | [], S, hS => by
    rw [← termSet_iff hS]; simp [optRun]
  | a :: w, S, hS => by
    rw [resS_step hS]
    have e : optRun (bNext items) (some S) (a :: w) = optRun (bNext items) (bNext items S a) w := rfl
    rw [e]
    by_cases h : nextSet items S a = []
    · rw [show bNext items S a = none by simp [bNext, h], h]
      have hnone : ∀ w : List Nat, optRun (bNext items) none w = none := by
        intro w; induction w with
        | nil => rfl
        | cons b w ih => exact ih
      rw [hnone]
      simp [ResS]
    · rw [show bNext items S a = some (nextSet items S a) by simp [bNext, h]]
      exact optRun_bNext w _ nextSet_lt

/-- `CreateDFA` is correct: after a nonempty word the state reached is a stop state iff the word
belongs to the language of the list. -/
theorem createDFA_lang (items : List Item) (m : Nat) (w : List Nat)
    (hw : ∀ a ∈ w, 1 ≤ a ∧ a < m) (hne : w ≠ []) :
    (createDFA items m).stop (w.foldl (createDFA items m).next 1) =
      (open Classical in if Lang items w then 1 else 0) := by
  have hex := createDFA_explored items m
  obtain ⟨h1, h2⟩ := hex.run1 w hw
  have hfold : w.foldl (createDFA items m).next 1 = w.foldl (rowsNext (createDFA items m).rows) 1 := rfl
  rw [hfold, h2]
  have hget := numOf_get h1
  obtain ⟨a, w, rfl⟩ : ∃ a w', w = a :: w' := by
    cases w with
    | nil => exact absurd rfl hne
    | cons a w => exact ⟨a, w, rfl⟩
  have hl : Lang items (a :: w) ↔
      ∃ S', optRun (bNext items) (some [items.length]) (a :: w) = some S' ∧ termSet items S' = true := by
    rw [resS_begin, optRun_bNext w _ nextSet_lt]
    have e : optRun (bNext items) (some [items.length]) (a :: w) =
      optRun (bNext items) (bNext items [items.length] a) w := rfl
    rw [e]
    by_cases hn : nextSet items [items.length] a = []
    · have hb : bNext items [items.length] a = none := by simp [bNext, hn]
      rw [hb, hn]
      have hnone : ∀ w : List Nat, optRun (bNext items) none w = none := by
        intro w; induction w with
        | nil => rfl
        | cons b w ih => exact ih
      have hempty : ∀ w : List Nat, ∀ S', optRun (bNext items) (some []) w = some S' → termSet items S' = false := by
        intro w; cases w with
        | nil => intro S' h; cases h; rfl
        | cons b w =>
          intro S' h
          have : bNext items [] b = none := by
            simp [bNext, nextSet]
          have e : optRun (bNext items) (some []) (b :: w) = optRun (bNext items) (bNext items [] b) w := rfl
          rw [e, this, hnone] at h; cases h
      rw [hnone]
      constructor
      · rintro ⟨S', h1, h2⟩; rw [hempty w S' h1] at h2; cases h2
      · rintro ⟨_, h, _⟩; cases h
    · have hb : bNext items [items.length] a = some (nextSet items [items.length] a) := by
        simp [bNext, hn]
      rw [hb]
  cases ho : optRun (bNext items) (some [items.length]) (a :: w) with
  | none =>
    have hnl : ¬ Lang items (a :: w) := by rw [hl, ho]; simp
    rw [if_neg hnl]; simp [SDfa.stop, numOf]
  | some S =>
    rw [ho] at hget
    have hpos : numOf (wlLoop (bNext items) m (createFuel items) 0 [[items.length]] []).1 (some S) ≠ 0 := by
      simp [numOf]
    rw [if_neg hpos] at hget
    rw [SDfa.stop, if_neg hpos]
    have : (createDFA items m).stops = (wlLoop (bNext items) m (createFuel items) 0 [[items.length]] []).1.map
      fun S => if termSet items S then 1 else 0 := rfl
    rw [this, List.getElem?_map, hget]
    simp only [Option.map_some, Option.getD_some]
    cases ht : termSet items S with
    | true =>
      have : Lang items (a :: w) := hl.2 ⟨S, ho, ht⟩
      rw [if_pos this]; simp
    | false =>
      have : ¬ Lang items (a :: w) := by
        rw [hl, ho]; rintro ⟨S', h, h'⟩; cases h; rw [ht] at h'; cases h'
      rw [if_neg this]; simp

/-- The start state is not a stop state. -/
theorem createDFA_start (items : List Item) (m : Nat) : (createDFA items m).stop 1 = 0 := by
  have hex := createDFA_explored items m
  have hf := hex.first
  have : (createDFA items m).stops = (wlLoop (bNext items) m (createFuel items) 0 [[items.length]] []).1.map
      fun S => if termSet items S then 1 else 0 := rfl
  rw [SDfa.stop, if_neg (by decide), this, List.getElem?_map, show 1 - 1 = 0 from rfl, hf]
  have : termSet items [items.length] = false := by
    simp [termSet, mem_lastpos]
  simp [this]

end JPS
