import Verif.LexerDoc
import Verif.TokenSpec
import Verif.Spec.Layout
/-!
# Emitted tuples with the values they report
-/
set_option autoImplicit false

namespace JPS
open Spec

/-- What a tuple reports: a marker text (`{`, `}` or nothing), or a value with its reported
text. -/
inductive Ev where
  | mark (t : Str)
  | val (v : J) (t : Str)

/-- The tuple text. -/
def Ev.text : Ev → Str
  | .mark t => t
  | .val _ t => t

/-- The event as a tuple. -/
def evTuple (e : Nat × Ev) : Tuple := ⟨e.1, e.2.text⟩

/-- Without layout. -/
def Ev.erase : Ev → Sum Str J
  | .mark t => .inl t
  | .val v _ => .inr v.strip

/-- The value `v` is reported with text `t` in a state of the given type. -/
def priV (d : QDfa) (st cnt : Nat) (v : J) (t : Str) : List (Nat × Ev) :=
  match d.matchedType st cnt with
  | .output => [(st, .val v t)]
  | .condition => [(st, .val v t)]
  | _ => []

/-- Markers at the opening brace. -/
def openObjV (d : QDfa) (st cnt : Nat) : List (Nat × Ev) :=
  match d.matchedType st cnt with
  | .predicate => [(st, .mark ['{'])]
  | .condition => [(st, .mark [])]
  | _ => []

/-- Markers at the opening bracket. -/
def openArrV (d : QDfa) (st cnt : Nat) : List (Nat × Ev) :=
  match d.matchedType st cnt with
  | .condition => [(st, .mark [])]
  | _ => []

/-- A matched container. -/
def outV (d : QDfa) (st cnt : Nat) (v : J) : List (Nat × Ev) :=
  if d.matchedType st cnt = .output then [(st, .val v v.render)] else []

/-- Marker after an element. -/
def closeV (d : QDfa) (st cnt : Nat) : List (Nat × Ev) :=
  if d.matchedType st cnt = .predicate then [(st, .mark ['}'])] else []

mutual
/-- `emit` with the reported values. -/
def emitV (d : QDfa) (obs : Str → Str) (el : Bool) (st cnt : Nat) : J → List (Nat × Ev)
  | .lit t => priV d st cnt (.lit t) (obs t)
  | .str r => priV d st cnt (.str r) ('"' :: r ++ ['"'])
  | .arr w es =>
    openArrV d st cnt ++ emitEV d (d.go st cnt none) 0 es ++ outV d st cnt (.arr w es)
  | .obj w ms =>
    openObjV d st cnt ++ emitMV d st cnt ms ++ outV d st cnt (.obj w ms) ++
      (if el then closeV d st cnt else [])
def emitEV (d : QDfa) (st cnt : Nat) : Elems → List (Nat × Ev)
  | .nil => []
  | .cons _ v post rest =>
    emitV d (litObs false post (nextE rest)) true st cnt v ++ emitEV d st (cnt + 1) rest
def emitMV (d : QDfa) (st cnt : Nat) : Members → List (Nat × Ev)
  | .nil => []
  | .cons _ k _ pre2 v post rest =>
    emitV d (litObs pre2.isEmpty post (nextM rest)) false (d.go st cnt (some k)) 0 v ++
      emitMV d st cnt rest
end

theorem priV_tuple (d : QDfa) (st cnt : Nat) (v : J) (t : Str) :
    (priV d st cnt v t).map evTuple = priT d st cnt t := by
  unfold priV priT; cases d.matchedType st cnt <;> rfl
theorem openObjV_tuple (d : QDfa) (st cnt : Nat) :
    (openObjV d st cnt).map evTuple = openObj d st cnt := by
  unfold openObjV openObj; cases d.matchedType st cnt <;> rfl
theorem openArrV_tuple (d : QDfa) (st cnt : Nat) :
    (openArrV d st cnt).map evTuple = openArr d st cnt := by
  unfold openArrV openArr; cases d.matchedType st cnt <;> rfl
theorem outV_tuple (d : QDfa) (st cnt : Nat) (v : J) :
    (outV d st cnt v).map evTuple = outT d st cnt v.render := by
  unfold outV outT; split <;> rfl
theorem closeV_tuple (d : QDfa) (st cnt : Nat) :
    (closeV d st cnt).map evTuple = closePred d st cnt := by
  unfold closeV closePred; split <;> rfl

mutual
theorem emitV_tuple (d : QDfa) (obs : Str → Str) (el : Bool) (st cnt : Nat) : ∀ v : J,
    (emitV d obs el st cnt v).map evTuple = emit d obs el st cnt v
  | .lit t => by rw [emitV, priV_tuple, emit_lit]
  | .str r => by rw [emitV, priV_tuple, emit_str]
  | .arr w es => by
    rw [emitV, emit_arr]
    simp only [List.map_append, openArrV_tuple, outV_tuple, emitEV_tuple]
  | .obj w ms => by
    rw [emitV, emit_obj]
    simp only [List.map_append, openObjV_tuple, outV_tuple, emitMV_tuple]
    cases el <;> simp [closeV_tuple]
theorem emitEV_tuple (d : QDfa) (st cnt : Nat) : ∀ es : Elems,
    (emitEV d st cnt es).map evTuple = emitE d st cnt es
  | .nil => rfl
  | .cons _ v post rest => by
    simp [emitEV, emitE, emitV_tuple d _ _ _ _ v, emitEV_tuple d _ _ rest]
theorem emitMV_tuple (d : QDfa) (st cnt : Nat) : ∀ ms : Members,
    (emitMV d st cnt ms).map evTuple = emitM d st cnt ms
  | .nil => rfl
  | .cons _ k _ pre2 v post rest => by
    simp [emitMV, emitM, emitV_tuple d _ _ _ _ v, emitMV_tuple d _ _ rest]
end

/-- Every event is a marker, or reports a value satisfying `R`. -/
def EvOk (R : J → Str → Prop) (e : Nat × Ev) : Prop :=
  match e.2 with
  | .mark t => t = [] ∨ t = ['{'] ∨ t = ['}']
  | .val v t => R v t

theorem openObjV_ok (R : J → Str → Prop) (d : QDfa) (st cnt : Nat) :
    ∀ e ∈ openObjV d st cnt, EvOk R e := by
  unfold openObjV; cases d.matchedType st cnt <;> simp [EvOk]
theorem openArrV_ok (R : J → Str → Prop) (d : QDfa) (st cnt : Nat) :
    ∀ e ∈ openArrV d st cnt, EvOk R e := by
  unfold openArrV; cases d.matchedType st cnt <;> simp [EvOk]
theorem closeV_ok (R : J → Str → Prop) (d : QDfa) (st cnt : Nat) :
    ∀ e ∈ closeV d st cnt, EvOk R e := by
  unfold closeV; split <;> simp [EvOk]
theorem outV_ok (R : J → Str → Prop) (d : QDfa) (st cnt : Nat) (v : J) (h : R v v.render) :
    ∀ e ∈ outV d st cnt v, EvOk R e := by
  unfold outV; split <;> simp [EvOk, h]
theorem priV_ok (R : J → Str → Prop) (d : QDfa) (st cnt : Nat) (v : J) (t : Str) (h : R v t) :
    ∀ e ∈ priV d st cnt v t, EvOk R e := by
  unfold priV; cases d.matchedType st cnt <;> simp [EvOk, h]

mutual
/-- Every event reports a part (at the location under `loc`) as `Shows` demands, or, if the
layout is tidy, exactly. -/
theorem emitV_ok (R : J → Str → Prop) (hR : ∀ v, v.isContainer = true → R v v.render)
    (d : QDfa) (obs : Str → Str) (el : Bool) (st cnt : Nat) (loc : Loc) : ∀ v : J,
    R v (otext obs v) →
    (∀ x ∈ seen loc v, R x.2.1 x.2.2) →
    ∀ e ∈ emitV d obs el st cnt v,
      EvOk (fun x t => R x t ∧ (x = v ∨ ∃ l, (l, x) ∈ v.parts loc)) e
  | .lit t, hv, _ => by
    rw [emitV]; exact priV_ok _ _ _ _ _ _ ⟨hv, Or.inl rfl⟩
  | .str r, hv, _ => by
    rw [emitV]; exact priV_ok _ _ _ _ _ _ ⟨hv, Or.inl rfl⟩
  | .arr w es, _, hs => by
    rw [emitV]
    intro e he
    simp only [List.mem_append] at he
    rcases he with (he | he) | he
    · exact openArrV_ok _ _ _ _ e he
    · have := emitEV_ok R hR d (d.go st cnt none) 0 loc 0 es hs e he
      revert this; unfold EvOk
      cases e.2 <;> simp only
      · exact id
      · rintro ⟨h1, h2⟩; exact ⟨h1, Or.inr h2⟩
    · exact outV_ok _ _ _ _ _ ⟨hR _ rfl, Or.inl rfl⟩ e he
  | .obj w ms, _, hs => by
    rw [emitV]
    intro e he
    simp only [List.mem_append] at he
    rcases he with ((he | he) | he) | he
    · exact openObjV_ok _ _ _ _ e he
    · have := emitMV_ok R hR d st cnt loc ms hs e he
      revert this; unfold EvOk
      cases e.2 <;> simp only
      · exact id
      · rintro ⟨h1, h2⟩; exact ⟨h1, Or.inr h2⟩
    · exact outV_ok _ _ _ _ _ ⟨hR _ rfl, Or.inl rfl⟩ e he
    · cases el with
      | true => exact closeV_ok _ _ _ _ e (by simpa using he)
      | false => simp at he
theorem emitEV_ok (R : J → Str → Prop) (hR : ∀ v, v.isContainer = true → R v v.render)
    (d : QDfa) (st cnt : Nat) (loc : Loc) (i : Nat) : ∀ es : Elems,
    (∀ x ∈ seenE loc i es, R x.2.1 x.2.2) →
    ∀ e ∈ emitEV d st cnt es, EvOk (fun x t => R x t ∧ ∃ l, (l, x) ∈ es.parts loc i) e
  | .nil, _ => by simp [emitEV]
  | .cons pre v post rest, hs => by
    intro e he
    rw [emitEV, List.mem_append] at he
    rcases he with he | he
    · have := emitV_ok R hR d _ true st cnt (loc ++ [.elem i]) v
        (hs _ (by rw [seenE]; exact List.mem_append_left _ (List.mem_append_right _ (List.mem_singleton.2 rfl))))
        (fun x hx => hs x (by rw [seenE]; exact List.mem_append_left _ (List.mem_append_left _ hx))) e he
      revert this; unfold EvOk
      cases e.2 <;> simp only
      · exact id
      · rintro ⟨h1, rfl | ⟨l, h2⟩⟩
        · exact ⟨h1, loc ++ [.elem i], by simp [Elems.parts]⟩
        · exact ⟨h1, l, by rw [Elems.parts]; exact List.mem_append_left _ (List.mem_append_left _ h2)⟩
    · have := emitEV_ok R hR d st (cnt + 1) loc (i + 1) rest
        (fun x hx => hs x (by rw [seenE]; exact List.mem_append_right _ hx)) e he
      revert this; unfold EvOk
      cases e.2 <;> simp only
      · exact id
      · rintro ⟨h1, l, h2⟩
        exact ⟨h1, l, by rw [Elems.parts]; exact List.mem_append_right _ h2⟩
theorem emitMV_ok (R : J → Str → Prop) (hR : ∀ v, v.isContainer = true → R v v.render)
    (d : QDfa) (st cnt : Nat) (loc : Loc) : ∀ ms : Members,
    (∀ x ∈ seenM loc ms, R x.2.1 x.2.2) →
    ∀ e ∈ emitMV d st cnt ms, EvOk (fun x t => R x t ∧ ∃ l, (l, x) ∈ ms.parts loc) e
  | .nil, _ => by simp [emitMV]
  | .cons pre k mid pre2 v post rest, hs => by
    intro e he
    rw [emitMV, List.mem_append] at he
    rcases he with he | he
    · have := emitV_ok R hR d _ false (d.go st cnt (some k)) 0 (loc ++ [.key k]) v
        (hs _ (by rw [seenM]; exact List.mem_append_left _ (List.mem_append_right _ (List.mem_singleton.2 rfl))))
        (fun x hx => hs x (by rw [seenM]; exact List.mem_append_left _ (List.mem_append_left _ hx))) e he
      revert this; unfold EvOk
      cases e.2 <;> simp only
      · exact id
      · rintro ⟨h1, rfl | ⟨l, h2⟩⟩
        · exact ⟨h1, loc ++ [.key k], by simp [Members.parts]⟩
        · exact ⟨h1, l, by rw [Members.parts]; exact List.mem_append_left _ (List.mem_append_left _ h2)⟩
    · have := emitMV_ok R hR d st cnt loc rest
        (fun x hx => hs x (by rw [seenM]; exact List.mem_append_right _ hx)) e he
      revert this; unfold EvOk
      cases e.2 <;> simp only
      · exact id
      · rintro ⟨h1, l, h2⟩
        exact ⟨h1, l, by rw [Members.parts]; exact List.mem_append_right _ h2⟩
end

/-- Erase layout from an event. -/
def eraseEv (e : Nat × Ev) : Nat × Sum Str J := (e.1, e.2.erase)

theorem priV_erase (d : QDfa) (st cnt : Nat) (v : J) (t : Str) (v' : J) (t' : Str)
    (h : v.strip = v'.strip) :
    (priV d st cnt v t).map eraseEv = (priV d st cnt v' t').map eraseEv := by
  unfold priV; cases d.matchedType st cnt <;> simp [eraseEv, Ev.erase, h]
theorem outV_erase (d : QDfa) (st cnt : Nat) (v v' : J) (h : v.strip = v'.strip) :
    (outV d st cnt v).map eraseEv = (outV d st cnt v').map eraseEv := by
  unfold outV; split <;> simp [eraseEv, Ev.erase, h]

mutual
/-- Which values are reported, in which states and in which order, does not depend on the
layout. -/
theorem emitV_strip (d : QDfa) (obs obs' : Str → Str) (el : Bool) (st cnt : Nat) : ∀ v : J,
    (emitV d obs el st cnt v).map eraseEv = (emitV d obs' el st cnt v.strip).map eraseEv
  | .lit t => by rw [J.strip, emitV, emitV]; exact priV_erase _ _ _ _ _ _ _ rfl
  | .str r => by rw [J.strip, emitV, emitV]
  | .arr w es => by
    have h : (J.arr w es).strip = (J.arr [] es.strip).strip := by
      simp [J.strip, Elems.strip_strip]
    rw [emitV, J.strip, emitV]
    simp only [List.map_append]
    rw [emitEV_strip d _ _ es, outV_erase d st cnt _ _ h]
  | .obj w ms => by
    have h : (J.obj w ms).strip = (J.obj [] ms.strip).strip := by
      simp [J.strip, Members.strip_strip]
    rw [emitV, J.strip, emitV]
    simp only [List.map_append]
    rw [emitMV_strip d _ _ ms, outV_erase d st cnt _ _ h]
theorem emitEV_strip (d : QDfa) (st cnt : Nat) : ∀ es : Elems,
    (emitEV d st cnt es).map eraseEv = (emitEV d st cnt es.strip).map eraseEv
  | .nil => rfl
  | .cons pre v post rest => by
    rw [emitEV, Elems.strip, emitEV]
    simp only [List.map_append]
    rw [emitV_strip d _ (litObs false [] (nextE rest.strip)) true st cnt v, emitEV_strip d _ _ rest]
theorem emitMV_strip (d : QDfa) (st cnt : Nat) : ∀ ms : Members,
    (emitMV d st cnt ms).map eraseEv = (emitMV d st cnt ms.strip).map eraseEv
  | .nil => rfl
  | .cons pre k mid pre2 v post rest => by
    rw [emitMV, Members.strip, emitMV]
    simp only [List.map_append]
    rw [emitV_strip d _ (litObs (List.isEmpty []) [] (nextM rest.strip)) false (d.go st cnt (some k)) 0 v,
      emitMV_strip d _ _ rest]
end

/-- The tuples of a document run. -/
theorem exec_events (d : QDfa) (pre trail : Str) (v : J) (a : SA)
    (hpre : pre.all isWs = true) (htr : trail.all isWs = true) (hsp : pre.head? ≠ some ' ')
    (hc : v.isContainer = true) (hwf : v.wf = true) (hk : v.keysTight = true)
    (h : a.ss = []) (hd : v.depth ≤ MAX_STACK) (hdq : a.qs.length + v.depth ≤ MAX_STACK) :
    (execAutomaton d (pre ++ v.render ++ trail) a).tl =
      a.tl ++ (emitV d id false a.elt.st a.elt.count v).map evTuple := by
  obtain ⟨ms', hr⟩ := execAutomaton_doc d pre trail v id a hpre htr hsp hc hwf hk h hd hdq
  rw [hr, emitV_tuple]
  simp [SA.orUb, SA.ctl, emitAll_tl]

end JPS
