import Verif.Lemmas.DocReplace
import Verif.Lemmas.DocApi

/-!
# Changing a setting twice

Changing the value at a path, or removing it, after the value at the same path has been changed or removed is
the same as doing it at once.
-/

set_option autoImplicit false

namespace Hocon
namespace DocEdit
open PathParser (Syntax)
open Node
open PathM (startsWith subPath)

/-- A value that fits on one line. -/
structure Flat (fl : Syntax) (w : Node) : Prop extends VOk fl w where
  oneLine : '\n' ∉ w.render

theorem Flat.indented {fl : Syntax} {w : Node} (h : Flat fl w) (i : Nat) (prev : Option Node) :
    indentedValue i prev w = .ok w := by
  obtain ⟨v', h1, h2⟩ := indentedValue_spec i prev h.toVOk
  rw [h1]
  unfold indentedValue at h1
  split at h1
  · split at h1
    · rw [indentNode_oneLine w h.oneLine v' h1]
    · cases h1; rfl
  · cases h1; rfl

/-- The body of the loop on a field. -/
theorem changeNode_field {fl : Syntax} {p : Path} (hd : p ≠ []) {i : Nat} {prev : Option Node} {rest : List Node}
    {seen : Bool} {vc : Option Node} {cs : List Node} {k : Str} {ks : Path} {ts : List Tok}
    (hkey : fieldPath cs = .ok (k :: ks, ts)) :
    changeNode fl p i prev rest seen vc (.field cs) =
      if k :: ks = p then
        (if vc.isNone then .ok (dropSep rest, seen, vc)
        else setField i prev vc cs >>= fun cs' => .ok (.field cs' :: rest, true, none))
      else if p <+: k :: ks then .ok (dropSep rest, seen, vc)
      else if k :: ks <+: p then
        changeField fl (subPath (PathM.length (k :: ks)) p) vc cs >>= fun cs' => .ok (.field cs' :: rest, true, vc)
      else .ok (.field cs :: rest, true, vc) := by
  rw [changeNode, hkey]
  simp only [Res.ok_bind]
  rw [PathM.C03_startsWith (k :: ks) p (by simp), PathM.C03_startsWith p (k :: ks) hd]
  by_cases h1 : k :: ks = p
  · rw [(PathM.C03_beq _ _).2 h1, if_pos h1]
    cases vc <;> simp
  · have hbeq : PathM.beq (k :: ks) p = false := by
      rw [← Bool.not_eq_true, PathM.C03_beq]; exact h1
    rw [hbeq, if_neg h1]
    by_cases h2 : p <+: k :: ks
    · simp [h2]
    · by_cases h3 : k :: ks <+: p
      · simp [h2, h3]
      · simp [h2, h3]

theorem changeNode_other {fl : Syntax} {p : Path} {i : Nat} {prev : Option Node} {rest : List Node}
    {seen : Bool} {vc : Option Node} {n : Node} (hn : n.isField = false) :
    changeNode fl p i prev rest seen vc n =
      if fl = .json && !seen && n.hasTok Tok.isComma then .ok (rest, seen, vc) else .ok (n :: rest, seen, vc) := by
  cases n <;> first | rfl | cases hn

/-- For a value on one line, or none, the place does not matter. -/
theorem changeNode_place {fl : Syntax} {p : Path} (hd : p ≠ []) {i i' : Nat} {prev prev' : Option Node}
    {rest : List Node} {seen : Bool} {vc : Option Node} {n : Node} (hn : WfNode fl n)
    (hf : ∀ w, vc = some w → Flat fl w) :
    changeNode fl p i prev rest seen vc n = changeNode fl p i' prev' rest seen vc n := by
  cases n with
  | field cs =>
    obtain ⟨⟨k, ks, ts, hkey⟩, _, _⟩ := hn
    rw [changeNode_field hd hkey, changeNode_field hd hkey]
    cases vc with
    | none => rfl
    | some w =>
      have h1 := (hf w rfl).indented i prev
      have h2 := (hf w rfl).indented i' prev'
      simp only [setField, h1, h2]
  | _ => rfl

theorem changeLoop_place {fl : Syntax} {p : Path} (hd : p ≠ []) {ow : Option Node}
    (hf : ∀ w, ow = some w → Flat fl w) : ∀ (ns : List Node), WfList fl ns → ∀ (i i' : Nat) (prev prev' : Option Node),
      changeLoop fl p ow i prev ns = changeLoop fl p ow i' prev' ns
  | [], _, _, _, _, _ => rfl
  | n :: ns, hw, i, i', prev, prev' => by
    rw [changeLoop, changeLoop, changeLoop_place hd hf ns hw.2 (i + 1) (i' + 1) (some n) (some n)]
    obtain ⟨r, s, vc, h1, _, h3, _⟩ := changeLoop_spec hd (fun w hw => (hf w hw).toVOk) ns hw.2 (i' + 1) (some n)
    rw [h1]
    refine changeNode_place hd hw.1 fun w hw' => ?_
    rcases h3 with h | h
    · exact hf w (h ▸ hw')
    · rw [h] at hw'; cases hw'

theorem replaceValue_twice {v w : Node} (hv : v.isValue = true) {cs cs' : List Node}
    (h : replaceValue v cs = .ok cs') : replaceValue w cs' = replaceValue w cs := by
  induction cs generalizing cs' with
  | nil => cases h
  | cons n ns ih =>
    rw [replaceValue] at h
    by_cases hn : n.isValue = true
    · rw [if_pos hn] at h
      cases h
      rw [replaceValue, replaceValue, if_pos hv, if_pos hn]
    · rw [if_neg hn, Res.bind_eq_ok] at h
      obtain ⟨ns', h1, h⟩ := h
      cases h
      rw [replaceValue, replaceValue, if_neg hn, if_neg hn, ih h1]

theorem dropSep_twice : ∀ (l : List Node), dropSep (dropSep l) = dropSep l
  | [] => rfl
  | n :: ns => by
    rw [dropSep]
    by_cases hn : (n.hasTok Tok.isWs || n.hasTok Tok.isComma) = true
    · rw [if_pos hn]; exact dropSep_twice ns
    · rw [if_neg hn, dropSep, if_neg hn]

/-- The loop over a list from which separators at the front have been dropped. -/
theorem changeLoop_dropSep {fl : Syntax} {p : Path} (hd : p ≠ []) {ow : Option Node}
    (hf : ∀ w, ow = some w → Flat fl w) : ∀ (ns : List Node), WfList fl ns → ∀ (r0 : List Node) (s0 : Bool) (vc0 : Option Node),
      changeLoop fl p ow 0 none ns = .ok (r0, s0, vc0) → changeLoop fl p ow 0 none (dropSep ns) = .ok (dropSep r0, s0, vc0)
  | [], _, _, _, _, h => by cases h; rfl
  | n :: ns, hw, r0, s0, vc0, h => by
    rw [dropSep]
    by_cases hn : (n.hasTok Tok.isWs || n.hasTok Tok.isComma) = true
    · rw [if_pos hn]
      rw [changeLoop, Res.bind_eq_ok] at h
      obtain ⟨⟨r, s, vc⟩, h1, h⟩ := h
      rw [changeLoop_place hd hf ns hw.2 _ 0 _ none] at h1
      have ih := changeLoop_dropSep hd hf ns hw.2 r s vc h1
      have hnf : n.isField = false := by
        rw [Bool.or_eq_true] at hn
        rcases hn with h | h <;> exact tokNode_notField h
      simp only [changeNode_other hnf] at h
      split at h
      · cases h; exact ih
      · cases h; rw [ih, dropSep, if_pos hn]
    · rw [if_neg hn, h]
      rw [changeLoop, Res.bind_eq_ok] at h
      obtain ⟨⟨r, s, vc⟩, h1, h⟩ := h
      have hkeep : ∀ (m : Node) (l : List Node), (m.hasTok Tok.isWs || m.hasTok Tok.isComma) = false →
          dropSep (m :: l) = m :: l := fun m l h => by rw [dropSep, h]; rfl
      suffices hs : dropSep r0 = r0 by rw [hs]
      by_cases hnf : n.isField = true
      · cases n with
        | field cs =>
          obtain ⟨⟨k, ks, ts, hkey⟩, _, _⟩ := hw.1
          simp only [changeNode_field hd hkey] at h
          split at h
          · split at h
            · cases h; exact dropSep_twice _
            · rw [Res.bind_eq_ok] at h
              obtain ⟨cs', _, h⟩ := h
              cases h; exact hkeep _ _ rfl
          · split at h
            · cases h; exact dropSep_twice _
            · split at h
              · rw [Res.bind_eq_ok] at h
                obtain ⟨cs', _, h⟩ := h
                cases h; exact hkeep _ _ rfl
              · cases h; exact hkeep _ _ rfl
        | _ => cases hnf
      · rw [Bool.not_eq_true] at hnf
        rw [Bool.not_eq_true] at hn
        have hnc : n.hasTok Tok.isComma = false := by
          rw [Bool.or_eq_false_iff] at hn; exact hn.2
        simp only [changeNode_other hnf, hnc, Bool.and_false, Bool.false_eq_true, if_false] at h
        cases h
        exact hkeep _ _ hn

/-- What the second pass has to agree on. -/
def Agree (fl : Syntax) (p : Path) (ow : Option Node) (x y : List Node × Bool × Option Node) : Prop :=
  changeLoop fl p ow 0 none x.1 = .ok y ∧ (y.2.1 = true → x.2.1 = true) ∧ (x.2.2 = none → y.2.2 = none)

theorem again_other {fl : Syntax} {p : Path} (hd : p ≠ []) {ow vc vc0 : Option Node} {r r0 : List Node} {s s0 : Bool}
    (hf : ∀ w, ow = some w → Flat fl w) (ih : Agree fl p ow (r, s, vc) (r0, s0, vc0)) (hr : WfList fl r) {n : Node}
    (hn : n.isField = false) {i i' : Nat} {prev prev' : Option Node} {x y : List Node × Bool × Option Node}
    (h1 : changeNode fl p i prev r s vc n = .ok x) (h2 : changeNode fl p i' prev' r0 s0 vc0 n = .ok y) :
    Agree fl p ow x y := by
  obtain ⟨a1, a2, a3⟩ := ih
  simp only at a1 a2 a3
  rw [changeNode_other hn] at h1 h2
  by_cases e : (decide (fl = .json) && !s && n.hasTok Tok.isComma) = true
  · rw [if_pos e] at h1
    have e' : (decide (fl = .json) && !s0 && n.hasTok Tok.isComma) = true := by
      cases s0 with
      | false => cases s <;> simp_all
      | true => rw [a2 rfl] at e; simp at e
    rw [if_pos e'] at h2
    cases h1; cases h2
    exact ⟨a1, a2, a3⟩
  · rw [if_neg e] at h1
    cases h1
    refine ⟨?_, ?_, ?_⟩
    · rw [changeLoop, changeLoop_place hd hf r hr _ 0 _ none, a1]
      simp only [Res.ok_bind, changeNode_other hn]
      exact h2
    · split at h2 <;> cases h2 <;> exact a2
    · split at h2 <;> cases h2 <;> exact a3

mutual
theorem again_loop {fl : Syntax} {p : Path} (hd : p ≠ []) {ov ow : Option Node}
    (hv : ∀ v, ov = some v → VOk fl v) (hf : ∀ w, ow = some w → Flat fl w) (hvw : ov = none → ow = none) :
    (ns : List Node) → WfList fl ns → ∀ (i i' : Nat) (prev prev' : Option Node) x y,
      changeLoop fl p ov i prev ns = .ok x → changeLoop fl p ow i' prev' ns = .ok y → Agree fl p ow x y
  | [], _, _, _, _, _, _, _, h1, h2 => by
    cases h1; cases h2
    exact ⟨rfl, id, hvw⟩
  | n :: ns, hw, i, i', prev, prev', x, y, h1, h2 => by
    rw [changeLoop, Res.bind_eq_ok] at h1 h2
    obtain ⟨⟨r, s, vc⟩, h3, h1⟩ := h1
    obtain ⟨⟨r0, s0, vc0⟩, h4, h2⟩ := h2
    have ih := again_loop hd hv hf hvw ns hw.2 _ _ _ _ _ _ h3 h4
    obtain ⟨_, _, _, g1, g2, g3, _⟩ := changeLoop_spec hd hv ns hw.2 (i + 1) (some n)
    obtain ⟨_, _, _, k1, _, k3, _⟩ := changeLoop_spec hd (fun w hw => (hf w hw).toVOk) ns hw.2 (i' + 1) (some n)
    rw [h3] at g1
    rw [h4] at k1
    cases g1
    cases k1
    refine again_node hd ?_ ?_ hf ih g2.wf n hw.1 i i' prev prev' x y h1 h2
    · intro v h
      rcases g3 with g | g
      · exact hv v (g ▸ h)
      · rw [g] at h; cases h
    · exact k3
termination_by structural ns => ns
theorem again_node {fl : Syntax} {p : Path} (hd : p ≠ []) {ow vc vc0 : Option Node} {r r0 : List Node} {s s0 : Bool}
    (hv : ∀ v, vc = some v → VOk fl v) (hvc0 : vc0 = ow ∨ vc0 = none) (hf : ∀ w, ow = some w → Flat fl w)
    (ih : Agree fl p ow (r, s, vc) (r0, s0, vc0)) (hr : WfList fl r) :
    (n : Node) → WfNode fl n → ∀ (i i' : Nat) (prev prev' : Option Node) x y,
      changeNode fl p i prev r s vc n = .ok x → changeNode fl p i' prev' r0 s0 vc0 n = .ok y → Agree fl p ow x y
  | .field cs, hn, i, i', prev, prev', x, y, h1, h2 => by
    obtain ⟨⟨k, ks, ts, hkey⟩, ⟨v, hval⟩, hcs⟩ := hn
    obtain ⟨a1, a2, a3⟩ := ih
    have hf0 : ∀ w, vc0 = some w → Flat fl w := by
      intro w h
      rcases hvc0 with g | g
      · exact hf w (g ▸ h)
      · rw [g] at h; cases h
    rw [changeNode_field hd hkey] at h1 h2
    have hdrop : Agree fl p ow (dropSep r, s, vc) (dropSep r0, s0, vc0) :=
      ⟨changeLoop_dropSep hd hf r hr _ _ _ a1, a2, a3⟩
    have hagain : ∀ (cs' : List Node), fieldPath cs' = .ok (k :: ks, ts) →
        changeLoop fl p ow 0 none (.field cs' :: r) = changeNode fl p 0 none r0 s0 vc0 (.field cs') := by
      intro cs' _
      rw [changeLoop, changeLoop_place hd hf r hr _ 0 _ none, a1]
      rfl
    by_cases e1 : k :: ks = p
    · rw [if_pos e1] at h1 h2
      cases vc with
      | none =>
        have e0 : vc0 = none := a3 rfl
        subst e0
        cases h1; cases h2
        exact hdrop
      | some v0 =>
        rw [if_neg (by simp), Res.bind_eq_ok] at h1
        obtain ⟨cs', h3, h1⟩ := h1
        cases h1
        rw [setField, Res.bind_eq_ok] at h3
        obtain ⟨v1, h4, h3⟩ := h3
        obtain ⟨v2, g1, g2⟩ := indentedValue_spec i prev (hv v0 rfl)
        rw [h4] at g1
        cases g1
        obtain ⟨cs2, q1, q2, _, _⟩ := replaceValue_spec g2.isValue hval
        rw [h3] at q1
        cases q1
        refine ⟨?_, fun _ => rfl, fun _ => ?_⟩
        · rw [hagain cs' (by rw [q2, hkey]), changeNode_field hd (by rw [q2, hkey]), if_pos e1, ← h2]
          cases vc0 with
          | none => rfl
          | some w =>
            have hw1 := (hf0 w rfl).indented 0 none
            have hw2 := (hf0 w rfl).indented i' prev'
            simp only [setField, hw1, hw2, Res.ok_bind, replaceValue_twice g2.isValue h3]
        · cases vc0 with
          | none => cases h2; rfl
          | some w =>
            rw [if_neg (by simp), Res.bind_eq_ok] at h2
            obtain ⟨_, _, h2⟩ := h2
            cases h2
            rfl
    · rw [if_neg e1] at h1 h2
      by_cases e2 : p <+: k :: ks
      · rw [if_pos e2] at h1 h2
        cases h1; cases h2
        exact hdrop
      · rw [if_neg e2] at h1 h2
        by_cases e3 : k :: ks <+: p
        · rw [if_pos e3, Res.bind_eq_ok] at h1 h2
          obtain ⟨c1, h3, h1⟩ := h1
          obtain ⟨c2, h4, h2⟩ := h2
          cases h1
          cases h2
          obtain ⟨rem, hrem, hpe, hsub⟩ := length_drop_facts (by simp) e3 e1
          rw [hsub] at h3 h4
          obtain ⟨_, _, q1, q2, _, _, _, _⟩ := changeField_spec hrem hv cs hcs v hval
          rw [h3] at q1
          cases q1
          refine ⟨?_, fun _ => rfl, a3⟩
          rw [hagain c1 (by rw [q2, hkey]), changeNode_field hd (by rw [q2, hkey]), if_neg e1, if_neg e2,
            if_pos e3, hsub, again_field hrem hv hf0 a3 cs hcs c1 c2 h3 h4]
          rfl
        · rw [if_neg e3] at h1 h2
          cases h1; cases h2
          refine ⟨?_, fun _ => rfl, a3⟩
          rw [hagain cs hkey, changeNode_field hd hkey, if_neg e1, if_neg e2, if_neg e3]
  | .single _, hn, i, i', prev, prev', x, y, h1, h2 | .comment _, hn, i, i', prev, prev', x, y, h1, h2
  | .path _ _, hn, i, i', prev, prev', x, y, h1, h2 | .simple _, hn, i, i', prev, prev', x, y, h1, h2
  | .incl _ _, hn, i, i', prev, prev', x, y, h1, h2 | .object _, hn, i, i', prev, prev', x, y, h1, h2
  | .array _, hn, i, i', prev, prev', x, y, h1, h2 | .concat _, hn, i, i', prev, prev', x, y, h1, h2 =>
    again_other hd hf ih hr rfl h1 h2
termination_by structural n => n
theorem again_field {fl : Syntax} {rem : Path} (hr : rem ≠ []) {vc vc0 : Option Node}
    (hv : ∀ v, vc = some v → VOk fl v) (hf : ∀ w, vc0 = some w → Flat fl w) (hvw : vc = none → vc0 = none) :
    (cs : List Node) → WfList fl cs → ∀ c1 c2, changeField fl rem vc cs = .ok c1 →
      changeField fl rem vc0 cs = .ok c2 → changeField fl rem vc0 c1 = .ok c2
  | [], _, _, _, h, _ => by cases h
  | n :: ns, hw, c1, c2, h1, h2 => by
    rw [changeField] at h1 h2
    by_cases hn : n.isValue = true
    · rw [if_pos hn, Res.bind_eq_ok] at h1 h2
      obtain ⟨n1, h3, h1⟩ := h1
      obtain ⟨n2, h4, h2⟩ := h2
      cases h1
      cases h2
      obtain ⟨_, g1, g2, _⟩ := changeInObject_spec hr hv n hw.1 hn
      rw [h3] at g1
      cases g1
      rw [changeField, if_pos g2, again_object hr hv hf hvw n hw.1 n1 n2 h3 h4]
      rfl
    · rw [if_neg hn, Res.bind_eq_ok] at h1 h2
      obtain ⟨n1, h3, h1⟩ := h1
      obtain ⟨n2, h4, h2⟩ := h2
      cases h1
      cases h2
      rw [changeField, if_neg hn, again_field hr hv hf hvw ns hw.2 n1 n2 h3 h4]
      rfl
termination_by structural cs => cs
theorem again_object {fl : Syntax} {rem : Path} (hr : rem ≠ []) {vc vc0 : Option Node}
    (hv : ∀ v, vc = some v → VOk fl v) (hf : ∀ w, vc0 = some w → Flat fl w) (hvw : vc = none → vc0 = none) :
    (n : Node) → WfNode fl n → ∀ n1 n2, changeInObject fl rem vc n = .ok n1 →
      changeInObject fl rem vc0 n = .ok n2 → changeInObject fl rem vc0 n1 = .ok n2
  | .object ocs, hn, n1, n2, h1, h2 => by
    rw [changeInObject, Res.bind_eq_ok] at h1 h2
    obtain ⟨⟨o1, s1, v1⟩, h3, h1⟩ := h1
    obtain ⟨⟨o2, s2, v2⟩, h4, h2⟩ := h2
    cases h1
    cases h2
    have := again_loop hr hv hf hvw ocs hn.2.2 _ _ _ _ _ _ h3 h4
    rw [changeInObject, this.1]
    rfl
  | .single _, _, _, _, h1, h2 | .comment _, _, _, _, h1, h2 | .path _ _, _, _, _, h1, h2
  | .simple _, _, _, _, h1, h2 | .incl _ _, _, _, _, h1, h2 | .field _, _, _, _, h1, h2
  | .array _, _, _, _, h1, h2 | .concat _, _, _, _, h1, h2 => by
    rw [changeInObject] at h1 h2
    · cases h1; cases h2; rfl
    all_goals simp
termination_by structural n => n
end

end DocEdit
end Hocon
