import Verif.Lemmas.EditAdded

/-!
# Edits at unrelated paths

Changes of two settings neither of which lies inside the other one can be made in either order; so can any two
removals.
-/

set_option autoImplicit false

namespace Hocon
namespace DocEdit
open PathParser (Syntax)
open Node
open PathM (startsWith subPath)

/-- Either order of two passes gives the same. -/
def Commute (fl : Syntax) (p q : Path) (ov ow : Option Node) (x y : List Node × Bool × Option Node) : Prop :=
  ∃ z s, changeLoop fl p ov 0 none y.1 = .ok (z, s, x.2.2) ∧ changeLoop fl q ow 0 none x.1 = .ok (z, s, y.2.2) ∧
    (s = true → x.2.1 = true ∧ y.2.1 = true)

/-- The two changes do not touch the same settings, or both are removals. -/
def Apart (p q : Path) (ov ow : Option Node) : Prop := Incomparable p q ∨ (ov = none ∧ ow = none)

theorem Apart.tail {key p q : Path} {ov ow vc wc : Option Node} (h : Apart (key ++ p) (key ++ q) ov ow)
    (hv : vc = ov ∨ vc = none) (hw : wc = ow ∨ wc = none) : Apart p q vc wc := by
  rcases h with h | ⟨rfl, rfl⟩
  · exact Or.inl (Incomparable.tail.1 h)
  · exact Or.inr ⟨hv.elim id id, hw.elim id id⟩

theorem commute_other {fl : Syntax} {p q : Path} (hp : p ≠ []) (hq : q ≠ []) {ov ow vc wc : Option Node}
    {r r' : List Node} {s s' : Bool} (hv : ∀ w, ov = some w → Flat fl w) (hw : ∀ w, ow = some w → Flat fl w)
    (ih : Commute fl p q ov ow (r, s, vc) (r', s', wc)) (hr : WfList fl r) (hr' : WfList fl r') {n : Node}
    (hn : n.isField = false) {i i' : Nat} {prev prev' : Option Node} {x y : List Node × Bool × Option Node}
    (h1 : changeNode fl p i prev r s vc n = .ok x) (h2 : changeNode fl q i' prev' r' s' wc n = .ok y) :
    Commute fl p q ov ow x y := by
  obtain ⟨z, t, a1, a2, a3⟩ := ih
  simp only at a1 a2 a3
  rw [changeNode_other hn] at h1 h2
  have k1 : ∀ l, changeLoop fl p ov 0 none l = .ok (z, t, vc) → WfList fl l → changeLoop fl p ov 0 none (n :: l) =
      if fl = .json && !t && n.hasTok Tok.isComma then .ok (z, t, vc) else .ok (n :: z, t, vc) := by
    intro l h hl
    rw [changeLoop, changeLoop_place hp hv l hl _ 0 _ none, h]
    exact changeNode_other hn
  have k2 : ∀ l, changeLoop fl q ow 0 none l = .ok (z, t, wc) → WfList fl l → changeLoop fl q ow 0 none (n :: l) =
      if fl = .json && !t && n.hasTok Tok.isComma then .ok (z, t, wc) else .ok (n :: z, t, wc) := by
    intro l h hl
    rw [changeLoop, changeLoop_place hq hw l hl _ 0 _ none, h]
    exact changeNode_other hn
  by_cases e : fl = .json ∧ n.hasTok Tok.isComma = true
  · obtain ⟨rfl, e⟩ := e
    simp only [e, decide_true, Bool.true_and, Bool.and_true] at h1 h2 k1 k2
    cases s with
    | true =>
      simp only [Bool.not_true, Bool.false_eq_true, if_false] at h1
      cases h1
      cases s' with
      | true =>
        simp only [Bool.not_true, Bool.false_eq_true, if_false] at h2
        cases h2
        refine ⟨if t then n :: z else z, t, ?_, ?_, fun _ => ⟨rfl, rfl⟩⟩
        · rw [k1 _ a1 hr']; cases t <;> rfl
        · rw [k2 _ a2 hr]; cases t <;> rfl
      | false =>
        simp only [Bool.not_false, if_true] at h2
        cases h2
        cases t with
        | true => cases (a3 rfl).2
        | false =>
          refine ⟨z, false, a1, ?_, by simp⟩
          rw [k2 _ a2 hr]; rfl
    | false =>
      simp only [Bool.not_false, if_true] at h1
      cases h1
      cases t with
      | true => cases (a3 rfl).1
      | false =>
        cases s' with
        | true =>
          simp only [Bool.not_true, Bool.false_eq_true, if_false] at h2
          cases h2
          refine ⟨z, false, ?_, a2, by simp⟩
          rw [k1 _ a1 hr']; rfl
        | false =>
          simp only [Bool.not_false, if_true] at h2
          cases h2
          exact ⟨z, false, a1, a2, by simp⟩
  · have e1 : ∀ b : Bool, (decide (fl = .json) && !b && n.hasTok Tok.isComma) = false := by
      intro b
      by_cases hj : fl = .json
      · have : n.hasTok Tok.isComma = false := by
          rw [← Bool.not_eq_true]; exact fun h => e ⟨hj, h⟩
        rw [this]; simp
      · simp [hj]
    simp only [e1, Bool.false_eq_true, if_false] at h1 h2 k1 k2
    cases h1
    cases h2
    exact ⟨n :: z, t, k1 _ a1 hr', k2 _ a2 hr, a3⟩

mutual
theorem commute_loop {fl : Syntax} {p q : Path} (hp : p ≠ []) (hq : q ≠ []) {ov ow : Option Node}
    (hv : ∀ v, ov = some v → Flat fl v) (hw : ∀ w, ow = some w → Flat fl w) (ha : Apart p q ov ow) :
    (ns : List Node) → WfList fl ns → ∀ (i i' : Nat) (prev prev' : Option Node) x y,
      changeLoop fl p ov i prev ns = .ok x → changeLoop fl q ow i' prev' ns = .ok y → Commute fl p q ov ow x y
  | [], _, _, _, _, _, _, _, h1, h2 => by
    cases h1; cases h2
    exact ⟨[], false, rfl, rfl, by simp⟩
  | n :: ns, hn, i, i', prev, prev', x, y, h1, h2 => by
    rw [changeLoop, Res.bind_eq_ok] at h1 h2
    obtain ⟨⟨r, s, vc⟩, h3, h1⟩ := h1
    obtain ⟨⟨r', s', wc⟩, h4, h2⟩ := h2
    have ih := commute_loop hp hq hv hw ha ns hn.2 _ _ _ _ _ _ h3 h4
    obtain ⟨_, _, _, g1, g2, g3, _⟩ := changeLoop_spec hp (fun w h => (hv w h).toVOk) ns hn.2 (i + 1) (some n)
    obtain ⟨_, _, _, k1, k2, k3, _⟩ := changeLoop_spec hq (fun w h => (hw w h).toVOk) ns hn.2 (i' + 1) (some n)
    rw [h3] at g1
    rw [h4] at k1
    cases g1
    cases k1
    exact commute_node hp hq hv hw ha g3 k3 ih g2.wf k2.wf n hn.1 i i' prev prev' x y h1 h2
termination_by structural ns => ns
theorem commute_node {fl : Syntax} {p q : Path} (hp : p ≠ []) (hq : q ≠ []) {ov ow vc wc : Option Node}
    {r r' : List Node} {s s' : Bool}
    (hv : ∀ v, ov = some v → Flat fl v) (hw : ∀ w, ow = some w → Flat fl w) (ha : Apart p q ov ow)
    (hvc : vc = ov ∨ vc = none) (hwc : wc = ow ∨ wc = none)
    (ih : Commute fl p q ov ow (r, s, vc) (r', s', wc)) (hr : WfList fl r) (hr' : WfList fl r') :
    (n : Node) → WfNode fl n → ∀ (i i' : Nat) (prev prev' : Option Node) x y,
      changeNode fl p i prev r s vc n = .ok x → changeNode fl q i' prev' r' s' wc n = .ok y → Commute fl p q ov ow x y
  | .field cs, hn, i, i', prev, prev', x, y, h1, h2 => by
    have hn0 := hn
    obtain ⟨⟨k, ks, ts, hkey⟩, ⟨v0, hval⟩, hcs⟩ := hn
    have ih0 := ih
    obtain ⟨z, t, a1, a2, a3⟩ := ih
    simp only at a1 a2 a3
    have hv' : ∀ w, vc = some w → Flat fl w := by
      intro w h
      rcases hvc with g | g
      · exact hv w (g ▸ h)
      · rw [g] at h; cases h
    have hw' : ∀ w, wc = some w → Flat fl w := by
      intro w h
      rcases hwc with g | g
      · exact hw w (g ▸ h)
      · rw [g] at h; cases h
    -- the second passes, on a field
    have kp : ∀ c, changeLoop fl p ov 0 none (.field c :: r') = changeNode fl p 0 none z t vc (.field c) := by
      intro c
      rw [changeLoop, changeLoop_place hp hv r' hr' _ 0 _ none, a1]
      rfl
    have kq : ∀ c, changeLoop fl q ow 0 none (.field c :: r) = changeNode fl q 0 none z t wc (.field c) := by
      intro c
      rw [changeLoop, changeLoop_place hq hw r hr _ 0 _ none, a2]
      rfl
    have dp := changeLoop_dropSep hp hv r' hr' _ _ _ a1
    have dq := changeLoop_dropSep hq hw r hr _ _ _ a2
    rw [changeNode_place (i' := 0) (prev' := none) hp hn0 hv'] at h1
    rw [changeNode_place (i' := 0) (prev' := none) hq hn0 hw'] at h2
    -- what a pass does to the field
    have fate : ∀ {p : Path} {vc : Option Node} {r : List Node} {s : Bool} {x : List Node × Bool × Option Node},
        p ≠ [] → (∀ w, vc = some w → Flat fl w) → changeNode fl p 0 none r s vc (.field cs) = .ok x →
        (p <+: k :: ks ∧ (k :: ks = p → vc = none) ∧ x = (dropSep r, s, vc) ∧
          (∀ c z t, fieldPath c = .ok (k :: ks, ts) → changeNode fl p 0 none z t vc (.field c) = .ok (dropSep z, t, vc))) ∨
        (k :: ks = p ∧ ∃ c w, vc = some w ∧ replaceValue w cs = .ok c ∧ x = (.field c :: r, true, none)) ∨
        (∃ rem, rem ≠ [] ∧ p = (k :: ks) ++ rem ∧ subPath (PathM.length (k :: ks)) p = rem ∧
          ∃ c, changeField fl rem vc cs = .ok c ∧ x = (.field c :: r, true, vc)) ∨
        (Incomparable (k :: ks) p ∧ x = (.field cs :: r, true, vc)) := by
      intro p vc r s x hp hv h
      rw [changeNode_field hp hkey] at h
      by_cases e1 : k :: ks = p
      · rw [if_pos e1] at h
        cases vc with
        | none =>
          cases h
          refine Or.inl ⟨e1 ▸ List.prefix_rfl, fun _ => rfl, rfl, fun c z t hc => ?_⟩
          rw [changeNode_field hp hc, if_pos e1]
          rfl
        | some w =>
          rw [if_neg (by simp), Res.bind_eq_ok] at h
          obtain ⟨c, h3, h⟩ := h
          simp only [setField, (hv w rfl).indented, Res.ok_bind] at h3
          cases h
          exact Or.inr (Or.inl ⟨e1, c, w, rfl, h3, rfl⟩)
      · rw [if_neg e1] at h
        by_cases e2 : p <+: k :: ks
        · rw [if_pos e2] at h
          cases h
          refine Or.inl ⟨e2, fun e => absurd e e1, rfl, fun c z t hc => ?_⟩
          rw [changeNode_field hp hc, if_neg e1, if_pos e2]
        · rw [if_neg e2] at h
          by_cases e3 : k :: ks <+: p
          · rw [if_pos e3, Res.bind_eq_ok] at h
            obtain ⟨c, h3, h⟩ := h
            obtain ⟨rem, hrem, hpe, hsub⟩ := length_drop_facts (by simp) e3 e1
            rw [hsub] at h3
            cases h
            exact Or.inr (Or.inr (Or.inl ⟨rem, hrem, hpe, hsub, c, h3, rfl⟩))
          · rw [if_neg e3] at h
            cases h
            exact Or.inr (Or.inr (Or.inr ⟨⟨e3, e2⟩, rfl⟩))
    have keyOf : ∀ {p : Path} {vc : Option Node} {c : List Node}, p ≠ [] → (∀ w, vc = some w → Flat fl w) →
        changeField fl p vc cs = .ok c → fieldPath c = .ok (k :: ks, ts) := by
      intro p vc c hp hv h
      obtain ⟨_, _, q1, q2, _⟩ := changeField_spec hp (fun w h => (hv w h).toVOk) cs hcs v0 hval
      rw [h] at q1
      cases q1
      rw [q2, hkey]
    have keyOf' : ∀ {w : Node} {c : List Node}, Flat fl w → replaceValue w cs = .ok c → fieldPath c = .ok (k :: ks, ts) := by
      intro w c hw h
      obtain ⟨_, q1, q2, _⟩ := replaceValue_spec hw.isValue hval
      rw [h] at q1
      cases q1
      rw [q2, hkey]
    rcases fate hp hv' h1 with ⟨b1, b2, rfl, b3⟩ | ⟨b1, c, w, rfl, b2, rfl⟩ | ⟨rem, b1, b2, b3, c, b4, rfl⟩ | ⟨b1, rfl⟩
    · -- `p` deletes the field
      rcases fate hq hw' h2 with ⟨d1, d2, rfl, d3⟩ | ⟨d1, c', w', rfl, d2, rfl⟩ | ⟨rem', d1, d2, d3, c', d4, rfl⟩ | ⟨d1, rfl⟩
      · exact ⟨dropSep z, t, dp, dq, a3⟩
      · refine ⟨dropSep z, t, ?_, ?_, fun h => ⟨(a3 h).1, rfl⟩⟩
        · simp only
          rw [kp, b3 _ _ _ (keyOf' (hw' w' rfl) d2)]
        · simp only
          rcases ha with ha | ⟨rfl, rfl⟩
          · exact absurd (d1 ▸ b1) ha.1
          · rcases hwc with h | h <;> cases h
      · refine ⟨dropSep z, t, ?_, dq, fun h => ⟨(a3 h).1, rfl⟩⟩
        simp only
        rw [kp, b3 _ _ _ (keyOf d1 hw' d4)]
      · refine ⟨dropSep z, t, ?_, dq, fun h => ⟨(a3 h).1, rfl⟩⟩
        simp only
        rw [kp, b3 _ _ _ hkey]
    · -- `p` sets the field
      have ha' : Incomparable p q := by
        rcases ha with ha | ⟨rfl, rfl⟩
        · exact ha
        · rcases hvc with h | h <;> cases h
      have hkc := keyOf' (hv' w rfl) b2
      subst b1
      have o1 : ∀ c z t wc, fieldPath c = .ok (k :: ks, ts) →
          changeNode fl q 0 none z t wc (.field c) = .ok (.field c :: z, true, wc) := by
        intro c z t wc hc
        rw [changeNode_field hq hc, if_neg (by rintro rfl; exact ha'.1 List.prefix_rfl), if_neg ha'.2, if_neg ha'.1]
      rw [o1 _ _ _ _ hkey] at h2
      cases h2
      refine ⟨.field c :: z, true, ?_, ?_, fun _ => ⟨rfl, rfl⟩⟩
      · simp only
        rw [kp, changeNode_field hp hkey, if_pos rfl, if_neg (by simp)]
        simp only [setField, (hv' w rfl).indented, Res.ok_bind, b2]
      · simp only
        rw [kq, o1 _ _ _ _ hkc]
    · -- `p` goes into the field
      have hkc := keyOf b1 hv' b4
      have np : ∀ c z t, fieldPath c = .ok (k :: ks, ts) → changeNode fl p 0 none z t vc (.field c) =
          changeField fl rem vc c >>= fun cs' => .ok (.field cs' :: z, true, vc) := by
        intro c z t hc
        have hne : k :: ks ≠ p := by
          rw [b2]; intro h; exact b1 (List.self_eq_append_right.1 h)
        rw [changeNode_field hp hc, if_neg hne, if_neg (by
          rw [b2]; intro h
          have := h.length_le
          have := List.length_pos_iff.2 b1
          simp at *
          omega), if_pos (b2 ▸ List.prefix_append _ _), b3]
      rcases fate hq hw' h2 with ⟨d1, d2, rfl, d3⟩ | ⟨d1, c', w', rfl, d2, rfl⟩ | ⟨rem', d1, d2, d3, c', d4, rfl⟩ | ⟨d1, rfl⟩
      · refine ⟨dropSep z, t, dp, ?_, fun h => ⟨rfl, (a3 h).2⟩⟩
        simp only
        rw [kq, d3 _ _ _ hkc]
      · exfalso
        rcases ha with ha | ⟨rfl, rfl⟩
        · exact ha.2 (by rw [← d1, b2]; exact List.prefix_append _ _)
        · rcases hwc with h | h <;> cases h
      · have hap : Apart rem rem' vc wc := Apart.tail (key := k :: ks) (b2 ▸ d2 ▸ ha) hvc hwc
        obtain ⟨cz, e1, e2⟩ := commute_field b1 d1 hv' hw' hap cs hcs c c' b4 d4
        refine ⟨.field cz :: z, true, ?_, ?_, fun _ => ⟨rfl, rfl⟩⟩
        · simp only
          rw [kp, np _ _ _ (keyOf d1 hw' d4), e1]
          rfl
        · simp only
          have hne : k :: ks ≠ q := by
            rw [d2]; intro h; exact d1 (List.self_eq_append_right.1 h)
          rw [kq, changeNode_field hq hkc, if_neg hne, if_neg (by
            rw [d2]; intro h
            have := h.length_le
            have := List.length_pos_iff.2 d1
            simp at *
            omega), if_pos (d2 ▸ List.prefix_append _ _), d3, e2]
          rfl
      · refine ⟨.field c :: z, true, ?_, ?_, fun _ => ⟨rfl, rfl⟩⟩
        · simp only
          rw [kp, np _ _ _ hkey, b4]
          rfl
        · simp only
          rw [kq, changeNode_field hq hkc, if_neg (by rintro rfl; exact d1.1 List.prefix_rfl), if_neg d1.2, if_neg d1.1]
    · -- `p` leaves the field
      have np : ∀ c z t, fieldPath c = .ok (k :: ks, ts) →
          changeNode fl p 0 none z t vc (.field c) = .ok (.field c :: z, true, vc) := by
        intro c z t hc
        rw [changeNode_field hp hc, if_neg (by rintro rfl; exact b1.1 List.prefix_rfl), if_neg b1.2, if_neg b1.1]
      rcases fate hq hw' h2 with ⟨d1, d2, rfl, d3⟩ | ⟨d1, c', w', rfl, d2, rfl⟩ | ⟨rem', d1, d2, d3, c', d4, rfl⟩ | ⟨d1, rfl⟩
      · refine ⟨dropSep z, t, dp, ?_, fun h => ⟨rfl, (a3 h).2⟩⟩
        simp only
        rw [kq, d3 _ _ _ hkey]
      · refine ⟨.field c' :: z, true, ?_, ?_, fun _ => ⟨rfl, rfl⟩⟩
        · simp only
          rw [kp, np _ _ _ (keyOf' (hw' w' rfl) d2)]
        · simp only
          rw [kq, changeNode_field hq hkey, if_pos d1, if_neg (by simp)]
          simp only [setField, (hw' w' rfl).indented, Res.ok_bind, d2]
      · refine ⟨.field c' :: z, true, ?_, ?_, fun _ => ⟨rfl, rfl⟩⟩
        · simp only
          rw [kp, np _ _ _ (keyOf d1 hw' d4)]
        · simp only
          have hne : k :: ks ≠ q := by
            rw [d2]; intro h; exact d1 (List.self_eq_append_right.1 h)
          rw [kq, changeNode_field hq hkey, if_neg hne, if_neg (by
            rw [d2]; intro h
            have := h.length_le
            have := List.length_pos_iff.2 d1
            simp at *
            omega), if_pos (d2 ▸ List.prefix_append _ _), d3, d4]
          rfl
      · refine ⟨.field cs :: z, true, ?_, ?_, fun _ => ⟨rfl, rfl⟩⟩
        · simp only
          rw [kp, np _ _ _ hkey]
        · simp only
          rw [kq, changeNode_field hq hkey, if_neg (by rintro rfl; exact d1.1 List.prefix_rfl), if_neg d1.2, if_neg d1.1]
  | .single _, hn, i, i', prev, prev', x, y, h1, h2 | .comment _, hn, i, i', prev, prev', x, y, h1, h2
  | .path _ _, hn, i, i', prev, prev', x, y, h1, h2 | .simple _, hn, i, i', prev, prev', x, y, h1, h2
  | .incl _ _, hn, i, i', prev, prev', x, y, h1, h2 | .object _, hn, i, i', prev, prev', x, y, h1, h2
  | .array _, hn, i, i', prev, prev', x, y, h1, h2 | .concat _, hn, i, i', prev, prev', x, y, h1, h2 =>
    commute_other hp hq hv hw ih hr hr' rfl h1 h2
termination_by structural n => n
theorem commute_field {fl : Syntax} {p q : Path} (hp : p ≠ []) (hq : q ≠ []) {ov ow : Option Node}
    (hv : ∀ v, ov = some v → Flat fl v) (hw : ∀ w, ow = some w → Flat fl w) (ha : Apart p q ov ow) :
    (cs : List Node) → WfList fl cs → ∀ c1 c2, changeField fl p ov cs = .ok c1 → changeField fl q ow cs = .ok c2 →
      ∃ c, changeField fl p ov c2 = .ok c ∧ changeField fl q ow c1 = .ok c
  | [], _, _, _, h, _ => by cases h
  | n :: ns, hn, c1, c2, h1, h2 => by
    rw [changeField] at h1 h2
    by_cases hnv : n.isValue = true
    · rw [if_pos hnv, Res.bind_eq_ok] at h1 h2
      obtain ⟨n1, h3, h1⟩ := h1
      obtain ⟨n2, h4, h2⟩ := h2
      cases h1
      cases h2
      obtain ⟨_, g1, g2, _⟩ := changeInObject_spec hp (fun w h => (hv w h).toVOk) n hn.1 hnv
      obtain ⟨_, k1, k2, _⟩ := changeInObject_spec hq (fun w h => (hw w h).toVOk) n hn.1 hnv
      rw [h3] at g1
      rw [h4] at k1
      cases g1
      cases k1
      obtain ⟨m, e1, e2⟩ := commute_object hp hq hv hw ha n hn.1 n1 n2 h3 h4
      refine ⟨m :: ns, ?_, ?_⟩
      · rw [changeField, if_pos k2, e1]; rfl
      · rw [changeField, if_pos g2, e2]; rfl
    · rw [if_neg hnv, Res.bind_eq_ok] at h1 h2
      obtain ⟨n1, h3, h1⟩ := h1
      obtain ⟨n2, h4, h2⟩ := h2
      cases h1
      cases h2
      obtain ⟨m, e1, e2⟩ := commute_field hp hq hv hw ha ns hn.2 n1 n2 h3 h4
      refine ⟨n :: m, ?_, ?_⟩
      · rw [changeField, if_neg hnv, e1]; rfl
      · rw [changeField, if_neg hnv, e2]; rfl
termination_by structural cs => cs
theorem commute_object {fl : Syntax} {p q : Path} (hp : p ≠ []) (hq : q ≠ []) {ov ow : Option Node}
    (hv : ∀ v, ov = some v → Flat fl v) (hw : ∀ w, ow = some w → Flat fl w) (ha : Apart p q ov ow) :
    (n : Node) → WfNode fl n → ∀ n1 n2, changeInObject fl p ov n = .ok n1 → changeInObject fl q ow n = .ok n2 →
      ∃ m, changeInObject fl p ov n2 = .ok m ∧ changeInObject fl q ow n1 = .ok m
  | .object ocs, hn, n1, n2, h1, h2 => by
    rw [changeInObject, Res.bind_eq_ok] at h1 h2
    obtain ⟨⟨o1, s1, v1⟩, h3, h1⟩ := h1
    obtain ⟨⟨o2, s2, v2⟩, h4, h2⟩ := h2
    cases h1
    cases h2
    obtain ⟨z, s, e1, e2, _⟩ := commute_loop hp hq hv hw ha ocs hn.2.2 _ _ _ _ _ _ h3 h4
    simp only at e1 e2
    refine ⟨.object z, ?_, ?_⟩
    · rw [changeInObject, e1]; rfl
    · rw [changeInObject, e2]; rfl
  | .single _, _, _, _, h1, h2 | .comment _, _, _, _, h1, h2 | .path _ _, _, _, _, h1, h2
  | .simple _, _, _, _, h1, h2 | .incl _ _, _, _, _, h1, h2 | .field _, _, _, _, h1, h2
  | .array _, _, _, _, h1, h2 | .concat _, _, _, _, h1, h2 => by
    rw [changeInObject] at h1 h2
    · cases h1; cases h2; exact ⟨_, rfl, rfl⟩
    all_goals simp
termination_by structural n => n
end

/-! ## Settings that are there -/

/-- The path `p` itself is set in the children `ns` of an object: by a field whose key is `p`, or inside the object
value of a field whose key is a proper prefix of `p`. -/
inductive SetAt : List Node → Path → Prop where
  | here {ns cs : List Node} {p : Path} {ts : List Tok} (hm : Node.field cs ∈ ns)
      (hk : fieldPath cs = .ok (p, ts)) : SetAt ns p
  | inside {ns cs ocs : List Node} {key rem : Path} {ts : List Tok} (hm : Node.field cs ∈ ns)
      (hk : fieldPath cs = .ok (key, ts)) (hr : rem ≠ [])
      (hv : fieldValue cs = .ok (.object ocs)) (ho : SetAt ocs rem) : SetAt ns (key ++ rem)

theorem changeLoop_kept {fl : Syntax} {p : Path} (hd : p ≠ []) {v : Node} (hv : VOk fl v) :
    ∀ (ns : List Node), WfList fl ns → ∀ (i : Nat) (prev : Option Node) r s vc,
      changeLoop fl p (some v) i prev ns = .ok (r, s, vc) →
      (∀ cs ts ocs key rem, Node.field cs ∈ ns → fieldPath cs = .ok (key, ts) → p = key ++ rem → rem ≠ [] →
        fieldValue cs = .ok (.object ocs) → SetAt ocs rem → ∀ c, changeField fl rem (some v) cs = .ok c →
        ∃ o, fieldValue c = .ok (.object o) ∧ Occurs o rem) →
      (vc = none → Occurs r p) ∧ (SetAt ns p → Occurs r p)
  | [], _, _, _, _, _, _, h, _ => by
    cases h
    refine ⟨(by intro h; cases h), fun h => ?_⟩
    cases h with
    | here hm _ => simp at hm
    | inside hm _ _ _ _ => simp at hm
  | n :: ns, hw, i, prev, r, s, vc, h, hin => by
    rw [changeLoop, Res.bind_eq_ok] at h
    obtain ⟨⟨r1, s1, v1⟩, h1, h⟩ := h
    obtain ⟨i1, i2⟩ := changeLoop_kept hd hv ns hw.2 _ _ _ _ _ h1
      (fun cs ts ocs key rem hm => hin cs ts ocs key rem (List.mem_cons_of_mem _ hm))
    obtain ⟨_, _, _, g1, _, g3, _⟩ := changeLoop_spec (value := some v) hd (by intro u h; cases h; exact hv) ns hw.2 (i + 1) (some n)
    rw [h1] at g1
    cases g1
    have tail : SetAt (n :: ns) p → (∀ cs, n = .field cs → ∃ ts, fieldPath cs = .ok (p, ts) ∨ ∃ key rem ocs, fieldPath cs = .ok (key, ts) ∧
        p = key ++ rem ∧ rem ≠ [] ∧ fieldValue cs = .ok (.object ocs) ∧ SetAt ocs rem) ∧ n.isField = true ∨ SetAt ns p := by
      intro h
      cases h with
      | here hm hk =>
        rcases List.mem_cons.1 hm with rfl | hm
        · exact Or.inl ⟨fun cs e => by cases e; exact ⟨_, Or.inl hk⟩, rfl⟩
        · exact Or.inr (.here hm hk)
      | inside hm hk hr hval ho =>
        rcases List.mem_cons.1 hm with rfl | hm
        · exact Or.inl ⟨fun cs e => by cases e; exact ⟨_, Or.inr ⟨_, _, _, hk, rfl, hr, hval, ho⟩⟩, rfl⟩
        · exact Or.inr (.inside hm hk hr hval ho)
    by_cases hnf : n.isField = true
    · cases n with
      | field cs =>
        obtain ⟨⟨k, ks, ts, hkey⟩, ⟨v0, hval⟩, hcs⟩ := hw.1
        simp only [changeNode_field hd hkey] at h
        by_cases e1 : k :: ks = p
        · rw [if_pos e1] at h
          cases v1 with
          | none =>
            cases h
            have : Occurs (dropSep r1) p := Occurs.dropSep.2 (i1 rfl)
            exact ⟨fun _ => this, fun _ => this⟩
          | some u =>
            rw [if_neg (by simp), Res.bind_eq_ok] at h
            obtain ⟨c, h3, h⟩ := h
            cases h
            have hu : VOk fl u := by
              rcases g3 with g | g <;> cases g
              exact hv
            rw [setField, Res.bind_eq_ok] at h3
            obtain ⟨v2, h4, h3⟩ := h3
            obtain ⟨_, q0, q1⟩ := indentedValue_spec i prev hu
            rw [h4] at q0
            cases q0
            obtain ⟨_, q2, q3, _⟩ := replaceValue_spec q1.isValue hval
            rw [h3] at q2
            cases q2
            have : Occurs (.field c :: r1) p :=
              .here (List.mem_cons_self ..) (q3.trans hkey) (by rw [e1]; exact List.prefix_rfl)
            exact ⟨fun _ => this, fun _ => this⟩
        · rw [if_neg e1] at h
          by_cases e2 : p <+: k :: ks
          · rw [if_pos e2] at h
            cases h
            refine ⟨fun h => Occurs.dropSep.2 (i1 h), fun h => Occurs.dropSep.2 ?_⟩
            rcases tail h with ⟨h, _⟩ | h
            · exfalso
              obtain ⟨ts', h | ⟨key, rem, ocs, h, hpe, hr, _⟩⟩ := h cs rfl
              · rw [hkey] at h; cases h; exact e1 rfl
              · rw [hkey] at h
                cases h
                have := e2.length_le
                have := List.length_pos_iff.2 hr
                rw [hpe] at *
                simp at *
                omega
            · exact i2 h
          · rw [if_neg e2] at h
            by_cases e3 : k :: ks <+: p
            · rw [if_pos e3, Res.bind_eq_ok] at h
              obtain ⟨c, h3, h⟩ := h
              cases h
              obtain ⟨rem, hrem, hpe, hsub⟩ := length_drop_facts (by simp) e3 e1
              rw [hsub] at h3
              have hthere : vc = none → Occurs (.field c :: r1) p := fun h => Occurs.cons.2 (Or.inr (i1 h))
              refine ⟨hthere, fun h => ?_⟩
              rcases tail h with ⟨h, _⟩ | h
              · rcases g3 with g | g
                · subst g
                  obtain ⟨ts', h | ⟨key, rem', ocs, h, hpe', hr, hvo, ho⟩⟩ := h cs rfl
                  · rw [hkey] at h; cases h; exact absurd rfl e1
                  · rw [hkey] at h
                    cases h
                    have : rem' = rem := List.append_cancel_left (hpe'.symm.trans hpe)
                    subst this
                    obtain ⟨o, k1, k2⟩ := hin cs ts ocs (k :: ks) rem' (by simp) hkey hpe' hr hvo ho c h3
                    obtain ⟨_, _, q1, q2, _⟩ := changeField_spec (value := some v) hrem (by intro u h; cases h; exact hv) cs hcs v0 hval
                    rw [h3] at q1
                    cases q1
                    rw [hpe']
                    exact .inside (by simp) (by rw [q2, hkey]) hr k1 k2
                · exact hthere g
              · exact Occurs.cons.2 (Or.inr (i2 h))
            · rw [if_neg e3] at h
              cases h
              refine ⟨fun h => Occurs.cons.2 (Or.inr (i1 h)), fun h => Occurs.cons.2 (Or.inr ?_)⟩
              rcases tail h with ⟨h, _⟩ | h
              · exfalso
                obtain ⟨ts', h | ⟨key, rem, ocs, h, hpe, hr, _⟩⟩ := h cs rfl
                · rw [hkey] at h; cases h; exact e1 rfl
                · rw [hkey] at h
                  cases h
                  exact e3 ⟨rem, hpe.symm⟩
              · exact i2 h
      | _ => cases hnf
    · rw [Bool.not_eq_true] at hnf
      simp only [changeNode_other hnf] at h
      have ht : SetAt (n :: ns) p → SetAt ns p := by
        intro h
        rcases tail h with ⟨_, h⟩ | h
        · rw [hnf] at h; cases h
        · exact h
      split at h
      · cases h
        exact ⟨i1, fun h => i2 (ht h)⟩
      · cases h
        exact ⟨fun h => Occurs.cons.2 (Or.inr (i1 h)), fun h => Occurs.cons.2 (Or.inr (i2 (ht h)))⟩

theorem changeField_value {fl : Syntax} {rem : Path} {ov : Option Node} : ∀ {cs c ocs : List Node},
    fieldValue cs = .ok (.object ocs) → changeField fl rem ov cs = .ok c →
      ∃ o s vc, changeLoop fl rem ov 0 none ocs = .ok (o, s, vc) ∧ fieldValue c = .ok (.object o)
  | [], _, _, h, _ => by cases h
  | n :: ns, c, ocs, h, hc => by
    rw [fieldValue] at h
    rw [changeField] at hc
    by_cases hn : n.isValue = true
    · rw [if_pos hn] at h hc
      cases h
      rw [changeInObject] at hc
      rw [Res.bind_eq_ok] at hc
      obtain ⟨m, h1, hc⟩ := hc
      rw [Res.bind_eq_ok] at h1
      obtain ⟨⟨o, s, vc⟩, h1, h2⟩ := h1
      cases h2
      cases hc
      exact ⟨o, s, vc, h1, rfl⟩
    · rw [if_neg hn] at h hc
      rw [Res.bind_eq_ok] at hc
      obtain ⟨m, h1, hc⟩ := hc
      cases hc
      obtain ⟨o, s, vc, g1, g2⟩ := changeField_value h h1
      exact ⟨o, s, vc, g1, by rw [fieldValue, if_neg hn, g2]⟩

theorem fieldValue_wf {fl : Syntax} {cs : List Node} {v : Node} (hw : WfList fl cs) (h : fieldValue cs = .ok v) : WfNode fl v := by
  induction cs with
  | nil => cases h
  | cons n ns ih =>
    rw [fieldValue] at h
    split at h
    · cases h; exact hw.1
    · exact ih hw.2 h

/-- A setting that is there is still there after its value has been changed. -/
theorem SetAt.kept {fl : Syntax} {v : Node} (hv : VOk fl v) : ∀ (k : Nat) (p : Path), p.length ≤ k → p ≠ [] → ∀ (ns : List Node),
    WfList fl ns → ∀ (i : Nat) (prev : Option Node) r s vc, changeLoop fl p (some v) i prev ns = .ok (r, s, vc) →
      SetAt ns p → Occurs r p
  | 0, p, hk, hp, _, _, _, _, _, _, _, _, _ => by
    have := List.length_pos_iff.2 hp
    omega
  | k + 1, p, hk, hp, ns, hw, i, prev, r, s, vc, h, hs => by
    refine (changeLoop_kept hp hv ns hw i prev r s vc h ?_).2 hs
    intro cs ts ocs key rem hm hkey hpe hr hval ho c hc
    have hcs := (WfList.iff.1 hw _ hm)
    obtain ⟨⟨k0, ks, ts', hkey'⟩, _, hcs⟩ := hcs
    rw [hkey] at hkey'
    cases hkey'
    obtain ⟨o, s', vc', g1, g2⟩ := changeField_value hval hc
    refine ⟨o, g2, SetAt.kept hv k rem ?_ hr ocs (fieldValue_wf hcs hval).2.2 _ _ _ _ _ g1 ho⟩
    rw [hpe] at hk
    simp at hk
    omega

/-- Setting a path that is set is changing it. -/
theorem setValue_there {fl : Syntax} {v : Node} (hv : VOk fl v) {p : Path} (hp : p ≠ []) {toks : List Tok} {cs : List Node}
    (hw : WfList fl cs) {r : List Node} {s : Bool} {vc : Option Node} (h : changeLoop fl p (some v) 0 none cs = .ok (r, s, vc))
    (ho : Occurs r p) : setValue fl p toks v cs = .ok r := by
  obtain ⟨_, _, _, g1, g2, _⟩ := changeLoop_spec (value := some v) hp (by intro u h; cases h; exact hv) cs hw 0 none
  rw [h] at g1
  cases g1
  obtain ⟨b, h1, h2⟩ := hasValue_spec hp r g2.wf
  unfold setValue changeValue
  rw [h]
  simp only [Res.ok_bind, h1, h2.2 ho, if_true]

/-- Setting a path that is set and removing it is removing it. -/
theorem setValue_remove {fl : Syntax} {v : Node} (hv : VOk fl v) {p : Path} (hp : p ≠ []) {toks : List Tok} {cs r : List Node}
    (hw : WfList fl cs) (hs : SetAt cs p) (h : setValue fl p toks v cs = .ok r) :
    changeValue fl p none r = changeValue fl p none cs := by
  have hv' : ∀ u, some v = some u → VOk fl u := by intro u h; cases h; exact hv
  obtain ⟨c1, s1, v1, h1, _⟩ := changeLoop_spec hp hv' cs hw 0 none
  obtain ⟨c0, s0, v0, g1, _⟩ := changeLoop_spec hp (value := none) (fl := fl) (fun u h => by cases h) cs hw 0 none
  have ho := SetAt.kept hv p.length p (Nat.le_refl _) hp cs hw _ _ _ _ _ h1 hs
  rw [setValue_there hv hp hw h1 ho] at h
  cases h
  have := (again_loop hp hv' (ow := none) (fun u h => by cases h) (by simp) cs hw _ _ _ _ _ _ h1 g1).1
  unfold changeValue
  rw [this, g1]

/-- Removing a path twice. -/
theorem remove_twice {fl : Syntax} {p : Path} (hp : p ≠ []) {cs r : List Node} (hw : WfList fl cs)
    (h : changeValue fl p none cs = .ok r) : changeValue fl p none r = .ok r := by
  unfold changeValue at h ⊢
  obtain ⟨c0, s0, v0, g1, _⟩ := changeLoop_spec hp (value := none) (fl := fl) (fun u h => by cases h) cs hw 0 none
  rw [g1] at h
  cases h
  have := (again_loop hp (ov := none) (ow := none) (fun u h => by cases h) (fun u h => by cases h) (by simp) cs hw _ _ _ _ _ _ g1 g1).1
  rw [this]
  rfl

/-- Two edits of settings that are there, or removals, in either order. -/
theorem objectSet_commute {fl : Syntax} {p q : Path} (hp : p ≠ []) (hq : q ≠ []) {ov ow : Option Node}
    (hv : ∀ v, ov = some v → Flat fl v) (hw : ∀ w, ow = some w → Flat fl w) (ha : Apart p q ov ow)
    {tp tq : List Tok} {cs c1 c2 : List Node} (hcs : WfList fl cs)
    (hsp : ov ≠ none → SetAt cs p) (hsq : ow ≠ none → SetAt cs q)
    (h1 : objectSet fl p tp ov cs = .ok c1) (h2 : objectSet fl q tq ow cs = .ok c2) :
    objectSet fl q tq ow c1 = objectSet fl p tp ov c2 := by
  obtain ⟨a1, s1, v1, k1, l1, _⟩ := changeLoop_spec hp (fun w h => (hv w h).toVOk) cs hcs 0 none
  obtain ⟨a2, s2, v2, k2, l2, _⟩ := changeLoop_spec hq (fun w h => (hw w h).toVOk) cs hcs 0 none
  have hp1 : ov ≠ none → Occurs a1 p := by
    intro h
    cases ov with
    | none => exact absurd rfl h
    | some v => exact SetAt.kept (hv v rfl).toVOk _ p (Nat.le_refl _) hp cs hcs _ _ _ _ _ k1 (hsp h)
  have hq2 : ow ≠ none → Occurs a2 q := by
    intro h
    cases ow with
    | none => exact absurd rfl h
    | some v => exact SetAt.kept (hw v rfl).toVOk _ q (Nat.le_refl _) hq cs hcs _ _ _ _ _ k2 (hsq h)
  have e1 : c1 = a1 := by
    cases ov with
    | none =>
      simp only [objectSet, changeValue, k1] at h1
      cases h1; rfl
    | some v =>
      simp only [objectSet] at h1
      rw [setValue_there (hv v rfl).toVOk hp hcs k1 (hp1 (by simp))] at h1
      cases h1; rfl
  have e2 : c2 = a2 := by
    cases ow with
    | none =>
      simp only [objectSet, changeValue, k2] at h2
      cases h2; rfl
    | some v =>
      simp only [objectSet] at h2
      rw [setValue_there (hw v rfl).toVOk hq hcs k2 (hq2 (by simp))] at h2
      cases h2; rfl
  subst e1 e2
  obtain ⟨z, t, m1, m2, _⟩ := commute_loop hp hq hv hw ha cs hcs _ _ _ _ _ _ k1 k2
  simp only at m1 m2
  have inc : ov ≠ none ∨ ow ≠ none → Incomparable p q := by
    intro h
    rcases ha with ha | ⟨rfl, rfl⟩
    · exact ha
    · simp at h
  have hz1 : objectSet fl q tq ow c1 = .ok z := by
    cases ow with
    | none => simp only [objectSet, changeValue, m2]; rfl
    | some w =>
      refine setValue_there (hw w rfl).toVOk hq l1.wf m2 ?_
      obtain ⟨_, _, _, n1, n2, _⟩ := changeLoop_spec hp (fun w h => (hv w h).toVOk) c2 l2.wf 0 none
      rw [m1] at n1
      cases n1
      exact (n2.frame q (inc (Or.inr (by simp)))).2 (hq2 (by simp))
  have hz2 : objectSet fl p tp ov c2 = .ok z := by
    cases ov with
    | none => simp only [objectSet, changeValue, m1]; rfl
    | some v =>
      refine setValue_there (hv v rfl).toVOk hp l2.wf m1 ?_
      obtain ⟨_, _, _, n1, n2, _⟩ := changeLoop_spec hq (fun w h => (hw w h).toVOk) c1 l1.wf 0 none
      rw [m2] at n1
      cases n1
      have hi := inc (Or.inl (by simp))
      exact (n2.frame p ⟨hi.2, hi.1⟩).2 (hp1 (by simp))
  rw [hz1, hz2]

end DocEdit
end Hocon
