import Verif.Lemmas.ResolveTarget
import Verif.Spec.Seen

/-!
# Settings in merged trees
-/

set_option autoImplicit false

namespace Hocon
namespace SeenLemmas

open Notes Spec Resolve ResolveA

theorem nonObject_same {v fb c : AVal} (h : nonObjectA v fb = .ok (c, false)) : c = v := by
  unfold nonObjectA at h
  split at h
  · unfold ignoringA at h
    split at h
    · simp only [Res.ok.injEq, Prod.mk.injEq] at h
      obtain ⟨rfl, h⟩ := h
      simp only [Bool.not_eq_false'] at h
      rw [h]
    · split at h <;> simp_all
  · simp [delayA, Res.bind_eq_ok] at h

theorem delay_same {v c : AVal} {st : List AVal} (h : delayA v st = .ok (c, false)) : c = v := by
  simp [delayA, Res.bind_eq_ok] at h

/-- A value that is not another object is the same. -/
theorem fallback_same : (a b c : AVal) → fallbackA a b = .ok (c, false) → c = a
  | .scalar o s, b, c, h => by
    simp only [fallbackA, Res.ok.injEq, Prod.mk.injEq] at h
    exact h.1.symm
  | .list o vs, b, c, h => by
    simp only [fallbackA] at h
    split at h
    · simp only [Res.ok.injEq, Prod.mk.injEq] at h; exact h.1.symm
    · split at h
      · exact delay_same h
      · exact nonObject_same h
  | .obj o fs r i, b, c, h => by
    rw [fallbackA.eq_def] at h
    simp only at h
    split at h
    · simp only [Res.ok.injEq, Prod.mk.injEq] at h; exact h.1.symm
    · split at h
      · exact delay_same h
      · split at h
        · simp only [Res.bind_eq_ok] at h
          obtain ⟨⟨m, x⟩, _, h⟩ := h
          unfold mergedObjA at h
          simp only at h
          split at h
          · simp [Res.bind_eq_ok] at h
          · split at h
            · simp at h
            · simp only [Res.ok.injEq, Prod.mk.injEq] at h; exact h.1.symm
        · exact nonObject_same h
  | .ref o n p opt k, b, c, h => by
    simp only [fallbackA] at h
    split at h
    · exact delay_same h
    · exact nonObject_same h
  | .concat o ps, b, c, h => by
    simp only [fallbackA] at h
    split at h
    · exact delay_same h
    · exact nonObject_same h
  | .dm o st, b, c, h => by
    simp only [fallbackA] at h
    split at h
    · simp only [Res.ok.injEq, Prod.mk.injEq] at h; exact h.1.symm
    · split at h
      · exact delay_same h
      · exact nonObject_same h
  | .dmo o st, b, c, h => by
    simp only [fallbackA] at h
    split at h
    · simp only [Res.ok.injEq, Prod.mk.injEq] at h; exact h.1.symm
    · split at h
      · exact delay_same h
      · split at h
        · cases h
        · exact nonObject_same h
theorem mergeFields_same : (fs gs m : AFields) → mergeFieldsA fs gs = .ok (m, false) → m = fs
  | [], gs, m, h => by
    simp only [mergeFieldsA, Res.ok.injEq, Prod.mk.injEq] at h
    exact h.1.symm
  | (k, v) :: fs, gs, m, h => by
    rw [mergeFieldsA] at h
    simp only [Res.bind_eq_ok] at h
    obtain ⟨⟨v', x⟩, h1, ⟨rest, y⟩, h2, h3⟩ := h
    simp only [Res.ok.injEq, Prod.mk.injEq, Bool.or_eq_false_iff] at h3
    obtain ⟨rfl, rfl, rfl⟩ := h3
    rw [mergeFields_same fs gs rest h2]
    split at h1
    · simp only [Res.ok.injEq, Prod.mk.injEq] at h1
      rw [h1.1]
    · rw [fallback_same _ _ _ h1]

/-- What becomes of a field. -/
theorem mergeFields_mem {k : Str} {v : AVal} : (fs gs m : AFields) → (x : Bool) → mergeFieldsA fs gs = .ok (m, x) →
    (k, v) ∈ fs → ∃ v', (k, v') ∈ m ∧ (findKeyA gs k = none → v' = v) ∧
      ∀ w, findKeyA gs k = some w → ∃ y, fallbackA v w = .ok (v', y)
  | (k', v0) :: fs, gs, m, x, h, hm => by
    rw [mergeFieldsA] at h
    simp only [Res.bind_eq_ok] at h
    obtain ⟨⟨v', y⟩, h1, ⟨rest, z⟩, h2, h3⟩ := h
    simp only [Res.ok.injEq, Prod.mk.injEq] at h3
    obtain ⟨rfl, _⟩ := h3
    rcases List.mem_cons.1 hm with hm | hm
    · cases hm
      refine ⟨v', by simp, fun hn => ?_, fun w hw => ?_⟩
      · rw [hn] at h1
        simp only [Res.ok.injEq, Prod.mk.injEq] at h1
        exact h1.1.symm
      · rw [hw] at h1
        exact ⟨y, h1⟩
    · obtain ⟨u, g1, g2, g3⟩ := mergeFields_mem fs gs rest z h2 hm
      exact ⟨u, List.mem_cons_of_mem _ g1, g2, g3⟩

theorem mergeFields_keys : (fs gs m : AFields) → (x : Bool) → mergeFieldsA fs gs = .ok (m, x) →
    m.map Prod.fst = fs.map Prod.fst
  | [], gs, m, x, h => by
    simp only [mergeFieldsA, Res.ok.injEq, Prod.mk.injEq] at h
    rw [← h.1]
  | (k', v0) :: fs, gs, m, x, h => by
    rw [mergeFieldsA] at h
    simp only [Res.bind_eq_ok] at h
    obtain ⟨⟨v', y⟩, h1, ⟨rest, z⟩, h2, h3⟩ := h
    simp only [Res.ok.injEq, Prod.mk.injEq] at h3
    obtain ⟨rfl, _⟩ := h3
    simp [mergeFields_keys fs gs rest z h2]

/-- Two objects, the first of which lets fallbacks add to it. -/
theorem merge_objects {o o' : Origin} {fs gs : AFields} {r r' j x : Bool} {c : AVal}
    (h : fallbackA (.obj o fs r false) (.obj o' gs r' j) = .ok (c, x)) : ∃ o2 ms r2, c = .obj o2 ms r2 j ∧
      (∀ k v, (k, v) ∈ fs → ∃ v', (k, v') ∈ ms ∧ (findKeyA gs k = none → v' = v) ∧
        ∀ w, findKeyA gs k = some w → ∃ y, fallbackA v w = .ok (v', y)) ∧
      (∀ k w, (k, w) ∈ gs → k ∉ fs.map Prod.fst → (k, w) ∈ ms) ∧
      ∀ k, k ∉ fs.map Prod.fst → k ∉ gs.map Prod.fst → k ∉ ms.map Prod.fst := by
  rw [fallbackA.eq_def] at h
  simp only [Bool.false_eq_true, if_false] at h
  rw [if_neg (by simp [AVal.erase, Value.isUnmergeable])] at h
  simp only [Res.bind_eq_ok] at h
  obtain ⟨⟨m, y⟩, h1, h⟩ := h
  have hall : (∀ k v, (k, v) ∈ fs → ∃ v', (k, v') ∈ m ++ extraA fs gs ∧ (findKeyA gs k = none → v' = v) ∧
        ∀ w, findKeyA gs k = some w → ∃ y, fallbackA v w = .ok (v', y)) ∧
      (∀ k w, (k, w) ∈ gs → k ∉ fs.map Prod.fst → (k, w) ∈ m ++ extraA fs gs) ∧
      ∀ k, k ∉ fs.map Prod.fst → k ∉ gs.map Prod.fst → k ∉ (m ++ extraA fs gs).map Prod.fst := by
    refine ⟨fun k v hv => ?_, fun k w hw hk => ?_, fun k hk hg => ?_⟩
    · obtain ⟨v', g1, g2⟩ := mergeFields_mem fs gs m y h1 hv
      exact ⟨v', List.mem_append_left _ g1, g2⟩
    · refine List.mem_append_right _ (List.mem_filter.2 ⟨hw, ?_⟩)
      simpa using hk
    · rw [List.map_append, List.mem_append, mergeFields_keys fs gs m y h1]
      rintro (hh | hh)
      · exact hk hh
      · obtain ⟨⟨k', w⟩, g1, rfl⟩ := List.mem_map.1 hh
        exact hg (List.mem_map.2 ⟨_, (List.mem_filter.1 g1).1, rfl⟩)
  unfold mergedObjA at h
  simp only at h
  split at h
  · simp only [Res.bind_eq_ok, Res.ok.injEq, Prod.mk.injEq] at h
    obtain ⟨q, _, rfl, _⟩ := h
    exact ⟨_, _, _, rfl, hall⟩
  · rename_i hch
    simp only [Bool.or_eq_true, Bool.not_eq_true', not_or, Bool.not_eq_false, Bool.not_eq_true,
      List.isEmpty_iff] at hch
    obtain ⟨rfl, he⟩ := hch
    rw [he, List.append_nil, mergeFields_same fs gs m h1] at hall
    split at h
    · simp only [Res.ok.injEq, Prod.mk.injEq] at h
      obtain ⟨rfl, _⟩ := h
      exact ⟨_, _, _, rfl, hall⟩
    · rename_i hj
      simp only [Res.ok.injEq, Prod.mk.injEq] at h
      obtain ⟨rfl, _⟩ := h
      have : j = false := by
        by_contra hne
        exact hj (Or.inr hne)
      subst this
      exact ⟨_, _, _, rfl, hall⟩

/-- An object that takes no fallbacks. -/
theorem merge_closed {o : Origin} {fs : AFields} {r x : Bool} {b c : AVal}
    (h : fallbackA (.obj o fs r true) b = .ok (c, x)) : c = .obj o fs r true := by
  rw [fallbackA.eq_def] at h
  simp only [if_true, Res.ok.injEq, Prod.mk.injEq] at h
  exact h.1.symm

theorem findKeyA_absent {k : Str} : {fs : AFields} → k ∉ fs.map Prod.fst → findKeyA fs k = none
  | [], _ => rfl
  | (k', v) :: fs, h => by
    simp only [List.map_cons, List.mem_cons, not_or] at h
    rw [findKeyA, if_neg (fun e => h.1 e.symm), findKeyA_absent h.2]

theorem findKeyA_some {k : Str} {w : AVal} {fs : AFields} (h : findKeyA fs k = some w) : (k, w) ∈ fs := by
  induction fs with
  | nil => cases h
  | cons f fs ih =>
    obtain ⟨k', v⟩ := f
    rw [findKeyA] at h
    split at h
    · rename_i hk
      cases h; subst hk; simp
    · exact List.mem_cons_of_mem _ (ih h)

/-- What is set above and not below stays. -/
theorem set_above {a v : AVal} {p : Path} (hs : SetAt a p v) : ∀ {b c : AVal} {x : Bool}, Live b.erase →
    Unset b p → fallbackA a b = .ok (c, x) → SetAt c p v := by
  induction hs with
  | @last o fs r i k w hm =>
    intro b c x hb hu h
    cases i with
    | true => rw [merge_closed h]; exact .last hm
    | false =>
      cases hu with
      | here hk =>
        obtain ⟨o2, ms, r2, rfl, g1, _⟩ := merge_objects h
        obtain ⟨v', g2, g3, _⟩ := g1 k w hm
        rw [g3 (findKeyA_absent hk)] at g2
        exact .last g2
      | inner _ h => cases h
  | @inner o fs r i k u w p hm hs ih =>
    intro b c x hb hu h
    cases i with
    | true => rw [merge_closed h]; exact .inner hm hs
    | false =>
      cases hu with
      | here hk =>
        obtain ⟨o2, ms, r2, rfl, g1, _⟩ := merge_objects h
        obtain ⟨v', g2, g3, _⟩ := g1 k u hm
        rw [g3 (findKeyA_absent hk)] at g2
        exact .inner g2 hs
      | inner hk hu =>
        obtain ⟨o2, ms, r2, rfl, g1, _⟩ := merge_objects h
        obtain ⟨v', g2, _, g3⟩ := g1 k u hm
        obtain ⟨y, g4⟩ := g3 _ (findKeyA_mem (live_nodup hb) hk)
        exact .inner g2 (ih (live_child hb hk) hu g4)

theorem final_stays {v b c : AVal} {x : Bool} (hf : Final v) (hl : Live v.erase) (h : fallbackA v b = .ok (c, x)) :
    c = v := by
  cases v with
  | scalar o s =>
    simp only [fallbackA, Res.ok.injEq, Prod.mk.injEq] at h
    exact h.1.symm
  | list o vs =>
    have : (AVal.list o vs).erase.ignoresFallbacks = true := ((live_spec.1 hl).1 _ .here).2 hf
    simp only [fallbackA, this, if_true, Res.ok.injEq, Prod.mk.injEq] at h
    exact h.1.symm
  | obj => exact hf.elim
  | ref => exact hf.elim
  | concat => exact hf.elim
  | dm => exact hf.elim
  | dmo => exact hf.elim

/-- What is set for good above stays. -/
theorem set_final {a v : AVal} {p : Path} (hs : SetAt a p v) : ∀ {b c : AVal} {x : Bool}, Live a.erase →
    Live b.erase → Final v → Clear b p → fallbackA a b = .ok (c, x) → SetAt c p v := by
  induction hs with
  | @last o fs r i k w hm =>
    intro b c x ha hb hf hu h
    cases i with
    | true => rw [merge_closed h]; exact .last hm
    | false =>
      have hobj : ∃ o' gs r' j, b = .obj o' gs r' j := by cases hu <;> exact ⟨_, _, _, _, rfl⟩
      obtain ⟨o', gs, r', j, rfl⟩ := hobj
      obtain ⟨o2, ms, r2, rfl, g1, _⟩ := merge_objects h
      obtain ⟨v', g2, g3, g4⟩ := g1 k w hm
      cases hk : findKeyA gs k with
      | none => rw [g3 hk] at g2; exact .last g2
      | some u =>
        obtain ⟨y, g5⟩ := g4 u hk
        rw [final_stays hf (live_child ha hm) g5] at g2
        exact .last g2
  | @inner o fs r i k u w p hm hs ih =>
    intro b c x ha hb hf hu h
    cases i with
    | true => rw [merge_closed h]; exact .inner hm hs
    | false =>
      cases hu with
      | last => cases hs
      | absent hk =>
        obtain ⟨o2, ms, r2, rfl, g1, _⟩ := merge_objects h
        obtain ⟨v', g2, g3, _⟩ := g1 k u hm
        rw [g3 (findKeyA_absent hk)] at g2
        exact .inner g2 hs
      | inner hk hu =>
        obtain ⟨o2, ms, r2, rfl, g1, _⟩ := merge_objects h
        obtain ⟨v', g2, _, g3⟩ := g1 k u hm
        obtain ⟨y, g4⟩ := g3 _ (findKeyA_mem (live_nodup hb) hk)
        exact .inner g2 (ih (live_child ha hm) (live_child hb hk) hf hu g4)

/-- What is set below and not above stays. -/
theorem set_below {a : AVal} {p : Path} (hu : Unset a p) : ∀ {b c v : AVal} {x : Bool}, Live b.erase →
    SetAt b p v → fallbackA a b = .ok (c, x) → SetAt c p v := by
  induction hu with
  | @here o fs r k p hk =>
    intro b c v x hb hs h
    cases hs with
    | last hm =>
      obtain ⟨o2, ms, r2, rfl, _, g1, _⟩ := merge_objects h
      exact .last (g1 _ _ hm hk)
    | inner hm hs =>
      obtain ⟨o2, ms, r2, rfl, _, g1, _⟩ := merge_objects h
      exact .inner (g1 _ _ hm hk) hs
  | @inner o fs r k u p hm hu ih =>
    intro b c v x hb hs h
    cases hs with
    | last => cases hu
    | inner hk hs =>
      obtain ⟨o2, ms, r2, rfl, g1, _⟩ := merge_objects h
      obtain ⟨v', g2, _, g3⟩ := g1 k u hm
      obtain ⟨y, g4⟩ := g3 _ (findKeyA_mem (live_nodup hb) hk)
      exact .inner g2 (ih (live_child hb hk) hs g4)

/-- What is set nowhere. -/
theorem unset_merged {a : AVal} {p : Path} (hu : Unset a p) : ∀ {b c : AVal} {x : Bool}, Live b.erase →
    Unset b p → fallbackA a b = .ok (c, x) → Unset c p := by
  induction hu with
  | @here o fs r k p hk =>
    intro b c x hb hs h
    cases hs with
    | here hg =>
      obtain ⟨o2, ms, r2, rfl, _, _, g1⟩ := merge_objects h
      exact .here (g1 _ hk hg)
    | inner hm hs =>
      obtain ⟨o2, ms, r2, rfl, _, g1, _⟩ := merge_objects h
      exact .inner (g1 _ _ hm hk) hs
  | @inner o fs r k u p hm hu ih =>
    intro b c x hb hs h
    cases hs with
    | here hg =>
      obtain ⟨o2, ms, r2, rfl, g1, _⟩ := merge_objects h
      obtain ⟨v', g2, g3, _⟩ := g1 k u hm
      rw [g3 (findKeyA_absent hg)] at g2
      exact .inner g2 hu
    | inner hk hs =>
      obtain ⟨o2, ms, r2, rfl, g1, _⟩ := merge_objects h
      obtain ⟨v', g2, _, g3⟩ := g1 k u hm
      obtain ⟨y, g4⟩ := g3 _ (findKeyA_mem (live_nodup hb) hk)
      exact .inner g2 (ih (live_child hb hk) hs g4)

end SeenLemmas
end Hocon
