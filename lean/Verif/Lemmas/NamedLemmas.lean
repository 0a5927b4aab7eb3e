import Verif.Spec.Named
import Verif.Lemmas.NotesBounds

/-!
# Helper lemmas: the sources a merged origin names
-/

set_option autoImplicit false

namespace Hocon
namespace Named
open Spec Notes Notes

theorem between_ne : (s : Str) → between s ≠ []
  | [] => by simp [between]
  | c :: s => by
    rw [between]
    split
    · simp
    · split <;> simp

theorem between_append : (a b : Str) → between (a ++ ',' :: b) = between a ++ between b
  | [], b => by simp [between]
  | c :: a, b => by
    rw [List.cons_append, between, between, between_append a b]
    split
    · simp
    · cases h : between a with
      | nil => exact absurd h (between_ne a)
      | cons p ps => simp

/-- The description without `merge of ` does not begin with these words. -/
def Single (o : Origin) : Prop := ¬ Origin.mergeOf <+: o.bareDesc

theorem sourcesIn_eq (o : Origin) : sourcesIn o.desc = between o.bareDesc := rfl

theorem sourcesIn_bare {d : Str} (h : ¬ Origin.mergeOf <+: d) : sourcesIn d = between d := by
  unfold sourcesIn
  rw [if_neg (by rw [List.isPrefixOf_iff_prefix]; exact h)]

theorem sourcesIn_mergeOf (d : Str) : sourcesIn (Origin.mergeOf ++ d) = between d := by
  unfold sourcesIn
  rw [if_pos (by rw [List.isPrefixOf_iff_prefix]; exact List.prefix_append _ _)]
  rfl

theorem mem_mergeTwo {a b : Origin} (ha : Single a) (d : Str) :
    d ∈ sourcesIn (Origin.mergeTwo a b).desc ↔ d ∈ sourcesIn a.desc ∨ d ∈ sourcesIn b.desc := by
  rw [sourcesIn_eq a, sourcesIn_eq b]
  simp only [Origin.mergeTwo]
  split
  · rename_i h
    rw [sourcesIn_bare ha, h]
    simp
  · rw [show Origin.mergeOf ++ a.bareDesc ++ ch "," ++ b.bareDesc =
      Origin.mergeOf ++ (a.bareDesc ++ ',' :: b.bareDesc) by simp, sourcesIn_mergeOf, between_append]
    simp

theorem not_mergeOf {a b : Str} (h : ¬ Origin.mergeOf <+: a) : ¬ Origin.mergeOf <+: a ++ ',' :: b := by
  intro hp
  rcases Nat.lt_or_ge a.length Origin.mergeOf.length with hl | hl
  · have h1 : Origin.mergeOf[a.length]? = some ',' := by
      obtain ⟨t, ht⟩ := hp
      rw [← List.getElem?_append_left (l₂ := t) hl, ht]
      simp
    have h2 : ∀ i : Nat, Origin.mergeOf[i]? ≠ some ',' := by
      intro i hi
      have := List.mem_of_getElem? hi
      exact absurd this (by decide)
    exact h2 _ h1
  · exact h (List.prefix_of_prefix_length_le hp (List.prefix_append _ _) hl)

theorem closed_single : Closed (fun _ => True) Single := by
  refine ⟨?_, ?_, ?_⟩
  · intro a b ha hb
    have hbare : ∀ d, ¬ Origin.mergeOf <+: d → ∀ o : Origin, (o.desc = d ∨ o.desc = Origin.mergeOf ++ d) → Single o := by
      intro d hd o ho
      unfold Single Origin.bareDesc
      rcases ho with ho | ho
      · rw [if_neg (by rw [List.isPrefixOf_iff_prefix, ho]; exact hd), ho]; exact hd
      · rw [if_pos (by rw [List.isPrefixOf_iff_prefix, ho]; exact List.prefix_append _ _), ho,
          List.drop_left]
        exact hd
    by_cases h : a.bareDesc = b.bareDesc
    · exact hbare a.bareDesc ha _ (Or.inl (by simp [Origin.mergeTwo, h]))
    · refine hbare (a.bareDesc ++ ',' :: b.bareDesc) (not_mergeOf ha) _ (Or.inr ?_)
      simp [Origin.mergeTwo, h]
  · intro o cs ho _
    unfold Origin.appendComments
    split <;> exact ho
  · intro o cs ho _
    unfold Origin.prependComments
    split <;> exact ho

theorem mem_mergeThree {a b c : Origin} (ha : Single a) (hb : Single b) (d : Str) :
    d ∈ sourcesIn (Origin.mergeThree a b c).desc ↔
      d ∈ sourcesIn a.desc ∨ d ∈ sourcesIn b.desc ∨ d ∈ sourcesIn c.desc := by
  unfold Origin.mergeThree
  split
  · rw [mem_mergeTwo (closed_single.merge ha hb), mem_mergeTwo ha, or_assoc]
  · rw [mem_mergeTwo ha, mem_mergeTwo hb]

theorem mem_loop (d : Str) : (n : Nat) → (os : List Origin) → (o : Origin) → (∀ x ∈ os, Single x) →
    Origin.mergeLoop n (os.map some) = .ok (some o) → (d ∈ sourcesIn o.desc ↔ ∃ x ∈ os, d ∈ sourcesIn x.desc)
  | _, [], o, _, h => by simp [Origin.mergeLoop] at h
  | _, [a], o, ha, h => by
    simp only [List.map_cons, List.map_nil, Origin.mergeLoop, Res.ok.injEq, Option.some.injEq] at h
    simp [h]
  | _, [b, a], o, ha, h => by
    simp only [List.map_cons, List.map_nil, Origin.mergeLoop, Origin.mergeTwo?, Res.ok.injEq, Option.some.injEq] at h
    rw [← h, mem_mergeTwo (ha a (by simp))]
    simp [or_comm]
  | 0, c :: b :: a :: r, o, ha, h => by simp [Origin.mergeLoop] at h
  | n + 1, c :: b :: a :: r, o, ha, h => by
    simp only [List.map_cons, Origin.mergeLoop, Origin.mergeThree?, Res.bind] at h
    rw [mem_loop d n (Origin.mergeThree a b c :: r) o ?_ h]
    · simp only [List.mem_cons, exists_eq_or_imp, mem_mergeThree (ha a (by simp)) (ha b (by simp))]
      constructor
      · rintro ((h | h | h) | h)
        · exact Or.inr (Or.inr (Or.inl h))
        · exact Or.inr (Or.inl h)
        · exact Or.inl h
        · exact Or.inr (Or.inr (Or.inr h))
      · rintro (h | h | h | h)
        · exact Or.inl (Or.inr (Or.inr h))
        · exact Or.inl (Or.inr (Or.inl h))
        · exact Or.inl (Or.inl h)
        · exact Or.inr h
    · intro x hx
      rcases List.mem_cons.1 hx with rfl | hx
      · exact closed_single.three (ha _ (by simp)) (ha _ (by simp)) (ha _ (by simp))
      · exact ha x (by simp [hx])

theorem mem_mergeAll {os : List Origin} {o : Origin} (h : ∀ x ∈ os, Single x) (hm : mergeAll os = .ok o) (d : Str) :
    d ∈ sourcesIn o.desc ↔ ∃ x ∈ os, d ∈ sourcesIn x.desc := by
  unfold mergeAll Origin.mergeOrigins at hm
  change ((Origin.mergeLoop _ (os.map some).reverse) >>= notNull) = _ at hm
  rw [Res.bind_eq_ok, ← List.map_reverse] at hm
  obtain ⟨o', h1, h2⟩ := hm
  cases o' with
  | none => simp [notNull] at h2
  | some x =>
    simp only [notNull, Res.ok.injEq] at h2
    subst h2
    rw [mem_loop d _ _ _ (by simpa using h) h1]
    simp

/-- The origin of a stack of values: it covers all of them but the empty objects, and names nothing else. -/
theorem mergeStack_covers {st : List AVal} {o : Origin} (h : AllL Single st) (hm : mergeStack st = .ok o) :
    (∀ v ∈ st, Hollow v ∨ Covers o v.origin) ∧
    ∀ d ∈ sourcesIn o.desc, (∃ v ∈ st, ¬ isBare v = true ∧ d ∈ sourcesIn v.origin.desc) ∨
      ∃ v, st.head? = some v ∧ d ∈ sourcesIn v.origin.desc := by
  have hblank : ∀ v, isBare v = true → Hollow v := by
    intro v hv
    unfold isBare at hv
    split at hv
    · exact trivial
    · cases hv
  unfold mergeStack at hm
  split at hm
  · simp at hm
  · rename_i v r
    split at hm
    · rename_i he
      have hall : ∀ w ∈ v :: r, isBare w = true := by
        intro w hw
        cases hc : isBare w with
        | true => rfl
        | false =>
        have : w ∈ (v :: r).filter fun w => !isBare w := List.mem_filter.2 ⟨hw, by simp [hc]⟩
        rw [he] at this
        cases this
      refine ⟨fun w hw => Or.inl (hblank w (hall w hw)), fun d hd => Or.inr ⟨v, rfl, ?_⟩⟩
      rw [mem_mergeAll (by simpa using all_origin (h v (by simp))) hm] at hd
      simpa using hd
    · rename_i ws hne
      have hs : ∀ x ∈ ((v :: r).filter fun w => !isBare w).map AVal.origin, Single x := by
        intro x hx
        rw [List.mem_map] at hx
        obtain ⟨w, hw, rfl⟩ := hx
        exact all_origin (h w (List.mem_filter.1 hw).1)
      refine ⟨fun w hw => ?_, fun d hd => Or.inl ?_⟩
      · by_cases hc : isBare w = true
        · exact Or.inl (hblank w hc)
        · refine Or.inr fun d hd => (mem_mergeAll hs hm d).2 ⟨w.origin, List.mem_map.2 ⟨w, List.mem_filter.2 ⟨hw, ?_⟩, rfl⟩, hd⟩
          simpa using hc
      · obtain ⟨x, hx, hd⟩ := (mem_mergeAll hs hm d).1 hd
        obtain ⟨w, hw, rfl⟩ := List.mem_map.1 hx
        exact ⟨w, (List.mem_filter.1 hw).1, by simpa using (List.mem_filter.1 hw).2, hd⟩

theorem Covers.refl (o : Origin) : Covers o o := fun _ h => h

theorem told_unmerged {b : AVal} (h : Told b) :
    (∀ v ∈ unmergedA b, Hollow v ∨ Covers b.origin v.origin) ∧ ∀ v ∈ unmergedA b, Told v := by
  cases h with
  | dm h1 h2 => exact ⟨h1, h2⟩
  | dmo h1 h2 => exact ⟨h1, h2⟩
  | scalar => exact ⟨by simp [unmergedA, Covers.refl], by simp [unmergedA, Told.scalar]⟩
  | ref => exact ⟨by simp [unmergedA, Covers.refl], by simp [unmergedA, Told.ref]⟩
  | list h1 h2 => exact ⟨by simp [unmergedA, Covers.refl], by simpa [unmergedA] using Told.list h1 h2⟩
  | obj h1 h2 => exact ⟨by simp [unmergedA, Covers.refl], by simpa [unmergedA] using Told.obj h1 h2⟩
  | concat h1 h2 => exact ⟨by simp [unmergedA, Covers.refl], by simpa [unmergedA] using Told.concat h1 h2⟩

/-- What is shown of a merge: its origins tell the sources, and its own names no others than the two. -/
def Good (a b c : AVal) : Prop :=
  Told c ∧ ∀ d ∈ sourcesIn c.origin.desc, d ∈ sourcesIn a.origin.desc ∨ d ∈ sourcesIn b.origin.desc

theorem good_left {a b : AVal} (h : Told a) : Good a b a := ⟨h, fun _ hd => Or.inl hd⟩

theorem good_delay {a b c : AVal} {x : Bool} {st : List AVal} (hs : AllL Single (a :: st)) (ha : Told a)
    (hst : ∀ v ∈ st, Told v) (hb : ∀ v ∈ st, isBare v = false → Covers b.origin v.origin)
    (h : delayA a (a :: st) = .ok (c, x)) : Good a b c := by
  unfold delayA at h
  simp only [Res.bind_eq_ok, Res.ok.injEq, Prod.mk.injEq] at h
  obtain ⟨o, h1, d, h2, rfl, _⟩ := h
  obtain ⟨i1, i2⟩ := mergeStack_covers hs h1
  have ht : ∀ v ∈ a :: st, Told v := by
    intro v hv
    rcases List.mem_cons.1 hv with rfl | hv
    · exact ha
    · exact hst v hv
  have hn : ∀ e ∈ sourcesIn o.desc, e ∈ sourcesIn a.origin.desc ∨ e ∈ sourcesIn b.origin.desc := by
    intro e he
    rcases i2 e he with ⟨v, hv, hbv, he⟩ | ⟨v, hv, he⟩
    · rcases List.mem_cons.1 hv with rfl | hv
      · exact Or.inl he
      · exact Or.inr (hb v hv (by simpa using hbv) e he)
    · cases hv
      exact Or.inl he
  unfold delayedA at h2
  repeat' split at h2
  all_goals first
    | (simp at h2; done)
    | (simp only [Res.ok.injEq] at h2; subst h2; first | exact ⟨.dmo i1 ht, hn⟩ | exact ⟨.dm i1 ht, hn⟩)

theorem not_blank {v : AVal} (h : isBare v = false) : ¬ Hollow v := by
  intro hb
  unfold Hollow at hb
  split at hb
  · simp [isBare] at h
  · exact hb

theorem good_unmerged {a b c : AVal} {x : Bool} (sa : All Single a) (sb : All Single b) (ha : Told a)
    (hb : Told b)
    (h : delayA a (a :: unmergedA b) = .ok (c, x)) : Good a b c :=
  good_delay (allL_cons sa (all_unmerged sb)) ha (told_unmerged hb).2
    (fun v hv hn => ((told_unmerged hb).1 v hv).resolve_left (not_blank hn)) h

theorem good_nonObject {a b c : AVal} {x : Bool} (sa : All Single a) (sb : All Single b) (ha : Told a)
    (hb : Told b) (h : nonObjectA a b = .ok (c, x)) : Good a b c := by
  unfold nonObjectA at h
  split at h
  · unfold ignoringA at h
    split at h
    · simp only [Res.ok.injEq, Prod.mk.injEq] at h
      obtain ⟨rfl, _⟩ := h
      cases ha with
      | obj h1 h2 => exact ⟨.obj h1 h2, fun _ hd => Or.inl hd⟩
    · split at h
      · simp only [Res.ok.injEq, Prod.mk.injEq] at h
        obtain ⟨rfl, _⟩ := h
        exact good_left ha
      · simp at h
  · exact good_delay (allL_cons sa (by intro v hv; simp only [List.mem_singleton] at hv; exact hv ▸ sb)) ha
      (by simpa using hb) (by simp [Covers.refl]) h

theorem good_merged {o o' : Origin} {fs gs m : AFields} {r i r' j chg x : Bool} {c : AVal}
    (sa : All Single (.obj o fs r i)) (sb : All Single (.obj o' gs r' j)) (ha : Told (.obj o fs r i))
    (hmg : ∀ f ∈ m, Told f.2 ∧
      ((f ∈ gs ∧ Covers o' f.2.origin) ∨
       (fs ≠ [] ∧ ∀ d ∈ sourcesIn f.2.origin.desc, d ∈ sourcesIn o.desc ∨ (gs ≠ [] ∧ d ∈ sourcesIn o'.desc))))
    (h : mergedObjA o fs r i (.obj o' gs r' j) j m chg = .ok (c, x)) :
    Good (.obj o fs r i) (.obj o' gs r' j) c := by
  unfold mergedObjA at h
  simp only at h
  split at h
  · simp only [Res.bind_eq_ok, Res.ok.injEq, Prod.mk.injEq] at h
    obtain ⟨q, h1, rfl, _⟩ := h
    obtain ⟨i1, i2⟩ := mergeStack_covers (allL_two sa sb) h1
    have hl : fs ≠ [] → Covers q o := by
      intro hne
      refine (i1 (.obj o fs r i) (by simp)).resolve_left ?_
      cases fs with
      | nil => exact absurd rfl hne
      | cons => exact fun h => h
    have hr : gs ≠ [] → Covers q o' := by
      intro hne
      refine (i1 (.obj o' gs r' j) (by simp)).resolve_left ?_
      cases gs with
      | nil => exact absurd rfl hne
      | cons => exact fun h => h
    refine ⟨.obj (fun f hf d hd => ?_) (fun f hf => (hmg f hf).1), fun d hd => ?_⟩
    · rcases (hmg f hf).2 with ⟨h1, h2⟩ | ⟨h1, h2⟩
      · exact hr (by rintro rfl; cases h1) d (h2 d hd)
      · rcases h2 d hd with h2 | ⟨h3, h2⟩
        · exact hl h1 d h2
        · exact hr h3 d h2
    · rcases i2 d hd with ⟨v, hv, _, hd⟩ | ⟨v, hv, hd⟩
      · simp only [List.mem_cons, List.not_mem_nil, or_false] at hv
        rcases hv with rfl | rfl
        · exact Or.inl hd
        · exact Or.inr hd
      · cases hv
        exact Or.inl hd
  · cases ha with
    | obj h1 h2 =>
      split at h
      · simp only [Res.ok.injEq, Prod.mk.injEq] at h
        obtain ⟨rfl, _⟩ := h
        exact ⟨.obj h1 h2, fun _ hd => Or.inl hd⟩
      · simp only [Res.ok.injEq, Prod.mk.injEq] at h
        obtain ⟨rfl, _⟩ := h
        exact ⟨.obj h1 h2, fun _ hd => Or.inl hd⟩

theorem findKeyA_mem {fs : AFields} {k : Str} {v : AVal} (hf : findKeyA fs k = some v) : (k, v) ∈ fs := by
  induction fs with
  | nil => simp [findKeyA] at hf
  | cons f fs ih =>
    obtain ⟨k', w⟩ := f
    rw [findKeyA] at hf
    split at hf
    · rename_i h
      simp only [Option.some.injEq] at hf
      simp [h, hf]
    · simp [ih hf]

mutual
theorem fallback_good : (a b c : AVal) → (x : Bool) → All Single a → All Single b → Told a → Told b →
    fallbackA a b = .ok (c, x) → Good a b c
  | .scalar o s, b, c, x, sa, sb, ha, hb, h => by
    simp only [fallbackA, Res.ok.injEq, Prod.mk.injEq] at h
    exact h.1 ▸ good_left ha
  | .list o vs, b, c, x, sa, sb, ha, hb, h => by
    rw [fallbackA] at h
    split at h
    · simp only [Res.ok.injEq, Prod.mk.injEq] at h
      exact h.1 ▸ good_left ha
    · split at h
      · exact good_unmerged sa sb ha hb h
      · exact good_nonObject sa sb ha hb h
  | .obj o fs r i, b, c, x, sa, sb, ha, hb, h => by
    rw [fallbackA.eq_def] at h
    simp only at h
    split at h
    · simp only [Res.ok.injEq, Prod.mk.injEq] at h
      exact h.1 ▸ good_left ha
    · split at h
      · exact good_unmerged sa sb ha hb h
      · split at h
        · rename_i o' gs r' j hx
          rw [Res.bind_eq_ok] at h
          obtain ⟨⟨m, chg⟩, hm, h⟩ := h
          cases ha with
          | obj h1 h2 =>
          cases hb with
          | obj h3 h4 =>
          have hg := mergeFields_good fs gs m chg (all_obj.1 sa).2 (all_obj.1 sb).2 h2 h4 hm
          refine good_merged sa sb (.obj h1 h2) ?_ h
          intro f hf
          rcases List.mem_append.1 hf with hf | hf
          · obtain ⟨g1, v, hv, g2⟩ := hg f hf
            refine ⟨g1, Or.inr ⟨by rintro rfl; simp at hv, fun d hd => ?_⟩⟩
            rcases g2 d hd with g2 | ⟨w, hw, g2⟩
            · exact Or.inl (h1 _ hv d g2)
            · exact Or.inr ⟨by rintro rfl; simp at hw, h3 _ hw d g2⟩
          · have := (List.mem_filter.1 hf).1
            exact ⟨h4 f this, Or.inl ⟨this, h3 f this⟩⟩
        · exact good_nonObject sa sb ha hb h
  | .ref o n p opt k, b, c, x, sa, sb, ha, hb, h => by
    rw [fallbackA] at h
    split at h
    · exact good_unmerged sa sb ha hb h
    · exact good_nonObject sa sb ha hb h
  | .concat o ps, b, c, x, sa, sb, ha, hb, h => by
    rw [fallbackA] at h
    split at h
    · exact good_unmerged sa sb ha hb h
    · exact good_nonObject sa sb ha hb h
  | .dm o st, b, c, x, sa, sb, ha, hb, h => by
    rw [fallbackA] at h
    split at h
    · simp only [Res.ok.injEq, Prod.mk.injEq] at h
      exact h.1 ▸ good_left ha
    · split at h
      · exact good_unmerged sa sb ha hb h
      · exact good_nonObject sa sb ha hb h
  | .dmo o st, b, c, x, sa, sb, ha, hb, h => by
    rw [fallbackA] at h
    split at h
    · simp only [Res.ok.injEq, Prod.mk.injEq] at h
      exact h.1 ▸ good_left ha
    · split at h
      · exact good_unmerged sa sb ha hb h
      · split at h
        · simp at h
        · exact good_nonObject sa sb ha hb h
theorem mergeFields_good : (fs gs m : AFields) → (x : Bool) → AllF Single fs → AllF Single gs →
    (∀ f ∈ fs, Told f.2) → (∀ f ∈ gs, Told f.2) → mergeFieldsA fs gs = .ok (m, x) →
    ∀ f ∈ m, Told f.2 ∧ ∃ v, (f.1, v) ∈ fs ∧ ∀ d ∈ sourcesIn f.2.origin.desc,
      d ∈ sourcesIn v.origin.desc ∨ ∃ w, (f.1, w) ∈ gs ∧ d ∈ sourcesIn w.origin.desc
  | [], gs, m, x, _, _, _, _, h => by
    simp only [mergeFieldsA, Res.ok.injEq, Prod.mk.injEq] at h
    obtain ⟨rfl, _⟩ := h
    simp
  | (k, v) :: fs, gs, m, x, sf, sg, hf, hg, h => by
    rw [mergeFieldsA] at h
    simp only [Res.bind_eq_ok] at h
    obtain ⟨⟨kept, c1⟩, hk, ⟨rest, c2⟩, hr, h⟩ := h
    simp only [Res.ok.injEq, Prod.mk.injEq] at h
    obtain ⟨rfl, _⟩ := h
    have h2 := mergeFields_good fs gs rest c2 (fun f h => sf f (by simp [h])) sg (fun f h => hf f (by simp [h])) hg hr
    intro f hf'
    rcases List.mem_cons.1 hf' with rfl | hf'
    · have hv : Told v := hf (k, v) (by simp)
      simp only
      split at hk
      · simp only [Res.ok.injEq, Prod.mk.injEq] at hk
        obtain ⟨rfl, _⟩ := hk
        exact ⟨hv, v, by simp, fun d hd => Or.inl hd⟩
      · rename_i w hw
        have hmem := findKeyA_mem hw
        obtain ⟨g1, g2⟩ := fallback_good v w kept c1 (sf (k, v) (by simp)) (sg _ hmem) hv (hg _ hmem) hk
        exact ⟨g1, v, by simp, fun d hd => (g2 d hd).imp_right fun h => ⟨w, hmem, h⟩⟩
    · obtain ⟨g1, v', hv', g2⟩ := h2 f hf'
      exact ⟨g1, v', by simp [hv'], g2⟩
end

mutual
/-- If all descriptions are the same, every origin names every source. -/
theorem told_same {e : Str} : (v : AVal) → All (fun o => o.desc = e) v → Told v
  | .scalar o s, _ => .scalar
  | .ref o n p opt k, _ => .ref
  | .list o vs, h => by
    have := all_list.1 h
    exact .list (fun v hv d hd => by rw [this.1]; rwa [all_origin (this.2 v hv)] at hd) (toldL_same vs this.2)
  | .concat o vs, h => by
    have := all_concat.1 h
    exact .concat (fun v hv d hd => by rw [this.1]; rwa [all_origin (this.2 v hv)] at hd) (toldL_same vs this.2)
  | .dm o vs, h => by
    have := all_dm.1 h
    exact .dm (fun v hv => Or.inr fun d hd => by rw [this.1]; rwa [all_origin (this.2 v hv)] at hd)
      (toldL_same vs this.2)
  | .dmo o vs, h => by
    have := all_dmo.1 h
    exact .dmo (fun v hv => Or.inr fun d hd => by rw [this.1]; rwa [all_origin (this.2 v hv)] at hd)
      (toldL_same vs this.2)
  | .obj o fs r i, h => by
    have := all_obj.1 h
    exact .obj (fun f hf d hd => by rw [this.1]; rwa [all_origin (this.2 f hf)] at hd) (toldF_same fs this.2)
theorem toldL_same {e : Str} : (vs : List AVal) → AllL (fun o => o.desc = e) vs → ∀ v ∈ vs, Told v
  | [], _ => by simp
  | v :: vs, h => by
    intro w hw
    rcases List.mem_cons.1 hw with hw | hw
    · rw [hw]; exact told_same v (h v (by simp))
    · exact toldL_same vs (fun x hx => h x (by simp [hx])) w hw
theorem toldF_same {e : Str} : (fs : AFields) → AllF (fun o => o.desc = e) fs → ∀ f ∈ fs, Told f.2
  | [], _ => by simp
  | (k, v) :: fs, h => by
    intro w hw
    rcases List.mem_cons.1 hw with hw | hw
    · rw [hw]; exact told_same v (h (k, v) (by simp))
    · exact toldF_same fs (fun x hx => h x (by simp [hx])) w hw
end

end Named
end Hocon
