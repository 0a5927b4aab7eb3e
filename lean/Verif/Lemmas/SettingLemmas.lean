import Verif.Spec.Settings
import Verif.Lemmas.KeyPath
import Verif.Props.HoconProps

/-!
# Settings: helper lemmas
-/

set_option autoImplicit false

namespace Hocon
namespace Settings

open Spec ConfigParser Value

/-- Nothing at the path, and nothing hides a fallback there. -/
def Clear (v : Value) (q : Path) : Prop := look v q = none ∧ ¬ Hidden v q

theorem clear_child {v : Value} {k : Str} {q : Path} (hc : closed v = false) :
    Clear v (k :: q) ↔ ∀ w, child v k = some w → Clear w q := by
  unfold Clear
  rw [look_cons]
  cases h : child v k with
  | none => simp [not_hidden_of_none hc h]
  | some w => rw [hidden_cons hc h]; simp

theorem Clear.open {v : Value} {q : Path} (h : Clear v q) : q ≠ [] ∧ ∃ fs r, v = .obj fs r false := by
  cases q with
  | nil => simp [Clear, look, at?] at h
  | cons k q =>
    refine ⟨by simp, ?_⟩
    cases hc : closed v with
    | false =>
      cases v <;> simp [closed] at hc
      subst hc
      exact ⟨_, _, rfl⟩
    | true => exact absurd (hidden_of_closed hc) h.2

theorem over_nonobj (a b : Value) (h : ∀ fs r, a ≠ .obj fs r false) : over a b = a := by
  rw [over.eq_def]
  split
  · exact absurd rfl (h _ _)
  · rfl

theorem child_over (fs gs : Fields) (r r' j : Bool) (k : Str) :
    child (over (.obj fs r false) (.obj gs r' j)) k =
      match findKey fs k, findKey gs k with
      | none, y => y
      | some v, none => some v
      | some v, some w => some (over v w) := by
  rw [HoconParse.over_eq, pmerge_obj, child_obj, findKey_append, findKey_pmergeF, findKey_extra]
  cases h1 : findKey fs k with
  | none => simp [findKey_none.1 h1]
  | some v => cases findKey gs k <;> simp [HoconParse.over_eq]

theorem over_nonobj_right (fs : Fields) (r : Bool) (b : Value) (h : ∀ gs r j, b ≠ .obj gs r j) :
    over (.obj fs r false) b = .obj fs r true := by
  rw [over.eq_def]
  cases b <;> simp at h ⊢

/-- What the upper value shows stays. -/
theorem over_shows (q : Path) (a b : Value) (s : Seen) (h : look a q = some s) : look (over a b) q = some s := by
  induction q generalizing a b with
  | nil =>
    rw [← h]
    simp only [look, at?, Option.map_some, Option.some.injEq]
    by_cases ha : ∃ fs r, a = .obj fs r false
    · obtain ⟨fs, r, rfl⟩ := ha
      rw [over.eq_def]
      cases b <;> rfl
    · rw [over_nonobj _ _ (fun fs r e => ha ⟨fs, r, e⟩)]
  | cons k q ih =>
    by_cases ha : ∃ fs r, a = .obj fs r false
    · obtain ⟨fs, r, rfl⟩ := ha
      by_cases hb : ∃ gs r j, b = .obj gs r j
      · obtain ⟨gs, r', j, rfl⟩ := hb
        rw [look_cons, child_obj] at h
        rw [look_cons, child_over]
        cases e1 : findKey fs k with
        | none => simp [e1] at h
        | some v =>
          simp only [e1, Option.bind_some] at h
          cases e2 : findKey gs k with
          | none => simpa using h
          | some w => simpa using ih v w h
      · rw [over_nonobj_right _ _ _ (fun gs r j e => hb ⟨gs, r, j, e⟩)]
        rw [look_cons, child_obj] at h ⊢
        exact h
    · rwa [over_nonobj _ _ (fun fs r e => ha ⟨fs, r, e⟩)]

/-- Where the upper value is clear, the lower one shows. -/
theorem over_lower (q : Path) (a b : Value) (h : Clear a q) (hb : ∃ gs r j, b = .obj gs r j) :
    look (over a b) q = look b q := by
  induction q generalizing a b with
  | nil => exact absurd rfl h.open.1
  | cons k q ih =>
    obtain ⟨fs, r, rfl⟩ := h.open.2
    obtain ⟨gs, r', j, rfl⟩ := hb
    rw [clear_child rfl, child_obj] at h
    rw [look_cons, look_cons, child_over, child_obj]
    cases e1 : findKey fs k with
    | none => rfl
    | some v =>
      have hv := h _ e1
      cases e2 : findKey gs k with
      | none => simpa using hv.1
      | some w =>
        simp only [Option.bind_some]
        by_cases hw : ∃ gs r j, w = .obj gs r j
        · exact ih v w hv hw
        · obtain ⟨hq, fs', r'', rfl⟩ := hv.open
          rw [over_nonobj_right _ _ _ (fun gs r j e => hw ⟨gs, r, j, e⟩)]
          cases q with
          | nil => exact absurd rfl hq
          | cons k' q =>
            have h1 := hv.1
            rw [look_cons, child_obj] at h1
            rw [look_cons, child_obj, h1, look_cons, child_nonobj (fun gs r j e => hw ⟨gs, r, j, e⟩)]
            rfl

theorem over_clear (q : Path) (a b : Value) (h1 : Clear a q) (h2 : Clear b q) : Clear (over a b) q := by
  induction q generalizing a b with
  | nil => exact absurd rfl h1.open.1
  | cons k q ih =>
    obtain ⟨fs, r, rfl⟩ := h1.open.2
    obtain ⟨gs, r', rfl⟩ := h2.open.2
    rw [clear_child rfl, child_obj] at h1 h2
    rw [clear_child (by rw [HoconParse.over_eq, pmerge_obj]; rfl), child_over]
    intro w hw
    cases e1 : findKey fs k with
    | none => simp only [e1] at hw; exact h2 w hw
    | some v =>
      cases e2 : findKey gs k with
      | none => simp [e1, e2] at hw; subst hw; exact h1 _ e1
      | some u => simp [e1, e2] at hw; subst hw; exact ih v u (h1 _ e1) (h2 _ e2)

theorem look_under (p r : Path) (v : Value) : look (under p v) (p ++ r) = look v r := by
  induction p with
  | nil => rfl
  | cons k p ih => rw [List.cons_append, under, look_cons, child_obj]; simpa [findKey_cons] using ih

theorem clear_under (p r : Path) (v : Value) : Clear (under p v) (p ++ r) ↔ Clear v r := by
  induction p with
  | nil => rfl
  | cons k p ih =>
    rw [List.cons_append, under, ← ih, clear_child rfl, child_obj]
    simp [findKey_cons]

theorem clear_under_apart (p q : Path) (v : Value) (h : Apart p q) : Clear (under p v) q := by
  induction p generalizing q with
  | nil => exact absurd List.nil_prefix h.1
  | cons k p ih =>
    cases q with
    | nil => exact absurd List.nil_prefix h.2
    | cons k' q =>
      rw [under, clear_child rfl, child_obj]
      intro w hw
      simp only [findKey_cons] at hw
      split at hw
      · rename_i hk
        subst hk
        cases hw
        exact ih q ⟨fun hx => h.1 (by simpa using hx), fun hx => h.2 (by simpa using hx)⟩
      · simp at hw

/-- What an object with the fields shows; the other components do not matter. -/
def ob (fs : Fields) : Value := .obj fs true false

theorem child_assign (fs : Fields) (k k' : Str) (p : Path) (v : Value) :
    child (ob (assign fs (k :: p, v))) k' =
      if k = k' then some (match findKey fs k with | none => under p v | some old => over (under p v) old)
      else child (ob fs) k' := by
  rw [assign, ob, child_obj, ob, child_obj]
  cases e : findKey fs k with
  | none => rw [HoconParse.setField_new _ _ _ e, findKey_putKey]
  | some old => rw [HoconParse.setField_old _ _ _ _ e, findKey_putKey]

/-- An assignment shows its value. -/
theorem assign_shows (fs : Fields) (p q : Path) (v : Value) (s : Seen) (hp : p ≠ []) (h : look (under p v) q = some s)
    (hq : q ≠ []) : look (ob (assign fs (p, v))) q = some s := by
  cases p with
  | nil => exact absurd rfl hp
  | cons k p =>
    cases q with
    | nil => exact absurd rfl hq
    | cons k' q =>
      rw [under, look_cons, child_obj] at h
      simp only [findKey_cons] at h
      rw [look_cons, child_assign]
      split at h
      · rename_i hk
        subst hk
        rw [if_pos rfl]
        simp only [Option.bind_some] at h ⊢
        cases findKey fs k with
        | none => exact h
        | some old => exact over_shows _ _ _ _ h
      · simp at h

/-- An assignment that says nothing about the path changes nothing there. -/
theorem assign_lower (fs : Fields) (p q : Path) (v : Value) (h : p = [] ∨ Clear (under p v) q)
    (hq : q ≠ []) (s : Seen) (hs : look (ob fs) q = some s) : look (ob (assign fs (p, v))) q = some s := by
  cases p with
  | nil => exact hs
  | cons k p =>
    replace h := h.resolve_left (by simp)
    cases q with
    | nil => exact absurd rfl hq
    | cons k' q =>
      rw [under, clear_child rfl, child_obj] at h
      simp only [findKey_cons] at h
      rw [look_cons] at hs
      rw [look_cons, child_assign]
      split at h
      · rename_i hk
        subst hk
        have hc := h _ rfl
        rw [if_pos rfl]
        rw [ob, child_obj] at hs
        cases e : findKey fs k with
        | none => simp [e] at hs
        | some old =>
          simp only [e, Option.bind_some] at hs ⊢
          by_cases ho : ∃ gs r j, old = .obj gs r j
          · rw [over_lower _ _ _ hc ho]; exact hs
          · cases q with
            | nil => exact absurd rfl hc.open.1
            | cons k' q =>
              rw [look_cons, child_nonobj (fun gs r j e => ho ⟨gs, r, j, e⟩)] at hs
              cases hs
      · rename_i hk
        rw [if_neg hk]
        exact hs

theorem assign_clear (fs : Fields) (p q : Path) (v : Value) (h : p = [] ∨ Clear (under p v) q)
    (hs : Clear (ob fs) q) : Clear (ob (assign fs (p, v))) q := by
  cases p with
  | nil => exact hs
  | cons k p =>
    replace h := h.resolve_left (by simp)
    cases q with
    | nil => exact absurd rfl hs.open.1
    | cons k' q =>
      rw [under, clear_child rfl, child_obj] at h
      simp only [findKey_cons] at h
      rw [clear_child rfl] at hs ⊢
      rw [child_assign]
      intro w hw
      split at hw
      · rename_i hk
        subst hk
        have hc := h (under p v) (if_pos rfl)
        cases hw
        rw [ob, child_obj] at hs
        cases e : findKey fs k with
        | none => exact hc
        | some old => exact over_clear _ _ _ hc (hs _ e)
      · exact hs w hw

theorem fold_quiet {as : List (Path × Value)} {q : Path} (h : Quiet as q) (hq : q ≠ []) :
    (∀ fs, Clear (ob fs) q → Clear (ob (as.foldl assign fs)) q) ∧
    (∀ fs s, look (ob fs) q = some s → look (ob (as.foldl assign fs)) q = some s) := by
  induction h with
  | nil => exact ⟨fun _ h => h, fun _ _ h => h⟩
  | @apart p q v as ha _ ih =>
    obtain ⟨i1, i2⟩ := ih hq
    have hc := Or.inr (a := p = []) (clear_under_apart p q v ha)
    exact ⟨fun fs h => i1 _ (assign_clear fs p q v hc h), fun fs s h => i2 _ _ (assign_lower fs p q v hc hq s h)⟩
  | @inside p r as bs hr _ _ ihb ih =>
    obtain ⟨i1, i2⟩ := ih hq
    have hb : Clear (assigned bs) r := by
      refine (ihb hr).1 [] ?_
      cases r with
      | nil => exact absurd rfl hr
      | cons k r => rw [clear_child rfl, ob, child_obj]; simp
    have hc := Or.inr (a := p = []) ((clear_under p r (assigned bs)).2 hb)
    exact ⟨fun fs h => i1 _ (assign_clear fs p _ _ hc h), fun fs s h => i2 _ _ (assign_lower fs p _ _ hc hq s h)⟩

theorem quiet_none {as : List (Path × Value)} {q : Path} (h : Quiet as q) (hq : q ≠ []) : look (assigned as) q = none := by
  refine ((fold_quiet h hq).1 [] ?_).1
  cases q with
  | nil => exact absurd rfl hq
  | cons k r => rw [clear_child rfl, ob, child_obj]; simp

theorem sets_look {as : List (Path × Value)} {q : Path} {v : Value} (h : Sets as q v) :
    q ≠ [] ∧ (∀ fs r i, v ≠ .obj fs r i) ∧ look (assigned as) q = some (seen v) := by
  induction h with
  | @here before after p v hp hv hq =>
    refine ⟨hp, hv, ?_⟩
    rw [assigned, List.foldl_append, List.foldl_cons]
    refine (fold_quiet hq hp).2 _ _ (assign_shows _ p p v _ hp ?_ hp)
    have := look_under p [] v
    rw [List.append_nil] at this
    rw [this]
    rfl
  | @inside before after bs p q v hp _ hq ih =>
    obtain ⟨h1, h2, h3⟩ := ih
    have hpq : p ++ q ≠ [] := by simp [hp]
    refine ⟨hpq, h2, ?_⟩
    rw [assigned, List.foldl_append, List.foldl_cons]
    refine (fold_quiet hq hpq).2 _ _ (assign_shows _ p _ _ _ hp ?_ hpq)
    rw [look_under]
    exact h3

end Settings
end Hocon
