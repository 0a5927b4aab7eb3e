import Verif.Access
import Verif.Props.MergeProps
import Verif.Props.PathProps

/-!
# Lemmas about lookup on resolved values
-/

set_option autoImplicit false

namespace Hocon
namespace Value
open Spec
open PathParser (newPath renderPath)

@[simp] theorem recatch_ok {α : Type} (a : α) : recatch (Res.ok a) = .ok a := rfl

theorem recatch_recatch {α : Type} (r : Res α) : recatch (recatch r) = recatch r := by
  cases r with
  | err e => cases e <;> rfl
  | _ => rfl

theorem at_nil (v : Value) : at? v [] = some v := rfl

theorem at_obj (fs : Fields) (r i : Bool) (k : Str) (p : Path) :
    at? (.obj fs r i) (k :: p) = (findKey fs k).bind fun w => at? w p := by
  simp only [at?, child_obj]

theorem at_nonobj {v : Value} (h : ∀ fs r i, v ≠ .obj fs r i) (k : Str) (p : Path) :
    at? v (k :: p) = none := by
  simp only [at?, child_nonobj h, Option.bind_none]

theorem at_append (v : Value) (p q : Path) : at? v (p ++ q) = (at? v p).bind fun w => at? w q := by
  induction p generalizing v with
  | nil => simp [at?]
  | cons k p ih =>
    simp only [List.cons_append, at?]
    cases child v k <;> simp [ih]

theorem Plain.at {v w : Value} {p : Path} (hv : v.Plain) (h : at? v p = some w) : w.Plain := by
  induction p generalizing v with
  | nil => simp only [at?, Option.some.injEq] at h; exact h ▸ hv
  | cons k p ih =>
    rcases hv.cases with ⟨h1, _, _⟩ | ⟨fs, i, rfl, hf⟩
    · rw [at_nonobj (Plain.ne_of_nonobj h1)] at h; cases h
    · rw [at_obj, Option.bind_eq_some_iff] at h
      obtain ⟨x, hx, hw⟩ := h
      exact ih (hf.find hx) hw

theorem Plain.type {v : Value} (h : v.Plain) : ∃ t, v.valueType = .ok t := by
  rcases h with ⟨_, hr⟩
  cases v <;> first | exact ⟨_, rfl⟩ | (simp [resolved] at hr)

theorem valueType_null {v : Value} : v.valueType = .ok .null ↔ v = .scalar .null := by
  cases v with
  | scalar s => cases s <;> simp [valueType, scalarType]
  | _ => simp [valueType]

theorem valueType_object {v : Value} : v.valueType = .ok .object ↔ v.isObject = true := by
  cases v with
  | scalar s => cases s <;> simp [valueType, scalarType, isObject]
  | _ => simp [valueType, isObject]

theorem peekPath_plain (p : Path) (v : Value) (hv : v.Plain) (ho : v.isObject = true) (hp : p ≠ []) :
    peekPath v p = .ok (at? v p) := by
  induction p generalizing v with
  | nil => exact absurd rfl hp
  | cons k p ih =>
    rcases hv.cases with ⟨h1, _, _⟩ | ⟨fs, i, rfl, hf⟩
    · rw [h1] at ho; cases ho
    · rw [peekPath, attemptPeek, at_obj]
      simp only [Res.bind]
      cases hk : findKey fs k with
      | none => cases p <;> simp
      | some w =>
        cases p with
        | nil => simp [at?]
        | cons k2 p =>
          simp only [List.isEmpty_cons, Bool.false_eq_true, if_false, Option.bind_some]
          by_cases hw : w.isObject = true
          · rw [if_pos hw, ih w (hf.find hk) hw (by simp)]; rfl
          · rw [if_neg hw, at_nonobj (Plain.ne_of_nonobj (by simpa using hw))]; rfl

/-- Lookup of an intermediate object on a resolved value. -/
theorem findKeyNotNull_object (env : Env) (fs : Fields) (i : Bool) (k : Str) (hf : PlainF fs) :
    (∃ w, findKey fs k = some w ∧ w.isObject = true ∧
      findKeyNotNull env (.obj fs true i) k .object = .ok w) ∨
    ((∀ w, findKey fs k = some w → w.isObject = false) ∧
      ∃ e, e ≠ .foreign ∧ findKeyNotNull env (.obj fs true i) k .object = .err e) := by
  unfold findKeyNotNull findKeyOrNull
  simp only [attemptPeek, recatch_ok, Res.bind]
  cases hk : findKey fs k with
  | none => exact .inr ⟨by simp, .missing, by simp, rfl⟩
  | some w =>
    have hw := hf.find hk
    rcases hw with ⟨_, hr⟩
    cases w with
    | obj fs' r' i' => exact .inl ⟨_, rfl, rfl, rfl⟩
    | list vs => exact .inr ⟨by rintro _ ⟨⟩; rfl, .wrongType, by simp, rfl⟩
    | scalar s =>
      refine .inr ⟨by rintro _ ⟨⟩; rfl, ?_⟩
      cases s with
      | null => exact ⟨.null, by simp, rfl⟩
      | _ => exact ⟨.wrongType, by simp, rfl⟩
    | _ => simp [resolved] at hr

theorem recatch_err {α : Type} {e : Err} (h : e ≠ .foreign) :
    recatch (Res.err e : Res α) = .err .config := by
  cases e <;> first | rfl | exact absurd rfl h

theorem length_pos (p : Path) : 0 < PathM.length p := by
  cases p with
  | nil => simp [PathM.length]
  | cons k r => simp only [PathM.length]; split <;> omega

theorem length_eq (p : Path) (h : p ≠ []) : PathM.length p = p.length := PathM.C03_length p h

theorem convertFound_none (env : Env) (t : VType) : convertFound env t none = .err .missing := rfl

theorem findOrNull_plain (env : Env) (expected : VType) (orig : Path) (p : Path) (v : Value)
    (hv : v.Plain) (ho : v.isObject = true) (hp : p ≠ []) (hl : p.length ≤ orig.length) :
    findOrNull env v p expected orig = recatch (convertFound env expected (at? v p)) := by
  induction p generalizing v with
  | nil => exact absurd rfl hp
  | cons k p ih =>
    rcases hv.cases with ⟨h1, _, _⟩ | ⟨fs, i, rfl, hf⟩
    · rw [h1] at ho; cases ho
    · rw [findOrNull, at_obj]
      cases p with
      | nil =>
        simp only [List.isEmpty_nil, if_true, findKeyOrNull, attemptPeek, recatch_ok]
        cases findKey fs k <;> rfl
      | cons k2 p =>
        simp only [List.isEmpty_cons, Bool.false_eq_true, if_false]
        have hne : orig ≠ [] := by
          rintro rfl; simp at hl
        rw [length_eq orig hne, length_eq _ (by simp),
          PathM.C03_subPathRange _ _ _ (by omega) (by simp at hl ⊢; omega)]
        simp only [Res.bind]
        rcases findKeyNotNull_object env fs i k hf with ⟨w, hw, hwo, h⟩ | ⟨hn, e, he, h⟩
        · rw [h]
          simp only [hw, Option.bind_some]
          rw [ih w (hf.find hw) hwo (by simp) (by simp at hl ⊢; omega), recatch_recatch]
        · rw [h]
          simp only
          rw [recatch_err he]
          cases hk : findKey fs k with
          | none => rfl
          | some w =>
            simp only [Option.bind_some]
            rw [at_nonobj (Plain.ne_of_nonobj (hn w hk))]; rfl

/-- What `config::find` does on a resolved config. -/
theorem findExpr_plain (env : Env) (expected : VType) (v : Value) (s : Str) (p : Path)
    (hv : v.Plain) (ho : v.isObject = true) (hs : newPath env s = .ok p) (hp : p ≠ []) :
    findExpr env v s expected =
      (recatch (convertFound env expected (at? v p))).bind throwIfNull := by
  unfold findExpr
  rw [hs]
  simp only [Res.ok_bind]
  rw [findOrNull_plain env expected p p v hv ho hp (Nat.le_refl _)]

theorem convertFound_unspecified (env : Env) (w : Value) :
    convertFound env .unspecified (some w) = .ok w := rfl

/-! ## Single values converted -/

theorem throwIfNull_plain {w : Value} (h : w.Plain) :
    throwIfNull w = if w = .scalar .null then .err .null else .ok w := by
  obtain ⟨t, ht⟩ := h.type
  unfold throwIfNull
  rw [ht]
  simp only [Res.bind]
  by_cases hn : w = .scalar .null
  · rw [if_pos hn, if_pos]; subst hn; simpa [valueType, scalarType, eq_comm] using ht
  · rw [if_neg hn, if_neg]; rintro rfl; exact hn (valueType_null.1 ht)

end Value
end Hocon
