import Verif.Lemmas.SubstPart

/-!
# Deciding the hypotheses of the theorems about `resolve`, for the examples
-/

set_option autoImplicit false

namespace Hocon
namespace Spec
open Value

mutual
/-- Decides `Clean`. -/
def cleanB : Value → Bool
  | .scalar _ => true
  | .list vs => cleanLB vs
  | .obj fs r _ => r && cleanFB fs
  | _ => false
/-- `cleanB` for all elements. -/
def cleanLB : List Value → Bool
  | [] => true
  | v :: vs => cleanB v && cleanLB vs
/-- `cleanB` for all fields. -/
def cleanFB : List (Str × Value) → Bool
  | [] => true
  | (_, v) :: fs => cleanB v && cleanFB fs
end

mutual
theorem cleanB_iff : (v : Value) → (cleanB v = true ↔ Clean v)
  | .scalar _ => by simp [cleanB, Clean]
  | .list vs => by simp only [cleanB, Clean]; exact cleanLB_iff vs
  | .obj fs r _ => by simp only [cleanB, Clean, Bool.and_eq_true, cleanFB_iff fs]
  | .ref .. => by simp [cleanB, Clean]
  | .concat _ => by simp [cleanB, Clean]
  | .dm _ => by simp [cleanB, Clean]
  | .dmo _ => by simp [cleanB, Clean]
theorem cleanLB_iff : (vs : List Value) → (cleanLB vs = true ↔ CleanL vs)
  | [] => by simp [cleanLB, CleanL]
  | v :: vs => by simp only [cleanLB, CleanL, Bool.and_eq_true, cleanB_iff v, cleanLB_iff vs]
theorem cleanFB_iff : (fs : List (Str × Value)) → (cleanFB fs = true ↔ CleanF fs)
  | [] => by simp [cleanFB, CleanF]
  | (_, v) :: fs => by simp only [cleanFB, CleanF, Bool.and_eq_true, cleanB_iff v, cleanFB_iff fs]
end

/-- Decides `Calm`. -/
def calmB : Value → Path → Bool
  | .obj fs _ _, k :: p =>
    match findKey fs k with
    | none => true
    | some v => if p.isEmpty then cleanB v else calmB v p
  | .scalar _, _ :: _ => true
  | .list _, _ :: _ => true
  | _, _ => false

theorem calmB_calm : (p : Path) → (v : Value) → calmB v p = true → Calm v p
  | [], v, h => by cases v <;> simp [calmB] at h
  | k :: p, v, h => by
    cases v with
    | obj fs r i =>
      simp only [calmB] at h
      cases hf : findKey fs k with
      | none => exact .missing hf
      | some x =>
        rw [hf] at h
        simp only at h
        cases p with
        | nil => exact .found hf ((cleanB_iff x).1 h)
        | cons k' p => exact .deeper hf (calmB_calm (k' :: p) x h)
    | scalar => exact .scalar
    | list => exact .list
    | _ => simp [calmB] at h

mutual
/-- Decides `Simple`. -/
def simpleB (root : Value) : Value → Bool
  | .scalar _ => true
  | .list vs => simpleLB root vs
  | .obj fs _ _ => simpleFB root fs
  | .ref _ p opt pre => pre == 0 && !p.isEmpty && (!opt || calmB root p)
  | .concat vs => simpleLB root vs
  | _ => false
/-- `simpleB` for all elements. -/
def simpleLB (root : Value) : List Value → Bool
  | [] => true
  | v :: vs => simpleB root v && simpleLB root vs
/-- `simpleB` for all fields. -/
def simpleFB (root : Value) : List (Str × Value) → Bool
  | [] => true
  | (_, v) :: fs => simpleB root v && simpleFB root fs
end

theorem simpleLB_mem {root : Value} {vs : List Value} (h : simpleLB root vs = true) {v : Value} (hv : v ∈ vs) :
    simpleB root v = true := by
  induction vs with
  | nil => simp at hv
  | cons w vs ih =>
    simp only [simpleLB, Bool.and_eq_true] at h
    rcases List.mem_cons.1 hv with rfl | hv
    · exact h.1
    · exact ih h.2 hv

theorem simpleFB_mem {root : Value} {fs : Fields} (h : simpleFB root fs = true) {f : Str × Value}
    (hf : f ∈ fs) : simpleB root f.2 = true := by
  induction fs with
  | nil => simp at hf
  | cons w fs ih =>
    obtain ⟨k, w⟩ := w
    simp only [simpleFB, Bool.and_eq_true] at h
    rcases List.mem_cons.1 hf with rfl | hf
    · exact h.1
    · exact ih h.2 hf

theorem simpleB_simple {root v : Value} (h : simpleB root v = true) : Simple root v := by
  intro u hu
  induction hu with
  | here =>
    cases u with
    | ref id p opt pre =>
      refine ⟨by simp, ?_⟩
      rintro _ _ _ _ ⟨⟩
      simp only [simpleB, Bool.and_eq_true, beq_iff_eq, Bool.not_eq_true', List.isEmpty_eq_false_iff,
        Bool.or_eq_true] at h
      refine ⟨h.1.1, h.1.2, ?_⟩
      rintro rfl
      exact calmB_calm _ _ (by simpa using h.2)
    | dm => simp [simpleB] at h
    | dmo => simp [simpleB] at h
    | _ => exact ⟨by simp, by simp⟩
  | list hm _ ih => exact ih (simpleLB_mem h hm)
  | obj hm _ ih => exact ih (simpleFB_mem h hm)
  | concat hm _ ih => exact ih (simpleLB_mem h hm)
  | dm => simp [simpleB] at h
  | dmo => simp [simpleB] at h

mutual
/-- Decides `Wf`. -/
def wfB : Value → Bool
  | .scalar _ => true
  | .list vs => wfLB vs
  | .obj fs r _ => r == resolvedFields fs && decide (keysOf fs).Nodup && wfFB fs
  | .ref .. => true
  | .concat vs => wfLB vs
  | .dm vs => wfLB vs
  | .dmo vs => wfLB vs
/-- `wfB` for all elements. -/
def wfLB : List Value → Bool
  | [] => true
  | v :: vs => wfB v && wfLB vs
/-- `wfB` for all fields. -/
def wfFB : List (Str × Value) → Bool
  | [] => true
  | (_, v) :: fs => wfB v && wfFB fs
end

mutual
theorem wfB_wf : (v : Value) → wfB v = true → v.Wf
  | .scalar _, _ => by simp [Wf]
  | .list vs, h => by simp only [Wf]; exact wfLB_wf vs h
  | .obj fs r _, h => by
    simp only [wfB, Bool.and_eq_true, beq_iff_eq, decide_eq_true_eq] at h
    simp only [Wf]
    exact ⟨h.1.1, h.1.2, wfFB_wf fs h.2⟩
  | .ref .., _ => by simp [Wf]
  | .concat vs, h => by simp only [Wf]; exact wfLB_wf vs h
  | .dm vs, h => by simp only [Wf]; exact wfLB_wf vs h
  | .dmo vs, h => by simp only [Wf]; exact wfLB_wf vs h
theorem wfLB_wf : (vs : List Value) → wfLB vs = true → WfL vs
  | [], _ => trivial
  | v :: vs, h => by
    simp only [wfLB, Bool.and_eq_true] at h
    exact ⟨wfB_wf v h.1, wfLB_wf vs h.2⟩
theorem wfFB_wf : (fs : Fields) → wfFB fs = true → WfF fs
  | [], _ => trivial
  | (_, v) :: fs, h => by
    simp only [wfFB, Bool.and_eq_true] at h
    exact ⟨wfB_wf v h.1, wfFB_wf fs h.2⟩
end

end Spec
end Hocon
