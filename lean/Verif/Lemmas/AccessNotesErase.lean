import Verif.AccessNotes
import Verif.Lemmas.NotesErase

/-!
# The lookups with and without origins find the same values
-/

set_option autoImplicit false

namespace Hocon
namespace Notes

open Value (attemptPeek peekStack peekPath recatch)

theorem findKeyA_eraseF (fs : AFields) (k : Str) : findKey (eraseF fs) k = (findKeyA fs k).map AVal.erase := by
  induction fs with
  | nil => rfl
  | cons f fs ih =>
    obtain ⟨k', v⟩ := f
    rw [findKeyA, eraseF, findKey]
    split
    · rfl
    · exact ih

mutual
theorem attemptPeekA_erase (v : AVal) (k : Str) :
    Res.mapOk (Option.map AVal.erase) (attemptPeekA v k) = attemptPeek v.erase k := by
  match v with
  | .obj o fs r i => rw [attemptPeekA, AVal.erase, attemptPeek, findKeyA_eraseF]; rfl
  | .dmo o st => rw [attemptPeekA, AVal.erase, attemptPeek, peekStackA_erase]
  | .scalar _ _ => simp [attemptPeekA, AVal.erase, attemptPeek]
  | .list _ _ => simp [attemptPeekA, AVal.erase, attemptPeek]
  | .ref .. => simp [attemptPeekA, AVal.erase, attemptPeek]
  | .concat _ _ => simp [attemptPeekA, AVal.erase, attemptPeek]
  | .dm _ _ => simp [attemptPeekA, AVal.erase, attemptPeek]
theorem peekStackA_erase (st : List AVal) (k : Str) :
    Res.mapOk (Option.map AVal.erase) (peekStackA st k) = peekStack (eraseL st) k := by
  match st with
  | [] => rw [peekStackA, eraseL, peekStack]; rfl
  | v :: st =>
    rw [peekStackA, eraseL, peekStack, ← attemptPeekA_erase v k]
    have ih := peekStackA_erase st k
    by_cases h1 : v.erase.isObject = true
    · simp only [h1, if_true]
      cases attemptPeekA v k with
      | ok o =>
        cases o with
        | none =>
          show Res.mapOk _ (if _ then _ else _) = (if _ then _ else _)
          split
          · rfl
          · exact ih
        | some w =>
          show Res.mapOk _ (if _ then _ else _) = (if _ then _ else _)
          split
          · rfl
          · exact ih
      | err e => rfl
      | ub => rfl
      | fuel => rfl
    · simp only [h1, if_false, Bool.false_eq_true]
      repeat' split
      · rfl
      · exact ih
      · rfl
      · rfl
end

theorem recatch_mapOk {α β : Type} (f : α → β) (r : Res α) : Res.mapOk f (recatch r) = recatch (Res.mapOk f r) := by
  cases r with
  | err e => cases e <;> rfl
  | _ => rfl

/-- Origins and comments play no part in a lookup. -/
theorem peekPathA_erase (v : AVal) (p : Path) :
    Res.mapOk (Option.map AVal.erase) (peekPathA v p) = peekPath v.erase p := by
  induction p generalizing v with
  | nil => rfl
  | cons k p ih =>
    rw [peekPathA, peekPath, recatch_mapOk, ← attemptPeekA_erase v k]
    congr 1
    cases attemptPeekA v k with
    | ok o =>
      show Res.mapOk _ (if _ then _ else _) = (if _ then _ else _)
      split
      · rfl
      · cases o with
        | none => rfl
        | some w =>
          show Res.mapOk _ (if _ then _ else _) = (if _ then _ else _)
          split
          · exact ih w
          · rfl
    | err e => rfl
    | ub => rfl
    | fuel => rfl

end Notes
end Hocon
