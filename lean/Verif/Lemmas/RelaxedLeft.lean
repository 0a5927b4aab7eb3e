import Verif.Lemmas.ResolveMissing
import Verif.Lemmas.ResolveTarget
import Verif.Lemmas.ResolveErase

/-!
# A substitution for nothing, with permission to leave it
-/

set_option autoImplicit false

namespace Hocon
namespace ResolveA
open Resolve Spec Notes

/-- The search for a setting that is not there, nor in the environment, finds nothing. -/
theorem tryRef_nothing {env : Env} {n : Nat} {c : Ctx} {s : Source} {p : Path} {fs : Fields} {r i opt : Bool}
    {y : Ctx × Option Value} (hroot : s.root = some (.obj fs r i)) (hk : Gone (.obj fs r i) p)
    (he : envExt env true p = none) (hy : tryRef env (resolveN env n) c s p opt 0 = .ok y) : y.2 = none := by
  unfold tryRef at hy
  split at hy
  · rename_i l hl
    rw [hroot] at hl
    suffices hn : l.2.1 = none by
      unfold resolveFound at hy
      rw [hn] at hy
      cases hy
      rfl
    unfold lookupSubst at hl
    obtain ⟨r1, hr1, hl⟩ := bind_ok hl
    have hnone := findInObject_lack hk hr1
    simp only [hnone, Option.isNone_none, if_true, gt_iff_lt, Nat.lt_irrefl, if_false] at hl
    unfold lookupEnv at hl
    split at hl
    · obtain ⟨v, hv, hl⟩ := bind_ok hl
      cases hl
      have hsub : PathM.subPath 0 p = p := rfl
      rw [hsub] at hv
      match p with
      | [] => cases hv
      | [k] =>
        simp only [envExt, if_true] at he
        simp only [findEnv] at hv
        cases hv
        simp only [he, Option.map_none]
      | _ :: _ :: _ => simp only [findEnv] at hv; cases hv; rfl
    · cases hl; exact hnone
  · unfold catchCycle at hy
    split at hy
    · split at hy
      · cases hy; rfl
      · cases hy
    · rename_i hx _; exact absurd hy (by simp)
  · cases hy
  · cases hy

/-- What resolving a substitution for nothing gives, if it does not fail: the substitution, or nothing if it
is optional. -/
theorem ref_nothing {env : Env} {n : Nat} {c : Ctx} {s : ASource} {ox : Origin} {id : Nat} {p : Path}
    {fs : Fields} {r i opt : Bool} {y : Ctx × Option AVal} (hroot : s.erase.root = some (.obj fs r i))
    (hk : Gone (.obj fs r i) p) (he : envExt env true p = none)
    (h : resolveNA env n c s (.ref ox id p opt 0) = .ok y) :
    y.2 = if opt then none else some (.ref ox id p opt 0) := by
  cases n with
  | zero => cases h
  | succ n =>
    rw [resolveNA] at h
    split at h
    · cases h
    obtain ⟨x, hx, h⟩ := bokA h
    have hxy : x = y := by
      unfold checkResultA at h
      split at h
      · cases h; rfl
      · split at h
        · cases h; rfl
        · cases h
    subst hxy
    simp only [resolveSubstitutionsA, resolveRefA] at hx
    split at hx
    · cases hx
    obtain ⟨z, hz, hx⟩ := bokA hx
    have hz' := tryRefA_erase (resolveNA_erase env n) env (c.mark id) s p opt 0
    rw [hz] at hz'
    have hn := tryRef_nothing hroot hk he hz'.symm
    obtain ⟨z1, z2⟩ := z
    cases z2 with
    | some v => cases hn
    | none =>
      simp only [finishRefA] at hx
      split at hx
      · rename_i ho; cases hx; rw [if_pos ho]
      · rename_i ho
        split at hx
        · cases hx; rw [if_neg ho]
        · cases hx

end ResolveA
end Hocon
