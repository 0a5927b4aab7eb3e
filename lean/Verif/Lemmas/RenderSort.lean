import Verif.Render

/-!
# Sorting of rendered entries
-/

set_option autoImplicit false

namespace Hocon
namespace Render

theorem strLt_irrefl (a : Str) : strLt a a = false := by
  induction a with
  | nil => rfl
  | cons c a ih => simp [strLt, ih]

theorem strLt_trans {a b c : Str} (h1 : strLt a b = true) (h2 : strLt b c = true) : strLt a c = true := by
  induction a generalizing b c with
  | nil =>
    cases b with
    | nil => simp [strLt] at h1
    | cons y b =>
      cases c with
      | nil => simp [strLt] at h2
      | cons z c => rfl
  | cons x a ih =>
    cases b with
    | nil => simp [strLt] at h1
    | cons y b =>
      cases c with
      | nil => simp [strLt] at h2
      | cons z c =>
        simp only [strLt] at h1 h2 ⊢
        split at h1
        · split at h2
          · rw [if_pos (by omega)]
          · split at h2
            · simp at h2
            · rw [if_pos (by omega)]
        · split at h1
          · simp at h1
          · split at h2
            · rw [if_pos (by omega)]
            · split at h2
              · simp at h2
              · rw [if_neg (by omega), if_neg (by omega)]
                exact ih h1 h2

theorem strLt_total (a b : Str) : strLt a b = true ∨ strLt b a = true ∨ a = b := by
  induction a generalizing b with
  | nil => cases b <;> simp [strLt]
  | cons x a ih =>
    cases b with
    | nil => simp [strLt]
    | cons y b =>
      simp only [strLt]
      by_cases h1 : x.toNat < y.toNat
      · simp [h1]
      · by_cases h2 : y.toNat < x.toNat
        · simp [h1, h2]
        · have : x = y := Char.toNat_inj.1 (by omega)
          subst this
          simp only [Nat.lt_irrefl, if_false, List.cons.injEq, true_and]
          exact ih b

theorem strLt_asymm {a b : Str} (h : strLt a b = true) : strLt b a = false := by
  cases h2 : strLt b a with
  | false => rfl
  | true => rw [← strLt_irrefl a]; exact (strLt_trans h h2).symm

theorem strLe_trans {a b c : Str} (h1 : strLt a b = false) (h2 : strLt b c = false) : strLt a c = false := by
  rcases strLt_total b a with h | h | rfl
  · rcases strLt_total c b with h' | h' | rfl
    · exact strLt_asymm (strLt_trans h' h)
    · rw [h2] at h'; cases h'
    · exact h1
  · rw [h1] at h; cases h
  · exact h2

theorem compare_trans {a b c : Str} (h1 : compare a b = true) (h2 : compare b c = true) : compare a c = true := by
  unfold compare at *
  cases ha : a.all isDigit <;> cases hb : b.all isDigit <;> cases hc : c.all isDigit <;>
    simp only [ha, hb, hc, Bool.and_true, Bool.and_false, Bool.false_eq_true, if_true, if_false,
      Bool.not_eq_true', Bool.and_self] at h1 h2 ⊢
  · exact strLt_trans h1 h2
  · exact strLe_trans h1 h2

theorem compare_total {a b : Str} (hne : a ≠ b) : compare a b = !compare b a := by
  unfold compare
  cases ha : a.all isDigit <;> cases hb : b.all isDigit <;>
    simp only [ha, hb, Bool.and_true, Bool.and_false, Bool.false_eq_true, if_true, if_false,
      Bool.not_true, Bool.not_false, Bool.and_self, Bool.not_not]
  · rcases strLt_total a b with h | h | h
    · rw [h, strLt_asymm h]; rfl
    · rw [h, strLt_asymm h]; rfl
    · exact absurd h hne
  · rcases strLt_total a b with h | h | h
    · rw [h, strLt_asymm h]; rfl
    · rw [h, strLt_asymm h]; rfl
    · exact absurd h hne

theorem insert_perm (e : Str × Str) (l : List (Str × Str)) : (insert e l).Perm (e :: l) := by
  induction l with
  | nil => exact .refl _
  | cons x xs ih =>
    rw [insert]
    split
    · exact .refl _
    · exact (ih.cons x).trans (.swap ..)

theorem sort_perm (l : List (Str × Str)) : (sort l).Perm l := by
  induction l with
  | nil => exact .refl _
  | cons x xs ih => exact (insert_perm x _).trans (ih.cons x)

theorem insert_comm {a b : Str × Str} (hne : a.1 ≠ b.1) (l : List (Str × Str)) :
    insert a (insert b l) = insert b (insert a l) := by
  suffices H : ∀ {a b : Str × Str}, a.1 ≠ b.1 → compare a.1 b.1 = true →
      insert a (insert b l) = insert b (insert a l) by
    cases h : compare a.1 b.1 with
    | true => exact H hne h
    | false =>
      rw [compare_total hne] at h
      exact (H (Ne.symm hne) (by simpa using h)).symm
  intro a b hne hab
  have hba : compare b.1 a.1 = false := by
    have := compare_total hne; rw [hab] at this; simpa using this.symm
  induction l with
  | nil => simp [insert, hab, hba]
  | cons x xs ih =>
    cases hax : compare a.1 x.1 <;> cases hbx : compare b.1 x.1
    · simp [insert, hax, hbx, ih]
    · rw [compare_trans hab hbx] at hax; cases hax
    · simp [insert, hax, hbx, hba]
    · simp [insert, hax, hbx, hab, hba]

theorem sort_of_perm {l m : List (Str × Str)} (h : l.Perm m) (hn : (l.map Prod.fst).Nodup) : sort l = sort m := by
  induction h with
  | nil => rfl
  | cons x _ ih =>
    rw [sort, sort, ih (List.nodup_cons.1 hn).2]
  | swap x y l =>
    rw [sort, sort, sort, sort]
    refine insert_comm ?_ _
    intro h
    have := (List.nodup_cons.1 hn).1
    simp [h] at this
  | trans h1 h2 ih1 ih2 =>
    rw [ih1 hn, ih2 ((h1.map Prod.fst).nodup_iff.1 hn)]

end Render
end Hocon
