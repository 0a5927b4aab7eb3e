import Verif.Lemmas.DocParserTotal

/-!
# More fuel does not change what the document parser returns
-/

set_option autoImplicit false

namespace Hocon
namespace DocParser
open PathParser (Syntax)

/-- `b` is what `a` is, unless `a` ran out of fuel. -/
def Le {α : Type} (a b : Res α) : Prop := a = .fuel ∨ a = b

theorem Le.refl {α : Type} (a : Res α) : Le a a := Or.inr rfl

theorem Le.fuel {α : Type} (a : Res α) : Le .fuel a := Or.inl rfl

theorem Le.trans {α : Type} {a b c : Res α} (h : Le a b) (h' : Le b c) : Le a c := by
  rcases h with rfl | rfl
  · exact .fuel _
  · exact h'

theorem Le.bind {α β : Type} {a b : Res α} {k k' : α → Res β} (h : Le a b) (hk : ∀ x, Le (k x) (k' x)) :
    Le (a >>= k) (b >>= k') := by
  rcases h with rfl | rfl
  · exact .fuel _
  · cases a with
    | ok x => exact hk x
    | err e => exact .refl _
    | ub => exact .refl _
    | fuel => exact .refl _

/-- What is shown of the parser functions. -/
structure Mono (env : Env) (fl : Syntax) (f : Nat) : Prop where
  value : ∀ t toks, Le (parseValue env fl f t toks) (parseValue env fl (f + 1) t toks)
  loop : ∀ t toks, Le (consLoop env fl f t toks) (consLoop env fl (f + 1) t toks)
  cons : ∀ toks, Le (consolidate env fl f toks) (consolidate env fl (f + 1) toks)
  fval : ∀ toks, Le (fieldVal env fl f toks) (fieldVal env fl (f + 1) toks)
  field : ∀ t toks, Le (parseField env fl f t toks) (parseField env fl (f + 1) t toks)
  obj : ∀ ho ac keys toks, Le (objectLoop env fl f ho ac keys toks) (objectLoop env fl (f + 1) ho ac keys toks)
  sep : ∀ ho keys toks, Le (objectSep env fl f ho keys toks) (objectSep env fl (f + 1) ho keys toks)
  array : ∀ toks, Le (parseArray env fl f toks) (parseArray env fl (f + 1) toks)
  aloop : ∀ toks, Le (arrayLoop env fl f toks) (arrayLoop env fl (f + 1) toks)

theorem mono_all (env : Env) (fl : Syntax) (f : Nat) : Mono env fl f := by
  induction f with
  | zero =>
    constructor <;> intros <;> left <;>
      simp [parseValue, consLoop, consolidate, fieldVal, parseField, objectLoop, objectSep, parseArray, arrayLoop]
  | succ f ih =>
    constructor
    · intro t toks
      rw [parseValue.eq_def env fl (f + 1), parseValue.eq_def env fl (f + 1 + 1)]
      simp only
      split <;> first | exact .refl _ | exact ih.array _ | skip
      exact (ih.obj ..).bind fun _ => .refl _
    · intro t toks
      rw [consLoop.eq_def env fl (f + 1), consLoop.eq_def env fl (f + 1 + 1)]
      simp only
      split
      · exact (Le.refl _).bind fun _ => (ih.loop ..).bind fun _ => .refl _
      · split
        · exact (ih.value ..).bind fun _ => (Le.refl _).bind fun _ => (ih.loop ..).bind fun _ => .refl _
        · exact .refl _
    · intro toks
      rw [consolidate.eq_def env fl (f + 1), consolidate.eq_def env fl (f + 1 + 1)]
      simp only
      split
      · exact .refl _
      · exact (Le.refl _).bind fun _ => (ih.loop ..).bind fun _ => .refl _
    · intro toks
      rw [fieldVal.eq_def env fl (f + 1), fieldVal.eq_def env fl (f + 1 + 1)]
      simp only
      refine (ih.cons _).bind fun x => ?_
      split
      exact .refl _
      exact (Le.refl _).bind fun _ => (ih.value ..).bind fun _ => .refl _
    · intro t toks
      rw [parseField.eq_def env fl (f + 1), parseField.eq_def env fl (f + 1 + 1)]
      simp only
      refine (Le.refl _).bind fun x => (Le.refl _).bind fun y => ?_
      split
      · exact (ih.value ..).bind fun _ => .refl _
      · split
        · exact (ih.fval ..).bind fun _ => .refl _
        · exact .refl _
    · intro ho ac keys toks
      rw [objectLoop.eq_def env fl (f + 1), objectLoop.eq_def env fl (f + 1 + 1)]
      simp only
      refine (Le.refl _).bind fun x => ?_
      split
      · exact .refl _
      · split
        · exact .refl _
        · split
          · exact (Le.refl _).bind fun _ => (ih.sep ..).bind fun _ => .refl _
          · exact (ih.field ..).bind fun _ => (Le.refl _).bind fun _ => (ih.sep ..).bind fun _ => .refl _
    · intro ho keys toks
      rw [objectSep.eq_def env fl (f + 1), objectSep.eq_def env fl (f + 1 + 1)]
      simp only
      refine (Le.refl _).bind fun x => ?_
      split
      · exact (ih.obj ..).bind fun _ => .refl _
      · exact .refl _
    · intro toks
      rw [parseArray.eq_def env fl (f + 1), parseArray.eq_def env fl (f + 1 + 1)]
      simp only
      refine (ih.cons _).bind fun x => ?_
      split
      · exact (ih.aloop ..).bind fun _ => .refl _
      · refine (Le.refl _).bind fun y => ?_
        split
        · exact .refl _
        · split
          · exact (ih.value ..).bind fun _ => (ih.aloop ..).bind fun _ => .refl _
          · exact .refl _
    · intro toks
      rw [arrayLoop.eq_def env fl (f + 1), arrayLoop.eq_def env fl (f + 1 + 1)]
      simp only
      refine (Le.refl _).bind fun x => ?_
      split
      · refine (ih.cons _).bind fun y => ?_
        split
        · exact (ih.aloop ..).bind fun _ => .refl _
        · refine (Le.refl _).bind fun z => ?_
          split
          · exact (ih.value ..).bind fun _ => (ih.aloop ..).bind fun _ => .refl _
          · split
            · exact (ih.aloop ..).bind fun _ => .refl _
            · exact .refl _
      · exact .refl _

/-- A function of the fuel that more fuel does not change. -/
theorem le_of_step {α : Type} {x : Nat → Res α} (h : ∀ f, Le (x f) (x (f + 1))) {f g : Nat} (hfg : f ≤ g) :
    Le (x f) (x g) := by
  induction hfg with
  | refl => exact .refl _
  | step _ ih => exact ih.trans (h _)

/-- A result does not depend on the fuel. -/
theorem ok_of_step {α : Type} {x : Nat → Res α} (h : ∀ f, Le (x f) (x (f + 1))) {f : Nat} {r : α}
    (hf : x f = .ok r) (g : Nat) : Le (x g) (.ok r) := by
  rcases Nat.le_total f g with hfg | hfg
  · rcases le_of_step h hfg with h' | h'
    · rw [hf] at h'; cases h'
    · right; rw [← h', hf]
  · rcases le_of_step h hfg with h' | h'
    · exact Or.inl h'
    · right; rw [h', hf]

end DocParser
end Hocon
