import Verif.Spec.Time

/-!
# Specification: durations with a fraction
-/

set_option autoImplicit false

namespace Hocon
namespace Spec

/-- A configuration value that is the double `x` with the unit `u`: a number with a fraction
(milliseconds), or a string made of the text of such a number and a documented unit, with any white
space around and between. -/
inductive FracAmount (env : Env) : Value → Dbl → TimeUnit → Prop where
  | double (x : Dbl) (orig : Str) : FracAmount env (.scalar (.double x orig)) x .milliseconds
  | text (num unit w1 w2 w3 : Str) (x : Dbl) (u : TimeUnit) (quoted : Bool) : num ≠ [] →
      (∀ c ∈ num, isSpace c = false ∧ isAlpha c = false) → (∀ i, Denotes num i → ¬ InI64 i) →
      env.parseDouble num = some x → (unit, u) ∈ spellings → Blank w1 → Blank w2 → Blank w3 →
      FracAmount env (.scalar (.str (w1 ++ num ++ w2 ++ unit ++ w3) quoted)) x u

/-- `Unrounded env o x a b u`: the double `x` is the fraction `a / b`, and computing seconds and
nanoseconds from `x` units `u` needs no rounding. `Is y c d` says that the double `y` is `c / d`.
A unit of `u` is a part or a multiple of a second (a second is both). -/
structure Unrounded (env : Env) (o : DblOps) (Is : Dbl → Int → Int → Prop) (x : Dbl) (a b : Int)
    (u : TimeUnit) : Prop where
  pos : 0 < b
  here : Is x a b
  /-- quotient, remainder and product for parts of a second -/
  div : ∀ n, nanosPer u * n = 1000000000 → Is (o.div x (o.ofInt n)) a (n * b)
  rem : ∀ n, nanosPer u * n = 1000000000 → Is (o.fmod x (o.ofInt n)) (a.tmod (n * b)) b
  remMul : ∀ n, nanosPer u * n = 1000000000 →
    Is (o.mul (o.fmod x (o.ofInt n)) (o.ofInt (nanosPer u))) (a.tmod (n * b) * nanosPer u) b
  /-- product, remainder and product for multiples -/
  mul : ∀ n, nanosPer u = n * 1000000000 → Is (o.mul x (o.ofInt n)) (a * n) b
  mulRemMul : ∀ n, nanosPer u = n * 1000000000 →
    Is (o.mul (o.fmod (o.mul x (o.ofInt n)) (o.ofInt 1)) (o.ofInt 1000000000))
      ((a * n).tmod b * 1000000000) b
  /-- zero is not normal, and the other numbers that occur are -/
  normal : ∀ y c d, Is y c d → (o.isNormal y = true ↔ c ≠ 0)
  /-- the casts cut towards zero -/
  toI64 : ∀ y c d, Is y c d → InI64 (c.tdiv d) → env.doubleToI64 y = some (c.tdiv d)
  toI32 : ∀ y c d, Is y c d → InI32 (c.tdiv d) → o.toInt y = some (c.tdiv d)

end Spec
end Hocon
