import Verif.Value

/-!
# Specification: structural equality of values
-/

set_option autoImplicit false

namespace Hocon
namespace Spec

/-- The integer a scalar holds. -/
def intOf : Scalar → Option Int
  | .int i _ => some i
  | .long i _ => some i
  | _ => none

/-- Two scalars are equal: same kind and content, numbers by their numeric value. Original texts and
quoting do not matter. -/
inductive SameScalar (env : Env) : Scalar → Scalar → Prop where
  | null : SameScalar env .null .null
  | bool (b : Bool) : SameScalar env (.bool b) (.bool b)
  | str (s : Str) (q q' : Bool) : SameScalar env (.str s q) (.str s q')
  | int (x y : Scalar) (i : Int) : intOf x = some i → intOf y = some i → SameScalar env x y
  | double (d e : Dbl) (o o' : Str) : env.doubleEq d e = true →
      SameScalar env (.double d o) (.double e o')
  | mixed (x : Scalar) (d : Dbl) (o : Str) (i : Int) : intOf x = some i →
      env.doubleToI64 d = some i → env.doubleEq (env.i64ToDouble i) d = true →
      SameScalar env x (.double d o)
  | mixed' (x : Scalar) (d : Dbl) (o : Str) (i : Int) : intOf x = some i →
      env.doubleToI64 d = some i → env.doubleEq d (env.i64ToDouble i) = true →
      SameScalar env (.double d o) x

mutual
/-- Structural equality of resolved values: lists element by element; objects have the same keys,
with equal values. -/
def Same (env : Env) : Value → Value → Prop
  | .scalar x, .scalar y => SameScalar env x y
  | .list xs, .list ys => SameL env xs ys
  | .obj fs _ _, .obj gs _ _ =>
    (∀ k, k ∈ fs.map Prod.fst ↔ k ∈ gs.map Prod.fst) ∧ SameF env fs gs
  | _, _ => False
/-- Element by element. -/
def SameL (env : Env) : List Value → List Value → Prop
  | [], [] => True
  | x :: xs, y :: ys => Same env x y ∧ SameL env xs ys
  | _, _ => False
/-- Every value on the left equals every value on the right with the same key. -/
def SameF (env : Env) : List (Str × Value) → List (Str × Value) → Prop
  | [], _ => True
  | (k, x) :: fs, gs => (∀ y, (k, y) ∈ gs → Same env x y) ∧ SameF env fs gs
end

mutual
/-- Every double in the tree is within the range of `int64_t`. -/
def InRange (env : Env) : Value → Prop
  | .scalar (.double d _) => env.doubleToI64 d ≠ none
  | .scalar _ => True
  | .list vs => InRangeL env vs
  | .obj fs _ _ => InRangeF env fs
  | _ => True
/-- `InRange` for all elements. -/
def InRangeL (env : Env) : List Value → Prop
  | [] => True
  | v :: vs => InRange env v ∧ InRangeL env vs
/-- `InRange` for all fields. -/
def InRangeF (env : Env) : List (Str × Value) → Prop
  | [] => True
  | (_, v) :: fs => InRange env v ∧ InRangeF env fs
end

mutual
/-- Every object in the tree has at most one field. -/
def Narrow : Value → Prop
  | .list vs => NarrowL vs
  | .obj fs _ _ => fs.length ≤ 1 ∧ NarrowF fs
  | _ => True
/-- `Narrow` for all elements. -/
def NarrowL : List Value → Prop
  | [] => True
  | v :: vs => Narrow v ∧ NarrowL vs
/-- `Narrow` for all fields. -/
def NarrowF : List (Str × Value) → Prop
  | [] => True
  | (_, v) :: fs => Narrow v ∧ NarrowF fs
end

/-- Facts about IEEE doubles used for the comparison: `==` is symmetric, converted integers equal
themselves, and equal doubles are cut to equal integers. -/
structure DoubleOk (env : Env) : Prop where
  symm : ∀ d e, env.doubleEq d e = env.doubleEq e d
  refl : ∀ i, env.doubleEq (env.i64ToDouble i) (env.i64ToDouble i) = true
  cut : ∀ d e, env.doubleEq d e = true → env.doubleToI64 d = env.doubleToI64 e

end Spec
end Hocon
