import Verif.Spec.Equal
import Verif.Spec.JsonText

/-!
# Specification: rendered texts
-/

set_option autoImplicit false

namespace Hocon
namespace Spec

/-- The pieces in order, with `sep` between any two neighbours and nowhere else. -/
def sepBy (sep : Str) : List Str → Str
  | [] => []
  | [x] => x
  | x :: y :: r => x ++ sep ++ sepBy sep (y :: r)

/-- The characters that the library can read back from a quoted string: printable ASCII and the
control characters with a short escape. -/
def PlainChar (c : Char) : Prop :=
  (0x20 ≤ c.toNat ∧ c.toNat < 0x80) ∨ c = '\n' ∨ c = '\t' ∨ c = '\r' ∨ c = '\x08' ∨ c = '\x0c'

/-- A string of such characters. -/
def PlainStr (s : Str) : Prop := ∀ c ∈ s, PlainChar c

/-- A scalar that can be written and read back. A number needs a text that stands for an equal
number: its original text, or for a number without one, decimal notation (which is always right for
integers within `int64_t`) or what `std::to_string` writes for a double. -/
def Writable (env : Env) : Scalar → Prop
  | .null => True
  | .bool _ => True
  | .str s _ => PlainStr s
  | .int i o => if o = [] then -9223372036854775808 ≤ i ∧ i ≤ 9223372036854775807
      else ∃ s, Numeral env o s ∧ SameScalar env (.int i o) s
  | .long i o => if o = [] then -9223372036854775808 ≤ i ∧ i ≤ 9223372036854775807
      else ∃ s, Numeral env o s ∧ SameScalar env (.long i o) s
  | .double d o => ∃ s, Numeral env (if o = [] then env.showDouble d else o) s ∧ SameScalar env (.double d o) s

mutual
/-- Resolved values over the supported alphabet: strings and keys are plain, keys are distinct and not
empty. -/
def Renderable (env : Env) : Value → Prop
  | .scalar s => Writable env s
  | .list vs => RenderableL env vs
  | .obj fs _ _ => (fs.map Prod.fst).Nodup ∧ RenderableF env fs
  | _ => False
/-- `Renderable` for all elements. -/
def RenderableL (env : Env) : List Value → Prop
  | [] => True
  | v :: vs => Renderable env v ∧ RenderableL env vs
/-- `Renderable` for all fields. -/
def RenderableF (env : Env) : List (Str × Value) → Prop
  | [] => True
  | (k, v) :: fs => (k ≠ [] ∧ PlainStr k) ∧ Renderable env v ∧ RenderableF env fs
end

mutual
/-- Every string and every key in the tree is plain, and no key is empty. -/
def PlainTree : Value → Prop
  | .scalar (.str s _) => PlainStr s
  | .list vs => PlainTreeL vs
  | .obj fs _ _ => PlainTreeF fs
  | _ => True
/-- `PlainTree` for all elements. -/
def PlainTreeL : List Value → Prop
  | [] => True
  | v :: vs => PlainTree v ∧ PlainTreeL vs
/-- `PlainTree` for all fields. -/
def PlainTreeF : List (Str × Value) → Prop
  | [] => True
  | (k, v) :: fs => (k ≠ [] ∧ PlainStr k) ∧ PlainTree v ∧ PlainTreeF fs
end

/-- Decimal texts are not read as NaN. -/
def NoNaN (env : Env) : Prop :=
  ∀ t d, (∀ c ∈ t, c ∈ ch "0123456789eE+-.") → env.parseDouble t = some d → env.doubleEq d d = true

mutual
/-- The same value, but the entries of the hash maps may be iterated in another order, at any depth.
Keys of a map are distinct. -/
inductive Reordered : Value → Value → Prop
  | scalar (s : Scalar) : Reordered (.scalar s) (.scalar s)
  | list {vs ws : List Value} : ReorderedL vs ws → Reordered (.list vs) (.list ws)
  | obj {fs gs hs : List (Str × Value)} {r i r' i' : Bool} : (fs.map Prod.fst).Nodup → ReorderedF fs gs →
      gs.Perm hs → Reordered (.obj fs r i) (.obj hs r' i')
  | ref (n m : Nat) (p : Path) (o : Bool) (l l' : Nat) : Reordered (.ref n p o l) (.ref m p o l')
  | concat {vs ws : List Value} : ReorderedL vs ws → Reordered (.concat vs) (.concat ws)
  | dm {vs ws : List Value} : ReorderedL vs ws → Reordered (.dm vs) (.dm ws)
  | dmo {vs ws : List Value} : ReorderedL vs ws → Reordered (.dmo vs) (.dmo ws)
/-- Element by element. -/
inductive ReorderedL : List Value → List Value → Prop
  | nil : ReorderedL [] []
  | cons {v w : Value} {vs ws : List Value} : Reordered v w → ReorderedL vs ws → ReorderedL (v :: vs) (w :: ws)
/-- Field by field. -/
inductive ReorderedF : List (Str × Value) → List (Str × Value) → Prop
  | nil : ReorderedF [] []
  | cons {k : Str} {v w : Value} {fs gs : List (Str × Value)} : Reordered v w → ReorderedF fs gs →
      ReorderedF ((k, v) :: fs) ((k, w) :: gs)
end

end Spec
end Hocon
