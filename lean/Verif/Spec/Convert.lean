import Verif.Value

/-!
# Specification: the documented conversions of values
-/

set_option autoImplicit false

namespace Hocon
namespace Spec

/-- Value of a decimal digit. -/
def digit (c : Char) : Nat := c.toNat - 48

/-- Value of a string of decimal digits, most significant first. -/
def natValue (ds : Str) : Nat := ds.foldl (fun n c => 10 * n + digit c) 0

/-- `ds` is a non-empty string of decimal digits. -/
def Digits (ds : Str) : Prop := ds ≠ [] ∧ ∀ c ∈ ds, '0' ≤ c ∧ c ≤ '9'

/-- `s` is a decimal integer with optional sign and value `i`. -/
inductive Denotes : Str → Int → Prop where
  | plain (ds : Str) : Digits ds → Denotes ds (natValue ds)
  | plus (ds : Str) : Digits ds → Denotes ('+' :: ds) (natValue ds)
  | minus (ds : Str) : Digits ds → Denotes ('-' :: ds) (-(natValue ds : Int))

/-- Range of `int64_t`. -/
def InI64 (i : Int) : Prop := -(2 ^ 63) ≤ i ∧ i < 2 ^ 63

/-- Range of `int`. -/
def InI32 (i : Int) : Prop := -(2 ^ 31) ≤ i ∧ i < 2 ^ 31

/-- A number's text: as written, or its canonical text if it was not parsed from text. -/
def written (orig canonical : Str) : Str := if orig = [] then canonical else orig

/-- The text of a scalar that is not null. -/
def textOf (env : Env) : Value → Option Str
  | .scalar (.bool true) => some (ch "true")
  | .scalar (.bool false) => some (ch "false")
  | .scalar (.int v o) => some (written o (showInt v))
  | .scalar (.long v o) => some (written o (showInt v))
  | .scalar (.double d o) => some (written o (env.showDouble d))
  | .scalar (.str s _) => some s
  | _ => none

/-- The documented boolean words. -/
def trueWords : List Str := [ch "true", ch "yes", ch "on"]
/-- The documented boolean words. -/
def falseWords : List Str := [ch "false", ch "no", ch "off"]

/-- `v` can be read as the boolean `b`. -/
inductive IsBool : Value → Bool → Prop where
  | bool (b : Bool) : IsBool (.scalar (.bool b)) b
  | yes (s : Str) (q : Bool) : s ∈ trueWords → IsBool (.scalar (.str s q)) true
  | no (s : Str) (q : Bool) : s ∈ falseWords → IsBool (.scalar (.str s q)) false

/-- `v` is the integer `i`: stored as an integer, or a string with its decimal text. -/
inductive IsInt : Value → Int → Prop where
  | int (i : Int) (o : Str) : IsInt (.scalar (.int i o)) i
  | long (i : Int) (o : Str) : IsInt (.scalar (.long i o)) i
  | str (s : Str) (q : Bool) (i : Int) : Denotes s i → InI64 i → IsInt (.scalar (.str s q)) i

/-- `v` is not a number at all: not stored as one, and no text of one. -/
inductive NotNumber (env : Env) : Value → Prop where
  | bool (b : Bool) : NotNumber env (.scalar (.bool b))
  | str (s : Str) (q : Bool) : (∀ i, Denotes s i → ¬ InI64 i) → env.parseDouble s = none →
      NotNumber env (.scalar (.str s q))
  | list (vs : List Value) : NotNumber env (.list vs)
  | obj (fs : Fields) (r i : Bool) : NotNumber env (.obj fs r i)

end Spec
end Hocon
