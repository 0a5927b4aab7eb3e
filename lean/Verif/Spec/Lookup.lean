import Verif.Value

/-!
# Specification: what a tree of values contains

Looking up a path in a tree, independently of the library's functions.
-/

set_option autoImplicit false

namespace Hocon
namespace Spec

/-- The fields of a tree that is an object (a `config_delayed_merge_object` has no fields yet). -/
def fieldsOf : Value → List (Str × Value)
  | .obj fs _ _ => fs
  | _ => []

/-- The value stored under a key. -/
def child (v : Value) (k : Str) : Option Value :=
  ((fieldsOf v).find? fun f => f.1 = k).map Prod.snd

/-- The value at a path: follow the keys from the root. -/
def at? : Value → Path → Option Value
  | v, [] => some v
  | v, k :: p => (child v k).bind fun w => at? w p

/-- What one can see at a path: an object (whose contents are seen at longer paths) or a complete
other value. -/
inductive Seen where
  | object
  | leaf (v : Value)
  deriving DecidableEq

/-- Classification of a value. -/
def seen : Value → Seen
  | .obj .. => .object
  | v => .leaf v

/-- What is at a path. -/
def look (v : Value) (p : Path) : Option Seen := (at? v p).map seen

/-- A value that accepts no more fallbacks: anything but an object, or an object that has already
been merged over something that is not an object. -/
def closed : Value → Bool
  | .obj _ _ i => i
  | _ => true

/-- `a` has a closed value at a proper prefix of `p`. -/
def Hidden (a : Value) (p : Path) : Prop :=
  ∃ q x, q <+: p ∧ q ≠ p ∧ at? a q = some x ∧ closed x = true

end Spec
end Hocon
