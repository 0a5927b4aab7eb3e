import Verif.RenderNotes

/-!
# Where the parts of a configuration come from

The origins of a value and of everything in it, and what it means that they describe a text.
-/

set_option autoImplicit false

namespace Hocon
namespace Spec

open Notes (AVal)

mutual
/-- The origins of a value and of all values in it. -/
def origins : AVal → List Origin
  | .scalar o _ => [o]
  | .list o vs => o :: originsL vs
  | .obj o fs _ _ => o :: originsF fs
  | .ref o _ _ _ _ => [o]
  | .concat o ps => o :: originsL ps
  | .dm o st => o :: originsL st
  | .dmo o st => o :: originsL st
/-- The same for a list of values. -/
def originsL : List AVal → List Origin
  | [] => []
  | v :: vs => origins v ++ originsL vs
/-- The same for the fields of an object. -/
def originsF : List (Str × AVal) → List Origin
  | [] => []
  | (_, v) :: fs => origins v ++ originsF fs
end

/-- Somewhere in the text a comment marker is followed by `c`, which goes up to the end of the line. -/
def CommentIn (s c : Str) : Prop :=
  ∃ a m b, (m = ['#'] ∨ m = ['/', '/']) ∧ s = a ++ (m ++ (c ++ b)) ∧ '\n' ∉ c ∧ (b = [] ∨ ∃ b', b = '\n' :: b')

/-- The number of lines of a text. -/
def lineCount (s : Str) : Nat := 1 + s.count '\n'

/-- The origin describes lines of the text `s` read from the source `base`. -/
structure Describes (base : Origin) (s : Str) (o : Origin) : Prop where
  desc : o.desc = base.desc
  type : o.type = base.type
  resource : o.resource = base.resource
  first : 1 ≤ o.line
  order : o.line ≤ o.endLine
  last : o.endLine ≤ lineCount s

end Spec
end Hocon
