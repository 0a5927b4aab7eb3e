import Verif.Spec.Convert
import Verif.Spec.Lookup

/-!
# Specification: program options of a config
-/

set_option autoImplicit false

namespace Hocon
namespace Spec

/-- The text of an element of a list: of a scalar its text, of null the word. -/
def elemText (env : Env) : Value → Option Str
  | .scalar .null => some (ch "null")
  | v => textOf env v

/-- The texts of the elements of a list, in order. -/
inductive ElemTexts (env : Env) : List Value → List Str → Prop where
  | nil : ElemTexts env [] []
  | cons {v : Value} {t : Str} {vs : List Value} {ts : List Str} : elemText env v = some t →
      ElemTexts env vs ts → ElemTexts env (v :: vs) (t :: ts)

/-- `OptionTexts env v ts`: the setting `v` is given to the program as the values `ts`, one for a scalar
and one for each element of a list of scalars. -/
inductive OptionTexts (env : Env) : Value → List Str → Prop where
  | scalar {v : Value} {t : Str} : textOf env v = some t → OptionTexts env v [t]
  | list {vs : List Value} {ts : List Str} : ElemTexts env vs ts →
      OptionTexts env (.list vs) ts

/-- A setting that is neither an object nor null and whose path, written out, is a registered option
(or all options are wanted). -/
structure Wanted (root : Value) (reg : Str → Bool) (allow : Bool) (write : Path → Str) (p : Path)
    (w : Value) : Prop where
  path : p ≠ []
  there : at? root p = some w
  object : ∀ fs r i, w ≠ .obj fs r i
  null : w ≠ .scalar .null
  registered : allow = true → reg (write p) = true

end Spec
end Hocon
