import Verif.RenderNotes
import Verif.Spec.Status

/-!
# Specification: what a setting gets by substitution, with its origin
-/

set_option autoImplicit false

namespace Hocon
namespace Spec

open Notes (AVal)

/-- `SetAt v p w`: following the keys of `p` through the objects of `v` leads to `w`. -/
inductive SetAt : AVal → Path → AVal → Prop
  | last {o : Origin} {fs : List (Str × AVal)} {r i : Bool} {k : Str} {w : AVal} :
      (k, w) ∈ fs → SetAt (.obj o fs r i) [k] w
  | inner {o : Origin} {fs : List (Str × AVal)} {r i : Bool} {k : Str} {v w : AVal} {p : Path} :
      (k, v) ∈ fs → SetAt v p w → SetAt (.obj o fs r i) (k :: p) w

/-- `Leads root v t`: the substitution `v` names a setting of `root`, possibly one that names another one and
so on; the last of them is `t`, which has no substitutions. Only the last one may be written `${?...}`. -/
inductive Leads (root : AVal) : AVal → AVal → Prop
  | last {o : Origin} {id : Nat} {p : Path} {opt : Bool} {t : AVal} :
      SetAt root p t → ¬ HasSubst t.erase → Leads root (.ref o id p opt 0) t
  | next {o : Origin} {id : Nat} {p : Path} {v t : AVal} :
      SetAt root p v → Leads root v t → Leads root (.ref o id p false 0) t

end Spec
end Hocon
