import Verif.Spec.Subst

/-!
# Specification: what `is_resolved()` should say
-/

set_option autoImplicit false

namespace Hocon
namespace Spec

/-- A substitution is left somewhere in the tree. -/
def HasSubst (v : Value) : Prop := ∃ id p opt pre, Occurs (.ref id p opt pre) v

/-- In the tree and in all its parts, `is_resolved()` is true if and only if no substitution is left. -/
def StatusExact (v : Value) : Prop := ∀ u, Occurs u v → (u.resolved = true ↔ ¬ HasSubst u)

/-- No object of the tree has two fields of the same name. -/
def KeysDistinct (v : Value) : Prop := ∀ fs r i, Occurs (.obj fs r i) v → (fs.map Prod.fst).Nodup

end Spec
end Hocon
