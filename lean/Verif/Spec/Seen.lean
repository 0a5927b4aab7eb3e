import Verif.Spec.SettingsA

/-!
# Specification: what substitutions see in two layers
-/

set_option autoImplicit false

namespace Hocon
namespace Spec

open Notes (AVal)

/-- Nothing is set at the path: following its keys through the objects leads to one that does not have the next
key (and lets fallbacks add it). -/
inductive Unset : AVal → Path → Prop
  | here {o : Origin} {fs : List (Str × AVal)} {r : Bool} {k : Str} {p : Path} :
      k ∉ fs.map Prod.fst → Unset (.obj o fs r false) (k :: p)
  | inner {o : Origin} {fs : List (Str × AVal)} {r : Bool} {k : Str} {v : AVal} {p : Path} :
      (k, v) ∈ fs → Unset v p → Unset (.obj o fs r false) (k :: p)

/-- On the way along the path, before its end, there are only objects. -/
inductive Clear : AVal → Path → Prop
  | last {o : Origin} {fs : List (Str × AVal)} {r i : Bool} {k : Str} : Clear (.obj o fs r i) [k]
  | absent {o : Origin} {fs : List (Str × AVal)} {r i : Bool} {k : Str} {p : Path} :
      k ∉ fs.map Prod.fst → Clear (.obj o fs r i) (k :: p)
  | inner {o : Origin} {fs : List (Str × AVal)} {r i : Bool} {k : Str} {v : AVal} {p : Path} :
      (k, v) ∈ fs → Clear v p → Clear (.obj o fs r i) (k :: p)

/-- A number, string, boolean, null or list without substitutions. -/
def Final (t : AVal) : Prop :=
  match t with
  | .scalar _ _ => True
  | .list o vs => ¬ HasSubst (AVal.list o vs).erase
  | _ => False

/-- `v` is set at `p` in the layers, of which the first is the uppermost: no layer above the one that sets it
sets something there, and none below it either, unless what is set is final. -/
inductive SetIn : List AVal → Path → AVal → Prop
  | top {a v : AVal} {bs : List AVal} {p : Path} :
      SetAt a p v → (∀ b ∈ bs, Unset b p ∨ (Clear b p ∧ Final v)) → SetIn (a :: bs) p v
  | under {a v : AVal} {bs : List AVal} {p : Path} : Unset a p → SetIn bs p v → SetIn (a :: bs) p v

/-- What a substitution leads to in the layers, in any number of steps (only the last one may be written
`${?...}`). -/
inductive LeadsIn (ls : List AVal) : AVal → AVal → Prop
  | last {o : Origin} {id : Nat} {p : Path} {opt : Bool} {t : AVal} :
      SetIn ls p t → ¬ HasSubst t.erase → LeadsIn ls (.ref o id p opt 0) t
  | next {o : Origin} {id : Nat} {p : Path} {v t : AVal} :
      SetIn ls p v → LeadsIn ls v t → LeadsIn ls (.ref o id p false 0) t

end Spec
end Hocon
