import Verif.Spec.HoconText

/-!
# Specification: documents without enclosing braces

A text of fields, with gaps before and after. Such texts can be written one after the other.
-/

set_option autoImplicit false

namespace Hocon
namespace Spec

/-- `HFields env N as t`: the whole text `t` consists of the fields `as`, without braces around them. -/
inductive HFields (env : Env) (N : Str → Scalar → Prop) : List (Path × Value) → Str → Prop
  | empty {l : Str} : HLast l → HFields env N [] l
  | fields {g t l : Str} {as : List (Path × Value)} : HGap g → HText env N (.members as) t → HLast l →
      HFields env N as (g ++ t ++ l)
  | comma {g t g1 l : Str} {as : List (Path × Value)} : HGap g → HText env N (.members as) t → HGap g1 →
      HLast l → HFields env N as (g ++ t ++ g1 ++ ',' :: l)

/-- Texts one after the other, each on lines of its own. -/
def stacked : List Str → Str
  | [] => []
  | [t] => t
  | t :: ts => t ++ '\n' :: stacked ts

end Spec
end Hocon
