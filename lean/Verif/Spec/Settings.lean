import Verif.Spec.HoconText

/-!
# Specification: the settings a document makes

Which value the fields of a HOCON object, as written, give to a path.
-/

set_option autoImplicit false

namespace Hocon
namespace Spec

/-- Neither path leads to the other. -/
def Apart (p q : Path) : Prop := ¬ p <+: q ∧ ¬ q <+: p

/-- `Quiet as q`: the fields `as` say nothing about the path `q`, nor about anything above it except
that it is within sections. -/
inductive Quiet : List (Path × Value) → Path → Prop
  | nil {q : Path} : Quiet [] q
  | apart {p q : Path} {v : Value} {as : List (Path × Value)} : Apart p q → Quiet as q → Quiet ((p, v) :: as) q
  | inside {p r : Path} {as bs : List (Path × Value)} : r ≠ [] → Quiet bs r → Quiet as (p ++ r) →
      Quiet ((p, assigned bs) :: as) (p ++ r)

/-- `Sets as q v`: the fields `as` give the value `v`, which is not an object, to the path `q`: by a
field for `q`, or by a field within a section. Fields that follow say nothing about `q`; what precedes
does not matter. -/
inductive Sets : List (Path × Value) → Path → Value → Prop
  | here {before after : List (Path × Value)} {p : Path} {v : Value} : p ≠ [] → (∀ fs r i, v ≠ .obj fs r i) →
      Quiet after p → Sets (before ++ (p, v) :: after) p v
  | inside {before after bs : List (Path × Value)} {p q : Path} {v : Value} : p ≠ [] → Sets bs q v → Quiet after (p ++ q) →
      Sets (before ++ (p, assigned bs) :: after) (p ++ q) v

end Spec
end Hocon
