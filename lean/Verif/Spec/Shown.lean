import Verif.Spec.Notes

/-!
# Specification: settings in sections, and the comments of a rendered setting
-/

set_option autoImplicit false

namespace Hocon
namespace Spec

open Notes

/-- `Has v p w`: the object `v` has `w` at the path `p`. -/
inductive Has : AVal → Path → AVal → Prop
  | here {o : Origin} {fs : List (Str × AVal)} {r i : Bool} {k : Str} {w : AVal} : (k, w) ∈ fs → Has (.obj o fs r i) [k] w
  | inside {o : Origin} {fs : List (Str × AVal)} {r i : Bool} {k : Str} {w x : AVal} {p : Path} : (k, w) ∈ fs →
      Has w p x → Has (.obj o fs r i) (k :: p) x

mutual
/-- A section: an object with settings, all of them scalars or sections. -/
def Section : AVal → Prop
  | .obj _ fs _ _ => fs ≠ [] ∧ SectionF fs
  | _ => False
/-- Scalars and sections. -/
def Setting : AVal → Prop
  | .scalar .. => True
  | .obj _ fs _ _ => fs ≠ [] ∧ SectionF fs
  | _ => False
/-- All fields are scalars or sections. -/
def SectionF : List (Str × AVal) → Prop
  | [] => True
  | (_, v) :: fs => Setting v ∧ SectionF fs
end

/-- A comment is written behind `#` and a blank, unless it begins with one. -/
def commentShown (c : Str) : Str := if c.head? = some ' ' then c else ' ' :: c

/-- A line of the description of where a value comes from; the description is written line by line. -/
def descShown (l : Str) : Str := if l = [] then [] else ' ' :: l

/-- The comments of a setting as it is written: first where it comes from, then its own comments. -/
def shown (o : Options) (g : Origin) : List Str :=
  (if o.origins then (g.desc.splitOn '\n').map descShown else [])
    ++ (if o.comments then g.comments.map commentShown else [])

/-- What a setting is after it was written and read: the same scalar, or a section again. -/
def SameKind (env : Env) : AVal → Value → Prop
  | .scalar _ s, v => ∃ s', v = .scalar s' ∧ SameScalar env s s'
  | .obj .., v => ∃ fs, v = .obj fs true false
  | _, _ => False

end Spec
end Hocon
