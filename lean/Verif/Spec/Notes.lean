import Verif.RenderNotes
import Verif.Spec.RenderText

/-!
# Specification: values with comments
-/

set_option autoImplicit false

namespace Hocon
namespace Spec

open Notes

mutual
/-- No comment in the tree contains a newline: comments end with their line. -/
def OneLine : AVal → Prop
  | .scalar o _ => ∀ c ∈ o.comments, '\n' ∉ c
  | .list o vs => (∀ c ∈ o.comments, '\n' ∉ c) ∧ OneLineL vs
  | .obj o fs _ _ => (∀ c ∈ o.comments, '\n' ∉ c) ∧ OneLineF fs
  | _ => True
/-- `OneLine` for all elements. -/
def OneLineL : List AVal → Prop
  | [] => True
  | v :: vs => OneLine v ∧ OneLineL vs
/-- `OneLine` for all fields. -/
def OneLineF : List (Str × AVal) → Prop
  | [] => True
  | (_, v) :: fs => OneLine v ∧ OneLineF fs
end

mutual
/-- No value inside has comments. -/
def Uncommented : AVal → Prop
  | .list _ vs => UncommentedL vs
  | .obj _ fs _ _ => UncommentedF fs
  | _ => True
/-- No element and nothing inside one has comments. -/
def UncommentedL : List AVal → Prop
  | [] => True
  | v :: vs => v.origin.comments = [] ∧ Uncommented v ∧ UncommentedL vs
/-- No field and nothing inside one has comments. -/
def UncommentedF : List (Str × AVal) → Prop
  | [] => True
  | (_, v) :: fs => v.origin.comments = [] ∧ Uncommented v ∧ UncommentedF fs
end

end Spec
end Hocon
