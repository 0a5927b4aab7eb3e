import Verif.RenderNotes

/-!
# The sources an origin names

A merged origin is described by `merge of ` and a list of descriptions with commas between them.
-/

set_option autoImplicit false

namespace Hocon
namespace Spec
open Notes

/-- The parts of a text between commas. -/
def between : Str → List Str
  | [] => [[]]
  | c :: s =>
    if c = ',' then [] :: between s
    else match between s with
      | [] => [[c]]
      | p :: ps => (c :: p) :: ps

/-- The descriptions that a description joins. -/
def sourcesIn (d : Str) : List Str :=
  between (if (ch "merge of ").isPrefixOf d then d.drop 9 else d)

/-- The origin `o` names every source that `o'` names. -/
def Covers (o o' : Origin) : Prop := ∀ d ∈ sourcesIn o'.desc, d ∈ sourcesIn o.desc

/-- An object with nothing in it. -/
def Hollow : AVal → Prop
  | .obj _ [] true _ => True
  | _ => False

/-- In `v` and in everything in it: the origin of a section names all sources of its settings, the origin of a
list all sources of its elements, and the origin of a setting given several times all sources of its values
(an object with nothing in it need not be named there). -/
inductive Told : AVal → Prop
  | scalar {o : Origin} {s : Scalar} : Told (.scalar o s)
  | ref {o : Origin} {n : Nat} {p : Path} {opt : Bool} {k : Nat} : Told (.ref o n p opt k)
  | list {o : Origin} {vs : List AVal} : (∀ v ∈ vs, Covers o v.origin) → (∀ v ∈ vs, Told v) → Told (.list o vs)
  | obj {o : Origin} {fs : List (Str × AVal)} {r i : Bool} : (∀ f ∈ fs, Covers o f.2.origin) →
      (∀ f ∈ fs, Told f.2) → Told (.obj o fs r i)
  | concat {o : Origin} {vs : List AVal} : (∀ v ∈ vs, Covers o v.origin) → (∀ v ∈ vs, Told v) →
      Told (.concat o vs)
  | dm {o : Origin} {vs : List AVal} : (∀ v ∈ vs, Hollow v ∨ Covers o v.origin) → (∀ v ∈ vs, Told v) →
      Told (.dm o vs)
  | dmo {o : Origin} {vs : List AVal} : (∀ v ∈ vs, Hollow v ∨ Covers o v.origin) → (∀ v ∈ vs, Told v) →
      Told (.dmo o vs)

end Spec
end Hocon
