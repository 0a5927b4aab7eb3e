import Verif.Spec.Lines

/-!
# Changing one setting of a document made of lines
-/

set_option autoImplicit false

namespace Hocon
namespace Spec

/-- `Change v its p its'`: the lines `its'` are the lines `its`, except that the setting with the path `p` has
the scalar `v`. -/
inductive Change (v : Scalar) : List Item → Path → List Item → Prop
  | here {pre post : List Item} {k : Str} {s : Scalar} {o : Option Str} :
      Change v (pre ++ .set k s o :: post) [k] (pre ++ .set k v o :: post)
  | inside {pre post inner inner' : List Item} {k : Str} {p : Path} {o o' : Option Str} :
      Change v inner p inner' →
      Change v (pre ++ .sect k o inner o' :: post) (k :: p) (pre ++ .sect k o inner' o' :: post)

/-- `Removed o its p its'`: the lines `its'` are the lines `its` without the setting or section with the path
`p`; of its lines only the comment `o` behind it is left, on a line of its own, or a blank line. -/
inductive Removed (o : Option Str) : List Item → Path → List Item → Prop
  | set {pre post : List Item} {k : Str} {s : Scalar} :
      Removed o (pre ++ .set k s o :: post) [k] (pre ++ noteItem o :: post)
  | sect {pre post inner : List Item} {k : Str} {o' : Option Str} :
      Removed o (pre ++ .sect k o' inner o :: post) [k] (pre ++ noteItem o :: post)
  | inside {pre post inner inner' : List Item} {k : Str} {p : Path} {n n' : Option Str} :
      Removed o inner p inner' →
      Removed o (pre ++ .sect k n inner n' :: post) (k :: p) (pre ++ .sect k n inner' n' :: post)

/-- `NewPath env p t kt`: the text `t` stands for the path `p`, and `kt` is its part for the last element: a
single key, with or without quotes, or several keys without quotes, separated by periods. -/
inductive NewPath (env : Env) : Path → Str → Str → Prop
  | one {k kt : Str} : HKey env [k] kt → NewPath env [k] kt kt
  | bare {q : Path} {k t : Str} : HKey env (q ++ [k]) t → '"' ∉ t → HKey env [k] k → NewPath env (q ++ [k]) t k

/-- `Added k v its p its'`: the lines `its'` are the lines `its` with the new setting `k` with the scalar `v` as the
last line of the section in which the path `p` belongs, or of the document. -/
inductive Added (k : Str) (v : Scalar) : List Item → Path → List Item → Prop
  | here {its : List Item} : k ∉ keysIn its → Added k v its [k] (its ++ [.set k v none])
  | inside {pre post inner inner' : List Item} {key : Str} {p : Path} {n n' : Option Str} :
      Added k v inner p inner' →
      Added k v (pre ++ .sect key n inner n' :: post) (key :: p) (pre ++ .sect key n inner' n' :: post)

end Spec
end Hocon
