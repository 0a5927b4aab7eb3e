import Verif.Spec.HoconText

/-!
# Specification: replacing and adding a value in a tree of objects, and indenting a text
-/

set_option autoImplicit false

namespace Hocon
namespace Spec

/-- `Replaced fs p old new fs'`: in the members `fs` of an object the path `p` leads through objects to
the value `old`, and `fs'` is the same with `new` in its place. -/
inductive Replaced : List (Str × Value) → Path → Value → Value → List (Str × Value) → Prop
  | here {k : Str} {old new : Value} {fs : List (Str × Value)} :
      Replaced ((k, old) :: fs) [k] old new ((k, new) :: fs)
  | inside {k : Str} {p : Path} {old new : Value} {fs gs gs' : List (Str × Value)} : Replaced gs p old new gs' →
      Replaced ((k, .obj gs true false) :: fs) (k :: p) old new ((k, .obj gs' true false) :: fs)
  | later {f : Str × Value} {p : Path} {old new : Value} {fs fs' : List (Str × Value)} : Replaced fs p old new fs' →
      Replaced (f :: fs) p old new (f :: fs')

/-- `Indented ind s t`: the text `t` is the text `s` with `ind` put behind some of its newlines. -/
inductive Indented (ind : Str) : Str → Str → Prop
  | nil : Indented ind [] []
  | keep {c : Char} {s t : Str} : Indented ind s t → Indented ind (c :: s) (c :: t)
  | newline {s t : Str} : Indented ind s t → Indented ind ('\n' :: s) ('\n' :: ind ++ t)

/-- The value `v` at the path `p` of an otherwise empty tree. -/
def nest : Path → Value → Value
  | [], v => v
  | k :: p, v => .obj [(k, nest p v)] true false

/-- `Appended v fs p fs'`: in the members `fs` of an object the path `p` leads through objects to one that has no
member for the next element of `p`; `fs'` is the same with `v` added to that object as its last member, below
new objects for the other elements of `p`. -/
inductive Appended (v : Value) : List (Str × Value) → Path → List (Str × Value) → Prop
  | here {k : Str} {p : Path} {fs : List (Str × Value)} : k ∉ fs.map Prod.fst →
      Appended v fs (k :: p) (fs ++ [(k, nest p v)])
  | inside {k : Str} {p : Path} {fs fs' gs gs' : List (Str × Value)} : Appended v gs p gs' →
      Appended v (fs ++ (k, .obj gs true false) :: fs') (k :: p) (fs ++ (k, .obj gs' true false) :: fs')

/-- `QuotedPath env p t`: the text `t` consists of the elements of the path `p`, each of them in quotes, separated
by periods. -/
inductive QuotedPath (env : Env) : Path → Str → Prop
  | one {k kt : Str} : JChars env kt k → QuotedPath env [k] ('"' :: kt ++ ['"'])
  | cons {k kt t : Str} {p : Path} : JChars env kt k → QuotedPath env p t →
      QuotedPath env (k :: p) (('"' :: kt ++ ['"']) ++ '.' :: t)

/-- `PathSpelling env p t`: the text `t` stands for the path `p`; all of its elements are in quotes, or none. -/
inductive PathSpelling (env : Env) : Path → Str → Prop
  | quoted {p : Path} {t : Str} : QuotedPath env p t → PathSpelling env p t
  | bare {p : Path} {t : Str} : HSegs env p t → '"' ∉ t → WordStart t → PathSpelling env p t

/-- `Grown env N s s'`: the text `s'` is the text `s` with one member, and perhaps a comma before it, put in. -/
def Grown (env : Env) (N : Str → Scalar → Prop) (s s' : Str) : Prop :=
  ∃ A w m B f, s = A ++ (w ++ B) ∧ JWs w ∧ JText env N (.members [f]) m ∧
    (s' = A ++ (w ++ (m ++ B)) ∨ s' = A ++ ',' :: (w ++ (m ++ B)))

/-- `Dropped fs p fs'`: in the members `fs` of an object the path `p` leads through objects to a member; `fs'` is the same
without that member. -/
inductive Dropped : List (Str × Value) → Path → List (Str × Value) → Prop
  | here {k : Str} {v : Value} {fs fs' : List (Str × Value)} : Dropped (fs ++ (k, v) :: fs') [k] (fs ++ fs')
  | inside {k : Str} {p : Path} {fs fs' gs gs' : List (Str × Value)} : Dropped gs p gs' →
      Dropped (fs ++ (k, .obj gs true false) :: fs') (k :: p) (fs ++ (k, .obj gs' true false) :: fs')

/-- No comma stands behind a newline with only whitespace in between. -/
def CommasInLine (t : Str) : Prop := ∀ w, JWs w → ¬ ('\n' :: w ++ [',']) <:+: t

/-- `Shrunk env N s s'`: the text `s'` is the text `s` without one member and one comma, the one behind it, also with
the whitespace that follows the comma, or the one before it; without any comma if the member is the only one. -/
def Shrunk (env : Env) (N : Str → Scalar → Prop) (s s' : Str) : Prop :=
  ∃ A m w B f, JText env N (.members [f]) m ∧ JWs w ∧
    ((s = A ++ (m ++ ',' :: (w ++ B)) ∧ s' = A ++ B) ∨ (s = A ++ ',' :: (w ++ (m ++ B)) ∧ s' = A ++ (w ++ B)) ∨
      (s = A ++ (m ++ B) ∧ s' = A ++ B))

end Spec
end Hocon
