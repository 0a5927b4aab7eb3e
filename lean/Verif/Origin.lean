import Verif.Value

/-!
# Origins

Model of `simple_config_origin` (lib/src/simple_config_origin.cc). A shared pointer to an origin is an
`Option`; dereferencing a null pointer is undefined behaviour.
-/

set_option autoImplicit false

namespace Hocon

/-- `origin_type`, simple_config_origin.hpp 11. -/
inductive OriginType where
  | generic
  | file
  | resource
  deriving DecidableEq, Repr

/-- `simple_config_origin`, simple_config_origin.hpp 13-66. -/
structure Origin where
  desc : Str
  line : Int
  endLine : Int
  type : OriginType
  resource : Str
  comments : List Str
  deriving DecidableEq, Repr

namespace Origin

/-- `with_line_number`, simple_config_origin.cc 38-45. -/
def withLineNumber (o : Origin) (n : Int) : Origin :=
  if n = o.line ∧ n = o.endLine then o else { o with line := n, endLine := n }

/-- `with_comments`, simple_config_origin.cc 47-54. -/
def withComments (o : Origin) (c : List Str) : Origin :=
  if c = o.comments ∨ c = [] then o else { o with comments := c }

/-- `append_comments`, simple_config_origin.cc 56-66 (the end line becomes the line). -/
def appendComments (o : Origin) (c : List Str) : Origin :=
  if c = o.comments ∨ c = [] then o else { o with endLine := o.line, comments := o.comments ++ c }

/-- `prepend_comments`, simple_config_origin.cc 68-78. -/
def prependComments (o : Origin) (c : List Str) : Origin :=
  if c = o.comments ∨ c = [] then o else { o with endLine := o.line, comments := c ++ o.comments }

/-- `MERGE_OF_PREFIX`, simple_config_origin.cc 138. -/
def mergeOf : Str := ch "merge of "

/-- The description without the prefix, simple_config_origin.cc 141-149. -/
def bareDesc (o : Origin) : Str :=
  if mergeOf.isPrefixOf o.desc then o.desc.drop mergeOf.length else o.desc

/-- First line of a merge with equal descriptions, simple_config_origin.cc 154-160. -/
def startLine (a b : Origin) : Int :=
  if a.line < 0 then b.line else if b.line < 0 then a.line else min a.endLine b.endLine

/-- Comments of a merge, simple_config_origin.cc 179-191. -/
def mergeComments (a b : Origin) : List Str :=
  if a.comments = b.comments then a.comments else a.comments ++ b.comments

/-- `merge_two`, simple_config_origin.cc 125-194. -/
def mergeTwo (a b : Origin) : Origin where
  desc := if a.bareDesc = b.bareDesc then a.bareDesc
    else mergeOf ++ a.bareDesc ++ ch "," ++ b.bareDesc
  line := if a.bareDesc = b.bareDesc then startLine a b else -1
  endLine := if a.bareDesc = b.bareDesc then max a.endLine b.endLine else -1
  type := if a.type = b.type then a.type else .generic
  resource := if a.resource = b.resource then a.resource else []
  comments := mergeComments a b

/-- `similarity`, simple_config_origin.cc 206-230. -/
def similarity (a b : Origin) : Nat :=
  (if a.type = b.type then 1 else 0) + (if a.desc = b.desc then 1 else 0) +
  (if a.line = b.line then 1 else 0) + (if a.endLine = b.endLine then 1 else 0) +
  (if a.resource = b.resource then 1 else 0)

/-- `merge_three`, simple_config_origin.cc 196-204. -/
def mergeThree (a b c : Origin) : Origin :=
  if similarity a b ≥ similarity b c then mergeTwo (mergeTwo a b) c else mergeTwo a (mergeTwo b c)

/-- `merge_two` on pointers, simple_config_origin.cc 81 and 101-102. -/
def mergeTwo? (a b : Option Origin) : Res (Option Origin) :=
  match a, b with
  | some a, some b => .ok (some (mergeTwo a b))
  | _, _ => .ub

/-- `merge_three` on pointers, simple_config_origin.cc 116. -/
def mergeThree? (a b c : Option Origin) : Res (Option Origin) :=
  match a, b, c with
  | some a, some b, some c => .ok (some (mergeThree a b c))
  | _, _, _ => .ub

/-- The loop over `remaining`, simple_config_origin.cc 108-121, on the reversed vector (the last element
first); `n` bounds the number of turns. -/
def mergeLoop : Nat → List (Option Origin) → Res (Option Origin)
  | _, [] => .err .config
  | _, [a] => .ok a
  | _, [b, a] => mergeTwo? a b
  | 0, _ => .fuel
  | n + 1, c :: b :: a :: r => (mergeThree? a b c).bind fun m => mergeLoop n (m :: r)

/-- `merge_origins`, simple_config_origin.cc 95-123. -/
def mergeOrigins (st : List (Option Origin)) : Res (Option Origin) := mergeLoop st.length st.reverse

end Origin
end Hocon
