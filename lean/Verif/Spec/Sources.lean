import Verif.Spec.Positions

/-!
# Where the values of several texts come from

A text is read under a description. The origin of a value either lies in lines of texts read under its
description, or belongs to no line and its description joins the descriptions of several sources.
-/

set_option autoImplicit false

namespace Hocon
namespace Spec

/-- Which texts are read under which description. -/
abbrev Sources := Str → Str → Prop

/-- A list of descriptions with commas between them. -/
inductive Joined (src : Sources) : Str → Prop
  | one {d s : Str} : src d s → Joined src d
  | two {a b : Str} : Joined src a → Joined src b → Joined src (a ++ ch "," ++ b)

/-- Some text read under the description of the origin has the lines of the origin. -/
def Within (src : Sources) (o : Origin) : Prop :=
  1 ≤ o.line ∧ o.line ≤ o.endLine ∧ ∃ s, src o.desc s ∧ o.endLine ≤ lineCount s

/-- The origin has no line and names sources. -/
def OfSeveral (src : Sources) (o : Origin) : Prop :=
  o.line = -1 ∧ o.endLine = -1 ∧ ∃ d, Joined src d ∧ (o.desc = d ∨ o.desc = ch "merge of " ++ d)

/-- The origin tells where a value of these sources is, and its comments are comments of their texts. -/
structure FromSources (src : Sources) (o : Origin) : Prop where
  place : Within src o ∨ OfSeveral src o
  comments : ∀ c ∈ o.comments, ∃ d s, src d s ∧ CommentIn s c

/-- The sources of texts, each read under a description, that may include any file: these are read under the
empty description; the configuration with nothing in it; and the variables of the environment. -/
def withIncludes (env : Env) (fs : Str → Option Str) (own : List (Str × Str)) : Sources := fun e t =>
  (e, t) ∈ own ∨ (e = [] ∧ ∃ f, t = (fs f).getD []) ∨ (e = ch "empty config" ∧ t = []) ∨
    (t = [] ∧ ∃ k x, env.getenv k = some x ∧ e = ch "env var " ++ k)

end Spec
end Hocon
