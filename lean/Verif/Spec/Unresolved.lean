import Verif.Spec.SubstText
import Verif.Spec.RenderText

/-!
# Specification: settings with substitutions, written and read again

`Textual` describes the trees of settings, substitutions not yet resolved, that a single text can stand
for; `Like` says that two such trees are the same up to the order of fields, quoting and the numbers
of substitutions.
-/

set_option autoImplicit false

namespace Hocon
namespace Spec

/-- A path that can stand in a substitution. Its text must not begin like a number or a literal. -/
structure PathText (p : Path) : Prop where
  ne : p ≠ []
  plain : ∀ k ∈ p, PlainStr k
  start : ∀ k, p.head? = some k → WordStart k

/-- Two neighbours always include a substitution: otherwise they would have been put together. -/
def Alternate : List Value → Prop
  | a :: b :: vs => (IsRef a ∨ IsRef b) ∧ Alternate (b :: vs)
  | _ => True

/-- A setting that has been given several values, one over the other, the newest first. -/
inductive Layers : Value → Prop
  | wait {v old : Value} : Open v → Layers (.dm [v, old])
  | over {fs : List (Str × Value)} {r : Bool} {old : Value} : Unsure old → Layers (.dmo [.obj fs r false, old])
  | above {fs : List (Str × Value)} {old : Value} : NotObj old → Layers (.dmo [.obj fs false false, old])
  | waitMore {v u : Value} : Layers u → Open v → Layers (.dm (v :: given u))
  | overMore {fs : List (Str × Value)} {r : Bool} {u : Value} : Layers u → Layers (.dmo (.obj fs r false :: given u))

mutual
/-- Trees over the supported alphabet: strings and keys are plain, keys are distinct and not empty, an
object is marked as resolved exactly if its values are. A setting with several values is the value of
a field. -/
def Textual (env : Env) : Value → Prop
  | .scalar s => Writable env s
  | .list vs => TextualL env vs
  | .obj fs r _ => (fs.map Prod.fst).Nodup ∧ r = Value.resolvedFields fs ∧ TextualF env fs
  | .ref _ p _ pre => pre = 0 ∧ PathText p
  | .concat ps => 2 ≤ ps.length ∧ (∀ v ∈ ps, Piece v) ∧ Alternate ps ∧ TextualL env ps
  | .dm _ => False
  | .dmo _ => False
/-- `Textual` for all elements. -/
def TextualL (env : Env) : List Value → Prop
  | [] => True
  | v :: vs => Textual env v ∧ TextualL env vs
/-- `Textual` for all fields. -/
def TextualF (env : Env) : List (Str × Value) → Prop
  | [] => True
  | (k, .dm st) :: fs => (k ≠ [] ∧ PlainStr k) ∧ (Layers (.dm st) ∧ TextualL env st) ∧ TextualF env fs
  | (k, .dmo st) :: fs => (k ≠ [] ∧ PlainStr k) ∧ (Layers (.dmo st) ∧ TextualL env st) ∧ TextualF env fs
  | (k, v) :: fs => (k ≠ [] ∧ PlainStr k) ∧ Textual env v ∧ TextualF env fs
end

mutual
/-- Every string, every key and every path of a substitution in the tree is over the supported
alphabet, and no key is empty. -/
def Spelt : Value → Prop
  | .scalar (.str s _) => PlainStr s
  | .scalar _ => True
  | .list vs => SpeltL vs
  | .obj fs _ _ => SpeltF fs
  | .ref _ p _ _ => PathText p
  | .concat ps => SpeltL ps
  | .dm st => SpeltL st
  | .dmo st => SpeltL st
/-- `Spelt` for all elements. -/
def SpeltL : List Value → Prop
  | [] => True
  | v :: vs => Spelt v ∧ SpeltL vs
/-- `Spelt` for all fields. -/
def SpeltF : List (Str × Value) → Prop
  | [] => True
  | (k, v) :: fs => (k ≠ [] ∧ PlainStr k) ∧ Spelt v ∧ SpeltF fs
end

mutual
/-- The same tree up to the order of fields, the quoting of strings, the notation of numbers and the
numbers of substitutions; whether an object hides older values is not compared. -/
inductive Like (env : Env) : Value → Value → Prop
  | scalar {s s' : Scalar} : SameScalar env s s' → Like env (.scalar s) (.scalar s')
  | list {vs ws : List Value} : LikeL env vs ws → Like env (.list vs) (.list ws)
  | obj {fs gs hs : List (Str × Value)} {r i j : Bool} : fs.Perm gs → LikeF env gs hs →
      Like env (.obj fs r i) (.obj hs r j)
  | ref {n m : Nat} {p : Path} {opt : Bool} {pre : Nat} : Like env (.ref n p opt pre) (.ref m p opt pre)
  | concat {vs ws : List Value} : LikeL env vs ws → Like env (.concat vs) (.concat ws)
  | dm {vs ws : List Value} : LikeL env vs ws → Like env (.dm vs) (.dm ws)
  | dmo {vs ws : List Value} : LikeL env vs ws → Like env (.dmo vs) (.dmo ws)
/-- Element by element. -/
inductive LikeL (env : Env) : List Value → List Value → Prop
  | nil : LikeL env [] []
  | cons {v w : Value} {vs ws : List Value} : Like env v w → LikeL env vs ws → LikeL env (v :: vs) (w :: ws)
/-- Field by field. -/
inductive LikeF (env : Env) : List (Str × Value) → List (Str × Value) → Prop
  | nil : LikeF env [] []
  | cons {k : Str} {v w : Value} {fs gs : List (Str × Value)} : Like env v w → LikeF env fs gs →
      LikeF env ((k, v) :: fs) ((k, w) :: gs)
end

end Spec
end Hocon
