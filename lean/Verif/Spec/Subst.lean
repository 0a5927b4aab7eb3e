import Verif.Spec.Lookup
import Verif.Concat

/-!
# Specification: what substitutions stand for

A small relational semantics of `${path}` in a tree of values, written without the library's
resolver. It has no evaluation order, no cycle markers and no partially resolved sources.
-/

set_option autoImplicit false

namespace Hocon
namespace Spec

mutual
/-- No substitution, concatenation or delayed merge anywhere, and every object says it is
resolved. -/
def Clean : Value → Prop
  | .scalar _ => True
  | .list vs => CleanL vs
  | .obj fs r _ => r = true ∧ CleanF fs
  | .ref .. => False
  | .concat _ => False
  | .dm _ => False
  | .dmo _ => False
/-- `Clean` for all elements. -/
def CleanL : List Value → Prop
  | [] => True
  | v :: vs => Clean v ∧ CleanL vs
/-- `Clean` for all fields. -/
def CleanF : List (Str × Value) → Prop
  | [] => True
  | (_, v) :: fs => Clean v ∧ CleanF fs
end

/-- `Occurs u v`: `u` is `v` or occurs somewhere inside `v`. -/
inductive Occurs (u : Value) : Value → Prop
  | here : Occurs u u
  | list {vs : List Value} {v : Value} : v ∈ vs → Occurs u v → Occurs u (.list vs)
  | obj {fs : List (Str × Value)} {r i : Bool} {k : Str} {v : Value} : (k, v) ∈ fs → Occurs u v →
      Occurs u (.obj fs r i)
  | concat {vs : List Value} {v : Value} : v ∈ vs → Occurs u v → Occurs u (.concat vs)
  | dm {vs : List Value} {v : Value} : v ∈ vs → Occurs u v → Occurs u (.dm vs)
  | dmo {vs : List Value} {v : Value} : v ∈ vs → Occurs u v → Occurs u (.dmo vs)

/-- Neither `${..}` of its own nor waiting for one: a scalar, a list or an object. -/
def Head : Value → Prop
  | .scalar _ => True
  | .list _ => True
  | .obj .. => True
  | _ => False

/-- `Calm v p`: starting at `v`, the path `p` leads through objects only, until a key is missing, a
scalar or list is met, or the end of the path is reached at a value without substitutions. -/
inductive Calm : Value → Path → Prop
  | missing {fs : List (Str × Value)} {r i : Bool} {k : Str} {p : Path} : findKey fs k = none →
      Calm (.obj fs r i) (k :: p)
  | found {fs : List (Str × Value)} {r i : Bool} {k : Str} {v : Value} : findKey fs k = some v →
      Clean v → Calm (.obj fs r i) [k]
  | deeper {fs : List (Str × Value)} {r i : Bool} {k k' : Str} {p : Path} {v : Value} :
      findKey fs k = some v → Calm v (k' :: p) → Calm (.obj fs r i) (k :: k' :: p)
  | scalar {s : Scalar} {k : Str} {p : Path} : Calm (.scalar s) (k :: p)
  | list {vs : List Value} {k : Str} {p : Path} : Calm (.list vs) (k :: p)

/-- The trees for which the semantics below is compared with the resolver: no delayed merges, every
substitution has a non-empty path that is not relative to an including file, and the optional ones
have paths that are `Calm` in `root`. -/
def Simple (root v : Value) : Prop :=
  ∀ u, Occurs u v → (∀ st, u ≠ .dm st ∧ u ≠ .dmo st) ∧
    ∀ id p opt pre, u = .ref id p opt pre → pre = 0 ∧ p ≠ [] ∧ (opt = true → Calm root p)

section
/- `root` is the tree the paths refer to; `ext` gives the values that are used for a path at which
`root` has nothing (environment variables). -/
variable (env : Env) (root : Value) (ext : Path → Option Str)

mutual
/-- `Den v r`: the value `v` stands for `r`; `none` = it vanishes, because it consists of optional
substitutions without value. -/
inductive Den : Value → Option Value → Prop
  | scalar (s : Scalar) : Den (.scalar s) (some (.scalar s))
  | list {vs ws : List Value} : DenL vs ws → Den (.list vs) (some (.list ws))
  | obj {fs gs : List (Str × Value)} {r i : Bool} : DenF fs gs →
      Den (.obj fs r i) (some (.obj gs true i))
  /-- A substitution stands for what the value at its path stands for. -/
  | ref {id : Nat} {p : Path} {opt : Bool} {v r : Value} : At root p v → Den v (some r) →
      Den (.ref id p opt 0) (some r)
  /-- Nothing there: use the external value. -/
  | refExt {id : Nat} {p : Path} {opt : Bool} {s : Str} : Absent root p → ext p = some s →
      Den (.ref id p opt 0) (some (.scalar (.str s true)))
  | refAbsent {id : Nat} {p : Path} : Absent root p → ext p = none → Den (.ref id p true 0) none
  /-- The pieces of a concatenation are evaluated and concatenated. -/
  | concat {ps ws : List Value} {o : Option Value} : DenL ps ws →
      Value.concatenate env ws = .ok o → Den (.concat ps) o
/-- Elements in order, those that vanish left out. -/
inductive DenL : List Value → List Value → Prop
  | nil : DenL [] []
  | keep {v w : Value} {vs ws : List Value} : Den v (some w) → DenL vs ws → DenL (v :: vs) (w :: ws)
  | drop {v : Value} {vs ws : List Value} : Den v none → DenL vs ws → DenL (v :: vs) ws
/-- Fields in order, those that vanish left out. -/
inductive DenF : List (Str × Value) → List (Str × Value) → Prop
  | nil : DenF [] []
  | keep {k : Str} {v w : Value} {fs gs : List (Str × Value)} : Den v (some w) → DenF fs gs →
      DenF ((k, v) :: fs) ((k, w) :: gs)
  | drop {k : Str} {v : Value} {fs gs : List (Str × Value)} : Den v none → DenF fs gs →
      DenF ((k, v) :: fs) gs
/-- `At v p w`: starting at `v`, the path `p` leads to `w` (not evaluated). A substitution on the
way is followed. -/
inductive At : Value → Path → Value → Prop
  | nil {v : Value} : At v [] v
  | obj {fs : List (Str × Value)} {r i : Bool} {k : Str} {p : Path} {v w : Value} :
      findKey fs k = some v → At v p w → At (.obj fs r i) (k :: p) w
  | ref {id : Nat} {q : Path} {opt : Bool} {k : Str} {p : Path} {v w : Value} :
      At root q v → At v (k :: p) w → At (.ref id q opt 0) (k :: p) w
  | concat {ps : List Value} {r : Value} {k : Str} {p : Path} {w : Value} :
      Den (.concat ps) (some r) → At r (k :: p) w → At (.concat ps) (k :: p) w
/-- `Absent v p`: starting at `v`, there is nothing at the path `p`. -/
inductive Absent : Value → Path → Prop
  | missing {fs : List (Str × Value)} {r i : Bool} {k : Str} {p : Path} : findKey fs k = none →
      Absent (.obj fs r i) (k :: p)
  | deeper {fs : List (Str × Value)} {r i : Bool} {k : Str} {p : Path} {v : Value} :
      findKey fs k = some v → Absent v p → Absent (.obj fs r i) (k :: p)
  /-- The value vanishes. -/
  | gone {v : Value} {p : Path} : Den v none → Absent v p
  | scalar {s : Scalar} {k : Str} {p : Path} : Absent (.scalar s) (k :: p)
  | list {vs : List Value} {k : Str} {p : Path} : Absent (.list vs) (k :: p)
  | ref {id : Nat} {q : Path} {opt : Bool} {k : Str} {p : Path} {v : Value} :
      At root q v → Absent v (k :: p) → Absent (.ref id q opt 0) (k :: p)
  | refExt {id : Nat} {q : Path} {opt : Bool} {s : Str} {k : Str} {p : Path} : Absent root q →
      ext q = some s → Absent (.ref id q opt 0) (k :: p)
  | concat {ps : List Value} {r : Value} {k : Str} {p : Path} :
      Den (.concat ps) (some r) → Absent r (k :: p) → Absent (.concat ps) (k :: p)
end

end

end Spec
end Hocon
