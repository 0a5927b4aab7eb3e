import Verif.Spec.Subst
import Verif.Spec.HoconText

/-!
# Specification: what a configuration with repeated settings and substitutions stands for

`Spec.Den` describes trees in which no setting waits for another. Here a path may have been set
several times, the newer values referring to the older ones (`path = ${path} [x]`) or being objects
that are put over a substitution (`a = ${base}`, `a { y = 2 }`). Such a setting is kept as the list of
its values, the newest first. A substitution inside one of them sees the tree in which the setting
has its *older* values only.

The semantics is a relation: it has no evaluation order, and it says nothing about configurations
whose substitutions go round in circles.
-/

set_option autoImplicit false

namespace Hocon
namespace Spec

/-- `Dead v p`: starting at `v`, the path `p` leads through objects to a missing key, or into a scalar
or list. -/
inductive Dead : Value → Path → Prop
  | missing {fs : List (Str × Value)} {r i : Bool} {k : Str} {p : Path} : findKey fs k = none →
      Dead (.obj fs r i) (k :: p)
  | deeper {fs : List (Str × Value)} {r i : Bool} {k k' : Str} {p : Path} {v : Value} :
      findKey fs k = some v → Dead v (k' :: p) → Dead (.obj fs r i) (k :: k' :: p)
  | scalar {s : Scalar} {k : Str} {p : Path} : Dead (.scalar s) (k :: p)
  | list {vs : List Value} {k : Str} {p : Path} : Dead (.list vs) (k :: p)

/-- `Put v p o w`: `w` is `v` with the value at `p` replaced by `o` (`none` = removed). The value that
is replaced must not be stored under an earlier key too (in a tree made by the parser no two
substitutions are the same, so this is no restriction). -/
inductive Put : Value → Path → Option Value → Value → Prop
  | set {fs gs : List (Str × Value)} {r i : Bool} {k : Str} {v x : Value} :
      (∀ f ∈ fs, f.1 ≠ k ∧ f.2 ≠ v) →
      Put (.obj (fs ++ (k, v) :: gs) r i) [k] (some x)
        (.obj (fs ++ (k, x) :: gs) (Value.resolvedFields (fs ++ (k, x) :: gs)) i)
  | remove {fs gs : List (Str × Value)} {r i : Bool} {k : Str} {v : Value} :
      (∀ f ∈ fs, f.1 ≠ k ∧ f.2 ≠ v) →
      Put (.obj (fs ++ (k, v) :: gs) r i) [k] none
        (.obj (fs ++ gs) (Value.resolvedFields (fs ++ gs)) i)
  | deeper {fs gs : List (Str × Value)} {r i : Bool} {k k' : Str} {p : Path} {o : Option Value}
      {v w : Value} : (∀ f ∈ fs, f.1 ≠ k ∧ f.2 ≠ v) → Put v (k' :: p) o w →
      Put (.obj (fs ++ (k, v) :: gs) r i) (k :: k' :: p) o
        (.obj (fs ++ (k, w) :: gs) (Value.resolvedFields (fs ++ (k, w) :: gs)) i)

/-- The values of a setting, newest first, as one value: each with the older ones as fallbacks. -/
def older : List Value → Res (Option Value)
  | [] => .ok none
  | v :: vs => go v vs
where
  /-- The loop. -/
  go : Value → List Value → Res (Option Value)
    | v, [] => .ok (some v)
    | v, w :: ws =>
      match Value.withFallback v w with
      | .ok m => go m ws
      | .err e => .err e
      | .ub => .ub
      | .fuel => .fuel

/-- A value over an older one; either may be missing. -/
def overO : Option Value → Option Value → Option Value
  | some v, some w => some (over v w)
  | some v, none => some v
  | none, o => o

/-- The fields that have a value. -/
def present (os : List (Str × Option Value)) : List (Str × Value) :=
  os.filterMap fun f => f.2.map fun v => (f.1, v)

/-- The lists for which the library drops vanishing elements without complaint: the first element
stays, or it vanishes and the second one is not changed by the resolution. -/
def Steady : List Value → List (Option Value) → Prop
  | _ :: v :: _, none :: o :: _ => o = some v
  | _, _ => True

/-- A substitution or a concatenation. -/
def Waiting : Value → Prop
  | .ref .. => True
  | .concat _ => True
  | _ => False

/-- The substitution `id` is the first thing in the value. -/
inductive Begins (id : Nat) : Value → Prop
  | ref {p : Path} {opt : Bool} {pre : Nat} : Begins id (.ref id p opt pre)
  | concat {v : Value} {vs : List Value} : Begins id v → Begins id (.concat (v :: vs))

section
/- `ext` gives the values that are used for a path at which the tree has nothing (environment
variables). -/
variable (env : Env) (ext : Path → Option Str)

mutual
/-- `Ev root m pos v o`: in the tree `root` the value `v` stands for `o` (`none` = it vanishes). `pos`
is the path at which `v` is found in `root`, `none` if it is a part of a list, of a concatenation or of
a setting with several values. `m` are the substitutions whose values are being determined. -/
inductive Ev : Value → List Nat → Option Path → Value → Option Value → Prop
  | clean {root : Value} {m : List Nat} {pos : Option Path} {v : Value} : Clean v →
      Ev root m pos v (some v)
  | list {root : Value} {m : List Nat} {pos : Option Path} {vs : List Value} {os : List (Option Value)} :
      EvL root m vs os → Steady vs os → Ev root m pos (.list vs) (some (.list (os.filterMap id)))
  | obj {root : Value} {m : List Nat} {pos : Option Path} {fs : List (Str × Value)} {r i : Bool}
      {os : List (Str × Option Value)} :
      EvF root m pos fs os → Ev root m pos (.obj fs r i) (some (.obj (present os) true i))
  /-- A substitution stands for what the value at its path stands for. -/
  | ref {root : Value} {m : List Nat} {pos : Option Path} {id : Nat} {p : Path} {opt : Bool}
      {v r : Value} : id ∉ m → p ≠ [] → at? root p = some v → Ev root (id :: m) (some p) v (some r) →
      Ev root m pos (.ref id p opt 0) (some r)
  | refGone {root : Value} {m : List Nat} {pos : Option Path} {id : Nat} {p : Path} {v : Value} :
      id ∉ m → p ≠ [] → at? root p = some v → Ev root (id :: m) (some p) v none →
      Ev root m pos (.ref id p true 0) none
  /-- Nothing there: use the external value. -/
  | refExt {root : Value} {m : List Nat} {pos : Option Path} {id : Nat} {p : Path} {opt : Bool} {s : Str} :
      id ∉ m → Dead root p → ext p = some s →
      Ev root m pos (.ref id p opt 0) (some (.scalar (.str s true)))
  | refAbsent {root : Value} {m : List Nat} {pos : Option Path} {id : Nat} {p : Path} :
      id ∉ m → Dead root p → ext p = none → Ev root m pos (.ref id p true 0) none
  /-- An optional substitution that is the first thing in the very value it refers to has no value:
  nothing older is there (`a = ${?a} [x]`, `a += x`). -/
  | refSelf {root : Value} {m : List Nat} {pos : Option Path} {id : Nat} {p : Path} {v : Value} :
      id ∉ m → p ≠ [] → at? root p = some v → Begins id v → Ev root m pos (.ref id p true 0) none
  /-- The pieces of a concatenation are evaluated and concatenated. -/
  | concat {root : Value} {m : List Nat} {pos : Option Path} {ps : List Value} {os : List (Option Value)}
      {o : Option Value} : EvL root m ps os → Value.concatenate env (os.filterMap id) = .ok o →
      Ev root m pos (.concat ps) o
  /-- A setting with several values. -/
  | several {root : Value} {m : List Nat} {q : Path} {st : List Value} {o : Option Value} : q ≠ [] →
      EvS root m q st o → Ev root m (some q) (.dm st) o
  | severalO {root : Value} {m : List Nat} {q : Path} {st : List Value} {o : Option Value} : q ≠ [] →
      EvS root m q st o → Ev root m (some q) (.dmo st) o
/-- Elements and pieces. -/
inductive EvL : Value → List Nat → List Value → List (Option Value) → Prop
  | nil {root : Value} {m : List Nat} : EvL root m [] []
  | cons {root : Value} {m : List Nat} {v : Value} {o : Option Value} {vs : List Value}
      {os : List (Option Value)} : Ev root m none v o → EvL root m vs os → EvL root m (v :: vs) (o :: os)
/-- Fields. -/
inductive EvF : Value → List Nat → Option Path → List (Str × Value) → List (Str × Option Value) → Prop
  | nil {root : Value} {m : List Nat} {pos : Option Path} : EvF root m pos [] []
  | cons {root : Value} {m : List Nat} {pos : Option Path} {k : Str} {v : Value} {o : Option Value}
      {fs : List (Str × Value)} {os : List (Str × Option Value)} :
      Ev root m (pos.map (· ++ [k])) v o → EvF root m pos fs os →
      EvF root m pos ((k, v) :: fs) ((k, o) :: os)
/-- The values of the setting at `q`, newest first: the newest over what the older ones stand for. -/
inductive EvS : Value → List Nat → Path → List Value → Option Value → Prop
  | nil {root : Value} {m : List Nat} {q : Path} : EvS root m q [] none
  /-- A substitution or concatenation sees the tree with the older values only. -/
  | waiting {root root' : Value} {m : List Nat} {q : Path} {v : Value} {vs : List Value}
      {old o o' : Option Value} : Waiting v → older vs = .ok old → Put root q old root' →
      Ev root' m none v o → EvS root m q vs o' → EvS root m q (v :: vs) (overO o o')
  /-- An object or a list (or scalar) sees the tree as it is. -/
  | other {root : Value} {m : List Nat} {q : Path} {v : Value} {vs : List Value} {o o' : Option Value} :
      Head v → Ev root m none v o → EvS root m q vs o' →
      EvS root m q (v :: vs) (overO o o')
end

end

end Spec
end Hocon
