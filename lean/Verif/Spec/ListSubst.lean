import Verif.Spec.Settle

/-!
# What a list with substitutions should become
-/

set_option autoImplicit false

namespace Hocon
namespace Spec
open Value

/-- `LeftOut root ext vs ws`: the list `vs` becomes `ws` when each substitution of a setting is replaced
by its value and each optional substitution of nothing is left out. `ext` gives the values of paths at
which there is no setting (environment variables). -/
inductive LeftOut (root : Value) (ext : Path → Option Str) : List Value → List Value → Prop
  | nil : LeftOut root ext [] []
  | keep {v : Value} {vs ws : List Value} : Clean v → LeftOut root ext vs ws →
      LeftOut root ext (v :: vs) (v :: ws)
  | subst {id : Nat} {p : Path} {opt : Bool} {u : Value} {vs ws : List Value} : at? root p = some u →
      Clean u → LeftOut root ext vs ws → LeftOut root ext (.ref id p opt 0 :: vs) (u :: ws)
  | extern {id : Nat} {p : Path} {opt : Bool} {s : Str} {vs ws : List Value} : Dead root p → ext p = some s →
      LeftOut root ext vs ws → LeftOut root ext (.ref id p opt 0 :: vs) (.scalar (.str s true) :: ws)
  | drop {id : Nat} {p : Path} {vs ws : List Value} : Dead root p → ext p = none →
      LeftOut root ext vs ws → LeftOut root ext (.ref id p true 0 :: vs) ws

/-- `v` has a list in it (in objects and lists, at any depth) whose first element vanishes and whose
second element vanishes or changes; everything before this list has a value. -/
inductive Stuck (env : Env) (ext : Path → Option Str) (root : Value) : Option Path → Value → Prop
  | list {pos : Option Path} {v w : Value} {vs : List Value} {o : Option Value} {os : List (Option Value)} :
      EvL env ext root [] (v :: w :: vs) (none :: o :: os) → o ≠ some w →
      Stuck env ext root pos (.list (v :: w :: vs))
  | elem {pos : Option Path} {v : Value} {pre post : List Value} {os : List (Option Value)} :
      EvL env ext root [] pre os → Stuck env ext root none v →
      Stuck env ext root pos (.list (pre ++ v :: post))
  | field {pos : Option Path} {k : Str} {v : Value} {pre post : List (Str × Value)} {i : Bool}
      {os : List (Str × Option Value)} :
      EvF env ext root [] pos pre os → Stuck env ext root (pos.map (· ++ [k])) v →
      Stuck env ext root pos (.obj (pre ++ (k, v) :: post) false i)

end Spec
end Hocon
