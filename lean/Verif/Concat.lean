import Verif.Value

/-!
# Concatenation of values

Model of `lib/src/values/config_concatenation.cc`. Origins are not modelled.
-/

set_option autoImplicit false

namespace Hocon
namespace Value

/-- `dynamic_pointer_cast<const simple_config_list>`. -/
def isList : Value → Bool
  | .list _ => true
  | _ => false

/-- `dynamic_pointer_cast<const config_concatenation>`. -/
def isConcat : Value → Bool
  | .concat _ => true
  | _ => false

/-- `transform_to_string`: config_value.cc 23-25 (the empty string for everything that is not a
scalar) and the overrides of the scalar classes. -/
def toText (env : Env) : Value → Str
  | .scalar s => s.transformToString env
  | _ => []

/-- `is_ignored_whitespace`, config_concatenation.cc 205-208: any string that was not quoted. -/
def isIgnoredWhitespace : Value → Bool
  | .scalar (.str _ quoted) => !quoted
  | _ => false

/-- Constructor of `config_concatenation`, config_concatenation.cc 22-42. -/
def mkConcat (ps : List Value) : Res Value :=
  if ps.length < 2 then .err .config
  else if ps.any isConcat then .err .config
  else if ps.any isUnmergeable then .ok (.concat ps)
  else .err .config

/-- The list part of `simple_config_list::concatenate`, simple_config_list.cc 81-89. -/
def appendLists : Value → Value → Value
  | .list a, .list b => .list (a ++ b)
  | a, _ => a

/-- `join`, config_concatenation.cc 213-259: `some v` = the two are joined to `v`, `none` = they
stay apart. The calls of `default_transformer::transform(_, LIST)` on an object (218-222) always
throw (default_transformer.cc 85-88). -/
def join (env : Env) (left right : Value) : Res (Option Value) :=
  if left.isObject && right.isList then .err .config
  else if left.isList && right.isObject then .err .config
  else if left.isObject && right.isObject then do
    let j ← withFallback right left
    .ok (some j)
  else if left.isList && right.isList then .ok (some (appendLists left right))
  else if (left.isList || left.isObject) && isIgnoredWhitespace right then .ok (some left)
  else if left.isConcat || right.isConcat then .err .config
  else if left.isUnmergeable || right.isUnmergeable then .ok none
  else if (left.toText env).isEmpty || (right.toText env).isEmpty then .err .config
  else .ok (some (.scalar (.str (left.toText env ++ right.toText env) true)))

/-- The second loop of `consolidate`, config_concatenation.cc 129-135, after the first element: the
builder is `done ++ [last]`. -/
def joinLoop (env : Env) : List Value → Value → List Value → Res (List Value)
  | done, last, [] => .ok (done ++ [last])
  | done, last, v :: vs => do
    match ← join env last v with
    | some j => joinLoop env done j vs
    | none => joinLoop env (done ++ [last]) v vs

/-- The first loop of `consolidate`, config_concatenation.cc 118-124. -/
def flattenPieces : List Value → List Value
  | [] => []
  | .concat ps :: vs => ps ++ flattenPieces vs
  | v :: vs => v :: flattenPieces vs

/-- `consolidate`, config_concatenation.cc 112-139. -/
def consolidate (env : Env) (ps : List Value) : Res (List Value) :=
  if ps.length < 2 then .ok ps
  else
    match flattenPieces ps with
    | [] => .ok []
    | v :: vs => joinLoop env [] v vs

/-- `concatenate`, config_concatenation.cc 141-151; `none` = null pointer. -/
def concatenate (env : Env) (ps : List Value) : Res (Option Value) := do
  let c ← consolidate env ps
  match c with
  | [] => .ok none
  | [v] => .ok (some v)
  | vs => do
    let v ← mkConcat vs
    .ok (some v)

end Value
end Hocon
