import Verif.Value
import Verif.Tokenizer
import Verif.PathParser

/-!
# Looking up and converting values

Model of `lib/src/config.cc` (lookup and getters), `lib/src/default_transformer.cc` and the lookup
functions of `lib/src/values/config_object.cc`, `simple_config_object.cc` and
`config_delayed_merge_object.cc`.
-/

set_option autoImplicit false

namespace Hocon
open PathParser (newPath renderPath)
open Tokenizer (lexCastI64)

/-- `config_value::type`. -/
inductive VType where
  | object
  | list
  | number
  | boolean
  | null
  | string
  | unspecified
  deriving DecidableEq, Repr

namespace Value

/-- `value_type` of the scalar classes. -/
def scalarType : Scalar → VType
  | .null => .null
  | .bool _ => .boolean
  | .int .. => .number
  | .long .. => .number
  | .double .. => .number
  | .str .. => .string

/-- `value_type`: config_object.cc 62-64, simple_config_list.hpp, config_reference.cc 21-23,
config_concatenation.cc 39-41, config_delayed_merge.cc 58-60 (the last three throw). -/
def valueType : Value → Res VType
  | .scalar s => .ok (scalarType s)
  | .list _ => .ok .list
  | .obj .. => .ok .object
  | .dmo _ => .ok .object
  | .ref .. => .err .notResolved
  | .concat _ => .err .config
  | .dm _ => .err .config

/-- `throw_if_null` and friends: a C++ `catch (config_exception&)` that throws a plain
`config_exception`; other exceptions pass. -/
def recatch {α : Type} : Res α → Res α
  | .err .foreign => .err .foreign
  | .err _ => .err .config
  | r => r

mutual
/-- `attempt_peek_with_partial_resolve`: simple_config_object.cc 69-76 and
config_delayed_merge_object.cc 62-127. Called on other values only through an object pointer, so
those cases do not occur. -/
def attemptPeek (v : Value) (k : Str) : Res (Option Value) :=
  match v with
  | .obj fs _ _ => .ok (findKey fs k)
  | .dmo st => peekStack st k
  | _ => .ub
/-- The loop over the stack, config_delayed_merge_object.cc 77-126. An unresolved layer that is
neither object nor unmergeable is a list, and the loop goes on. -/
def peekStack (st : List Value) (k : Str) : Res (Option Value) :=
  match st with
  | [] => .err .bug
  | layer :: rest =>
    if layer.isObject then
      (attemptPeek layer k).bind fun o =>
        match o with
        | some v => if v.ignoresFallbacks then .ok (some v) else peekStack rest k
        | none => if layer.isUnmergeable then .err .bug else peekStack rest k
    else if layer.isUnmergeable then .err .notResolved
    else if !layer.resolved then peekStack rest k
    else if !layer.ignoresFallbacks then .err .bug
    else .ok none
end

/-- `config_object::peek_path`, config_object.cc 18-39. The key of an empty path would be a null
dereference. -/
def peekPath : Value → Path → Res (Option Value)
  | _, [] => .ub
  | self, k :: next => recatch ((attemptPeek self k).bind fun v =>
    if next.isEmpty then .ok v
    else match v with
      | some w => if w.isObject then peekPath w next else .ok none
      | none => .ok none)

/-- `config::has_path_peek`, config.cc 80-92: both branches of the `catch` throw a plain
`config_exception` (`throw ex` copies the static type). -/
def hasPathPeek (env : Env) (root : Value) (expr : Str) : Res (Option Value) := do
  let p ← newPath env expr
  recatch (peekPath root p)

/-- `config::has_path`, config.cc 94-97. -/
def hasPath (env : Env) (root : Value) (expr : Str) : Res Bool := do
  let peeked ← hasPathPeek env root expr
  match peeked with
  | none => .ok false
  | some v => do
    let t ← v.valueType
    .ok (t != .null)

/-- `config::has_path_or_null`, config.cc 99-102. -/
def hasPathOrNull (env : Env) (root : Value) (expr : Str) : Res Bool := do
  let peeked ← hasPathPeek env root expr
  .ok peeked.isSome

/-- The string case of `default_transformer::transform`, default_transformer.cc 22-58. -/
def transformString (env : Env) (v : Value) (s : Str) (requested : VType) : Res Value :=
  match requested with
  | .number =>
    match lexCastI64 s with
    | some i => .ok (.scalar (.long i s))
    | none =>
      match env.parseDouble s with
      | some d => .ok (.scalar (.double d s))
      | none => .ok v
  | .null => if s = ch "null" then .ok (.scalar .null) else .ok v
  | .boolean =>
    if s = ch "true" || s = ch "yes" || s = ch "on" then .ok (.scalar (.bool true))
    else if s = ch "false" || s = ch "no" || s = ch "off" then .ok (.scalar (.bool false))
    else .ok v
  | .unspecified => .err .config
  | _ => .ok v

/-- `default_transformer::transform`, default_transformer.cc 20-92. `value_type()` is asked first
and throws for unresolved values. -/
def transform (env : Env) (v : Value) (requested : VType) : Res Value :=
  v.valueType.bind fun t =>
    match v with
    | .scalar (.str s _) => transformString env v s requested
    | v =>
      if requested = .string then
        match v with
        | .scalar s =>
          if t = .number ∨ t = .boolean then .ok (.scalar (.str (s.transformToString env) true))
          else .ok v
        | v => .ok v
      else if requested = .list ∧ t = .object then .err .config
      else .ok v

/-- `config::throw_if_null`, config.cc 134-141. -/
def throwIfNull (v : Value) : Res Value :=
  v.valueType.bind fun t => if t = .null then .err .null else .ok v

/-- The part of `find_key_or_null` after the peek, config.cc 151-166. -/
def convertFound (env : Env) (expected : VType) : Option Value → Res Value
  | none => .err .missing
  | some v =>
    if expected = .unspecified then .ok v
    else (transform env v expected).bind fun w =>
      w.valueType.bind fun t =>
        if t ≠ expected ∧ t ≠ .null then .err .wrongType else .ok w

/-- `config::find_key_or_null`, config.cc 148-167, with `peek_assuming_resolved`, config_object.cc
41-47. -/
def findKeyOrNull (env : Env) (self : Value) (k : Str) (expected : VType) : Res Value :=
  (recatch (attemptPeek self k)).bind fun o => convertFound env expected o

/-- `config::find_key`, config.cc 143-146. -/
def findKeyNotNull (env : Env) (self : Value) (k : Str) (expected : VType) : Res Value :=
  (findKeyOrNull env self k expected).bind throwIfNull

/-- `config::find_or_null(object, path, ...)`, config.cc 169-187. `sub_path` of the original path
is only used in messages but may throw. -/
def findOrNull (env : Env) : Value → Path → VType → Path → Res Value
  | _, [], _, _ => .ub
  | self, k :: next, expected, original => recatch (
    if next.isEmpty then findKeyOrNull env self k expected
    else
      (PathM.subPathRange 0 (PathM.length original - PathM.length next) original).bind fun _ =>
        (findKeyNotNull env self k .object).bind fun o =>
          findOrNull env o next expected original)

/-- `config::find_or_null(string, type)`, config.cc 189-192. -/
def findExprOrNull (env : Env) (root : Value) (expr : Str) (expected : VType) : Res Value := do
  let p ← newPath env expr
  findOrNull env root p expected p

/-- `config::find(string, type)`, config.cc 194-197 and 549-551. -/
def findExpr (env : Env) (root : Value) (expr : Str) (expected : VType) : Res Value := do
  let p ← newPath env expr
  (findOrNull env root p expected p).bind throwIfNull

/-- `config::get_is_null`, config.cc 199-202. -/
def getIsNull (env : Env) (root : Value) (expr : Str) : Res Bool := do
  let v ← findExprOrNull env root expr .unspecified
  let t ← v.valueType
  .ok (t == .null)

/-- `config::get_value`, config.cc 204-206. -/
def getValue (env : Env) (root : Value) (expr : Str) : Res Value :=
  findExpr env root expr .unspecified

/-- `config::get_bool`, config.cc 208-211; a failed cast would be a null dereference. -/
def getBool (env : Env) (root : Value) (expr : Str) : Res Bool := do
  let v ← findExpr env root expr .boolean
  match v with
  | .scalar (.bool b) => .ok b
  | _ => .ub

/-- `long_value`: config_int.cc 23-25, config_long.cc 23-25, config_double.cc 23-25 (undefined when
out of range). -/
def longValue (env : Env) : Scalar → Res Int
  | .int v _ => .ok v
  | .long v _ => .ok v
  | .double d _ =>
    match env.doubleToI64 d with
    | some i => .ok i
    | none => .ub
  | _ => .ub

/-- `double_value`. -/
def doubleValue (env : Env) : Scalar → Res Dbl
  | .int v _ => .ok (env.i64ToDouble v)
  | .long v _ => .ok (env.i64ToDouble v)
  | .double d _ => .ok d
  | _ => .ub

/-- `config_number::int_value_range_checked`, config_number.cc 44-50. -/
def intValueRangeChecked (env : Env) (s : Scalar) : Res Int := do
  let l ← longValue env s
  if l < intMin ∨ l > intMax then .err .config else .ok l

/-- `config::get_int`, config.cc 213-216. -/
def getInt (env : Env) (root : Value) (expr : Str) : Res Int := do
  let v ← findExpr env root expr .number
  match v with
  | .scalar s => intValueRangeChecked env s
  | _ => .ub

/-- `config::get_long`, config.cc 218-221. -/
def getLong (env : Env) (root : Value) (expr : Str) : Res Int := do
  let v ← findExpr env root expr .number
  match v with
  | .scalar s => longValue env s
  | _ => .ub

/-- `config::get_double`, config.cc 223-226. -/
def getDouble (env : Env) (root : Value) (expr : Str) : Res Dbl := do
  let v ← findExpr env root expr .number
  match v with
  | .scalar s => doubleValue env s
  | _ => .ub

/-- `config::get_string`, config.cc 228-231. -/
def getString (env : Env) (root : Value) (expr : Str) : Res Str := do
  let v ← findExpr env root expr .string
  match v with
  | .scalar (.str s _) => .ok s
  | _ => .ub

/-- `config::get_object`, config.cc 233-235 (and `get_config`, 241-243). -/
def getObject (env : Env) (root : Value) (expr : Str) : Res Value := do
  let v ← findExpr env root expr .object
  if v.isObject then .ok v else .ub

/-- `config::get_list`, config.cc 245-247. -/
def getList (env : Env) (root : Value) (expr : Str) : Res (List Value) := do
  let v ← findExpr env root expr .list
  match v with
  | .list vs => .ok vs
  | _ => .ub

/-! ## Building and changing objects -/

/-- `config_value::at_key`, config_value.cc 102-105. -/
def atKey (v : Value) (k : Str) : Value := newObj [(k, v)]

/-- The loop of `config_value::at_path`, config_value.cc 94-98; `n` bounds the number of turns (the
parent gets shorter each time). -/
def atPathLoop : Nat → Value → Path → Res Value
  | 0, _, _ => .fuel
  | n + 1, v, parent =>
    if parent.isEmpty then .ok v
    else match PathM.last parent with
      | none => .ub
      | some k => atPathLoop n (atKey v k) (PathM.parent parent)

/-- `config_value::at_path(origin, path)`, config_value.cc 91-100. -/
def atPath (v : Value) (p : Path) : Res Value :=
  match PathM.last p with
  | none => .ub
  | some k => atPathLoop (p.length + 1) (atKey v k) (PathM.parent p)

/-- `config_value::at_path(string)`, config_value.cc 111-114. -/
def atPathExpr (env : Env) (v : Value) (expr : Str) : Res Value := do
  let p ← newPath env expr
  atPath v p

/-- `simple_config_object::with_value(key, value)`, simple_config_object.cc 163-177:
`unordered_map::emplace` does nothing if the key is there; the status is kept. -/
def withValueKey (fs : Fields) (r i : Bool) (k : Str) (v : Value) : Value :=
  match findKey fs k with
  | some _ => .obj fs r i
  | none => .obj (fs ++ [(k, v)]) r i

/-- `simple_config_object::with_value(path, value)`, simple_config_object.cc 82-101; for a
`config_delayed_merge_object` it throws (config_delayed_merge_object.cc 42-44). If the child is an
object the recursive call is on the whole object, not on the child. -/
def withValuePath : Value → Path → Value → Res Value
  | .obj _ _ _, [], _ => .ub
  | .obj fs r i, k :: next, v =>
    if next.isEmpty then .ok (withValueKey fs r i k v)
    else
      match findKey fs k with
      | some child =>
        if child.isObject then withValuePath (withValueKey fs r i k child) next v
        else (atPath v next).bind fun sub => .ok (withValueKey fs r i k sub)
      | none => (atPath v next).bind fun sub => .ok (withValueKey fs r i k sub)
  | .dmo _, _, _ => .err .notResolved
  | _, _, _ => .ub

/-- `config::with_value`, config.cc 508-511. -/
def withValue (env : Env) (root : Value) (expr : Str) (v : Value) : Res Value := do
  let p ← newPath env expr
  withValuePath root p v

/-- `simple_config_object::without_path`, simple_config_object.cc 103-131; a
`config_delayed_merge_object` throws. In the nested case the new map contains only the one key. -/
def withoutPathObj : Value → Path → Res Value
  | .obj _ _ _, [] => .ub
  | .obj fs r i, k :: next =>
    match findKey fs k with
    | some child =>
      if child.isObject && !next.isEmpty then
        (withoutPathObj child next).bind fun w =>
          .ok (.obj [(k, w)] (resolvedFields [(k, w)]) i)
      else if !next.isEmpty then .ok (.obj fs r i)
      else
        .ok (.obj (fs.filter fun f => f.1 ≠ k) (resolvedFields (fs.filter fun f => f.1 ≠ k)) i)
    | none => .ok (.obj fs r i)
  | .dmo _, _ => .err .notResolved
  | _, _ => .ub

/-- `config::without_path`, config.cc 517-520. -/
def withoutPath (env : Env) (root : Value) (expr : Str) : Res Value := do
  let p ← newPath env expr
  withoutPathObj root p

/-- `simple_config_object::with_only_path_or_null`, simple_config_object.cc 143-161. For the last
element nothing sets `o`; for a missing or non-object child the member function is called on a null
pointer. -/
def withOnlyPathOrNull : Value → Path → Res (Option Value)
  | .obj _ _ _, [] => .ub
  | .obj fs _ i, k :: next =>
    if next.isEmpty then .ok none
    else
      match findKey fs k with
      | some child =>
        if child.isObject then
          (withOnlyPathOrNull child next).bind fun o =>
            match o with
            | none => .ok none
            | some w => .ok (some (.obj [(k, w)] w.resolved i))
        else .ub
      | none => .ub
  | .dmo _, _ => .err .notResolved
  | _, _ => .ub

/-- `simple_config_object::with_only_path`, simple_config_object.cc 133-141. -/
def withOnlyPathObj (v : Value) (p : Path) : Res Value :=
  (withOnlyPathOrNull v p).bind fun o =>
    match o with
    | some w => .ok w
    | none => .ok (.obj [] true v.ignoresFallbacks)

/-- `config::with_only_path`, config.cc 522-525. -/
def withOnlyPath (env : Env) (root : Value) (expr : Str) : Res Value := do
  let p ← newPath env expr
  withOnlyPathObj root p

mutual
/-- `config::find_paths`, config.cc 108-126: the pairs put into the set, in iteration order. -/
def findPaths (parent : Path) (v : Value) : Res (List (Str × Value)) :=
  match v with
  | .obj fs _ _ => findPathsFields parent fs
  | .dmo _ => .err .notResolved
  | _ => .ub
/-- The loop of `find_paths`. -/
def findPathsFields (parent : Path) : Fields → Res (List (Str × Value))
  | [] => .ok []
  | (k, v) :: rest =>
    let newPath := if parent.isEmpty then [k] else PathM.prepend [k] parent
    (if v.isObject then findPaths newPath v
      else if v = .scalar .null then .ok []
      else .ok [(renderPath newPath, v)]).bind fun a =>
        (findPathsFields parent rest).bind fun b => .ok (a ++ b)
end

/-- `config::entry_set`, config.cc 128-132. The C++ result is a set; here the list of its
insertions. -/
def entrySet (root : Value) : Res (List (Str × Value)) := findPaths [] root

/-! ## Equality -/

mutual
/-- Nesting depth (bounds the recursion of `operator==`). -/
def height : Value → Nat
  | .scalar _ => 0
  | .list vs => heightL vs + 1
  | .obj fs _ _ => heightF fs + 1
  | .ref .. => 0
  | .concat vs => heightL vs + 1
  | .dm vs => heightL vs + 1
  | .dmo vs => heightL vs + 1
/-- Greatest height in a list. -/
def heightL : List Value → Nat
  | [] => 0
  | v :: vs => max (height v) (heightL vs)
/-- Greatest height of the values of fields. -/
def heightF : List (Str × Value) → Nat
  | [] => 0
  | (_, v) :: fs => max (height v) (heightF fs)
end

/-- `std::equal` with `*a == *b`, simple_config_list.cc 100-108. -/
def eqAll (eq : Value → Value → Res Bool) : List Value → List Value → Res Bool
  | [], _ => .ok true
  | _ :: _, [] => .ub
  | x :: xs, y :: ys => (eq x y).bind fun e => if e then eqAll eq xs ys else .ok false

/-- The loop of simple_config_object.cc 196-199: `still_equal` is overwritten each time, the operands
are swapped, and `unordered_map::at` throws `std::out_of_range`. -/
def eqFields (eq : Value → Value → Res Bool) : Fields → Fields → Bool → Res Bool
  | [], _, e => .ok e
  | (k, x) :: xs, ys, _ =>
    match findKey ys k with
    | none => .err .foreign
    | some y => (eq y x).bind fun e => eqFields eq xs ys e

/-- The loop of config_concatenation.cc 180-183, which also keeps only the last comparison. -/
def eqLast (eq : Value → Value → Res Bool) : List Value → List Value → Bool → Res Bool
  | [], _, e => .ok e
  | _ :: _, [], _ => .ub
  | x :: xs, y :: ys, _ => (eq x y).bind fun e => eqLast eq xs ys e

/-- Comparison of scalars: config_null.cc 28-30, config_boolean.cc 30-32, config_number.cc 71-75,
config_string.cc 32-34. -/
def scalarEq (env : Env) : Scalar → Scalar → Res Bool
  | .null, .null => .ok true
  | .bool x, .bool y => .ok (x == y)
  | .str x _, .str y _ => .ok (x == y)
  | x, y =>
    if scalarType x = .number ∧ scalarType y = .number then
      (longValue env x).bind fun i => (longValue env y).bind fun j =>
        if i = j then
          (doubleValue env x).bind fun d => (doubleValue env y).bind fun e =>
            .ok (env.doubleEq d e)
        else .ok false
    else .ok false

/-- `operator==`: the scalar classes, simple_config_list.cc 96-110, simple_config_object.cc 192-202,
config_reference.cc 40-42, config_concatenation.cc 176-186, config_delayed_merge.cc and
config_delayed_merge_object.cc (vectors of pointers, here compared by `=`). The number bounds the
nesting depth. -/
def valueEqN (env : Env) : Nat → Value → Value → Res Bool
  | 0, _, _ => .fuel
  | n + 1, a, b =>
    match a, b with
    | .scalar x, .scalar y => scalarEq env x y
    | .list xs, .list ys =>
      if xs.length = ys.length then eqAll (valueEqN env n) xs ys else .ok false
    | .obj fs _ _, .obj gs _ _ =>
      if fs.length = gs.length then eqFields (valueEqN env n) fs gs true else .ok false
    | .ref _ p o _, .ref _ q o' _ => .ok (PathM.beq p q && o == o')
    | .concat xs, .concat ys =>
      if xs.length = ys.length then eqLast (valueEqN env n) xs ys true else .ok false
    | .dm xs, .dm ys => .ok (decide (xs = ys))
    | .dmo xs, .dmo ys => .ok (decide (xs = ys))
    | _, _ => .ok false

/-- `a == b`. -/
def valueEq (env : Env) (a b : Value) : Res Bool := valueEqN env (height a + 1) a b

end Value
end Hocon
