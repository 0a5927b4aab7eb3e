import Verif.Access

/-!
# Plain C++ values and list getters

Model of `unwrapped_value` (types.hpp 40-42), `config_value_factory::from_any_ref`, `unwrapped()` and the
list getters of `config`. Origins are not modelled: the values made by the factory have none inside
(config_value_factory.cc 19-57 pass `nullptr`).
-/

set_option autoImplicit false

namespace Hocon

/-- `unwrapped_value`, types.hpp 40-42. A map is a list of entries in iteration order. -/
inductive Unw where
  /-- `boost::blank` -/
  | blank
  /-- `std::string` -/
  | str (s : Str)
  /-- `int64_t` -/
  | long (i : Int)
  /-- `double` -/
  | double (d : Dbl)
  /-- `int` -/
  | int (i : Int)
  /-- `bool` -/
  | bool (b : Bool)
  /-- `std::vector` -/
  | list (l : List Unw)
  /-- `std::unordered_map` -/
  | map (m : List (Str × Unw))
  deriving Repr

/-- `m[k] = v` on an unordered map: replaces the entry or adds one. -/
def putKey {α : Type} (k : Str) (v : α) : List (Str × α) → List (Str × α)
  | [] => [(k, v)]
  | (k', v') :: r => if k' = k then (k', v) :: r else (k', v') :: putKey k v r

namespace Value

mutual
/-- `config_value_visitor`, config_value_factory.cc 15-58; `from_any_ref` (60-67) then only sets the
origin of the result. -/
def fromAny : Unw → Value
  | .blank => .scalar .null
  | .str s => .scalar (.str s true)
  | .long i => .scalar (.long i [])
  | .double d => .scalar (.double d [])
  | .int i => .scalar (.int i [])
  | .bool b => .scalar (.bool b)
  | .list l => .list (fromAnyL l)
  | .map m => newObj (fromAnyF m [])
/-- The loop over a vector, config_value_factory.cc 43-49. -/
def fromAnyL : List Unw → List Value
  | [] => []
  | x :: l => fromAny x :: fromAnyL l
/-- The loop over a map, config_value_factory.cc 51-57. -/
def fromAnyF : List (Str × Unw) → Fields → Fields
  | [], acc => acc
  | (k, x) :: m, acc => fromAnyF m (putKey k (fromAny x) acc)
end

/-- `unwrapped()` of the scalar classes: config_string.cc 22-24, config_double.cc 19-21,
config_boolean.cc 22-24, config_long.cc 19-21, config_int.cc 19-21, config_null.cc 23-25. -/
def unwrapScalar : Scalar → Unw
  | .null => .blank
  | .bool b => .bool b
  | .int i _ => .int i
  | .long i _ => .long i
  | .double d _ => .double d
  | .str s _ => .str s

mutual
/-- `config_value::unwrapped`: scalars as above, simple_config_list.cc 168-174,
simple_config_object.cc 183-190, config_reference.cc 27-29, config_concatenation.cc 184-186,
config_delayed_merge.cc 62-64, config_delayed_merge_object.cc 60-62. -/
def unwrapped : Value → Res Unw
  | .scalar s => .ok (unwrapScalar s)
  | .list vs => (unwrappedL vs).bind fun l => .ok (.list l)
  | .obj fs _ _ => (unwrappedF fs []).bind fun m => .ok (.map m)
  | .ref .. => .err .notResolved
  | .concat _ => .err .config
  | .dm _ => .err .config
  | .dmo _ => .err .config
/-- The loop of simple_config_list.cc 170-172. -/
def unwrappedL : List Value → Res (List Unw)
  | [] => .ok []
  | v :: vs => (unwrapped v).bind fun x => (unwrappedL vs).bind fun l => .ok (x :: l)
/-- The loop of simple_config_object.cc 185-188 (the value is unwrapped twice, with the same result). -/
def unwrappedF : Fields → List (Str × Unw) → Res (List (Str × Unw))
  | [], acc => .ok acc
  | (k, v) :: fs, acc => (unwrapped v).bind fun x => unwrappedF fs (putKey k x acc)
end

/-! ## List getters -/

/-- The loop of `get_homogeneous_unwrapped_list`, config.hpp 580-587 and config.cc 300-312. `pick` is
`boost::get`. -/
def pickAll {α : Type} (pick : Unw → Option α) : List Unw → Res (List α)
  | [] => .ok []
  | x :: l =>
    match pick x with
    | none => .err .config
    | some a => (pickAll pick l).bind fun as => .ok (a :: as)

/-- `get_homogeneous_unwrapped_list`, config.hpp 577-589. -/
def getHomogeneous {α : Type} (pick : Unw → Option α) (env : Env) (root : Value) (expr : Str) :
    Res (List α) :=
  (getList env root expr).bind fun vs => (unwrappedL vs).bind fun us => pickAll pick us

/-- `boost::get<bool>`, used by `get_bool_list`, config.cc 251-253. -/
def pickBool : Unw → Option Bool
  | .bool b => some b
  | _ => none
/-- `boost::get<int>`, used by `get_int_list`, config.cc 255-257. -/
def pickInt : Unw → Option Int
  | .int i => some i
  | _ => none
/-- `boost::get<int64_t>`, then `boost::get<int>`: `get_long_list`, config.cc 259-261 and 297-314. -/
def pickLong : Unw → Option Int
  | .long i => some i
  | .int i => some i
  | _ => none
/-- `boost::get<double>`, used by `get_double_list`, config.cc 263-265. -/
def pickDouble : Unw → Option Dbl
  | .double d => some d
  | _ => none
/-- `boost::get<string>`, used by `get_string_list`, config.cc 267-269. -/
def pickStr : Unw → Option Str
  | .str s => some s
  | _ => none

/-- `config::get_bool_list`, config.cc 251-253. -/
def getBoolList := getHomogeneous pickBool
/-- `config::get_int_list`, config.cc 255-257. -/
def getIntList := getHomogeneous pickInt
/-- `config::get_long_list`, config.cc 259-261. -/
def getLongList := getHomogeneous pickLong
/-- `config::get_double_list`, config.cc 263-265. -/
def getDoubleList := getHomogeneous pickDouble
/-- `config::get_string_list`, config.cc 267-269. -/
def getStringList := getHomogeneous pickStr

/-- The loop of `config::get_object_list`, config.cc 274-280: `throw new` throws a pointer. -/
def objectsOf : List Value → Res (List Value)
  | [] => .ok []
  | v :: vs => if v.isObject then (objectsOf vs).bind fun l => .ok (v :: l) else .err .foreign

/-- `config::get_object_list`, config.cc 271-282. -/
def getObjectList (env : Env) (root : Value) (expr : Str) : Res (List Value) :=
  (getList env root expr).bind objectsOf

/-- `config::get_config_list`, config.cc 284-295. No `config_value` is a `config`, so the cast fails for
every element. -/
def getConfigList (env : Env) (root : Value) (expr : Str) : Res (List Value) :=
  (getList env root expr).bind fun vs =>
    match vs with
    | [] => .ok []
    | _ :: _ => .err .config

/-- `config::get_any_ref`, config.cc 239-241. -/
def getAnyRef (env : Env) (root : Value) (expr : Str) : Res Unw :=
  (findExpr env root expr .unspecified).bind unwrapped

end Value
end Hocon
