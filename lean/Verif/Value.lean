import Verif.Token
import Verif.Path

/-!
# Configuration values

Model of the value classes in `lib/src/values`. Origins are left out (they only matter for
comments and messages; see `Verif/Origin.lean` for origins themselves).
-/

set_option autoImplicit false

namespace Hocon

/-- The subclasses of `config_value`. A map is an association list; the unordered iteration order
of the C++ map is the order of the list, and theorems quantify over all lists, hence over all
orders. -/
inductive Value where
  /-- `config_null`, `config_boolean`, `config_int`, `config_long`, `config_double`,
  `config_string` -/
  | scalar (s : Scalar)
  /-- `simple_config_list`; its `_resolved` field is computed from the elements by the constructor
  (simple_config_list.cc 34-35), see `Value.resolved` -/
  | list (vs : List Value)
  /-- `simple_config_object` with `_value`, `_resolved` and `_ignores_fallbacks`
  (simple_config_object.hpp) -/
  | obj (fs : List (Str × Value)) (res : Bool) (ign : Bool)
  /-- `config_reference` with `_expr` (path and optional flag) and `_prefix_length`. `id` stands
  for the identity of the object in memory, which the resolver compares (resolve_context.cc 52) -/
  | ref (id : Nat) (path : Path) (opt : Bool) (pre : Nat)
  /-- `config_concatenation` -/
  | concat (ps : List Value)
  /-- `config_delayed_merge` -/
  | dm (st : List Value)
  /-- `config_delayed_merge_object` -/
  | dmo (st : List Value)
  deriving Repr

/-- Object fields. -/
abbrev Fields := List (Str × Value)

namespace Value

mutual
/-- Equality test on values (used where the C++ compares pointers). -/
def beq : Value → Value → Bool
  | .scalar a, .scalar b => a = b
  | .list a, .list b => beqList a b
  | .obj f r i, .obj f' r' i' => beqFields f f' && (r == r') && (i == i')
  | .ref n p o k, .ref n' p' o' k' => n == n' && p = p' && o == o' && k == k'
  | .concat a, .concat b => beqList a b
  | .dm a, .dm b => beqList a b
  | .dmo a, .dmo b => beqList a b
  | _, _ => false
/-- `beq` on lists. -/
def beqList : List Value → List Value → Bool
  | [], [] => true
  | a :: as, b :: bs => beq a b && beqList as bs
  | _, _ => false
/-- `beq` on fields. -/
def beqFields : Fields → Fields → Bool
  | [], [] => true
  | (k, a) :: as, (k', b) :: bs => k = k' && beq a b && beqFields as bs
  | _, _ => false
end

mutual
theorem beq_eq : ∀ (a b : Value), beq a b = true ↔ a = b
  | .scalar a, b => by cases b <;> simp [beq]
  | .list a, b => by cases b <;> simp [beq, beqList_eq a]
  | .obj f r i, b => by cases b <;> simp [beq, beqFields_eq f, and_assoc]
  | .ref .., b => by cases b <;> simp [beq, and_assoc]
  | .concat a, b => by cases b <;> simp [beq, beqList_eq a]
  | .dm a, b => by cases b <;> simp [beq, beqList_eq a]
  | .dmo a, b => by cases b <;> simp [beq, beqList_eq a]
theorem beqList_eq : ∀ (a b : List Value), beqList a b = true ↔ a = b
  | [], b => by cases b <;> simp [beqList]
  | x :: a, b => by cases b <;> simp [beqList, beq_eq x, beqList_eq a]
theorem beqFields_eq : ∀ (a b : Fields), beqFields a b = true ↔ a = b
  | [], b => by cases b <;> simp [beqFields]
  | (k, x) :: a, b => by
    cases b with
    | nil => simp [beqFields]
    | cons y b => obtain ⟨k', y⟩ := y; simp [beqFields, beq_eq x, beqFields_eq a, and_assoc]
end

instance : DecidableEq Value := fun a b =>
  if h : beq a b = true then .isTrue ((beq_eq a b).1 h)
  else .isFalse (fun e => h ((beq_eq a b).2 e))

end Value

/-- `unordered_map::find`. -/
def findKey (fs : Fields) (k : Str) : Option Value :=
  match fs with
  | [] => none
  | (k', v) :: r => if k' = k then some v else findKey r k

/-- The keys of a map. -/
def keysOf (fs : Fields) : List Str := fs.map Prod.fst

namespace Value

/-- `dynamic_pointer_cast<const config_object>`: `simple_config_object` and
`config_delayed_merge_object`. -/
def isObject : Value → Bool
  | .obj .. => true
  | .dmo _ => true
  | _ => false

/-- `dynamic_pointer_cast<const unmergeable>`: references, concatenations and delayed merges. -/
def isUnmergeable : Value → Bool
  | .ref .. => true
  | .concat _ => true
  | .dm _ => true
  | .dmo _ => true
  | _ => false

/-- `config_delayed_merge` or `config_delayed_merge_object`. -/
def isDelayed : Value → Bool
  | .dm _ => true
  | .dmo _ => true
  | _ => false

mutual
/-- `get_resolve_status() == RESOLVED`: config_value.cc 32-34 (scalars), simple_config_list.cc
34-35 with `resolve_status_from_values` (config_value.cc 46-53), simple_config_object.hpp (the
stored flag), config_reference.cc 44-46, config_concatenation.cc, config_delayed_merge(.object).hpp
(unresolved). -/
def resolved : Value → Bool
  | .scalar _ => true
  | .list vs => resolvedAll vs
  | .obj _ r _ => r
  | _ => false
/-- `resolve_status_from_values`, config_value.cc 46-53. -/
def resolvedAll : List Value → Bool
  | [] => true
  | v :: vs => v.resolved && resolvedAll vs
end

/-- `resolve_status_from_value(map)`, simple_config_object.cc 261-266. -/
def resolvedFields (fs : Fields) : Bool := fs.all fun f => f.2.resolved

mutual
/-- `ignores_fallbacks`: config_value.cc 203-205 (default: resolved), simple_config_object.hpp (the
stored flag), config_reference.hpp and config_concatenation.cc (never), config_delayed_merge.cc
142-144 and config_delayed_merge_object.cc (the last value of the stack; the stack is never empty
because the constructors throw). -/
def ignoresFallbacks : Value → Bool
  | .scalar _ => true
  | .list vs => (Value.list vs).resolved
  | .obj _ _ i => i
  | .ref .. => false
  | .concat _ => false
  | .dm st => ignoresLast st
  | .dmo st => ignoresLast st
/-- `_stack.back()->ignores_fallbacks()`. -/
def ignoresLast : List Value → Bool
  | [] => false
  | [v] => v.ignoresFallbacks
  | _ :: vs => ignoresLast vs
end

/-- `unmerged_values`: config_reference.cc 25-27, config_concatenation.cc 43-45 (the value itself),
config_delayed_merge.cc 66-68, config_delayed_merge_object.cc 34-36 (the stack). -/
def unmergedValues : Value → List Value
  | .dm st => st
  | .dmo st => st
  | v => [v]

/-- Constructor of `simple_config_object` from a map, simple_config_object.cc 59-67. -/
def newObj (fs : Fields) : Value := .obj fs (resolvedFields fs) false

/-- `simple_config_object::empty`, simple_config_object.cc 329-343. -/
def empty : Value := newObj []

/-- Constructor of `config_delayed_merge`, config_delayed_merge.cc 18-30. The check for nested
delayed merges loops over the parameter `stack`, which has been moved from and is empty, so it has
no effect. -/
def mkDm (st : List Value) : Res Value :=
  if st.isEmpty then .err .config else .ok (.dm st)

/-- Constructor of `config_delayed_merge_object`, config_delayed_merge_object.cc 15-30. -/
def mkDmo (st : List Value) : Res Value :=
  match st with
  | [] => .err .config
  | v :: _ =>
    if v.isObject then
      if st.any isDelayed then .err .config else .ok (.dmo st)
    else .err .config

/-- `construct_delayed_merge`: config_value.cc 215-217, config_object.cc 54-56. -/
def constructDelayedMerge (v : Value) (st : List Value) : Res Value :=
  if v.isObject then mkDmo st else mkDm st

/-- `merged_with_the_unmergeable`, config_value.cc 219-236. Merging the origins has no failure for
values that have an origin. -/
def mergedWithUnmergeable (v other : Value) : Res Value :=
  constructDelayedMerge v (v :: other.unmergedValues)

/-- `with_fallbacks_ignored`: config_value.cc 207-213, simple_config_object.cc 345-351. -/
def withFallbacksIgnored (v : Value) : Res Value :=
  match v with
  | .obj fs r _ => .ok (.obj fs r true)
  | v => if v.ignoresFallbacks then .ok v else .err .config

/-- `merged_with_non_object` and `delay_merge`, config_value.cc 248-287. -/
def mergedWithNonObject (v fb : Value) : Res Value :=
  if v.resolved then withFallbacksIgnored v else constructDelayedMerge v [v, fb]

/-- The fields of the fallback whose key is not among `keys`. -/
def extraFields (keys : List Str) (fb : Fields) : Fields := fb.filter fun f => !(keys.contains f.1)

mutual
/-- `config_value::with_fallback`, config_value.cc 181-195, with `merged_with_object` of
config_value.cc 238-246 (non-objects, and the exception for delayed merge objects, which do not
reimplement it) and of simple_config_object.cc 353-416. In the latter the three ways to build the
result differ only in origin and sharing: the contents are the merged map, the computed status and
the fallback's `ignores_fallbacks`. `require_not_ignoring_fallbacks` never throws here. -/
def withFallback (a b : Value) : Res Value :=
  match a with
  | .scalar s => .ok (.scalar s)
  | .list vs =>
    if (Value.list vs).ignoresFallbacks then .ok (.list vs)
    else if b.isUnmergeable then mergedWithUnmergeable (.list vs) b
    else mergedWithNonObject (.list vs) b
  | .obj fs r i =>
    if i then .ok (.obj fs r i)
    else if b.isUnmergeable then mergedWithUnmergeable (.obj fs r i) b
    else
      match b with
      | .obj gs _ j => do
        let m ← mergeFields fs gs
        let m := m ++ extraFields (keysOf fs) gs
        .ok (.obj m (resolvedFields m) j)
      | b => mergedWithNonObject (.obj fs r i) b
  | .ref n p o k =>
    if b.isUnmergeable then mergedWithUnmergeable (.ref n p o k) b
    else mergedWithNonObject (.ref n p o k) b
  | .concat ps =>
    if b.isUnmergeable then mergedWithUnmergeable (.concat ps) b
    else mergedWithNonObject (.concat ps) b
  | .dm st =>
    if ignoresLast st then .ok (.dm st)
    else if b.isUnmergeable then mergedWithUnmergeable (.dm st) b
    else mergedWithNonObject (.dm st) b
  | .dmo st =>
    if ignoresLast st then .ok (.dmo st)
    else if b.isUnmergeable then mergedWithUnmergeable (.dmo st) b
    else if b.isObject then .err .config
    else mergedWithNonObject (.dmo st) b
/-- The loop over the keys of `simple_config_object::merged_with_object`, simple_config_object.cc
374-405, restricted to our own keys: a key that only we have is kept, a key both have is merged. -/
def mergeFields : Fields → Fields → Res Fields
  | [], _ => .ok []
  | (k, v) :: fs, gs => do
    let kept ← (match findKey gs k with
      | none => Res.ok v
      | some w => withFallback v w)
    let rest ← mergeFields fs gs
    .ok ((k, kept) :: rest)
end

/-- `config::with_fallback`, config.cc 496-502 (on the root objects). -/
def configWithFallback (a b : Value) : Res Value := do
  let c ← withFallback a b
  if c.isObject then .ok c else .err .bug

end Value
end Hocon
