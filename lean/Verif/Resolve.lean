import Verif.Access
import Verif.Concat

/-!
# Resolution of substitutions

Model of `lib/src/resolve_context.cc`, `lib/src/resolve_source.cc` and of the
`resolve_substitutions` and `replace_child` functions of the value classes.

Simplifications, valid for all definitions of this file:

* The C++ compares values by address. The model compares trees (`=`); two references are the same
  only if their `id`s, which stand for the addresses, are equal. An unresolved container contains a
  reference, so two unresolved containers are equal only if they hold the very same references.
* The memo table of `resolve_context` is left out. It is emptied whenever a reference is entered or
  left (resolve_context.cc 92, 100) and looked up by address only (38), so it can only answer for
  a value that is stored at two places of the same tree, which parsed trees never contain.
* `resolve_result`s are pairs of a context and a value, `none` being the null pointer.
-/

set_option autoImplicit false

namespace Hocon
namespace Resolve

/-- `config_resolve_options`, config_resolve_options.hpp. -/
structure Options where
  /-- `_use_system_environment` -/
  useEnv : Bool
  /-- `_allow_unresovled` -/
  allowUnresolved : Bool
  deriving DecidableEq, Repr

/-- The default arguments of the constructor, config_resolve_options.hpp 38. -/
def Options.default : Options := ⟨true, false⟩

/-- `set_use_system_environment`, config_resolve_options.cc 8-10. -/
def Options.setUseEnv (o : Options) (b : Bool) : Options := ⟨b, o.allowUnresolved⟩

/-- `set_allow_unresolved`, config_resolve_options.cc 16-18. -/
def Options.setAllowUnresolved (o : Options) (b : Bool) : Options := ⟨o.useEnv, b⟩

/-- `resolve_context`, resolve_context.hpp 45-49 (without the memos). Only references are ever
used as cycle markers (config_reference.cc 48), so a marker is the `id` of a reference. -/
structure Ctx where
  opts : Options
  /-- `_restrict_to_child` -/
  restr : Path
  /-- `_cycle_markers` -/
  marks : List Nat
  deriving DecidableEq, Repr

/-- `restrict`, resolve_context.cc 103-109. -/
def Ctx.restrict (c : Ctx) (p : Path) : Ctx := { c with restr := p }

/-- The part of `add_cycle_marker` after its check, resolve_context.cc 90-92. -/
def Ctx.mark (c : Ctx) (id : Nat) : Ctx := { c with marks := c.marks ++ [id] }

/-- `remove_cycle_marker`, resolve_context.cc 95-101. -/
def Ctx.unmark (c : Ctx) (id : Nat) : Ctx := { c with marks := c.marks.filter (· != id) }

/-- A `resolve_context` that has been moved from (implicit move constructor): the options are two
`bool`s and stay, the path and the vector of markers are empty afterwards. -/
def Ctx.movedFrom (c : Ctx) : Ctx := { c with restr := [], marks := [] }

/-- `resolve_source`, resolve_source.hpp: `_root` (possibly null) and `_path_from_root`, innermost
container first. -/
structure Source where
  root : Option Value
  path : List Value

/-- `dynamic_pointer_cast<const config_object>`. -/
def asObject (v : Value) : Option Value := if v.isObject then some v else none

/-- `dynamic_pointer_cast<const container>` succeeds: lists, objects, concatenations and delayed
merges. -/
def isContainer : Value → Bool
  | .scalar _ => false
  | .ref .. => false
  | _ => true

/-- `push_parent`, resolve_source.cc 23-40 (the parent is never null). -/
def Source.push (s : Source) (parent : Value) : Source :=
  if s.path.isEmpty then
    if asObject parent = s.root then ⟨s.root, [parent]⟩ else s
  else ⟨s.root, parent :: s.path⟩

/-- `replace_child_in_list`, config_value.cc 131-144; `none` = the child is not in the list and
the end iterator is dereferenced or erased (the assertion compares iterators of two different
vectors). -/
def replaceInList (child : Value) (repl : Option Value) : List Value → Option (List Value)
  | [] => none
  | v :: vs =>
    if v = child then
      some (match repl with
        | some r => r :: vs
        | none => vs)
    else (replaceInList child repl vs).map (v :: ·)

/-- The loop of `simple_config_object::replace_child`, simple_config_object.cc 282-296; `none` =
the child was not found. -/
def replaceInFields (child : Value) (repl : Option Value) : Fields → Option Fields
  | [] => none
  | (k, v) :: fs =>
    if v = child then
      some (match repl with
        | some r => (k, r) :: fs
        | none => fs)
    else (replaceInFields child repl fs).map ((k, v) :: ·)

/-- `replace_child` of the containers; `none` = null pointer. simple_config_object.cc 279-298,
simple_config_list.cc 44-52, config_concatenation.cc 56-63, config_delayed_merge.cc 130-138,
config_delayed_merge_object.cc 168-176 (which builds a `config_delayed_merge`). Other values are no
containers. -/
def replaceChild (parent child : Value) (repl : Option Value) : Res (Option Value) :=
  match parent with
  | .obj fs _ i =>
    match replaceInFields child repl fs with
    | none => .err .bug
    | some gs => .ok (some (.obj gs (Value.resolvedFields gs) i))
  | .list vs =>
    match replaceInList child repl vs with
    | none => .ub
    | some ws => if ws.isEmpty then .ok none else .ok (some (.list ws))
  | .concat ps =>
    match replaceInList child repl ps with
    | none => .ub
    | some ws => if ws.isEmpty then .ok none else (Value.mkConcat ws).bind fun v => .ok (some v)
  | .dm st =>
    match replaceInList child repl st with
    | none => .ub
    | some ws => if ws.isEmpty then .ok none else (Value.mkDm ws).bind fun v => .ok (some v)
  | .dmo st =>
    match replaceInList child repl st with
    | none => .ub
    | some ws => if ws.isEmpty then .ok none else (Value.mkDm ws).bind fun v => .ok (some v)
  | _ => .ub

/-- `dynamic_pointer_cast<const container>` of a possibly null value. -/
def asContainer : Option Value → Option Value
  | none => none
  | some v => if isContainer v then some v else none

/-- `resolve_source::replace`, resolve_source.cc 169-209. The first container of the path is the
one replaced (172-174 never throws: it is called with the first container). -/
def replacePath : List Value → Option Value → Res (List Value)
  | [], _ => .ub
  | [_], repl =>
    match asContainer repl with
    | none => .ok []
    | some r => .ok [r]
  | old :: parent :: rest, repl =>
    match asContainer repl with
    | none => (replaceChild parent old none).bind fun np => replacePath (parent :: rest) np
    | some r => (replaceChild parent old (some r)).bind fun np =>
      (replacePath (parent :: rest) np).bind fun tail => .ok (r :: tail)

/-- `resolve_source(new_path.back(), new_path)` or an empty object, resolve_source.cc 48-52, after
`reset_parents`. -/
def rootOfPath (p : List Value) : Option Value :=
  match p.getLast? with
  | none => some Value.empty
  | some v => asObject v

/-- `replace_within_current_parent` (resolve_source.cc 62-78) with `replace_current_parent` (42-60),
followed by `reset_parents` (80-87): only the new root is left of the result. `old` is a delayed
merge and `repl` a merge of fewer values, so the tests `old == replacement` (44, 64) fail; they
would also fail for the parent, which `replace_child` rebuilds. -/
def Source.replaceWithin (s : Source) (old : Value) (repl : Option Value) : Res Source :=
  match s.path with
  | parent :: rest =>
    (replaceChild parent old repl).bind fun np =>
      (replacePath (parent :: rest) (asContainer np)).bind fun p => .ok ⟨rootOfPath p, []⟩
  | [] =>
    match asContainer repl with
    | none => .err .bug
    | some r => if some old = s.root then .ok ⟨some (if r.isObject then r else Value.empty), []⟩
      else .err .bug

/-- `find_in_object(obj, path, parents)`, resolve_source.cc 141-158: the value found (`none` = null)
and the containers passed, innermost first. `*key` of an empty path is a null dereference. The
exceptions that `attempt_peek_with_partial_resolve` throws keep their class (133-139). -/
def findPeek : Value → Path → List Value → Res (Option Value × List Value)
  | _, [], _ => .ub
  | v, k :: next, parents =>
    (Value.attemptPeek v k).bind fun o =>
      if next.isEmpty then .ok (o, v :: parents)
      else match o with
        | some w => if w.isObject then findPeek w next (v :: parents) else .ok (none, v :: parents)
        | none => .ok (none, v :: parents)

/-- A function that resolves a value: `resolve_context::resolve`. -/
abbrev Resolver := Ctx → Source → Value → Res (Ctx × Option Value)

/-- `find_in_object(obj, context, path)`, resolve_source.cc 109-122. -/
def findInObject (rec : Resolver) (obj : Option Value) (c : Ctx) (p : Path) :
    Res (Ctx × Option Value × List Value) :=
  match obj with
  | none => .ub
  | some o =>
    (rec (c.restrict p) ⟨some o, []⟩ o).bind fun r =>
      match r.2 with
      | none => .err .bug
      | some v =>
        if v.isObject then
          (findPeek v p []).bind fun f => .ok (r.1.restrict c.restr, f.1, f.2)
        else .err .bug

/-- `find_in_object` on the object of environment variables (config.cc 561-570): it is flat and
resolved, so a path with one key finds a variable and a longer one nothing. -/
def findEnv (env : Env) : Path → Res (Option Value)
  | [] => .ub
  | [k] => .ok ((env.getenv k).map fun s => .scalar (.str s true))
  | _ :: _ :: _ => .ok none

/-- The second half of `lookup_subst`, resolve_source.cc 101-103: the environment is searched with
the context that line 92 has moved from. The containers passed do not matter, because an
environment variable is a string and resolves to itself. -/
def lookupEnv (env : Env) (c : Ctx) (p : Path) (r : Ctx × Option Value × List Value) :
    Res (Ctx × Option Value × List Value) :=
  if r.2.1.isNone && c.opts.useEnv then
    (findEnv env p).bind fun v => .ok (c.movedFrom, v, [])
  else .ok r

/-- `lookup_subst`, resolve_source.cc 89-107. -/
def lookupSubst (env : Env) (rec : Resolver) (root : Option Value) (c : Ctx) (p : Path) (pre : Nat) :
    Res (Ctx × Option Value × List Value) :=
  (findInObject rec root c p).bind fun r =>
    if r.2.1.isNone then
      if pre > 0 then
        (findInObject rec root r.1 (PathM.subPath pre p)).bind (lookupEnv env c (PathM.subPath pre p))
      else lookupEnv env c (PathM.subPath pre p) r
    else .ok r

/-- The `catch` of config_reference.cc 63-69: `c` is what `new_context` holds at that point. -/
def catchCycle (opt : Bool) (c : Ctx) (r : Res (Ctx × Option Value)) : Res (Ctx × Option Value) :=
  match r with
  | .err .notPossible => if opt then .ok (c, none) else .err .config
  | r => r

/-- The end of `config_reference::resolve_substitutions`, config_reference.cc 71-79. -/
def finishRef (self : Value) (id : Nat) (opt : Bool) (r : Ctx × Option Value) :
    Res (Ctx × Option Value) :=
  match r.2 with
  | some v => .ok (r.1.unmark id, some v)
  | none =>
    if opt then .ok (r.1.unmark id, none)
    else if r.1.opts.allowUnresolved then .ok (r.1.unmark id, some self)
    else .err .unresolvedSubst

/-- The second half of the `try` block, config_reference.cc 53-62. -/
def resolveFound (rec : Resolver) (opt : Bool) (l : Ctx × Option Value × List Value) :
    Res (Ctx × Option Value) :=
  match l.2.1 with
  | none => .ok (l.1, none)
  | some v => catchCycle opt l.1 (rec l.1 ⟨l.2.2.getLast?.bind asObject, l.2.2⟩ v)

/-- The `try` block, config_reference.cc 51-69. An exception thrown inside `lookup_subst` (52) finds
`new_context` moved from; one thrown by the second resolve (57) finds the context of the lookup. -/
def tryRef (env : Env) (rec : Resolver) (c : Ctx) (s : Source) (p : Path) (opt : Bool) (pre : Nat) :
    Res (Ctx × Option Value) :=
  match lookupSubst env rec s.root c p pre with
  | .ok l => resolveFound rec opt l
  | .err e => catchCycle opt c.movedFrom (.err e)
  | .ub => .ub
  | .fuel => .fuel

/-- `config_reference::resolve_substitutions`, config_reference.cc 47-80, with the check of
`add_cycle_marker` (resolve_context.cc 86-88). -/
def resolveRef (env : Env) (rec : Resolver) (c : Ctx) (s : Source) (id : Nat) (p : Path) (opt : Bool)
    (pre : Nat) : Res (Ctx × Option Value) :=
  if id ∈ c.marks then .err .config
  else (tryRef env rec (c.mark id) s p opt pre).bind (finishRef (.ref id p opt pre) id opt)

/-- `resolve_modifier::modify_child_may_throw` of objects, simple_config_object.cc 26-47. -/
def resolveChild (rec : Resolver) (orig : Path) (c : Ctx) (s : Source) (k : Str) (v : Value) :
    Res (Ctx × Option Value) :=
  match c.restr with
  | [] => (rec (c.restrict []) s v).bind fun r => .ok (r.1.restrict orig, r.2)
  | key :: remainder =>
    if k = key then
      if remainder.isEmpty then .ok (c, some v)
      else (rec (c.restrict remainder) s v).bind fun r => .ok (r.1.restrict orig, r.2)
    else .ok (c, some v)

/-- The first loop of `simple_config_object::modify_may_throw`, simple_config_object.cc 231-239. -/
def resolveFields (rec : Resolver) (orig : Path) (s : Source) :
    Ctx → Fields → Res (Ctx × List (Str × Option Value))
  | c, [] => .ok (c, [])
  | c, (k, v) :: fs =>
    (resolveChild rec orig c s k v).bind fun r =>
      (resolveFields rec orig s r.1 fs).bind fun rest => .ok (rest.1, (k, r.2) :: rest.2)

/-- The fields that are left, simple_config_object.cc 247-268. -/
def keptFields : List (Str × Option Value) → Fields
  | [] => []
  | (k, some v) :: fs => (k, v) :: keptFields fs
  | (_, none) :: fs => keptFields fs

/-- The second half of `modify_may_throw`, simple_config_object.cc 241-270: the object itself if
nothing changed. -/
def modifiedObject (fs : Fields) (res ign : Bool) (new : List (Str × Option Value)) : Value :=
  if new = fs.map (fun f => (f.1, some f.2)) then .obj fs res ign
  else .obj (keptFields new) (Value.resolvedFields (keptFields new)) ign

/-- `simple_config_object::resolve_substitutions`, simple_config_object.cc 204-216. -/
def resolveObject (rec : Resolver) (c : Ctx) (s : Source) (fs : Fields) (res ign : Bool) :
    Res (Ctx × Option Value) :=
  if res then .ok (c, some (.obj fs res ign))
  else (resolveFields rec c.restr (s.push (.obj fs res ign)) c fs).bind fun r =>
    .ok (r.1, some (modifiedObject fs res ign r.2))

/-- The modified elements, simple_config_list.cc 190-191 with 22-27. -/
def resolveElems (rec : Resolver) (s : Source) : Ctx → List Value → Res (Ctx × List (Option Value))
  | c, [] => .ok (c, [])
  | c, v :: vs =>
    (rec c s v).bind fun r =>
      (resolveElems rec s r.1 vs).bind fun rest => .ok (rest.1, r.2 :: rest.2)

/-- The rest of the loop of `simple_config_list::modify_may_throw`, simple_config_list.cc 193-204:
`before` are the original elements before the current one, `init` and `changed` the C++ variables.
The test for `changed.empty()` is true again after a leading element has been dropped. -/
def changedElems (before : List Value) (init : Bool) (changed : List Value) :
    List (Value × Option Value) → Bool × List Value
  | [] => (init, changed)
  | (old, new) :: rest =>
    if changed.isEmpty && new != some old then
      changedElems (before ++ [old]) true (before ++ new.toList) rest
    else if init then changedElems (before ++ [old]) init (changed ++ new.toList) rest
    else changedElems (before ++ [old]) init changed rest

/-- The end of `modify_may_throw`, simple_config_list.cc 207-215, with the status check of the
constructor (37-42): the expected status is `RESOLVED` unless unresolved values are allowed. -/
def modifiedList (allowUnresolved : Bool) (vs : List Value) (new : List (Option Value)) : Res Value :=
  match changedElems [] false [] (vs.zip new) with
  | (false, _) => .ok (.list vs)
  | (true, ws) => if allowUnresolved || (Value.list ws).resolved then .ok (.list ws) else .err .config

/-- `simple_config_list::resolve_substitutions`, simple_config_list.cc 59-73. -/
def resolveList (rec : Resolver) (c : Ctx) (s : Source) (vs : List Value) : Res (Ctx × Option Value) :=
  if (Value.list vs).resolved then .ok (c, some (.list vs))
  else if !c.restr.isEmpty then .ok (c, some (.list vs))
  else (resolveElems rec (s.push (.list vs)) c vs).bind fun r =>
    (modifiedList c.opts.allowUnresolved vs r.2).bind fun v => .ok (r.1, some v)

/-- The loop of `config_concatenation::resolve_substitutions`, config_concatenation.cc 81-94. -/
def resolvePieces (rec : Resolver) (s : Source) : Ctx → List Value → Res (Ctx × List Value)
  | c, [] => .ok (c, [])
  | c, p :: ps =>
    (rec (c.restrict []) s p).bind fun r =>
      (resolvePieces rec s (r.1.restrict c.restr) ps).bind fun rest =>
        .ok (rest.1, r.2.toList ++ rest.2)

/-- The end of `config_concatenation::resolve_substitutions`, config_concatenation.cc 96-109. -/
def joinedPieces (allowUnresolved : Bool) (joined : List Value) : Res (Option Value) :=
  match joined with
  | [] => .ok none
  | [v] => .ok (some v)
  | vs => if allowUnresolved then (Value.mkConcat vs).bind fun v => .ok (some v) else .err .config

/-- `config_concatenation::resolve_substitutions`, config_concatenation.cc 69-110. -/
def resolveConcat (env : Env) (rec : Resolver) (c : Ctx) (s : Source) (ps : List Value) :
    Res (Ctx × Option Value) :=
  (resolvePieces rec s c ps).bind fun r =>
    (Value.consolidate env r.2).bind fun joined =>
      (joinedPieces c.opts.allowUnresolved joined).bind fun v => .ok (r.1, v)

/-- The loop of `make_replacement`, config_delayed_merge.cc 46-53. -/
def mergeAll : Value → List Value → Res Value
  | v, [] => .ok v
  | v, w :: ws => (Value.withFallback v w).bind fun m => mergeAll m ws

/-- `make_replacement` on the values that are left, config_delayed_merge.cc 37-56. -/
def makeReplacement : List Value → Res (Option Value)
  | [] => .ok none
  | v :: vs => (mergeAll v vs).bind fun m => .ok (some m)

/-- The source for one value of the stack, config_delayed_merge.cc 82-98; `rest` are the values
behind it. -/
def sourceForEnd (self : Value) (s : Source) (v : Value) (rest : List Value) : Res Source :=
  if v.isDelayed then .err .bug
  else if v.isUnmergeable then
    (makeReplacement rest).bind fun r => s.replaceWithin self r
  else .ok (s.push self)

/-- config_delayed_merge.cc 106-113. -/
def mergeEnd (merged new : Option Value) : Res (Option Value) :=
  match merged, new with
  | m, none => .ok m
  | none, some v => .ok (some v)
  | some m, some v => (Value.withFallback m v).bind fun w => .ok (some w)

/-- The loop of `config_delayed_merge::resolve_substitutions`, config_delayed_merge.cc 81-119. -/
def resolveStack (rec : Resolver) (self : Value) (s : Source) :
    Ctx → Option Value → List Value → Res (Ctx × Option Value)
  | c, merged, [] => .ok (c, merged)
  | c, merged, v :: rest =>
    (sourceForEnd self s v rest).bind fun s' =>
      (rec c s' v).bind fun r =>
        (mergeEnd merged r.2).bind fun m => resolveStack rec self s r.1 m rest

/-- `resolve_substitutions`: config_value.cc 124-129 (scalars) and the overrides. -/
def resolveSubstitutions (env : Env) (rec : Resolver) (c : Ctx) (s : Source) (v : Value) :
    Res (Ctx × Option Value) :=
  match v with
  | .scalar x => .ok (c, some (.scalar x))
  | .list vs => resolveList rec c s vs
  | .obj fs r i => resolveObject rec c s fs r i
  | .ref id p opt pre => resolveRef env rec c s id p opt pre
  | .concat ps => resolveConcat env rec c s ps
  | .dm st => resolveStack rec (.dm st) s c none st
  | .dmo st => resolveStack rec (.dmo st) s c none st

/-- The cycle check of `resolve_context::resolve`, resolve_context.cc 54-56. -/
def isMarked (c : Ctx) : Value → Bool
  | .ref id _ _ _ => c.marks.contains id
  | _ => false

/-- The checks on the result, resolve_context.cc 62-75. (`restricted_key` is set whenever the
context is restricted, so the exception of line 67 is not thrown.) -/
def checkResult (c : Ctx) (r : Ctx × Option Value) : Res (Ctx × Option Value) :=
  match r.2 with
  | none => .ok r
  | some v =>
    if v.resolved || !c.restr.isEmpty || c.opts.allowUnresolved then .ok r else .err .bug

/-- `resolve_context::resolve`, resolve_context.cc 32-79. The recursion of the C++ is not bounded:
the model stops with `fuel` after `n` nested calls. -/
def resolveN (env : Env) : Nat → Resolver
  | 0, _, _, _ => .fuel
  | n + 1, c, s, v =>
    if isMarked c v then .err .notPossible
    else (resolveSubstitutions env (resolveN env n) c s v).bind (checkResult c)

/-- The static `resolve_context::resolve`, resolve_context.cc 115-120. -/
def resolveTop (env : Env) (n : Nat) (v root : Value) (o : Options) : Res (Option Value) :=
  (resolveN env n ⟨o, [], []⟩ ⟨some root, []⟩ v).bind fun r => .ok r.2

/-- `config::resolve_with`, config.cc 73-81: the root object of the result, `none` if it is a null
pointer. -/
def configResolveWith (env : Env) (n : Nat) (self source : Value) (o : Options) :
    Res (Option Value) :=
  (resolveTop env n self source o).bind fun r => .ok (r.bind asObject)

/-- `config::resolve`, config.cc 61-67. -/
def configResolve (env : Env) (n : Nat) (self : Value) (o : Options) : Res (Option Value) :=
  configResolveWith env n self self o

end Resolve
end Hocon
