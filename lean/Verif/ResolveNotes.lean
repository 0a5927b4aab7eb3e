import Verif.Resolve
import Verif.AccessNotes
import Verif.IncludeNotes

/-!
# Resolution of substitutions with origins

`Verif/Resolve.lean` on values that carry their origins: `lib/src/resolve_context.cc`,
`lib/src/resolve_source.cc` and the `resolve_substitutions` and `replace_child` functions of the value
classes. That both models give the same values is proved in `Verif/Lemmas/ResolveErase.lean`.

The simplifications of `Verif/Resolve.lean` apply. Where the C++ compares addresses the values without
origins are compared, as there.
-/

set_option autoImplicit false

namespace Hocon
namespace ResolveA

open Notes Resolve

/-- `resolve_source`, resolve_source.hpp, as `Resolve.Source`. -/
structure ASource where
  root : Option AVal
  path : List AVal

/-- `dynamic_pointer_cast<const config_object>`. -/
def asObjectA (v : AVal) : Option AVal := if v.erase.isObject then some v else none

/-- `push_parent`, resolve_source.cc 23-40. -/
def ASource.push (s : ASource) (parent : AVal) : ASource :=
  if s.path.isEmpty then
    if (asObjectA parent).map AVal.erase = s.root.map AVal.erase then ⟨s.root, [parent]⟩ else s
  else ⟨s.root, parent :: s.path⟩

/-- `replace_child_in_list`, config_value.cc 131-144. -/
def replaceInListA (child : AVal) (repl : Option AVal) : List AVal → Option (List AVal)
  | [] => none
  | v :: vs =>
    if v.erase = child.erase then
      some (match repl with
        | some r => r :: vs
        | none => vs)
    else (replaceInListA child repl vs).map (v :: ·)

/-- The loop of `simple_config_object::replace_child`, simple_config_object.cc 282-296. -/
def replaceInFieldsA (child : AVal) (repl : Option AVal) : AFields → Option AFields
  | [] => none
  | (k, v) :: fs =>
    if v.erase = child.erase then
      some (match repl with
        | some r => (k, r) :: fs
        | none => fs)
    else (replaceInFieldsA child repl fs).map ((k, v) :: ·)

/-- The constructor of `config_delayed_merge`, config_delayed_merge.cc 18-30, as `Value.mkDm`. -/
def mkDmA (o : Origin) (st : List AVal) : Res AVal :=
  if st.isEmpty then .err .config else .ok (.dm o st)

/-- The constructor of `config_concatenation`, config_concatenation.cc 22-42, as `Value.mkConcat`. -/
def mkConcatA (o : Origin) (ps : List AVal) : Res AVal :=
  if ps.length < 2 then .err .config
  else if ps.any (fun v => v.erase.isConcat) then .err .config
  else if ps.any (fun v => v.erase.isUnmergeable) then .ok (.concat o ps)
  else .err .config

/-- `replace_child` of the containers: the new container has the origin of the old one.
simple_config_object.cc 279-298, simple_config_list.cc 44-52, config_concatenation.cc 56-63,
config_delayed_merge.cc 130-138, config_delayed_merge_object.cc 168-176. -/
def replaceChildA (parent child : AVal) (repl : Option AVal) : Res (Option AVal) :=
  match parent with
  | .obj o fs _ i =>
    match replaceInFieldsA child repl fs with
    | none => .err .bug
    | some gs => .ok (some (.obj o gs (gs.all fun f => f.2.erase.resolved) i))
  | .list o vs =>
    match replaceInListA child repl vs with
    | none => .ub
    | some ws => if ws.isEmpty then .ok none else .ok (some (.list o ws))
  | .concat o ps =>
    match replaceInListA child repl ps with
    | none => .ub
    | some ws => if ws.isEmpty then .ok none else (mkConcatA o ws).bind fun v => .ok (some v)
  | .dm o st =>
    match replaceInListA child repl st with
    | none => .ub
    | some ws => if ws.isEmpty then .ok none else (mkDmA o ws).bind fun v => .ok (some v)
  | .dmo o st =>
    match replaceInListA child repl st with
    | none => .ub
    | some ws => if ws.isEmpty then .ok none else (mkDmA o ws).bind fun v => .ok (some v)
  | _ => .ub

/-- `dynamic_pointer_cast<const container>` of a possibly null value. -/
def asContainerA : Option AVal → Option AVal
  | none => none
  | some v => if isContainer v.erase then some v else none

/-- `resolve_source::replace`, resolve_source.cc 169-209. -/
def replacePathA : List AVal → Option AVal → Res (List AVal)
  | [], _ => .ub
  | [_], repl =>
    match asContainerA repl with
    | none => .ok []
    | some r => .ok [r]
  | old :: parent :: rest, repl =>
    match asContainerA repl with
    | none => (replaceChildA parent old none).bind fun np => replacePathA (parent :: rest) np
    | some r => (replaceChildA parent old (some r)).bind fun np =>
      (replacePathA (parent :: rest) np).bind fun tail => .ok (r :: tail)

/-- The new root, resolve_source.cc 48-52 with 80-87. The empty object has the origin `empty config`
(simple_config_object.cc 346-348). -/
def rootOfPathA (p : List AVal) : Option AVal :=
  match p.getLast? with
  | none => some FilesA.emptyA
  | some v => asObjectA v

/-- `replace_within_current_parent` (resolve_source.cc 62-78) with `replace_current_parent` (42-60),
`root_must_be_obj` (160-167) and `reset_parents` (80-87). -/
def ASource.replaceWithin (s : ASource) (old : AVal) (repl : Option AVal) : Res ASource :=
  match s.path with
  | parent :: rest =>
    (replaceChildA parent old repl).bind fun np =>
      (replacePathA (parent :: rest) (asContainerA np)).bind fun p => .ok ⟨rootOfPathA p, []⟩
  | [] =>
    match asContainerA repl with
    | none => .err .bug
    | some r =>
      if some old.erase = s.root.map AVal.erase then
        .ok ⟨some (if r.erase.isObject then r else FilesA.emptyA), []⟩
      else .err .bug

/-- `find_in_object(obj, path, parents)`, resolve_source.cc 141-158. -/
def findPeekA : AVal → Path → List AVal → Res (Option AVal × List AVal)
  | _, [], _ => .ub
  | v, k :: next, parents =>
    (attemptPeekA v k).bind fun o =>
      if next.isEmpty then .ok (o, v :: parents)
      else match o with
        | some w => if w.erase.isObject then findPeekA w next (v :: parents) else .ok (none, v :: parents)
        | none => .ok (none, v :: parents)

/-- A function that resolves a value: `resolve_context::resolve`. -/
abbrev AResolver := Ctx → ASource → AVal → Res (Ctx × Option AVal)

/-- `find_in_object(obj, context, path)`, resolve_source.cc 109-122. -/
def findInObjectA (rec : AResolver) (obj : Option AVal) (c : Ctx) (p : Path) :
    Res (Ctx × Option AVal × List AVal) :=
  match obj with
  | none => .ub
  | some o =>
    (rec (c.restrict p) ⟨some o, []⟩ o).bind fun r =>
      match r.2 with
      | none => .err .bug
      | some v =>
        if v.erase.isObject then
          (findPeekA v p []).bind fun f => .ok (r.1.restrict c.restr, f.1, f.2)
        else .err .bug

/-- The origin of an environment variable, config.cc 564. -/
def envOrigin (k : Str) : Origin := FilesA.source (ch "env var " ++ k)

/-- `find_in_object` on the object of environment variables (config.cc 561-570). -/
def findEnvA (env : Env) : Path → Res (Option AVal)
  | [] => .ub
  | [k] => .ok ((env.getenv k).map fun s => .scalar (envOrigin k) (.str s true))
  | _ :: _ :: _ => .ok none

/-- The second half of `lookup_subst`, resolve_source.cc 101-103. -/
def lookupEnvA (env : Env) (c : Ctx) (p : Path) (r : Ctx × Option AVal × List AVal) :
    Res (Ctx × Option AVal × List AVal) :=
  if r.2.1.isNone && c.opts.useEnv then
    (findEnvA env p).bind fun v => .ok (c.movedFrom, v, [])
  else .ok r

/-- `lookup_subst`, resolve_source.cc 89-107. -/
def lookupSubstA (env : Env) (rec : AResolver) (root : Option AVal) (c : Ctx) (p : Path) (pre : Nat) :
    Res (Ctx × Option AVal × List AVal) :=
  (findInObjectA rec root c p).bind fun r =>
    if r.2.1.isNone then
      if pre > 0 then
        (findInObjectA rec root r.1 (PathM.subPath pre p)).bind (lookupEnvA env c (PathM.subPath pre p))
      else lookupEnvA env c (PathM.subPath pre p) r
    else .ok r

/-- The `catch` of config_reference.cc 63-69. -/
def catchCycleA (opt : Bool) (c : Ctx) (r : Res (Ctx × Option AVal)) : Res (Ctx × Option AVal) :=
  match r with
  | .err .notPossible => if opt then .ok (c, none) else .err .config
  | r => r

/-- The end of `config_reference::resolve_substitutions`, config_reference.cc 71-79. -/
def finishRefA (self : AVal) (id : Nat) (opt : Bool) (r : Ctx × Option AVal) :
    Res (Ctx × Option AVal) :=
  match r.2 with
  | some v => .ok (r.1.unmark id, some v)
  | none =>
    if opt then .ok (r.1.unmark id, none)
    else if r.1.opts.allowUnresolved then .ok (r.1.unmark id, some self)
    else .err .unresolvedSubst

/-- The second half of the `try` block, config_reference.cc 53-62. -/
def resolveFoundA (rec : AResolver) (opt : Bool) (l : Ctx × Option AVal × List AVal) :
    Res (Ctx × Option AVal) :=
  match l.2.1 with
  | none => .ok (l.1, none)
  | some v => catchCycleA opt l.1 (rec l.1 ⟨l.2.2.getLast?.bind asObjectA, l.2.2⟩ v)

/-- The `try` block, config_reference.cc 51-69. -/
def tryRefA (env : Env) (rec : AResolver) (c : Ctx) (s : ASource) (p : Path) (opt : Bool) (pre : Nat) :
    Res (Ctx × Option AVal) :=
  match lookupSubstA env rec s.root c p pre with
  | .ok l => resolveFoundA rec opt l
  | .err e => catchCycleA opt c.movedFrom (.err e)
  | .ub => .ub
  | .fuel => .fuel

/-- `config_reference::resolve_substitutions`, config_reference.cc 47-80: the value found keeps its
origin; `o` is the origin of the reference, which is left if unresolved substitutions are allowed. -/
def resolveRefA (env : Env) (rec : AResolver) (c : Ctx) (s : ASource) (o : Origin) (id : Nat) (p : Path)
    (opt : Bool) (pre : Nat) : Res (Ctx × Option AVal) :=
  if id ∈ c.marks then .err .config
  else (tryRefA env rec (c.mark id) s p opt pre).bind (finishRefA (.ref o id p opt pre) id opt)

/-- `resolve_modifier::modify_child_may_throw` of objects, simple_config_object.cc 26-47. -/
def resolveChildA (rec : AResolver) (orig : Path) (c : Ctx) (s : ASource) (k : Str) (v : AVal) :
    Res (Ctx × Option AVal) :=
  match c.restr with
  | [] => (rec (c.restrict []) s v).bind fun r => .ok (r.1.restrict orig, r.2)
  | key :: remainder =>
    if k = key then
      if remainder.isEmpty then .ok (c, some v)
      else (rec (c.restrict remainder) s v).bind fun r => .ok (r.1.restrict orig, r.2)
    else .ok (c, some v)

/-- The first loop of `simple_config_object::modify_may_throw`, simple_config_object.cc 231-239. -/
def resolveFieldsA (rec : AResolver) (orig : Path) (s : ASource) :
    Ctx → AFields → Res (Ctx × List (Str × Option AVal))
  | c, [] => .ok (c, [])
  | c, (k, v) :: fs =>
    (resolveChildA rec orig c s k v).bind fun r =>
      (resolveFieldsA rec orig s r.1 fs).bind fun rest => .ok (rest.1, (k, r.2) :: rest.2)

/-- The fields that are left, simple_config_object.cc 247-268. -/
def keptFieldsA : List (Str × Option AVal) → AFields
  | [] => []
  | (k, some v) :: fs => (k, v) :: keptFieldsA fs
  | (_, none) :: fs => keptFieldsA fs

/-- The second half of `modify_may_throw`, simple_config_object.cc 241-270: the origin stays. If no value
has changed the new fields are the old ones; a value that changed its origin only (a merge built anew)
counts as unchanged for the status, as in `Resolve.modifiedObject`. -/
def modifiedObjectA (o : Origin) (fs : AFields) (res ign : Bool) (new : List (Str × Option AVal)) : AVal :=
  .obj o (keptFieldsA new)
    (if new.map (fun f => (f.1, f.2.map AVal.erase)) = fs.map (fun f => (f.1, some f.2.erase)) then res
      else (keptFieldsA new).all fun f => f.2.erase.resolved) ign

/-- `simple_config_object::resolve_substitutions`, simple_config_object.cc 204-216. -/
def resolveObjectA (rec : AResolver) (c : Ctx) (s : ASource) (o : Origin) (fs : AFields) (res ign : Bool) :
    Res (Ctx × Option AVal) :=
  if res then .ok (c, some (.obj o fs res ign))
  else (resolveFieldsA rec c.restr (s.push (.obj o fs res ign)) c fs).bind fun r =>
    .ok (r.1, some (modifiedObjectA o fs res ign r.2))

/-- The modified elements, simple_config_list.cc 190-191 with 22-27. -/
def resolveElemsA (rec : AResolver) (s : ASource) : Ctx → List AVal → Res (Ctx × List (Option AVal))
  | c, [] => .ok (c, [])
  | c, v :: vs =>
    (rec c s v).bind fun r =>
      (resolveElemsA rec s r.1 vs).bind fun rest => .ok (rest.1, r.2 :: rest.2)

/-- The rest of the loop of `simple_config_list::modify_may_throw`, simple_config_list.cc 193-204, as
`Resolve.changedElems`: an element that changed its origin only counts as unchanged, which is a
simplification. -/
def changedElemsA (before : List AVal) (init : Bool) (changed : List AVal) :
    List (AVal × Option AVal) → Bool × List AVal
  | [] => (init, changed)
  | (old, new) :: rest =>
    if changed.isEmpty && new.map AVal.erase != some old.erase then
      changedElemsA (before ++ [old]) true (before ++ new.toList) rest
    else if init then changedElemsA (before ++ [old]) init (changed ++ new.toList) rest
    else changedElemsA (before ++ [old]) init changed rest

/-- The end of `modify_may_throw`, simple_config_list.cc 207-215: the origin stays. -/
def modifiedListA (allowUnresolved : Bool) (o : Origin) (vs : List AVal) (new : List (Option AVal)) : Res AVal :=
  match changedElemsA [] false [] (vs.zip new) with
  | (false, _) => .ok (.list o vs)
  | (true, ws) =>
    if allowUnresolved || (AVal.list o ws).erase.resolved then .ok (.list o ws) else .err .config

/-- `simple_config_list::resolve_substitutions`, simple_config_list.cc 59-73. -/
def resolveListA (rec : AResolver) (c : Ctx) (s : ASource) (o : Origin) (vs : List AVal) :
    Res (Ctx × Option AVal) :=
  if (AVal.list o vs).erase.resolved then .ok (c, some (.list o vs))
  else if !c.restr.isEmpty then .ok (c, some (.list o vs))
  else (resolveElemsA rec (s.push (.list o vs)) c vs).bind fun r =>
    (modifiedListA c.opts.allowUnresolved o vs r.2).bind fun v => .ok (r.1, some v)

/-- The loop of `config_concatenation::resolve_substitutions`, config_concatenation.cc 81-94. -/
def resolvePiecesA (rec : AResolver) (s : ASource) : Ctx → List AVal → Res (Ctx × List AVal)
  | c, [] => .ok (c, [])
  | c, p :: ps =>
    (rec (c.restrict []) s p).bind fun r =>
      (resolvePiecesA rec s (r.1.restrict c.restr) ps).bind fun rest =>
        .ok (rest.1, r.2.toList ++ rest.2)

/-- The end of `config_concatenation::resolve_substitutions`, config_concatenation.cc 96-109. -/
def joinedPiecesA (allowUnresolved : Bool) (o : Origin) (joined : List AVal) : Res (Option AVal) :=
  match joined with
  | [] => .ok none
  | [v] => .ok (some v)
  | vs => if allowUnresolved then (mkConcatA o vs).bind fun v => .ok (some v) else .err .config

/-- `config_concatenation::resolve_substitutions`, config_concatenation.cc 69-110. -/
def resolveConcatA (env : Env) (rec : AResolver) (c : Ctx) (s : ASource) (o : Origin) (ps : List AVal) :
    Res (Ctx × Option AVal) :=
  (resolvePiecesA rec s c ps).bind fun r =>
    (consolidateA env r.2).bind fun joined =>
      (joinedPiecesA c.opts.allowUnresolved o joined).bind fun v => .ok (r.1, v)

/-- `with_fallback`, config_value.cc 181-195. -/
def overA (v w : AVal) : Res AVal := (fallbackA v w).bind fun r => .ok r.1

/-- The loop of `make_replacement`, config_delayed_merge.cc 46-53. -/
def mergeAllA : AVal → List AVal → Res AVal
  | v, [] => .ok v
  | v, w :: ws => (overA v w).bind fun m => mergeAllA m ws

/-- `make_replacement`, config_delayed_merge.cc 37-56. -/
def makeReplacementA : List AVal → Res (Option AVal)
  | [] => .ok none
  | v :: vs => (mergeAllA v vs).bind fun m => .ok (some m)

/-- The source for one value of the stack, config_delayed_merge.cc 82-98. -/
def sourceForEndA (self : AVal) (s : ASource) (v : AVal) (rest : List AVal) : Res ASource :=
  if v.erase.isDelayed then .err .bug
  else if v.erase.isUnmergeable then
    (makeReplacementA rest).bind fun r => s.replaceWithin self r
  else .ok (s.push self)

/-- config_delayed_merge.cc 106-113. -/
def mergeEndA (merged new : Option AVal) : Res (Option AVal) :=
  match merged, new with
  | m, none => .ok m
  | none, some v => .ok (some v)
  | some m, some v => (overA m v).bind fun w => .ok (some w)

/-- The loop of `config_delayed_merge::resolve_substitutions`, config_delayed_merge.cc 81-119. -/
def resolveStackA (rec : AResolver) (self : AVal) (s : ASource) :
    Ctx → Option AVal → List AVal → Res (Ctx × Option AVal)
  | c, merged, [] => .ok (c, merged)
  | c, merged, v :: rest =>
    (sourceForEndA self s v rest).bind fun s' =>
      (rec c s' v).bind fun r =>
        (mergeEndA merged r.2).bind fun m => resolveStackA rec self s r.1 m rest

/-- `resolve_substitutions`: config_value.cc 124-129 (scalars) and the overrides. -/
def resolveSubstitutionsA (env : Env) (rec : AResolver) (c : Ctx) (s : ASource) (v : AVal) :
    Res (Ctx × Option AVal) :=
  match v with
  | .scalar o x => .ok (c, some (.scalar o x))
  | .list o vs => resolveListA rec c s o vs
  | .obj o fs r i => resolveObjectA rec c s o fs r i
  | .ref o id p opt pre => resolveRefA env rec c s o id p opt pre
  | .concat o ps => resolveConcatA env rec c s o ps
  | .dm o st => resolveStackA rec (.dm o st) s c none st
  | .dmo o st => resolveStackA rec (.dmo o st) s c none st

/-- The checks on the result, resolve_context.cc 62-75. -/
def checkResultA (c : Ctx) (r : Ctx × Option AVal) : Res (Ctx × Option AVal) :=
  match r.2 with
  | none => .ok r
  | some v =>
    if v.erase.resolved || !c.restr.isEmpty || c.opts.allowUnresolved then .ok r else .err .bug

/-- `resolve_context::resolve`, resolve_context.cc 32-79, as `Resolve.resolveN`. -/
def resolveNA (env : Env) : Nat → AResolver
  | 0, _, _, _ => .fuel
  | n + 1, c, s, v =>
    if isMarked c v.erase then .err .notPossible
    else (resolveSubstitutionsA env (resolveNA env n) c s v).bind (checkResultA c)

/-- The static `resolve_context::resolve`, resolve_context.cc 115-120. -/
def resolveTopA (env : Env) (n : Nat) (v root : AVal) (o : Resolve.Options) : Res (Option AVal) :=
  (resolveNA env n ⟨o, [], []⟩ ⟨some root, []⟩ v).bind fun r => .ok r.2

/-- `config::resolve_with`, config.cc 73-81. -/
def configResolveWithA (env : Env) (n : Nat) (self source : AVal) (o : Resolve.Options) : Res (Option AVal) :=
  (resolveTopA env n self source o).bind fun r => .ok (r.bind asObjectA)

/-- `config::resolve`, config.cc 61-67. -/
def configResolveA (env : Env) (n : Nat) (self : AVal) (o : Resolve.Options) : Res (Option AVal) :=
  configResolveWithA env n self self o

/-- What `include file(...)` does with what it read, simple_includer.cc 61-67: `resolve` with unresolved
substitutions allowed. -/
def fileResolveA (env : Env) (n : Nat) (v : AVal) : Res AVal :=
  (configResolveA env n v ⟨true, true⟩).bind nonNullA

end ResolveA
end Hocon
