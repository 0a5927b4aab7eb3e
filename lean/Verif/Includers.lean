import Verif.Include

/-!
# Includers

Model of `lib/src/simple_includer.cc` with includers provided by the application and fallbacks, of
`parseable::fixup_options` (parseable.cc 76-92) and of the way the includer of the options reaches the
files that are included. Classes of the application are parameters (`Apps`). The first components are
addresses: pointers are compared by the code. Null pointers are not modelled.
-/

set_option autoImplicit false

namespace Hocon
namespace Includers
open Value PathParser ConfigParser Files

/-- A `shared_includer`: an object of the application, a `simple_includer` without and with a fallback
(simple_includer.hpp 12-36), and a proxy (40-54). -/
inductive Inc where
  | app (id : Nat)
  | simple (id : Nat)
  | chain (id : Nat) (fallback : Inc)
  | proxy (id : Nat) (delegate : Inc)
  deriving DecidableEq, Repr

/-- What an includer does with a name: given the loader and the directory of the include context. -/
abbrev Inclusion := Loader → Str → Str → Nat → Res (Value × Nat)

/-- The classes of the application: `include` (config_includer.hpp), `include_file` if the class
implements it (config_includer_file.hpp), and `with_fallback`, which may create objects at the address
given and later ones. -/
structure Apps where
  incl : Nat → Inclusion
  file : Nat → Option Inclusion
  withFallback : Nat → Inc → Nat → Res (Inc × Nat)

/-- `config::default_includer`, config.cc 538-541: always the same object. -/
def default : Inc := .simple 0

/-- `with_fallback`, simple_includer.cc 19-30 and 184-187 (proxy); `k` is the next free address. -/
def withFallback (A : Apps) : Inc → Inc → Nat → Res (Inc × Nat)
  | .app i, f, k => A.withFallback i f k
  | .simple a, f, k => if Inc.simple a = f then .err .config else .ok (.chain k f, k + 1)
  | .chain a g, f, k =>
    if Inc.chain a g = f then .err .config
    else if g = f then .ok (.chain a g, k)
    else (withFallback A g f k).bind fun r => .ok (.chain r.2 r.1, r.2 + 1)
  | .proxy a d, _, k => .ok (.proxy a d, k)

/-- `obj->with_fallback(...)` of an included object with that of the fallback, simple_includer.cc 36-37
and 53-56. -/
def over (own fallback : Nat → Res (Value × Nat)) (n : Nat) : Res (Value × Nat) :=
  (own n).bind fun v => (fallback v.2).bind fun w =>
    (Value.withFallback v.1 w.1).bind fun m => .ok (m, w.2)

/-- `include`, simple_includer.cc 32-47 and 189-191 (proxy). -/
def incl (A : Apps) (load : Loader) (dir name : Str) : Inc → Nat → Res (Value × Nat)
  | .app i => A.incl i load dir name
  | .simple _ => Files.includeName load dir name
  | .chain _ g => over (Files.includeName load dir name) (incl A load dir name g)
  | .proxy _ d => incl A load dir name d

/-- `include_file_without_fallback`, simple_includer.cc 61-67. -/
def ownFile (load : Loader) (res : Value → Res Value) (dir name : Str) : Nat → Res (Value × Nat) :=
  (Files.includer load res dir).file name

/-- `include_file`, simple_includer.cc 49-59 and 193-199 (proxy); `none` for an object whose class is no
`config_includer_file`. -/
def file? (A : Apps) (load : Loader) (res : Value → Res Value) (dir name : Str) :
    Inc → Option (Nat → Res (Value × Nat))
  | .app i => (A.file i).map fun g => g load dir name
  | .simple _ => some (ownFile load res dir name)
  | .chain _ g =>
    match file? A load res dir name g with
    | some h => some (over (ownFile load res dir name) h)
    | none => some (ownFile load res dir name)
  | .proxy _ d =>
    match file? A load res dir name d with
    | some h => some h
    | none => some (ownFile load res dir name)

/-- `make_full`, simple_includer.cc 142-148: only proxies are `full_includer`s. -/
def makeFull (k : Nat) : Inc → Inc
  | .proxy a d => .proxy a d
  | i => .proxy k i

/-- The includer part of `parseable::fixup_options`, parseable.cc 86-89; `k` is a free address. The new
objects are compared with the default includer only, so the same address will do for all. -/
def fixup (A : Apps) (k : Nat) (o : Option Inc) : Res Inc :=
  ((ParseOptions.new.setIncluder o).appendIncluder
      (fun a f => (withFallback A a f k).bind fun r => .ok r.1) (some default)).bind fun p =>
    match p.includer with
    | some i => .ok (makeFull k i)
    | none => .ub

/-- The includer of a `config_parser`, config_parser.cc 33, with the include context of a file in the
directory `dir`. The static type of the includer is `full_includer`, which has `include_file`. -/
def toIncluder (A : Apps) (load : Loader) (res : Value → Res Value) (dir : Str) (c : Inc) : Includer where
  heuristic name n := incl A load dir name c n
  file name n :=
    match file? A load res dir name c with
    | some h => h n
    | none => .ub

/-- `parse(p->options()...)` of a `parseable_file` whose own options have the includer `c` (parseable.cc
153-232): the options are fixed up again (188). A file included from there is created with the options
of the include context (parseable.cc 114, simple_include_context.cc 14-16), that is, with `c`, which is
fixed up on construction (47). -/
def loadFile (A : Apps) (k : Nat) (env : Env) (fs : FS) (res : Value → Res Value) : Nat → Inc → Loader
  | 0, _, _, _, _ => .fuel
  | fuel + 1, c, f, syn, n =>
    (fixup A k (some c)).bind fun used =>
      (parseText env (toIncluder A (fun g s m =>
          (fixup A k (some c)).bind fun c' => loadFile A k env fs res fuel c' g s m)
        res (dirOf f) used) syn (contents fs f) n).bind fun v =>
      (forceObject v.1).bind fun w => .ok (w, v.2)

/-- `config::parse_file_any_syntax`, config.cc 32-35, with the includer of the options. -/
def parseFileAnySyntax (A : Apps) (k : Nat) (env : Env) (fs : FS) (res : Value → Res Value) (fuel : Nat)
    (name : Str) (o : ParseOptions Inc) : Res Value :=
  (fixup A k o.includer).bind fun c =>
    (if syntaxFromExtension name ≠ .unspecified then
        loadFile A k env fs res fuel c name (fixupSyntax o.syn (syntaxFromExtension name)) 0
      else
        mergeFound o.syn o.allowMissing (loadFile A k env fs res fuel c (name ++ ch ".conf") .conf)
          (loadFile A k env fs res fuel c (name ++ ch ".json") .json) 0).bind fun x => .ok x.1

/-- `config::parse_string`, config.cc 41-44. The options of the parseable have the includer of the
caller (parseable.cc 47), and so has the include context; but `parse()` parses with new options
(parseable.cc 180). -/
def parseString (A : Apps) (k : Nat) (env : Env) (fs : FS) (res : Value → Res Value) (fuel : Nat)
    (s : Str) (o : ParseOptions Inc) : Res Value :=
  (fixup A k o.includer).bind fun c => (fixup A k none).bind fun used =>
    (parseText env (toIncluder A (fun g sy m =>
        (fixup A k (some c)).bind fun c' => loadFile A k env fs res fuel c' g sy m) res [] used)
      (fixupSyntax (ParseOptions.new (ι := Inc)).syn .unspecified) s 0).bind fun v => forceObject v.1

end Includers
end Hocon
