import Verif.Access
import Verif.Concat
import Verif.Include
import Verif.Resolve

/-!
# Options for `boost::program_options`

Model of `lib/inc/hocon/program_options.hpp`. The description of the registered options is a parameter:
`reg key` says whether `desc.find_nothrow(key, false)` finds an option. The options are returned in the
order of the entries of the model (the code iterates over a `std::set`, which is sorted by key); the
conversion to wide characters by Boost is not modelled.
-/

set_option autoImplicit false

namespace Hocon
namespace ProgOptions
open Value

/-- `po::option` as far as it is set here: `string_key` and `value`. -/
abbrev Opt := Str × List Str

/-- The loop over the elements of a list, program_options.hpp 49-57. The exception of line 53 comes from
Boost and is no `config_exception`. -/
def elemTexts (env : Env) : List Value → Res (List Str)
  | [] => .ok []
  | v :: vs => v.valueType.bind fun t =>
    if t = .list ∨ t = .object then .err .foreign
    else (elemTexts env vs).bind fun ts => .ok (v.toText env :: ts)

/-- The values of an option, program_options.hpp 43-60. The cast of line 48 succeeds: the only class with
the type `LIST` is `simple_config_list`. -/
def entryTexts (env : Env) (v : Value) : Res (List Str) :=
  v.valueType.bind fun t =>
    if t = .list then
      match v with
      | .list vs => elemTexts env vs
      | _ => .ub
    else .ok [v.toText env]

/-- The option for one entry, program_options.hpp 26-63; there is none if the entry is skipped (39-41) or
has no values (61). The prefix (27-31) is always empty: nothing but the whole config is put into `to_do`
(19-20). -/
def entryOption (env : Env) (reg : Str → Bool) (allow : Bool) (e : Str × Value) : Res (List Opt) :=
  if allow && !reg e.1 then .ok []
  else (entryTexts env e.2).bind fun ts => .ok (if ts.isEmpty then [] else [(e.1, ts)])

/-- The loop over the entries, program_options.hpp 26-64. -/
def entryOptions (env : Env) (reg : Str → Bool) (allow : Bool) : List (Str × Value) → Res (List Opt)
  | [] => .ok []
  | e :: es => (entryOption env reg allow e).bind fun a =>
    (entryOptions env reg allow es).bind fun b => .ok (a ++ b)

/-- `parse_hocon`, program_options.hpp 14-69; `allow` is `allow_unregistered`. -/
def parseHocon (env : Env) (reg : Str → Bool) (allow : Bool) (root : Value) : Res (List Opt) :=
  (entrySet root).bind (entryOptions env reg allow)

/-- `config::resolve()` with the default options, then `parse_hocon`; a null pointer would be
dereferenced. -/
def resolvedOptions (env : Env) (n : Nat) (reg : Str → Bool) (allow : Bool) (root : Value) :
    Res (List Opt) :=
  (Resolve.configResolve env n root Resolve.Options.default).bind fun o =>
    match o with
    | some r => parseHocon env reg allow r
    | none => .ub

/-- `parse_string`, program_options.hpp 78-83; `n` bounds the depth of resolving. -/
def parseString (env : Env) (fs : Files.FS) (res : Value → Res Value) (fuel n : Nat) (reg : Str → Bool)
    (allow : Bool) (s : Str) : Res (List Opt) :=
  (Files.parseString env fs res fuel s (ParseOptions.new (ι := Unit))).bind
    (resolvedOptions env n reg allow)

/-- `parse_file`, program_options.hpp 71-76. -/
def parseFile (env : Env) (fs : Files.FS) (res : Value → Res Value) (fuel n : Nat) (reg : Str → Bool)
    (allow : Bool) (name : Str) : Res (List Opt) :=
  (Files.parseFileAnySyntax env fs res fuel name (ParseOptions.defaults (ι := Unit))).bind
    (resolvedOptions env n reg allow)

end ProgOptions
end Hocon
