import Verif.Include
import Verif.ParseNotes

/-!
# Files and includes with origins

`Verif/Include.lean` leaves origins out. Here the files are read as there, and every value carries its origin:
the description of a source is the one of the parse options or else made up by `create_origin`; for an
included file the options always have one, the empty text (simple_includer.cc 69-73).

The includer is the default one, as in `Verif/Include.lean`.
-/

set_option autoImplicit false

namespace Hocon
namespace FilesA

open Value PathParser Notes Files

/-- The constructor of `simple_config_origin` with a description only, simple_config_origin.hpp 19-21. -/
def source (d : Str) : Origin := ⟨d, -1, -1, .generic, [], []⟩

/-- The description of a file, parseable.cc 51-55 and 189-193 with `parseable_file::create_origin`, 305-307. -/
def fileDesc (d : Option Str) (f : Str) : Str := d.getD (ch "file: " ++ f)

/-- The description of a string, parseable.cc 51-55 with `parseable_string::create_origin`, 322-324. The options
given to `parse_value` by `parse()` (179-181) have no description. -/
def stringDesc (d : Option Str) : Str := d.getD (ch "string")

/-- The description `clear_for_include` sets, simple_includer.cc 72. -/
def includedDesc : Option Str := some []

/-- `force_parsed_to_object`, parseable.cc 145-151. -/
def forceObjectA (v : AVal) : Res AVal :=
  if v.erase.isObject then .ok v
  else if v.erase.isUnmergeable then .err .config
  else .err .wrongType

/-- The object `from_basename` begins with, simple_includer.cc 101. -/
def emptyA : AVal := .obj (source (ch "empty config")) [] true false

/-- The part of `from_basename` for a name without extension, simple_includer.cc 94-137, as in
`Files.mergeFound`. -/
def mergeFoundA (s : SyntaxOpt) (allowMissing : Bool) (conf : Nat → Res (AVal × Nat))
    (json : Nat → Res (AVal × Nat)) (n : Nat) : Res (AVal × Nat) := do
  let c ← (if s = .unspecified || s = .conf then tryParse (conf n) else .ok none)
  let (base, n) := c.getD (emptyA, n)
  let j ← (if s = .unspecified || s = .json then
      tryParse (json n >>= fun (v, n) => do
        let (m, _) ← fallbackA base v
        .ok (m, n))
    else .ok none)
  if !allowMissing && j.isNone then .err .config
  else .ok (j.getD (base, n))

/-- Parsing a file with a description and a syntax, with the counter of reference objects. -/
abbrev ALoader := Option Str → Str → Syntax → Nat → Res (AVal × Nat)

/-- `from_basename` for an include, simple_includer.cc 80-140, as in `Files.includeName`. -/
def includeNameA (load : ALoader) (dir name : Str) (n : Nat) : Res (AVal × Nat) :=
  if syntaxFromExtension name ≠ .unspecified then
    load includedDesc (relativeTo dir name)
      (fixupSyntax .unspecified (syntaxFromExtension (relativeTo dir name))) n
  else
    mergeFoundA .unspecified true (load includedDesc (name ++ ch ".conf") .conf)
      (load includedDesc (name ++ ch ".json") .json) n

/-- The default includer, simple_includer.cc 32-67, as in `Files.includer`; `res` is `config::resolve` with
unresolved substitutions allowed. -/
def includerA (load : ALoader) (res : AVal → Res AVal) (dir : Str) : AIncluder where
  heuristic name n := includeNameA load dir name n
  file name n := do
    let (v, n) ← includeNameA load dir name n
    let v ← res v
    .ok (v, n)

/-- `parse` of a `parseable_file`, parseable.cc 153-177 and 187-232, as in `Files.loadFile`. -/
def loadFileA (env : Env) (fs : FS) (res : AVal → Res AVal) : Nat → ALoader
  | 0, _, _, _, _ => .fuel
  | fuel + 1, d, f, syn, n => do
    let (v, n) ← parseTextA env (source (fileDesc d f)) (includerA (loadFileA env fs res fuel) res (dirOf f)) syn
      (contents fs f) n
    let v ← forceObjectA v
    .ok (v, n)

/-- `config::parse_file_any_syntax`, config.cc 32-39, as in `Files.parseFileAnySyntax`. -/
def parseFileAnySyntaxA {ι : Type} (env : Env) (fs : FS) (res : AVal → Res AVal) (fuel : Nat)
    (name : Str) (o : ParseOptions ι) : Res AVal :=
  (if syntaxFromExtension name ≠ .unspecified then
      loadFileA env fs res fuel o.originDescription name (fixupSyntax o.syn (syntaxFromExtension name)) 0
    else
      mergeFoundA o.syn o.allowMissing (loadFileA env fs res fuel o.originDescription (name ++ ch ".conf") .conf)
        (loadFileA env fs res fuel o.originDescription (name ++ ch ".json") .json) 0) >>= fun x => .ok x.1

/-- `config::parse_string`, config.cc 41-49, as in `Files.parseString`: of the options only the description is
used. -/
def parseStringA {ι : Type} (env : Env) (fs : FS) (res : AVal → Res AVal) (fuel : Nat) (s : Str)
    (o : ParseOptions ι) : Res AVal := do
  let (v, _) ← parseTextA env (source (stringDesc o.originDescription)) (includerA (loadFileA env fs res fuel) res [])
    (fixupSyntax (ParseOptions.new (ι := Unit)).syn .unspecified) s 0
  forceObjectA v

end FilesA
end Hocon
