import Verif.ConfigParser

/-!
# Parse options, files and includes

Model of `lib/src/config_parse_options.cc`, of the parts of `lib/src/parseable.cc` and
`lib/src/simple_includer.cc` that decide what is parsed and how, and of the entry points
`config::parse_string`, `config::parse_file_any_syntax` and those of `config_document_factory`.

Not modelled: origins and their descriptions, includers provided by the application (the includer is
the default one, a `simple_includer` without fallback wrapped in a proxy, simple_includer.cc
142-148), `parseable_resources` and `parseable_not_found`.
-/

set_option autoImplicit false

namespace Hocon

/-- `config_syntax`, lib/inc/hocon/config_syntax.hpp. -/
inductive SyntaxOpt where
  | json
  | conf
  | unspecified
  deriving DecidableEq, Repr

/-- `config_parse_options`, config_parse_options.hpp; `ι` is the type of includer pointers. -/
structure ParseOptions (ι : Type) where
  syn : SyntaxOpt
  originDescription : Option Str
  allowMissing : Bool
  includer : Option ι
  deriving DecidableEq, Repr

namespace ParseOptions

variable {ι : Type}

/-- The default constructor, config_parse_options.cc 17. -/
def new : ParseOptions ι := ⟨.conf, none, true, none⟩

/-- `defaults`, config_parse_options.cc 19-21. -/
def defaults : ParseOptions ι := ⟨.unspecified, none, true, none⟩

/-- `set_syntax`, config_parse_options.cc 23-26. -/
def setSyntax (o : ParseOptions ι) (s : SyntaxOpt) : ParseOptions ι :=
  ⟨s, o.originDescription, o.allowMissing, o.includer⟩

/-- `set_origin_description`, config_parse_options.cc 33-36. -/
def setOriginDescription (o : ParseOptions ι) (d : Option Str) : ParseOptions ι :=
  ⟨o.syn, d, o.allowMissing, o.includer⟩

/-- `with_fallback_origin_description`, config_parse_options.cc 44-51. -/
def withFallbackOriginDescription (o : ParseOptions ι) (d : Option Str) : ParseOptions ι :=
  if o.originDescription.isNone then o.setOriginDescription d else o

/-- `set_allow_missing`, config_parse_options.cc 53-56. -/
def setAllowMissing (o : ParseOptions ι) (b : Bool) : ParseOptions ι :=
  ⟨o.syn, o.originDescription, b, o.includer⟩

/-- `set_includer`, config_parse_options.cc 63-66. -/
def setIncluder (o : ParseOptions ι) (i : Option ι) : ParseOptions ι :=
  ⟨o.syn, o.originDescription, o.allowMissing, i⟩

/-- `prepend_includer`, config_parse_options.cc 68-80; `wf` is the includer's `with_fallback`. -/
def prependIncluder [DecidableEq ι] (wf : ι → ι → Res ι) (o : ParseOptions ι) (i : Option ι) :
    Res (ParseOptions ι) :=
  match i with
  | none => .err .foreign
  | some i =>
    if o.includer = some i then .ok o
    else
      match o.includer with
      | some j => do
        let k ← wf i j
        .ok (o.setIncluder (some k))
      | none => .ok (o.setIncluder (some i))

/-- `append_includer`, config_parse_options.cc 82-94. -/
def appendIncluder [DecidableEq ι] (wf : ι → ι → Res ι) (o : ParseOptions ι) (i : Option ι) :
    Res (ParseOptions ι) :=
  match i with
  | none => .err .foreign
  | some i =>
    if o.includer = some i then .ok o
    else
      match o.includer with
      | some j => do
        let k ← wf j i
        .ok (o.setIncluder (some k))
      | none => .ok (o.setIncluder (some i))

end ParseOptions

namespace Files

open Value PathParser ConfigParser

/-- `parseable::syntax_from_extension`, parseable.cc 58-66. -/
def syntaxFromExtension (name : Str) : SyntaxOpt :=
  if (ch ".json").isSuffixOf name then .json
  else if (ch ".conf").isSuffixOf name then .conf
  else .unspecified

/-- The syntax part of `parseable::fixup_options`, parseable.cc 76-92. -/
def fixupSyntax (s guess : SyntaxOpt) : Syntax :=
  match s with
  | .json => .json
  | .conf => .conf
  | .unspecified =>
    match guess with
    | .json => .json
    | _ => .conf

/-- `separate_filepath` as used by `parseable_file`, parseable.cc 129-139 and 293-299: the directory
of a file, up to and including the last slash. -/
def dirOf (f : Str) : Str := (f.reverse.dropWhile (· ≠ '/')).reverse

/-- The file `relative_to` opens, parseable.cc 102-115; `dir` is the directory of the including
file. -/
def relativeTo (dir name : Str) : Str :=
  match name with
  | '/' :: _ => name
  | _ => dir ++ name

/-- `force_parsed_to_object`, parseable.cc 145-151. -/
def forceObject (v : Value) : Res Value :=
  if v.isObject then .ok v
  else if v.isUnmergeable then .err .config
  else .err .wrongType

/-- The exceptions caught by `catch (config_exception&)`. -/
def caught : Err → Bool
  | .foreign => false
  | _ => true

/-- `try { ... } catch (config_exception& ex) { fails.push_back(ex); }`, simple_includer.cc 103-108
and 112-120: `none` = an exception was caught. -/
def tryParse {α : Type} (r : Res α) : Res (Option α) :=
  match r with
  | .ok a => .ok (some a)
  | .err e => if caught e then .ok none else .err e
  | .ub => .ub
  | .fuel => .fuel

/-- The part of `from_basename` for a name without extension, simple_includer.cc 94-137. `conf` and
`json` are the results of parsing the two files; `got_something` is set only after the JSON file was
parsed (117). The counter of reference objects is the second component. -/
def mergeFound (s : SyntaxOpt) (allowMissing : Bool) (conf : Nat → Res (Value × Nat))
    (json : Nat → Res (Value × Nat)) (n : Nat) : Res (Value × Nat) := do
  let c ← (if s = .unspecified || s = .conf then tryParse (conf n) else .ok none)
  let (base, n) := c.getD (Value.empty, n)
  let j ← (if s = .unspecified || s = .json then
      tryParse (json n >>= fun (v, n) => do
        let m ← withFallback base v
        .ok (m, n))
    else .ok none)
  if !allowMissing && j.isNone then .err .config
  else .ok (j.getD (base, n))

/-- The files that can be read: `none` = the file does not exist. -/
abbrev FS := Str → Option Str

/-- The text `parseable_file::reader` delivers, parseable.cc 301-303: an `ifstream` that could not
open its file behaves like one at the end of the file. -/
def contents (fs : FS) (f : Str) : Str := (fs f).getD []

/-- Parsing a file with a syntax, with the counter of reference objects. -/
abbrev Loader := Str → Syntax → Nat → Res (Value × Nat)

/-- `from_basename` for an include, simple_includer.cc 80-140, with the options of
`clear_for_include` (69-73: syntax unspecified, missing allowed). A name with an extension is
relative to `dir`, a name without is used as it is (94-95). -/
def includeName (load : Loader) (dir name : Str) (n : Nat) : Res (Value × Nat) :=
  if syntaxFromExtension name ≠ .unspecified then
    load (relativeTo dir name)
      (fixupSyntax .unspecified (syntaxFromExtension (relativeTo dir name))) n
  else
    mergeFound .unspecified true (load (name ++ ch ".conf") .conf) (load (name ++ ch ".json") .json) n

/-- The default includer with the include context of a file in the directory `dir`:
`simple_includer::include` (simple_includer.cc 32-47) and `include_file` (49-67). `res` is
`config::resolve` with unresolved substitutions allowed. -/
def includer (load : Loader) (res : Value → Res Value) (dir : Str) : Includer where
  heuristic name n := includeName load dir name n
  file name n := do
    let (v, n) ← includeName load dir name n
    let v ← res v
    .ok (v, n)

/-- `parse` of a `parseable_file` with the given syntax, parseable.cc 153-177 and 187-232. The
`scope_exit` object of lines 169-174 is an unnamed temporary, so the parse stack is popped again
before the file is parsed and its length never exceeds one: the check against `MAX_INCLUDE_DEPTH`
(161-166) never fires and is left out. The model bounds the nesting of includes by `fuel`. -/
def loadFile (env : Env) (fs : FS) (res : Value → Res Value) : Nat → Loader
  | 0, _, _, _ => .fuel
  | fuel + 1, f, syn, n => do
    let (v, n) ← parseText env (includer (loadFile env fs res fuel) res (dirOf f)) syn
      (contents fs f) n
    let v ← forceObject v
    .ok (v, n)

/-- `config::parse_file_any_syntax`, config.cc 32-39, with `from_basename` (simple_includer.cc
80-140) without an include context. -/
def parseFileAnySyntax {ι : Type} (env : Env) (fs : FS) (res : Value → Res Value) (fuel : Nat)
    (name : Str) (o : ParseOptions ι) : Res Value :=
  (if syntaxFromExtension name ≠ .unspecified then
      loadFile env fs res fuel name (fixupSyntax o.syn (syntaxFromExtension name)) 0
    else
      mergeFound o.syn o.allowMissing (loadFile env fs res fuel (name ++ ch ".conf") .conf)
        (loadFile env fs res fuel (name ++ ch ".json") .json) 0) >>= fun x => .ok x.1

/-- `parseable::parse()` on a string, parseable.cc 179-181 with `fixup_options` (76-92): it uses
new default options. Includes are relative to the working directory. -/
def parseableParseString (env : Env) (fs : FS) (res : Value → Res Value) (fuel : Nat) (s : Str) :
    Res Value := do
  let (v, _) ← parseText env (includer (loadFile env fs res fuel) res [])
    (fixupSyntax (ParseOptions.new (ι := Unit)).syn .unspecified) s 0
  forceObject v

/-- `config::parse_string`, config.cc 41-49: the options are given to the parseable but `parse()`
does not use them. -/
def parseString {ι : Type} (env : Env) (fs : FS) (res : Value → Res Value) (fuel : Nat) (s : Str)
    (_o : ParseOptions ι) : Res Value := parseableParseString env fs res fuel s

/-- `config_document_factory::parse_string`, config_document_factory.cc 16-22, with
`parse_config_document` (parseable.cc 141-143, 234-286). -/
def documentParseString {ι : Type} (env : Env) (s : Str) (o : ParseOptions ι) : Res (List Node) :=
  DocParser.parseDocument env (fixupSyntax o.syn .unspecified) s

/-- `config_document_factory::parse_file`, config_document_factory.cc 8-14. -/
def documentParseFile {ι : Type} (env : Env) (fs : FS) (f : Str) (o : ParseOptions ι) :
    Res (List Node) :=
  DocParser.parseDocument env (fixupSyntax o.syn (syntaxFromExtension f)) (contents fs f)

end Files
end Hocon
