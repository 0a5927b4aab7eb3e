import Verif.Concat
import Verif.Factory
import Verif.DocParser

/-!
# From the syntax tree to values

Model of `lib/src/config_parser.cc` and of the `get_value` / `name` functions of the nodes. Origins
and comments are left out here; `Verif/ParseNotes.lean` models the same code with them, and C71 proves
that they do not influence which values are built. Every
`config_reference` object that is created gets a number, counted by the `Nat` that is threaded
through the functions: it stands for the object's address.
-/

set_option autoImplicit false

namespace Hocon
namespace ConfigParser

open Value PathParser DocParser

/-- The includer the parser calls (`_includer->include_file`, `_includer->include`,
config_parser.cc 126, 133), a parameter of the model. It gets the counter of reference objects. -/
structure Includer where
  file : Str → Nat → Res (Value × Nat)
  heuristic : Str → Nat → Res (Value × Nat)

/-- `config_node_simple_value::get_value`, config_node_simple_value.cc 28-48. -/
def getValue (env : Env) (t : Tok) (n : Nat) : Res (Value × Nat) :=
  match t with
  | .value v _ _ => .ok (.scalar v, n)
  | .unquoted s _ => .ok (.scalar (.str s false), n)
  | .subst opt expr _ => do
    let p ← PathParser.parsePathExpression env true expr
    .ok (.ref n p opt 0, n + 1)
  | _ => .err .config

/-- `config_node_include::name`, config_node_include.cc 29-36. -/
def includeName (env : Env) : List Node → Nat → Res (Str × Nat)
  | [], n => .ok ([], n)
  | .simple t :: _, n => do
    let (v, n) ← getValue env t n
    .ok (v.toText env, n)
  | _ :: cs, n => includeName env cs n

/-- `create_value_under_path`, config_parser.cc 90-119: the loop runs over the keys from the last
to the first. For an empty path the code decrements `keys.end()` of an empty vector. -/
def createValueUnderPath : Path → Value → Res Value
  | [], _ => .ub
  | [k], v => .ok (newObj [(k, v)])
  | k :: p, v => do
    let o ← createValueUnderPath p v
    .ok (newObj [(k, o)])

/-- Storing a new value for a key, config_parser.cc 155-161 and 264-278 (without the check for
JSON): merged over the existing value. -/
def putMerged (fs : Fields) (k : Str) (v : Value) : Res Fields :=
  match findKey fs k with
  | none => .ok (putKey k v fs)
  | some old => do
    let m ← withFallback v old
    .ok (putKey k m fs)

/-- Storing the value of a field, config_parser.cc 260-291. The pointer thrown in JSON mode for a
path of several elements is not an exception object. -/
def putField (json : Bool) (fs : Fields) (p : Path) (v : Value) : Res Fields :=
  match p with
  | [] => .ub
  | [k] =>
    if json && (findKey fs k).isSome then .err .parse else putMerged fs k v
  | k :: p =>
    if json then .err .foreign
    else do
      let o ← createValueUnderPath p v
      putMerged fs k o

/-- The loop over the fields of the included object, config_parser.cc 152-162. -/
def putAll : Fields → Fields → Res Fields
  | fs, [] => .ok fs
  | fs, (k, v) :: gs => do
    let fs ← putMerged fs k v
    putAll fs gs

/-- The call of the includer, config_parser.cc 124-138. -/
def callIncluder (env : Env) (inc : Includer) (kind : IncludeKind) (cs : List Node) (n : Nat) :
    Res (Value × Nat) :=
  match kind with
  | .file => do
    let (name, n) ← includeName env cs n
    inc.file name n
  | .heuristic => do
    let (name, n) ← includeName env cs n
    inc.heuristic name n
  | .classpath => .err .config
  | .url => .err .config

/-- Merging the included object, config_parser.cc 143-162. `relativized` (147-150) returns the object
itself: config_value.hpp 181 is not reimplemented for objects. Iterating over a
`config_delayed_merge_object` throws; a value that is not an object becomes a null pointer. -/
def putIncluded (arr : Nat) (fs : Fields) (o : Value) : Res Fields :=
  if arr > 0 && o.isObject && !o.resolved then .err .config
  else
    match o with
    | .obj gs _ _ => putAll fs gs
    | .dmo _ => .err .config
    | _ => .ub

/-- `parse_include`, config_parser.cc 121-163. -/
def parseInclude (env : Env) (inc : Includer) (arr : Nat) (kind : IncludeKind) (cs : List Node)
    (fs : Fields) (n : Nat) : Res (Fields × Nat) := do
  let (o, n) ← callIncluder env inc kind cs n
  let fs ← putIncluded arr fs o
  .ok (fs, n)

/-- `field->separator() == tokens::plus_equals_token()`. -/
def isPlusEquals (cs : List Node) : Bool :=
  match Node.fieldSeparator cs with
  | some .plusEquals => true
  | _ => false

/-- The value of a `+=` field, config_parser.cc 219-229: the concatenation of an optional reference
to `full_current_path()` (47-54) and a list with the new value. -/
def plusValue (env : Env) (outer : Path) (v : Value) (n : Nat) : Res (Value × Nat) := do
  match ← concatenate env [.ref n outer true 0, .list [v]] with
  | some c => .ok (c, n + 1)
  | none => .ub

/-- A null result of `concatenate` is dereferenced later. -/
def nonNull : Option Value → Res Value
  | some v => .ok v
  | none => .ub

/-- `_path_stack.front()` after `_path_stack.push_back(p)`, config_parser.cc 52, 199: the path of
the outermost field that is being parsed. -/
def pushPath : Option Path → Path → Path
  | some q, _ => q
  | none, p => p

mutual
/-- `parse_value`, config_parser.cc 56-88. `arr` is `array_count`, `outer` the bottom of the path
stack, `n` the counter of reference objects. -/
def parseValue (env : Env) (inc : Includer) (json : Bool) (arr : Nat) (outer : Option Path) :
    Node → Nat → Res (Value × Nat)
  | .simple t, n => getValue env t n
  | .object cs, n => do
    let (fs, n) ← parseFields env inc json arr outer cs [] n
    .ok (newObj fs, n)
  | .array cs, n => do
    let (vs, n) ← parseElems env inc json (arr + 1) outer cs n
    .ok (.list vs, n)
  | .concat cs, n =>
    if json then .err .bug
    else do
      let (vs, n) ← parseElems env inc json arr outer cs n
      let v ← concatenate env vs
      let v ← nonNull v
      .ok (v, n)
  | _, _ => .err .parse
/-- The values among the children of an array or concatenation, in order: `parse_array`,
config_parser.cc 306-349 (a value is pushed when the next one, a newline or the end is met), and
`parse_concatenation`, 351-365. -/
def parseElems (env : Env) (inc : Includer) (json : Bool) (arr : Nat) (outer : Option Path) :
    List Node → Nat → Res (List Value × Nat)
  | [], n => .ok ([], n)
  | c :: cs, n =>
    if c.isValue then do
      let (v, n) ← parseValue env inc json arr outer c n
      let (vs, n) ← parseElems env inc json arr outer cs n
      .ok (v :: vs, n)
    else parseElems env inc json arr outer cs n
/-- `parse_value(field->get_value())`, config_parser.cc 215-217 with config_node_field.cc 39-46: the
first child that is a value. -/
def parseFieldValue (env : Env) (inc : Includer) (json : Bool) (arr : Nat) (outer : Option Path) :
    List Node → Nat → Res (Value × Nat)
  | [], _ => .err .config
  | c :: cs, n =>
    if c.isValue then parseValue env inc json arr outer c n
    else parseFieldValue env inc json arr outer cs n
/-- The loop of `parse_object`, config_parser.cc 173-293; `fs` is `values`. The inner loop for
trailing comments (232-256) skips commas, whitespace and one comment, which have no effect here. -/
def parseFields (env : Env) (inc : Includer) (json : Bool) (arr : Nat) (outer : Option Path) :
    List Node → Fields → Nat → Res (Fields × Nat)
  | [], fs, n => .ok (fs, n)
  | .incl cs kind :: rest, fs, n =>
    if json then parseFields env inc json arr outer rest fs n
    else do
      let (fs, n) ← parseInclude env inc arr kind cs fs n
      parseFields env inc json arr outer rest fs n
  | .field cs :: rest, fs, n => do
    let (p, _) ← Node.fieldPath cs
    if isPlusEquals cs then
      if arr > 0 then .err .parse
      else do
        let (v, n) ← parseFieldValue env inc json (arr + 1) (some (pushPath outer p)) cs n
        let (v, n) ← plusValue env (pushPath outer p) v n
        let fs ← putField json fs p v
        parseFields env inc json arr outer rest fs n
    else do
      let (v, n) ← parseFieldValue env inc json arr (some (pushPath outer p)) cs n
      let fs ← putField json fs p v
      parseFields env inc json arr outer rest fs n
  | _ :: rest, fs, n => parseFields env inc json arr outer rest fs n
end

/-- The loop of `parse_context::parse`, config_parser.cc 367-398: a later complex value replaces an
earlier one, but a newline after a value ends the loop. `none` = null pointer. -/
def parseRoot (env : Env) (inc : Includer) (json : Bool) :
    List Node → Option Value → Nat → Res (Option Value × Nat)
  | [], r, n => .ok (r, n)
  | c :: cs, r, n =>
    if c.isComplex then do
      let (v, n) ← parseValue env inc json 0 none c n
      parseRoot env inc json cs (some v) n
    else
      match c, r with
      | .single (.newline _), some v => .ok (some v, n)
      | _, _ => parseRoot env inc json cs r n

/-- `config_parser::parse` on the document parsed from a text: `parseable::raw_parse_value`,
parseable.cc 226-232 (tokenizer, document parser, config parser). -/
def parseText (env : Env) (inc : Includer) (fl : Syntax) (s : Str) (n : Nat) : Res (Value × Nat) := do
  let cs ← parseDocument env fl s
  let (v, n) ← parseRoot env inc (fl = .json) cs none n
  let v ← nonNull v
  .ok (v, n)

end ConfigParser
end Hocon
