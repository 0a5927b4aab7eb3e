import Verif.Path
import Verif.Tokenizer

/-!
# Path expressions

Model of `lib/src/path_parser.cc` and of path rendering (`lib/src/path.cc` 176-210).
-/

namespace Hocon
namespace PathParser

/-- `config_syntax` as far as parsing distinguishes it (`UNSPECIFIED` behaves like CONF in the
comparison `flavor != JSON` but not in `flavor == CONF`; the library replaces UNSPECIFIED before it
gets here, config_document_parser and config_parse_options). -/
inductive Syntax where
  | json
  | conf
  deriving DecidableEq, Repr

/-- `path_parser::element`, path_parser.cc 17-18. -/
structure Elem where
  value : Str
  canBeEmpty : Bool
  deriving DecidableEq, Repr

/-- The vector of elements: the finished ones and the current (last) one. -/
structure Elems where
  done : List Elem
  cur : Elem
  deriving DecidableEq, Repr

/-- Initial `elements`, path_parser.cc 63. -/
def Elems.init : Elems := ⟨[], ⟨[], false⟩⟩

/-- `add_path_text` with `was_quoted = true`, path_parser.cc 176-185. -/
def addQuoted (es : Elems) (s : Str) : Elems :=
  let v := es.cur.value ++ s
  { es with cur := ⟨v, if v.isEmpty then true else es.cur.canBeEmpty⟩ }

/-- One character of unquoted path text. -/
def addUnquotedChar (es : Elems) (c : Char) : Elems :=
  if c = '.' then ⟨es.done ++ [es.cur], ⟨[], false⟩⟩
  else { es with cur := { es.cur with value := es.cur.value ++ [c] } }

/-- `add_path_text` with `was_quoted = false`, path_parser.cc 176-194. The code copies up to the
next period and recurses on the remainder; here the text is consumed character by character, which
builds the same vector. -/
def addUnquoted (es : Elems) (s : Str) : Elems := s.foldl addUnquotedChar es

/-- `value->render()` of a scalar (config_value.cc 20-38; config_string.cc 34-44 with default options
renders JSON, but strings never reach this point). -/
def scalarRender (env : Env) : Scalar → Str
  | .str s _ => renderJsonString s
  | v => v.transformToString env

/-- Line number used for tokens derived from `t` (`t->origin()`). -/
def tokLine (t : Tok) : Int := t.originLine.getD (-1)

/-- `boost::trim_right_if(text, is_any_of("."))`. -/
def trimDots (s : Str) : Str := (s.reverse.dropWhile (· == '.')).reverse

/-- `boost::split(result, text, is_any_of("."))`: never empty. -/
def splitDots : Str → List Str
  | [] => [[]]
  | c :: r =>
    if c = '.' then [] :: splitDots r
    else match splitDots r with
      | p :: ps => (c :: p) :: ps
      | [] => [[c]]

/-- The piece tokens of `split_token_on_period`, path_parser.cc 156-166 (each piece followed by a
period). -/
def pieceTokens (flavor : Syntax) (line : Int) : List Str → List Tok
  | [] => []
  | s :: ss =>
    (match flavor with
      | .conf => .unquoted s line
      | .json => .value (.str ('"' :: s ++ ['"']) false) ('"' :: s ++ ['"']) line)
    :: .unquoted ['.'] line :: pieceTokens flavor line ss

/-- `split_token_on_period`, path_parser.cc 140-174. `back()` of an empty string is undefined. -/
def splitTokenOnPeriod (flavor : Syntax) (t : Tok) : Res (List Tok) :=
  let text := t.text
  if text = ['.'] then .ok [t]
  else match text.getLast? with
    | none => .ub
    | some lastc =>
      let toks := pieceTokens flavor (tokLine t) (splitDots (trimDots text))
      .ok (if lastc = '.' then toks else toks.dropLast)

/-- `throw bad_path_exception(*origin, ...)`: dereferences the origin first. -/
def badPath {α : Type} (hasOrigin : Bool) : Res α := if hasOrigin then .err .badPath else .ub

/-- The loop of `parse_path_expression`, path_parser.cc 70-125. `ptoks` is `*path_tokens`; when the
caller passes no `path_tokens` the result is unused (the split itself has no other effect). -/
def exprLoop (env : Env) (flavor : Syntax) (hasOrigin : Bool) :
    Elems → List Tok → List Tok → Res (Elems × List Tok)
  | es, ptoks, [] => .ok (es, ptoks)
  | es, ptoks, t :: ts =>
    match t with
    | .ws .. => exprLoop env flavor hasOrigin es (ptoks ++ [t]) ts
    | .value (.str s _) _ _ => exprLoop env flavor hasOrigin (addQuoted es s) (ptoks ++ [t]) ts
    | .end_ => exprLoop env flavor hasOrigin es (ptoks ++ [t]) ts
    | .value v _ _ => do
      let split ← splitTokenOnPeriod flavor t
      exprLoop env flavor hasOrigin (addUnquoted es (scalarRender env v)) (ptoks ++ split) ts
    | .unquoted text _ => do
      let split ← splitTokenOnPeriod flavor t
      exprLoop env flavor hasOrigin (addUnquoted es text) (ptoks ++ split) ts
    | _ => badPath hasOrigin

/-- The elements as a list. -/
def Elems.all (es : Elems) : List Elem := es.done ++ [es.cur]

/-- `e._value.length() == 0 && !e._can_be_empty`, path_parser.cc 129. -/
def Elem.bad (e : Elem) : Bool := e.value.isEmpty && !e.canBeEmpty

/-- The final loop of `parse_path_expression`, path_parser.cc 127-137. -/
def finish (hasOrigin : Bool) (es : Elems) : Res Path :=
  if es.all.any Elem.bad then badPath hasOrigin
  else .ok (PathM.Builder.result (es.all.foldl (fun b e => PathM.Builder.appendKey b e.value) []))

/-- `parse_path_expression` with `path_tokens`, path_parser.cc 59-138; also
`parse_path_node_expression`, 49-57. -/
def parsePathNodeExpression (env : Env) (flavor : Syntax) (hasOrigin : Bool) (toks : List Tok) :
    Res (Path × List Tok) :=
  if toks.isEmpty then badPath hasOrigin
  else do
    let (es, ptoks) ← exprLoop env flavor hasOrigin Elems.init [] toks
    let p ← finish hasOrigin es
    .ok (p, ptoks)

/-- `parse_path_expression` without `path_tokens` (the splitting of tokens is skipped). -/
def plainLoop (env : Env) (hasOrigin : Bool) : Elems → List Tok → Res Elems
  | es, [] => .ok es
  | es, t :: ts =>
    match t with
    | .ws .. => plainLoop env hasOrigin es ts
    | .value (.str s _) _ _ => plainLoop env hasOrigin (addQuoted es s) ts
    | .end_ => plainLoop env hasOrigin es ts
    | .value v _ _ => plainLoop env hasOrigin (addUnquoted es (scalarRender env v)) ts
    | .unquoted text _ => plainLoop env hasOrigin (addUnquoted es text) ts
    | _ => badPath hasOrigin

/-- `parse_path_expression(expression, origin, original_text)`, path_parser.cc 59-138. -/
def parsePathExpression (env : Env) (hasOrigin : Bool) (toks : List Tok) : Res Path :=
  if toks.isEmpty then badPath hasOrigin
  else do
    let es ← plainLoop env hasOrigin Elems.init toks
    finish hasOrigin es

/-- `parse_path_node`, path_parser.cc 27-34. -/
def parsePathNode (env : Env) (flavor : Syntax) (s : Str) : Res (Path × List Tok) := do
  let toks ← Tokenizer.tokenize env (flavor != .json) s
  parsePathNodeExpression env flavor true toks.tail

/-- The slow part of `parse_path`, path_parser.cc 42-46. -/
def parsePathSlow (env : Env) (s : Str) : Res Path := do
  let toks ← Tokenizer.tokenize env true s
  parsePathExpression env true toks.tail

/-- The `for` loop of `looks_unsafe_for_fast_parser`, path_parser.cc 209-228. -/
def unsafeLoop : Bool → Str → Bool
  | lastWasDot, [] => lastWasDot
  | lastWasDot, c :: r =>
    if isAlpha c || c == '_' then unsafeLoop false r
    else if c == '.' then (if lastWasDot then true else unsafeLoop true r)
    else if c == '-' then (if lastWasDot then true else unsafeLoop lastWasDot r)
    else true

/-- `looks_unsafe_for_fast_parser`, path_parser.cc 196-229. -/
def looksUnsafe (s : Str) : Bool :=
  match s with
  | [] => true
  | c :: _ => c == '.' || s.getLast? == some '.' || unsafeLoop true s

/-- `s.find_last_of('.')` and the two substrings around it. -/
def splitLastDot : Str → Option (Str × Str)
  | [] => none
  | c :: r =>
    match splitLastDot r with
    | some (a, b) => some (c :: a, b)
    | none => if c = '.' then some ([], r) else none

/-- `fast_path_build`, path_parser.cc 231-241. -/
def fastPathBuild : Nat → Path → Str → Res Path
  | 0, _, _ => .fuel
  | fuel + 1, tail, s =>
    match splitLastDot s with
    | none => .ok (s :: tail)
    | some (a, b) => fastPathBuild fuel (b :: tail) a

/-- `boost::trim` (classic locale). -/
def trim (s : Str) : Str := ((s.dropWhile isSpace).reverse.dropWhile isSpace).reverse

/-- `speculative_fast_parse_path`, path_parser.cc 243-251; the empty path means "not applicable". -/
def fastParse (s : Str) : Res Path :=
  let t := trim s
  if looksUnsafe t then .ok [] else fastPathBuild (t.length + 1) [] t

/-- `path_parser::parse_path` = `path::new_path`, path_parser.cc 36-47, path.cc 215-217. -/
def newPath (env : Env) (s : Str) : Res Path := do
  let speculated ← fastParse s
  if !(PathM.beq speculated []) then .ok speculated else parsePathSlow env s

/-- `path::append_to_string`, path.cc 184-197, on an empty `base`. -/
def renderPath : Path → Str
  | [] => []
  | [k] => if hasFunkyChars k || k.isEmpty then renderJsonString k else k
  | k :: ks => (if hasFunkyChars k || k.isEmpty then renderJsonString k else k) ++ '.' :: renderPath ks

end PathParser
end Hocon
