import Verif.Node

/-!
# The document parser

Model of `lib/src/config_document_parser.cc`. The token source is the list of tokens not yet
consumed: `pop_token` (43-50) takes the head and `put_back` (84-86) conses, which is what the
`_buffer` stack in front of `_tokens` amounts to. Taking a token from the empty list models popping
the exhausted queue of the `token_iterator` (undefined behaviour).

Not modelled: `_line_number` and `_equals_count` (they only influence the text and line of error
messages; `_equals_count` is incremented and decremented in pairs on every normal return, so the
check in `parse_value` 237-239 never fires) and the error messages themselves.
-/

namespace Hocon

/-- `token == *tokens::open_curly_token()`; used at config_document_parser.cc 384. -/
def Tok.isOpenCurly : Tok → Bool
  | .openCurly => true
  | _ => false

/-- `token == *tokens::end_token()`; used at config_document_parser.cc 366. -/
def Tok.isEnd : Tok → Bool
  | .end_ => true
  | _ => false

/-- `token == *tokens::close_square_token()`; used at config_document_parser.cc 512. -/
def Tok.isCloseSquare : Tok → Bool
  | .closeSquare => true
  | _ => false

namespace DocParser
open PathParser (Syntax)

/-- `is_unquoted_whitespace`, config_document_parser.cc 274-286. -/
def isUnquotedWs : Tok → Bool
  | .unquoted s _ => s.all isWhitespace
  | _ => false

/-- `next_token`, config_document_parser.cc 52-62. -/
def nextToken (fl : Syntax) : List Tok → Res (Tok × List Tok)
  | [] => .ub
  | t :: ts =>
    match fl with
    | .conf => .ok (t, ts)
    | .json =>
      match t with
      | .unquoted .. => if isUnquotedWs t then .ok (t, ts) else .err .parse
      | .subst .. => .err .parse
      | _ => .ok (t, ts)

/-- The token classes of `next_token_collecting_whitespace` (67-74): the node pushed, or `none` if
the token is returned. -/
def collectNode (t : Tok) : Option Node :=
  match t with
  | .ws .. => some (.single t)
  | .newline _ => some (.single t)
  | .comment .. => some (.comment t)
  | .unquoted .. => if isUnquotedWs t then some (.single t) else none
  | _ => none

/-- `next_token_collecting_whitespace`, config_document_parser.cc 64-82. Returns the nodes pushed,
the token and the remaining tokens. -/
def nextCollect (fl : Syntax) : List Tok → Res (List Node × Tok × List Tok)
  | [] => .ub
  | t :: ts => do
    let _ ← nextToken fl (t :: ts)
    match collectNode t with
    | some n => do
      let (ns, t', ts') ← nextCollect fl ts
      .ok (n :: ns, t', ts')
    | none => .ok ([], t, ts)

/-- The CONF loop of `check_element_separator`, config_document_parser.cc 99-121. -/
def sepLoop (sawNewline : Bool) : List Tok → Res (List Node × Bool × List Tok)
  | [] => .ub
  | t :: ts =>
    match t with
    | .comma => .ok ([.single t], true, ts)
    | _ =>
      match collectNode t with
      | some n => do
        let saw := match t with | .newline _ => true | _ => sawNewline
        let (ns, b, ts') ← sepLoop saw ts
        .ok (n :: ns, b, ts')
      | none => .ok ([], sawNewline, t :: ts)

/-- `check_element_separator`, config_document_parser.cc 88-122. -/
def checkSep (fl : Syntax) (toks : List Tok) : Res (List Node × Bool × List Tok) :=
  match fl with
  | .conf => sepLoop false toks
  | .json => do
    let (ns, t, ts) ← nextCollect .json toks
    match t with
    | .comma => .ok (ns ++ [.single t], true, ts)
    | _ => .ok (ns, false, t :: ts)

/-- The loop of `parse_key` (CONF), config_document_parser.cc 253-258: the maximal run of value and
unquoted tokens; the token after it is put back. -/
def keyRun : List Tok → List Tok × List Tok
  | [] => ([], [])
  | t :: ts =>
    match t with
    | .value .. => let (e, r) := keyRun ts; (t :: e, r)
    | .unquoted .. => let (e, r) := keyRun ts; (t :: e, r)
    | _ => ([], t :: ts)

/-- `parse_key`, config_document_parser.cc 244-268; the origin passed to the path parser is null. -/
def parseKey (env : Env) (fl : Syntax) (token : Tok) (toks : List Tok) :
    Res (Path × List Tok × List Tok) :=
  match fl with
  | .json =>
    match token with
    | .value (.str ..) .. => do
      let (p, pt) ← PathParser.parsePathNodeExpression env .conf false [token]
      .ok (p, pt, toks)
    | _ => .err .parse
  | .conf =>
    match keyRun (token :: toks) with
    | ([], _) => .err .parse
    | (_, []) => .ub
    | (e, rest) => do
      let (p, pt) ← PathParser.parsePathNodeExpression env .conf false e
      .ok (p, pt, rest)

/-- `is_include_keyword`, config_document_parser.cc 270-272. -/
def isIncludeKeyword : Tok → Bool
  | .unquoted s _ => s = ch "include"
  | _ => false

/-- `is_key_value_separator`, config_document_parser.cc 288-295. -/
def isKeyValueSeparator (fl : Syntax) : Tok → Bool
  | .colon => true
  | .equals => fl = .conf
  | .plusEquals => fl = .conf
  | _ => false

/-- The kind of an include from the text of the unquoted token, config_document_parser.cc 304-313. -/
def includeKind (text : Str) : Option IncludeKind :=
  if text = ch "url(" then some .url
  else if text = ch "file(" then some .file
  else if text = ch "classpath(" then some .classpath
  else none

/-- `tokens::is_value_with_type(t, STRING)`. -/
def isStringValue : Tok → Bool
  | .value (.str ..) .. => true
  | _ => false

/-- `parse_include`, config_document_parser.cc 297-339, on CONF input; `pre` are the children so far.
The `)` is checked but not stored. -/
def parseInclude (pre : List Node) (toks : List Tok) : Res (Node × List Tok) := do
  let (ws, t, ts) ← nextCollect .conf toks
  match t with
  | .unquoted text _ =>
    match includeKind text with
    | none => .err .parse
    | some kind => do
      let (ws2, t2, ts2) ← nextCollect .conf ts
      if isStringValue t2 then do
        let (ws3, t3, ts3) ← nextCollect .conf ts2
        if t3.text = [')'] then
          .ok (.incl (pre ++ ws ++ .single t :: ws2 ++ .simple t2 :: ws3) kind, ts3)
        else .err .parse
      else .err .parse
  | _ =>
    if isStringValue t then .ok (.incl (pre ++ ws ++ [.simple t]) .heuristic, ts)
    else .err .parse

/-- First token classes for which `parse_value` does not fail; also `is_valid_array_element`,
config_document_parser.cc 612-618, and the test in `consolidate_values` 142-144. -/
def startsValue : Tok → Bool
  | .value .. => true
  | .unquoted .. => true
  | .subst .. => true
  | .openCurly => true
  | .openSquare => true
  | _ => false

/-- Lines 159-186 of `consolidate_values`: split the collected `values` into the value (if any), the
nodes for the caller and the tokens to put back. For fewer than two values (162-174) the nodes before
the value go to the caller and the tokens after it are put back in order, i.e. the last one ends up on
top of the stack; otherwise (176-186) trailing single tokens are put back from the end. -/
def putBackFrom : List Node → List Tok → List Tok
  | [], toks => toks
  | n :: ns, toks => putBackFrom ns ((n.tokens.head?).toList ++ toks)

/-- The `for` loop at 164-172 of config_document_parser.cc. -/
def splitSingle : List Node → List Tok → List Node × Option Node × List Tok
  | [], toks => ([], none, toks)
  | n :: ns, toks =>
    if n.isValue then ([], some n, putBackFrom ns toks)
    else
      let (pre, v, toks') := splitSingle ns toks
      (n :: pre, v, toks')

/-- The `for` loop at 178-185 of config_document_parser.cc, on the reversed list. -/
def dropTrailing : List Node → List Tok → List Node × List Tok
  | [], toks => ([], toks)
  | n :: ns, toks =>
    match n.singleToken? with
    | some t => dropTrailing ns (t :: toks)
    | none => (n :: ns, toks)

/-- The end of `consolidate_values`, config_document_parser.cc 161-186. -/
def consFinish (values : List Node) (t : Tok) (toks : List Tok) :
    List Node × Option Node × List Tok :=
  if (values.countP Node.isValue) < 2 then splitSingle values (t :: toks)
  else
    let (rev, toks') := dropTrailing values.reverse (t :: toks)
    ([], some (.concat rev.reverse), toks')

/-- `*key_path->get_path().first()` and the duplicate check, config_document_parser.cc 411-431. -/
def addKey (fl : Syntax) (keys : List Str) (p : Path) : Res (List Str) :=
  match p with
  | [] => .ub
  | k :: rest =>
    match fl with
    | .conf => .ok (k :: keys)
    | .json =>
      if rest.isEmpty then (if keys.contains k then .err .parse else .ok (k :: keys))
      else .err .config

mutual
/-- `parse_value`, config_document_parser.cc 221-242. -/
def parseValue (env : Env) (fl : Syntax) : Nat → Tok → List Tok → Res (Node × List Tok)
  | 0, _, _ => .fuel
  | fuel + 1, t, toks =>
    match t with
    | .value .. => .ok (.simple t, toks)
    | .unquoted .. => .ok (.simple t, toks)
    | .subst .. => .ok (.simple t, toks)
    | .openCurly => do
      let (ns, toks') ← objectLoop env fl fuel true false [] toks
      .ok (.object (.single .openCurly :: ns), toks')
    | .openSquare => parseArray env fl fuel toks
    | _ => .err .parse

/-- The `while` loop of `consolidate_values`, config_document_parser.cc 136-157. Returns the
collected values (in order) and the token that ended the loop. -/
def consLoop (env : Env) (fl : Syntax) : Nat → Tok → List Tok → Res (List Node × Tok × List Tok)
  | 0, _, _ => .fuel
  | fuel + 1, t, toks =>
    match t with
    | .ws .. => do
      let (t', toks') ← nextToken fl toks
      let (vs, t'', toks'') ← consLoop env fl fuel t' toks'
      .ok (.single t :: vs, t'', toks'')
    | _ =>
      if startsValue t then do
        let (v, toks1) ← parseValue env fl fuel t toks
        let (t', toks') ← nextToken fl toks1
        let (vs, t'', toks'') ← consLoop env fl fuel t' toks'
        .ok (v :: vs, t'', toks'')
      else .ok ([], t, toks)

/-- `consolidate_values`, config_document_parser.cc 124-187. Returns the nodes pushed to the
caller's list, the value (if any) and the remaining tokens. -/
def consolidate (env : Env) (fl : Syntax) : Nat → List Tok → Res (List Node × Option Node × List Tok)
  | 0, _ => .fuel
  | fuel + 1, toks =>
    match fl with
    | .json => .ok ([], none, toks)
    | .conf => do
      let (ws, t, toks1) ← nextCollect .conf toks
      let (vs, t', toks2) ← consLoop env fl fuel t toks1
      let (pre, v, toks3) := consFinish vs t' toks2
      .ok (ws ++ pre, v, toks3)

/-- One value after a separator, config_document_parser.cc 399-402: `consolidate_values`, or a plain
`parse_value` of the next token. -/
def fieldVal (env : Env) (fl : Syntax) : Nat → List Tok → Res (List Node × Node × List Tok)
  | 0, _ => .fuel
  | fuel + 1, toks => do
    let (ws, v, toks1) ← consolidate env fl fuel toks
    match v with
    | some v => .ok (ws, v, toks1)
    | none => do
      let (ws2, t, toks2) ← nextCollect fl toks1
      let (v, toks3) ← parseValue env fl fuel t toks2
      .ok (ws ++ ws2, v, toks3)

/-- One field, config_document_parser.cc 376-409 and 433: key, separator, value. Returns the path of
the key and the field node. -/
def parseField (env : Env) (fl : Syntax) : Nat → Tok → List Tok → Res (Path × Node × List Tok)
  | 0, _, _ => .fuel
  | fuel + 1, t, toks => do
    let (p, pt, toks1) ← parseKey env fl t toks
    let (ws, ak, toks2) ← nextCollect fl toks1
    if fl = .conf && ak.isOpenCurly then do
      let (v, toks3) ← parseValue env fl fuel ak toks2
      .ok (p, .field (.path p pt :: ws ++ [v]), toks3)
    else if isKeyValueSeparator fl ak then do
      let (ws2, v, toks3) ← fieldVal env fl fuel toks2
      .ok (p, .field (.path p pt :: ws ++ .single ak :: ws2 ++ [v]), toks3)
    else .err .parse

/-- The `while` loop of `parse_object`, config_document_parser.cc 354-461. Returns the nodes pushed
to `object_nodes` from here on. -/
def objectLoop (env : Env) (fl : Syntax) : Nat → Bool → Bool → List Str → List Tok →
    Res (List Node × List Tok)
  | 0, _, _, _, _ => .fuel
  | fuel + 1, hadOpen, afterComma, keys, toks => do
    let (ws, t, toks1) ← nextCollect fl toks
    match t with
    | .closeCurly =>
      if fl = .json && afterComma then .err .parse
      else if !hadOpen then .err .parse
      else .ok (ws ++ [.single .closeCurly], toks1)
    | _ =>
      if t.isEnd && !hadOpen then .ok (ws, t :: toks1)
      else if fl = .conf && isIncludeKeyword t then do
        let (inc, toks2) ← parseInclude [.single t] toks1
        let (ns, toks3) ← objectSep env fl fuel hadOpen keys toks2
        .ok (ws ++ inc :: ns, toks3)
      else do
        let (p, fld, toks2) ← parseField env fl fuel t toks1
        let keys' ← addKey fl keys p
        let (ns, toks3) ← objectSep env fl fuel hadOpen keys' toks2
        .ok (ws ++ fld :: ns, toks3)

/-- The end of the loop body of `parse_object`, config_document_parser.cc 436-460. -/
def objectSep (env : Env) (fl : Syntax) : Nat → Bool → List Str → List Tok →
    Res (List Node × List Tok)
  | 0, _, _, _ => .fuel
  | fuel + 1, hadOpen, keys, toks => do
    let (ws, sep, toks1) ← checkSep fl toks
    if sep then do
      let (ns, toks2) ← objectLoop env fl fuel hadOpen true keys toks1
      .ok (ws ++ ns, toks2)
    else do
      let (ws2, t, toks2) ← nextCollect fl toks1
      match t with
      | .closeCurly => if hadOpen then .ok (ws ++ ws2 ++ [.single t], toks2) else .err .parse
      | .end_ => if hadOpen then .err .parse else .ok (ws ++ ws2, t :: toks2)
      | _ => .err .parse

/-- `parse_array`, config_document_parser.cc 465-486 (up to the loop). -/
def parseArray (env : Env) (fl : Syntax) : Nat → List Tok → Res (Node × List Tok)
  | 0, _ => .fuel
  | fuel + 1, toks => do
    let (ws, v, toks1) ← consolidate env fl fuel toks
    match v with
    | some v => do
      let (ns, toks2) ← arrayLoop env fl fuel toks1
      .ok (.array (.single .openSquare :: ws ++ v :: ns), toks2)
    | none => do
      let (ws2, t, toks2) ← nextCollect fl toks1
      match t with
      | .closeSquare => .ok (.array (.single .openSquare :: ws ++ ws2 ++ [.single t]), toks2)
      | _ =>
        if startsValue t then do
          let (v, toks3) ← parseValue env fl fuel t toks2
          let (ns, toks4) ← arrayLoop env fl fuel toks3
          .ok (.array (.single .openSquare :: ws ++ ws2 ++ v :: ns), toks4)
        else .err .parse

/-- The `while` loop of `parse_array`, config_document_parser.cc 489-519. Returns the children pushed
from here on. -/
def arrayLoop (env : Env) (fl : Syntax) : Nat → List Tok → Res (List Node × List Tok)
  | 0, _ => .fuel
  | fuel + 1, toks => do
    let (ws, sep, toks1) ← checkSep fl toks
    if sep then do
      let (ws2, v, toks2) ← consolidate env fl fuel toks1
      match v with
      | some v => do
        let (ns, toks3) ← arrayLoop env fl fuel toks2
        .ok (ws ++ ws2 ++ v :: ns, toks3)
      | none => do
        let (ws3, t, toks3) ← nextCollect fl toks2
        if startsValue t then do
          let (v, toks4) ← parseValue env fl fuel t toks3
          let (ns, toks5) ← arrayLoop env fl fuel toks4
          .ok (ws ++ ws2 ++ ws3 ++ v :: ns, toks5)
        else if fl = .conf && t.isCloseSquare then do
          let (ns, toks4) ← arrayLoop env fl fuel (t :: toks3)
          .ok (ws ++ ws2 ++ ws3 ++ ns, toks4)
        else .err .parse
    else do
      let (ws2, t, toks2) ← nextCollect fl toks1
      match t with
      | .closeSquare => .ok (ws ++ ws2 ++ [.single t], toks2)
      | _ => .err .parse
end

/-- Fuel that suffices for a token list (see `Verif/Lemmas/DocParserLemmas.lean`). -/
def fuelFor (toks : List Tok) : Nat := 8 * toks.length + 8

/-- The last part of `parse`, config_document_parser.cc 561-572. -/
def parseEnd (fl : Syntax) (missingCurly : Bool) (children : List Node) (toks : List Tok) :
    Res (List Node) := do
  let (ws, t, _) ← nextCollect fl toks
  match t with
  | .end_ => .ok (if missingCurly then [.object (children ++ ws)] else children ++ ws)
  | _ => .err .parse

/-- `parse_context::parse`, config_document_parser.cc 522-573; returns the children of the root. -/
def parse (env : Env) (fl : Syntax) (toks : List Tok) : Res (List Node) := do
  let (t, toks1) ← nextToken fl toks
  match t with
  | .start => do
    let (ws, t, toks2) ← nextCollect fl toks1
    match t with
    | .openCurly => do
      let (v, toks3) ← parseValue env fl (fuelFor toks) t toks2
      parseEnd fl false (ws ++ [v]) toks3
    | .openSquare => do
      let (v, toks3) ← parseValue env fl (fuelFor toks) t toks2
      parseEnd fl false (ws ++ [v]) toks3
    | _ =>
      match fl with
      | .json => .err .parse
      | .conf => do
        let (ns, toks3) ← objectLoop env fl (fuelFor toks) false false [] (t :: toks2)
        parseEnd fl true (ws ++ ns) toks3
  | _ => .err .config

/-- `parse_context::parse_single_value`, config_document_parser.cc 575-610. The result of
`consolidate_values` may be null, hence the `Option`. -/
def parseSingleValue (env : Env) (fl : Syntax) (toks : List Tok) : Res (Option Node) := do
  let (t, toks1) ← nextToken fl toks
  match t with
  | .start => do
    let (t, toks2) ← nextToken fl toks1
    if (collectNode t).isSome then .err .parse
    else match t with
      | .end_ => .err .parse
      | _ =>
        match fl with
        | .json => do
          let (n, toks3) ← parseValue env fl (fuelFor toks) t toks2
          let (t', _) ← nextToken fl toks3
          match t' with
          | .end_ => .ok (some n)
          | _ => .err .parse
        | .conf => do
          let (_, v, toks3) ← consolidate env fl (fuelFor toks) (t :: toks2)
          let (t', _) ← nextToken fl toks3
          match t' with
          | .end_ => .ok v
          | _ => .err .parse
  | _ => .err .config

/-- Parsing a document: tokenizer and document parser
(`parseable::raw_parse_document`, parseable.cc, and `config_document_factory.cc`). The tokenizer runs
lazily in the code; here it runs first, so a tokenizer exception wins over a parser exception. -/
def parseDocument (env : Env) (fl : Syntax) (s : Str) : Res (List Node) := do
  let toks ← Tokenizer.tokenize env (fl = .conf) s
  parse env fl toks

end DocParser
end Hocon
