import Verif.Token

/-!
# Tokenizer

Model of `lib/src/tokenizer.cc`.

Stream model. `_input` is the list of characters not read yet. `get()` on the empty list sets
failbit and returns EOF (`'\xFF'` as a `char`); from then on every `get()` fails and `putback`
fails as well (it never clears failbit), so a failed stream behaves as the empty list. The only
tests of the stream state (`*_input`) in the code are followed by a `get()` whose EOF result is
rejected in the same way (an exception, or END), so "empty, not failed" and "failed" need not be
distinguished. `peek` at the end only sets eofbit, which the following `putback` clears.

The iterator is lazy; the model tokenizes the whole input. The parser always consumes all tokens
up to END or throws, so only the moment at which an exception is thrown differs.
-/

namespace Hocon
namespace Tokenizer

/-- `not_in_unquoted_text`, tokenizer.cc 184. -/
def notInUnquotedText : Str := ch "$\"{}[]:=,+#`^?!@*&\\"

/-- `first_number_chars`, tokenizer.cc 172-175. -/
def firstNumberChars : Str := ch "0123456789-"

/-- `number_chars`, tokenizer.cc 178-181. -/
def numberChars : Str := ch "0123456789eE+-."

/-- `whitespace_saver`, tokenizer.hpp 61-77. -/
structure Saver where
  ws : Str
  lastSimple : Bool
  deriving DecidableEq, Repr

/-- Constructor, tokenizer.cc 28. -/
def Saver.init : Saver := ⟨[], false⟩

/-- `create_whitespace_token`, tokenizer.cc 67-79. -/
def Saver.create (s : Saver) (line : Nat) : Option Tok × Saver :=
  if s.ws.length > 0 then
    ((if s.lastSimple then some (.unquoted s.ws line) else some (.ws s.ws line)),
      { s with ws := [] })
  else (none, s)

/-- `whitespace_saver::check`, tokenizer.cc 34-65: for a simple value the token is created with the
old flag and the flag is set afterwards; otherwise the flag is cleared first. -/
def Saver.check (s : Saver) (simple : Bool) (line : Nat) : Option Tok × Saver :=
  if simple then
    let (t, s') := s.create line
    (t, { s' with lastSimple := true })
  else
    { s with lastSimple := false }.create line

/-- `start_of_comment`, tokenizer.cc 94-111; `rest` is what `peek` looks at. -/
def startOfComment (allow : Bool) (c : Char) (rest : Str) : Bool :=
  allow && (c == '#' || (c == '/' && rest.head? == some '/'))

/-- `next_char_after_whitespace`, tokenizer.cc 113-125. Returns the extended whitespace and the
first other character with the rest of the input (`none` at the end of the input). -/
def nextCharAfterWhitespace (ws : Str) : Str → Str × Option (Char × Str)
  | [] => (ws, none)
  | c :: r =>
    if isWhitespaceNotNewline c then nextCharAfterWhitespace (ws ++ [c]) r else (ws, some (c, r))

/-- The loop of `pull_comment`, tokenizer.cc 155-163: everything up to a newline, which is put
back. -/
def commentBody : Str → Str × Str
  | [] => ([], [])
  | c :: r => if c = '\n' then ([], c :: r) else
      let (b, r') := commentBody r
      (c :: b, r')

/-- `pull_comment`, tokenizer.cc 145-169. -/
def pullComment (first : Char) (rest : Str) (line : Nat) : Res (Tok × Str) :=
  if first = '/' then
    match rest with
    | '/' :: r => let (b, r') := commentBody r; .ok (.comment true b line, r')
    | _ => .err .config
  else
    let (b, r') := commentBody rest
    .ok (.comment false b line, r')

/-- `pull_unquoted_text`, tokenizer.cc 192-225, `acc` is `result`. -/
def pullUnquoted (allow : Bool) (line : Nat) : Str → Str → Tok × Str
  | acc, [] => (.unquoted acc line, [])
  | acc, c :: r =>
    if notInUnquotedText.contains c || isWhitespace c || startOfComment allow c r then
      (.unquoted acc line, c :: r)
    else
      let acc' := acc ++ [c]
      if acc'.length = 4 ∧ acc' = ch "true" then (.value (.bool true) (ch "true") line, r)
      else if acc'.length = 4 ∧ acc' = ch "null" then (.value .null (ch "null") line, r)
      else if acc'.length = 5 ∧ acc' = ch "false" then (.value (.bool false) (ch "false") line, r)
      else pullUnquoted allow line acc' r

/-- The digits of a decimal number. -/
def digitsVal : Nat → Str → Nat
  | acc, [] => acc
  | acc, c :: r => digitsVal (acc * 10 + (c.toNat - '0'.toNat)) r

/-- `boost::lexical_cast<int64_t>`: an optional sign, at least one digit, in range; anything else is
`bad_lexical_cast`. -/
def lexCastI64 (s : Str) : Option Int :=
  let (neg, ds) := match s with
    | '-' :: r => (true, r)
    | '+' :: r => (false, r)
    | r => (false, r)
  if ds.isEmpty || !(ds.all isDigit) then none
  else
    let v : Int := if neg then -(digitsVal 0 ds : Int) else (digitsVal 0 ds : Int)
    if i64Min ≤ v ∧ v ≤ i64Max then some v else none

/-- The loop of `pull_number`, tokenizer.cc 231-241. -/
def numberBody : Str → Str × Str
  | [] => ([], [])
  | c :: r =>
    if numberChars.contains c then
      let (b, r') := numberBody r
      (c :: b, r')
    else ([], c :: r)

/-- `catch` part of `pull_number`, tokenizer.cc 251-260. -/
def notANumber (text : Str) (line : Nat) : Res Tok :=
  if text.any fun c => notInUnquotedText.contains c then .err .config
  else .ok (.unquoted text line)

/-- `pull_number`, tokenizer.cc 227-261. `contained_decimal_or_E` only looks at the characters after
the first. The text of the value token is `transform_to_string`, i.e. the original text. -/
def pullNumber (env : Env) (first : Char) (rest : Str) (line : Nat) : Res (Tok × Str) :=
  let (body, r) := numberBody rest
  let text := first :: body
  if body.any fun c => c == '.' || c == 'e' || c == 'E' then
    match env.parseDouble text with
    | some d => do
        let v ← newNumberDouble env d text
        .ok (.value v (v.transformToString env) line, r)
    | none => do
        let t ← notANumber text line
        .ok (t, r)
  else
    match lexCastI64 text with
    | some i =>
        let v := newNumberI64 i text
        .ok (.value v (v.transformToString env) line, r)
    | none => do
        let t ← notANumber text line
        .ok (t, r)

/-- The one-character cases of the `switch` in `pull_escape_sequence`, tokenizer.cc 274-298. -/
def simpleEscape (c : Char) : Option Char :=
  if c = '"' then some '"'
  else if c = '\\' then some '\\'
  else if c = '/' then some '/'
  else if c = 'b' then some '\x08'
  else if c = 'f' then some '\x0c'
  else if c = 'n' then some '\n'
  else if c = 'r' then some '\r'
  else if c = 't' then some '\t'
  else none

/-- `string(utf)` for a `char utf[5]`: stops at the first NUL. -/
def cstr (s : Str) : Str := s.takeWhile (· ≠ '\x00')

/-- The loop of `pull_quoted_string` with `pull_escape_sequence` inlined, tokenizer.cc 354-371 and
263-317. Arguments: `result`, `original`. For `\u` the four characters are read one by one; if only
three are left, the last `get` fails, the digits are scanned and the next loop iteration throws. If
`sscanf` stores nothing the uninitialised variable is used. -/
def quotedLoop (env : Env) (result original : Str) : Str → Res (Str × Str × Str)
  | [] => .err .config
  | c :: r =>
    if c = '\\' then
      match r with
      | [] => .err .config
      | e :: r1 =>
        match simpleEscape e with
        | some p => quotedLoop env (result ++ [p]) (original ++ ['\\', e]) r1
        | none =>
          if e = 'u' then
            match r1 with
            | a :: b :: c' :: d :: r2 =>
              match env.scanHx (cstr [a, b, c', d]) with
              | none => .ub
              | some n =>
                quotedLoop env (result ++ env.narrow n)
                  (original ++ ['\\', 'u'] ++ cstr [a, b, c', d]) r2
            | [a, b, c'] =>
              match env.scanHx (cstr [a, b, c', '\xff']) with
              | none => .ub
              | some _ => .err .config
            | _ => .err .config
          else .err .config
    else if c = '"' then .ok (result, original ++ ['"'], r)
    else if isC0Control c then .err .config
    else quotedLoop env (result ++ [c]) (original ++ [c]) r

/-- `append_triple_quoted_string`, tokenizer.cc 319-343. Returns parsed, original, rest, line. -/
def tripleLoop (parsed original : Str) (quotes line : Nat) : Str → Res (Str × Str × Str × Nat)
  | [] =>
    if quotes ≥ 3 then .ok (parsed.take (parsed.length - 3), original, [], line) else .err .config
  | c :: r =>
    if c = '"' then tripleLoop (parsed ++ [c]) (original ++ [c]) (quotes + 1) line r
    else if quotes ≥ 3 then .ok (parsed.take (parsed.length - 3), original, c :: r, line)
    else tripleLoop (parsed ++ [c]) (original ++ [c]) 0 (if c = '\n' then line + 1 else line) r

/-- `pull_quoted_string`, tokenizer.cc 345-386 (after the opening quote). -/
def pullQuoted (env : Env) (rest : Str) (line : Nat) : Res (Tok × Str × Nat) := do
  let (result, original, r) ← quotedLoop env [] ['"'] rest
  if result.length = 0 then
    match r with
    | '"' :: r' => do
      let (p, o, r'', line') ← tripleLoop result (original ++ ['"']) 0 line r'
      .ok (.value (.str p true) o line', r'', line')
    | _ => .ok (.value (.str result true) original line, r, line)
  else .ok (.value (.str result true) original line, r, line)

/-- `pull_plus_equals`, tokenizer.cc 388-394. -/
def pullPlusEquals : Str → Res (Tok × Str)
  | '=' :: r => .ok (.plusEquals, r)
  | _ => .err .config

/-- The cases of the `switch` in `pull_next_token` (tokenizer.cc 460-482) that return a singleton. -/
def punctuation (c : Char) : Option Tok :=
  if c = ':' then some .colon
  else if c = ',' then some .comma
  else if c = '=' then some .equals
  else if c = '{' then some .openCurly
  else if c = '}' then some .closeCurly
  else if c = '[' then some .openSquare
  else if c = ']' then some .closeSquare
  else none

/-- The tail of `pull_next_token`, tokenizer.cc 488-498: numbers and unquoted text. -/
def pullWord (env : Env) (allow : Bool) (c : Char) (r : Str) (line : Nat) : Res (Tok × Str) :=
  if firstNumberChars.contains c then pullNumber env c r line
  else if notInUnquotedText.contains c then .err .config
  else .ok (pullUnquoted allow line [] (c :: r))

/-- The part of `pull_next_token` (tokenizer.cc 450-498) that does not recurse: everything except
newlines and substitutions. -/
def pullPlain (env : Env) (allow : Bool) (c : Char) (r : Str) (line : Nat) :
    Res (Tok × Str × Nat) :=
  if startOfComment allow c r then do
    let (t, r') ← pullComment c r line
    .ok (t, r', line)
  else if c = '"' then pullQuoted env r line
  else match punctuation c with
    | some t => .ok (t, r, line)
    | none =>
      if c = '+' then do
        let (t, r') ← pullPlusEquals r
        .ok (t, r', line)
      else do
        let (t, r') ← pullWord env allow c r line
        .ok (t, r', line)

/-- The start of `pull_substitution`, tokenizer.cc 399-410: `{` or `{?`. -/
def substOpen : Str → Option (Bool × Str)
  | '{' :: '?' :: r => some (true, r)
  | '{' :: r => some (false, r)
  | _ => none

mutual
/-- `pull_next_token`, tokenizer.cc 439-507. State: saver, unread input, line number. -/
def pullNext (env : Env) (allow : Bool) : Nat → Saver → Str → Nat →
    Res (Tok × Saver × Str × Nat)
  | 0, _, _, _ => .fuel
  | fuel + 1, saver, input, line =>
    match nextCharAfterWhitespace saver.ws input with
    | (ws, none) => .ok (.end_, { saver with ws := ws }, [], line)
    | (ws, some (c, r)) =>
      let saver' := { saver with ws := ws }
      if c = '\n' then .ok (.newline line, saver', r, line + 1)
      else if c = '$' then do
        let (t, r', line') ← pullSubst env allow fuel r line
        .ok (t, saver', r', line')
      else do
        let (t, r', line') ← pullPlain env allow c r line
        .ok (t, saver', r', line')

/-- `pull_substitution`, tokenizer.cc 396-437, after the `$`. -/
def pullSubst (env : Env) (allow : Bool) : Nat → Str → Nat → Res (Tok × Str × Nat)
  | 0, _, _ => .fuel
  | fuel + 1, input, line =>
    match substOpen input with
    | some (optional, r) => do
      let (expr, r', line') ← substLoop env allow fuel Saver.init [] r line
      .ok (.subst optional expr line', r', line')
    | none => .err .config

/-- The loop of `pull_substitution`, tokenizer.cc 412-434. On `}` the whitespace collected so far is
dropped with the saver. -/
def substLoop (env : Env) (allow : Bool) : Nat → Saver → List Tok → Str → Nat →
    Res (List Tok × Str × Nat)
  | 0, _, _, _, _ => .fuel
  | fuel + 1, saver, expr, input, line =>
    match pullNext env allow fuel saver input line with
    | .ok (.closeCurly, _, r, line') => .ok (expr, r, line')
    | .ok (.end_, _, _, _) => .err .config
    | .ok (t, saver', r, line') =>
      let (w, saver'') := saver'.check t.isSimple line'
      substLoop env allow fuel saver'' (expr ++ w.toList ++ [t]) r line'
    | .err e => .err e
    | .ub => .ub
    | .fuel => .fuel
end

/-- Iterating `next` until END (`queue_next_token`, `next`, tokenizer.cc 509-540), collecting all
tokens after START. -/
def tokenLoop (env : Env) (allow : Bool) : Nat → Saver → Str → Nat → Res (List Tok)
  | 0, _, _, _ => .fuel
  | fuel + 1, saver, input, line =>
    match pullNext env allow (2 * input.length + 1) saver input line with
    | .ok (t, saver', r, line') =>
      let (w, saver'') := saver'.check t.isSimple line'
      match t with
      | .end_ => .ok (w.toList ++ [.end_])
      | _ => do
        let ts ← tokenLoop env allow fuel saver'' r line'
        .ok (w.toList ++ t :: ts)
    | .err e => .err e
    | .ub => .ub
    | .fuel => .fuel

/-- All tokens of an input: the sequence returned by `token_iterator::next`. `allow` is
`_allow_comments` (`flavor != JSON`, tokenizer.cc 84-92). -/
def tokenize (env : Env) (allow : Bool) (s : Str) : Res (List Tok) := do
  let ts ← tokenLoop env allow (s.length + 1) Saver.init s 1
  .ok (.start :: ts)

end Tokenizer
end Hocon
