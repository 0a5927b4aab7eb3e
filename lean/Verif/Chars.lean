import Verif.Base

/-!
# Character classes and string rendering

Model of `lib/src/config_util.cc`. `isspace`, `isalnum`, `isdigit`, `isalpha` are taken in the "C"
locale (the library never calls `setlocale`): they only accept ASCII.
-/

namespace Hocon

/-- `isspace` in the "C" locale: space, `\t \n \v \f \r`. -/
def isSpace (c : Char) : Bool :=
  c == ' ' || c == '\t' || c == '\n' || c == '\x0b' || c == '\x0c' || c == '\r'

/-- `is_whitespace`, config_util.cc 8-21. -/
def isWhitespace (c : Char) : Bool :=
  c == ' ' || c == '\n' || isSpace c

/-- `is_whitespace_not_newline`, config_util.cc 23-25. -/
def isWhitespaceNotNewline (c : Char) : Bool :=
  c != '\n' && isWhitespace c

/-- `is_C0_control`, config_util.cc 27-29: `c <= 0x1F` on a signed `char`, so bytes `>= 0x80`
(negative) are "controls" too. -/
def isC0Control (c : Char) : Bool :=
  c.toNat ≤ 0x1f || 0x80 ≤ c.toNat

/-- `isdigit`. -/
def isDigit (c : Char) : Bool := '0'.toNat ≤ c.toNat && c.toNat ≤ '9'.toNat

/-- `isalpha` in the "C" locale. -/
def isAlpha (c : Char) : Bool :=
  ('a'.toNat ≤ c.toNat && c.toNat ≤ 'z'.toNat) || ('A'.toNat ≤ c.toNat && c.toNat ≤ 'Z'.toNat)

/-- `isalnum` in the "C" locale. -/
def isAlnum (c : Char) : Bool := isAlpha c || isDigit c

/-- The `switch` of `render_json_string` for one character, config_util.cc 34-60. -/
def escapeChar (c : Char) : Str :=
  if c = '"' then ch "\\\""
  else if c = '\\' then ch "\\\\"
  else if c = '\n' then ch "\\n"
  else if c = '\x08' then ch "\\b"
  else if c = '\x0c' then ch "\\f"
  else if c = '\r' then ch "\\r"
  else if c = '\t' then ch "\\t"
  else [c]

/-- `render_json_string`, config_util.cc 31-64. -/
def renderJsonString (s : Str) : Str :=
  '"' :: s.flatMap escapeChar ++ ['"']

/-- `render_string_unquoted_if_possible`, config_util.cc 66-93. -/
def renderStringUnquotedIfPossible (s : Str) : Str :=
  match s with
  | [] => renderJsonString s
  | first :: _ =>
    if isDigit first || first == '-' then renderJsonString s
    else if (ch "include").isPrefixOf s || (ch "true").isPrefixOf s || (ch "false").isPrefixOf s
        || (ch "null").isPrefixOf s || (ch "//").isPrefixOf s then renderJsonString s
    else if s.any fun c => !(isAlpha c || isDigit c || c == '-') then renderJsonString s
    else s

/-- `path::has_funky_chars`, path.cc 176-182. -/
def hasFunkyChars (s : Str) : Bool :=
  s.any fun c => !(isAlnum c || c == '-' || c == '_')

end Hocon
