import Verif.Chars

/-!
# Tokens

Model of `lib/src/token.cc`, `lib/src/tokens.cc` and of the scalar values that tokens carry
(`lib/src/values/config_{boolean,null,int,long,double,number,string}.cc`).
Origins are modelled by their line number only (`-1` = no origin, as `token::line_number`,
token.cc 289-295 of the combined listing, returns).
-/

namespace Hocon

/-- Scalar configuration values as they occur in tokens. Numbers keep their original text
(`config_number::_original_text`). -/
inductive Scalar where
  /-- `config_null` -/
  | null
  /-- `config_boolean` -/
  | bool (b : Bool)
  /-- `config_int` (32-bit) with original text -/
  | int (v : Int) (orig : Str)
  /-- `config_long` (64-bit) with original text -/
  | long (v : Int) (orig : Str)
  /-- `config_double` with original text -/
  | double (d : Dbl) (orig : Str)
  /-- `config_string`; `quoted` is `config_string_type::QUOTED` -/
  | str (s : Str) (quoted : Bool)
  deriving DecidableEq, Repr

/-- `std::to_string` of an integer. -/
def showInt (i : Int) : Str :=
  if i < 0 then '-' :: Nat.toDigits 10 i.natAbs else Nat.toDigits 10 i.natAbs

/-- `transform_to_string` of the scalar classes: config_boolean.cc 14, config_null.cc 15,
config_int.cc 10-17, config_long.cc 10-17, config_double.cc 10-17, config_string.cc 14. -/
def Scalar.transformToString (env : Env) : Scalar → Str
  | .null => ch "null"
  | .bool b => if b then ch "true" else ch "false"
  | .int v orig => if orig.isEmpty then showInt v else orig
  | .long v orig => if orig.isEmpty then showInt v else orig
  | .double d orig => if orig.isEmpty then env.showDouble d else orig
  | .str s _ => s

/-- Bounds of `int` (32 bit). -/
def intMin : Int := -2147483648
def intMax : Int := 2147483647
/-- Bounds of `int64_t`. -/
def i64Min : Int := -9223372036854775808
def i64Max : Int := 9223372036854775807

/-- `config_number::new_number(origin, int64_t, text)`, config_number.cc 52-60. -/
def newNumberI64 (v : Int) (orig : Str) : Scalar :=
  if intMin ≤ v ∧ v ≤ intMax then .int v orig else .long v orig

/-- `config_number::new_number(origin, double, text)`, config_number.cc 62-70. The cast
`static_cast<int64_t>(value)` is undefined when out of range. -/
def newNumberDouble (env : Env) (d : Dbl) (orig : Str) : Res Scalar :=
  match env.doubleToI64 d with
  | none => .ub
  | some i =>
    if env.doubleEq (env.i64ToDouble i) d then .ok (newNumberI64 i orig) else .ok (.double d orig)

/-- Tokens. `line` is the origin's line number. The singletons (`tokens::comma_token()` ...,
tokens.cc 171-230) are compared by pointer in the code, hence are constructors here. -/
inductive Tok where
  | start
  | end_
  | comma
  | equals
  | colon
  | openCurly
  | closeCurly
  | openSquare
  | closeSquare
  | plusEquals
  /-- `value` token with its original text, tokens.cc 14-37 -/
  | value (v : Scalar) (text : Str) (line : Int)
  /-- `line` token, tokens.cc 39-49 -/
  | newline (line : Int)
  /-- `unquoted_text`, tokens.cc 51-62 -/
  | unquoted (text : Str) (line : Int)
  /-- `ignored_whitespace`, tokens.cc 64-75 -/
  | ws (text : Str) (line : Int)
  /-- `double_slash_comment` (`dslash = true`) or `hash_comment`, tokens.cc 109-139 -/
  | comment (dslash : Bool) (text : Str) (line : Int)
  /-- `substitution`, tokens.cc 141-169 -/
  | subst (optional : Bool) (expr : List Tok) (line : Int)
  deriving Repr

mutual
/-- `token::token_text` and its overrides (token.cc 281, tokens.cc 129-131, 137-139, 154-156; the
substitution text uses `token_iterator::render`, tokenizer.cc 137-143). -/
def Tok.text : Tok → Str
  | .start => []
  | .end_ => []
  | .comma => [',']
  | .equals => ['=']
  | .colon => [':']
  | .openCurly => ['{']
  | .closeCurly => ['}']
  | .openSquare => ['[']
  | .closeSquare => [']']
  | .plusEquals => ['+', '=']
  | .value _ t _ => t
  | .newline _ => ['\n']
  | .unquoted t _ => t
  | .ws t _ => t
  | .comment true t _ => '/' :: '/' :: t
  | .comment false t _ => '#' :: t
  | .subst o e _ => '$' :: '{' :: ((if o then ['?'] else []) ++ Tok.textList e ++ ['}'])
/-- Concatenated text of a token list (`token_iterator::render`, tokenizer.cc 137-143, and
`abstract_config_node::render`, abstract_config_node.cc 7-13). -/
def Tok.textList : List Tok → Str
  | [] => []
  | t :: ts => Tok.text t ++ Tok.textList ts
end

/-- `token_iterator::is_simple_value` on the token's type, tokenizer.cc 127-131. -/
def Tok.isSimple : Tok → Bool
  | .subst .. => true
  | .value .. => true
  | .unquoted .. => true
  | _ => false

/-- `token::line_number`, token.cc (289-295 of the combined listing): -1 without origin. Value
tokens have a null base origin, so this is -1 for them too. -/
def Tok.lineNumber : Tok → Int
  | .newline l => l
  | .unquoted _ l => l
  | .ws _ l => l
  | .comment _ _ l => l
  | .subst _ _ l => l
  | _ => -1

/-- Line of `token::origin()`; value tokens delegate to their value (tokens.cc 26-28). -/
def Tok.originLine : Tok → Option Int
  | .newline l => some l
  | .unquoted _ l => some l
  | .ws _ l => some l
  | .comment _ _ l => some l
  | .subst _ _ l => some l
  | .value _ _ l => some l
  | _ => none

theorem Tok.textList_append (a b : List Tok) :
    Tok.textList (a ++ b) = Tok.textList a ++ Tok.textList b := by
  induction a with
  | nil => rfl
  | cons t ts ih => simp [Tok.textList, ih]

end Hocon
