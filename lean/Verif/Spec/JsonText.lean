import Verif.Value

/-!
# Specification: JSON texts and what they denote

The grammar of RFC 8259 over characters, together with the value each text stands for. It does not
refer to the tokenizer or the parser. Two restrictions, both due to the library (see DESIGN.md):
strings are ASCII (other characters can be written with `\u`), and integers are within the range of
`int64_t`.
-/

set_option autoImplicit false

namespace Hocon
namespace Spec

/-- JSON whitespace. -/
def JBlank (c : Char) : Prop := c = ' ' ∨ c = '\t' ∨ c = '\n' ∨ c = '\r'

/-- A run of JSON whitespace. -/
def JWs (w : Str) : Prop := ∀ c ∈ w, JBlank c

/-- A decimal digit. -/
def JDigit (c : Char) : Prop := 48 ≤ c.toNat ∧ c.toNat ≤ 57

/-- The value of one hexadecimal digit. -/
def hexDigit (c : Char) : Option Nat :=
  if 48 ≤ c.toNat ∧ c.toNat ≤ 57 then some (c.toNat - 48)
  else if 97 ≤ c.toNat ∧ c.toNat ≤ 102 then some (c.toNat - 87)
  else if 65 ≤ c.toNat ∧ c.toNat ≤ 70 then some (c.toNat - 55)
  else none

/-- The value of four hexadecimal digits. -/
def hex4 (a b c d : Char) : Option Nat := do
  let x ← hexDigit a
  let y ← hexDigit b
  let z ← hexDigit c
  let w ← hexDigit d
  some (((x * 16 + y) * 16 + z) * 16 + w)

/-- What is assumed of `sscanf("%hx")`: four hexadecimal digits are read as the number they stand for. -/
def HexOk (env : Env) : Prop :=
  ∀ a b c d n, hex4 a b c d = some n → env.scanHx [a, b, c, d] = some n

/-- The escapes of one character and what they stand for. -/
def escapes : List (Char × Char) :=
  [('"', '"'), ('\\', '\\'), ('/', '/'), ('b', '\x08'), ('f', '\x0c'), ('n', '\n'), ('r', '\r'), ('t', '\t')]

/-- `JChars env t s`: the text `t` between the quotes of a string literal stands for the string `s`.
What bytes `\uXXXX` stands for is up to the conversion function of the environment. -/
inductive JChars (env : Env) : Str → Str → Prop
  | nil : JChars env [] []
  | plain {c : Char} {t s : Str} : 0x20 ≤ c.toNat → c.toNat < 0x80 → c ≠ '"' → c ≠ '\\' → JChars env t s →
      JChars env (c :: t) (c :: s)
  | escape {e c : Char} {t s : Str} : (e, c) ∈ escapes → JChars env t s → JChars env ('\\' :: e :: t) (c :: s)
  | unicode {a b c d : Char} {n : Nat} {t s : Str} : hex4 a b c d = some n → JChars env t s →
      JChars env ('\\' :: 'u' :: a :: b :: c :: d :: t) (env.narrow n ++ s)

/-- The integer part of a number: no leading zeros. -/
def JInt (ds : Str) : Prop :=
  ds = ['0'] ∨ ∃ c r, ds = c :: r ∧ JDigit c ∧ c ≠ '0' ∧ ∀ x ∈ r, JDigit x

/-- The number denoted by a string of digits. -/
def decVal (ds : Str) : Nat := ds.foldl (fun n c => n * 10 + (c.toNat - 48)) 0

/-- An optional minus sign. -/
def JSign (s : Str) : Prop := s = [] ∨ s = ['-']

/-- A fraction. -/
def JFrac (f : Str) : Prop := ∃ ds, f = '.' :: ds ∧ ds ≠ [] ∧ ∀ x ∈ ds, JDigit x

/-- An exponent. -/
def JExp (x : Str) : Prop :=
  ∃ e sg ds, x = e :: sg ++ ds ∧ (e = 'e' ∨ e = 'E') ∧ (sg = [] ∨ sg = ['+'] ∨ sg = ['-']) ∧ ds ≠ [] ∧
    ∀ y ∈ ds, JDigit y

/-- An integer as a value: 32-bit if possible; the original text is kept. -/
def intValue (i : Int) (text : Str) : Scalar :=
  if -2147483648 ≤ i ∧ i ≤ 2147483647 then .int i text else .long i text

/-- `JNum env t s`: the text `t` is a JSON number and stands for the scalar `s`. A number with a
fraction or an exponent is read as a double by the environment; it becomes an integer if its value is
one. -/
inductive JNum (env : Env) : Str → Scalar → Prop
  | int {sg ds : Str} {i : Int} : JSign sg → JInt ds →
      i = (if sg = [] then (decVal ds : Int) else -(decVal ds : Int)) →
      -9223372036854775808 ≤ i → i ≤ 9223372036854775807 → JNum env (sg ++ ds) (intValue i (sg ++ ds))
  | whole {sg ds f x : Str} {d : Dbl} {i : Int} : JSign sg → JInt ds → (f = [] ∨ JFrac f) → (x = [] ∨ JExp x) →
      ¬ (f = [] ∧ x = []) → env.parseDouble (sg ++ ds ++ f ++ x) = some d → env.doubleToI64 d = some i →
      env.doubleEq (env.i64ToDouble i) d = true → JNum env (sg ++ ds ++ f ++ x) (intValue i (sg ++ ds ++ f ++ x))
  | double {sg ds f x : Str} {d : Dbl} {i : Int} : JSign sg → JInt ds → (f = [] ∨ JFrac f) → (x = [] ∨ JExp x) →
      ¬ (f = [] ∧ x = []) → env.parseDouble (sg ++ ds ++ f ++ x) = some d → env.doubleToI64 d = some i →
      env.doubleEq (env.i64ToDouble i) d = false → JNum env (sg ++ ds ++ f ++ x) (.double d (sg ++ ds ++ f ++ x))

/-- `Numeral env t s`: like `JNum`, but for all the texts the library takes for numbers: leading zeros
are allowed, and with a `.` or an exponent everything the environment reads as a double. -/
inductive Numeral (env : Env) : Str → Scalar → Prop
  | int {sg ds : Str} {i : Int} : JSign sg → ds ≠ [] → (∀ x ∈ ds, JDigit x) →
      i = (if sg = [] then (decVal ds : Int) else -(decVal ds : Int)) →
      -9223372036854775808 ≤ i → i ≤ 9223372036854775807 → Numeral env (sg ++ ds) (intValue i (sg ++ ds))
  | whole {c : Char} {b : Str} {d : Dbl} {i : Int} : (c = '-' ∨ JDigit c) → (∀ x ∈ b, x ∈ ch "0123456789eE+-.") →
      (∃ x ∈ b, x = '.' ∨ x = 'e' ∨ x = 'E') → env.parseDouble (c :: b) = some d → env.doubleToI64 d = some i →
      env.doubleEq (env.i64ToDouble i) d = true → Numeral env (c :: b) (intValue i (c :: b))
  | double {c : Char} {b : Str} {d : Dbl} {i : Int} : (c = '-' ∨ JDigit c) → (∀ x ∈ b, x ∈ ch "0123456789eE+-.") →
      (∃ x ∈ b, x = '.' ∨ x = 'e' ∨ x = 'E') → env.parseDouble (c :: b) = some d → env.doubleToI64 d = some i →
      env.doubleEq (env.i64ToDouble i) d = false → Numeral env (c :: b) (.double d (c :: b))

/-- Nonterminals with what they denote: a value, the elements of an array, the members of an object. -/
inductive JPart where
  | value (v : Value)
  | elems (vs : List Value)
  | members (fs : List (Str × Value))

/-- `JText env N k t`: the text `t` derives from the nonterminal of `k` and denotes what `k` says. The
keys within one object are distinct. Numbers are given by `N`: `JNum env` for JSON. -/
inductive JText (env : Env) (N : Str → Scalar → Prop) : JPart → Str → Prop
  | null : JText env N (.value (.scalar .null)) (ch "null")
  | true_ : JText env N (.value (.scalar (.bool true))) (ch "true")
  | false_ : JText env N (.value (.scalar (.bool false))) (ch "false")
  | num {t : Str} {s : Scalar} : N t s → JText env N (.value (.scalar s)) t
  | str {t s : Str} : JChars env t s → JText env N (.value (.scalar (.str s true))) ('"' :: t ++ ['"'])
  | emptyArr {w : Str} : JWs w → JText env N (.value (.list [])) ('[' :: w ++ [']'])
  | arr {t : Str} {vs : List Value} : JText env N (.elems vs) t →
      JText env N (.value (.list vs)) ('[' :: t ++ [']'])
  | emptyObj {w : Str} : JWs w → JText env N (.value (.obj [] true false)) ('{' :: w ++ ['}'])
  | obj {t : Str} {fs : List (Str × Value)} : JText env N (.members fs) t → (fs.map Prod.fst).Nodup →
      JText env N (.value (.obj fs true false)) ('{' :: t ++ ['}'])
  | elem {w1 t w2 : Str} {v : Value} : JWs w1 → JText env N (.value v) t → JWs w2 →
      JText env N (.elems [v]) (w1 ++ t ++ w2)
  | elemCons {w1 t w2 u : Str} {v : Value} {vs : List Value} : JWs w1 → JText env N (.value v) t → JWs w2 →
      JText env N (.elems vs) u → JText env N (.elems (v :: vs)) (w1 ++ t ++ w2 ++ ',' :: u)
  | member {w1 kt w2 w3 t w4 k : Str} {v : Value} : JWs w1 → JChars env kt k → JWs w2 → JWs w3 →
      JText env N (.value v) t → JWs w4 →
      JText env N (.members [(k, v)]) (w1 ++ ('"' :: kt ++ ['"']) ++ w2 ++ ':' :: w3 ++ t ++ w4)
  | memberCons {w1 kt w2 w3 t w4 k u : Str} {v : Value} {fs : List (Str × Value)} : JWs w1 → JChars env kt k →
      JWs w2 → JWs w3 → JText env N (.value v) t → JWs w4 → JText env N (.members fs) u →
      JText env N (.members ((k, v) :: fs))
        (w1 ++ ('"' :: kt ++ ['"']) ++ w2 ++ ':' :: w3 ++ t ++ w4 ++ ',' :: u)

end Spec
end Hocon
