import Verif.ConfigParser
import Verif.Props.TokenizerProps
import Verif.Resolve
import Verif.Render

/-!
# The model against the unit tests of the code

Texts of the unit tests in /repo/lib/tests, given to the model. These are tests of the model, not
properties: they show that the functions defined in this development answer on the inputs of the
project's own tests as those tests say the code does. No property theorem depends on this file.
-/

set_option autoImplicit false

namespace Hocon
namespace Conformance

/-- An environment for the texts below: what is not a decimal number is refused, the value of a
decimal number other than 3.14 does not matter to these tests. -/
def env : Env := { Tokenizer.exEnv with
  parseDouble := fun s => if s = ch "3.14" then some 314
    else if s ∈ [ch "10e3e3", ch "1-e3", ch "1.0.0", ch "1.0.", ch "10e+3e"] then none else some 1
  doubleToI64 := fun d => some (d / 100)
  i64ToDouble := fun i => i * 100 }

/-- No text below includes a file. -/
def noFiles : ConfigParser.Includer :=
  ⟨fun _ n => .ok (.obj [] true false, n), fun _ n => .ok (.obj [] true false, n)⟩

/-- A text parsed, and resolved if it is an object, as `parse_config(..)->resolve()` of
/repo/lib/tests/test_utils.cc 131-137; rendered on one line without comments. -/
def shown (s : PathParser.Syntax) (t : Str) : Option Str :=
  match ConfigParser.parseText env noFiles s t 0 with
  | .ok (v, _) =>
    if v.isObject then
      match Resolve.resolveTop env 90 v v ⟨false, false⟩ with
      | .ok (some w) => some (Render.renderValue env ⟨false, true⟩ w)
      | _ => none
    else some (Render.renderValue env ⟨false, true⟩ v)
  | _ => none

/-- Texts no syntax accepts: `invalid_json_invalid_conf_`, /repo/lib/tests/test_utils.cc. -/
def invalidTexts : List Str := [
  ch "{",
  ch "}",
  ch "[",
  ch "]",
  ch ",",
  ch "10",
  ch "\"foo\"",
  ch "\"",
  ch "[,]",
  ch "[,,]",
  ch "[1,2,,]",
  ch "[,1,2]",
  ch "{ , }",
  ch "{ , , }",
  ch "{ 1,2 }",
  ch "{ , \"foo\" : 10 }",
  ch "{ \"foo\" : 10 ,, }",
  ch " \"a\" : 10 ,, ",
  ch "{ \"foo\" : }",
  ch "{ : 10 }",
  ch " \"foo\" : ",
  ch " : 10 ",
  ch " \"foo\" : 10 } ",
  ch " \"foo\" : 10 [ ",
  ch "{ \"foo\" }",
  ch "{ \"a\" : [ }",
  ch "{ \"foo\" : 10, true }",
  ch "{ foo \n bar : 10 }",
  ch "[ 1, \\",
  ch "[:\"foo\", \"bar\"]",
  ch "[\"foo\" : \"bar\"]",
  ch "[ \"hello ]",
  ch "{ \"foo\" , true }",
  ch "{ \"foo\" : true \"bar\" : false }",
  ch "[ 10, }]",
  ch "[ 10, {]",
  ch "{}x",
  ch "[]x",
  ch "{}{}",
  ch "{}true",
  ch "[]{}",
  ch "[]true",
  ch "[${]",
  ch "[$]",
  ch "[$  ]",
  ch "[${}]",
  ch "[${?}]",
  ch "[${ ?foo}]",
  ch "{ \"a\" : [1,2], \"b\" : y${a}z }",
  ch "{ \"a\" : { \"c\" : 2 }, \"b\" : y${a}z }",
  ch "{ \"a\" : ${a} }",
  ch "[ { \"a\" : 2, \"b\" : ${${a}} } ]",
  ch "[ = ]",
  ch "[ + ]",
  ch "[ # ]",
  ch "[ ` ]",
  ch "[ ^ ]",
  ch "[ ? ]",
  ch "[ ! ]",
  ch "[ @ ]",
  ch "[ * ]",
  ch "[ & ]",
  ch "[ \\ ]",
  ch "+=",
  ch "[ += ]",
  ch "+= 10",
  ch "10 +=",
  ch "[ 10e+3e ]",
  ch "[ \"foo\nbar\" ]",
  ch "[ # comment ]",
  ch "${ #comment }",
  ch "[ // comment ]",
  ch "${ // comment }",
  ch "{ include \"bar\" : 10 }",
  ch "{ include foo }",
  ch "{ include : { \"a\" : 1 } }",
  ch "a=",
  ch "a:",
  ch "a= ",
  ch "a.b=",
  ch "{ a= }",
  ch "{ a: }"]

/-- Texts both syntaxes accept: `valid_json_`, /repo/lib/tests/test_utils.cc. -/
def jsonTexts : List Str := [
  ch "{}",
  ch "[]",
  ch "{ \"foo\" : \"bar\" }",
  ch "[\"foo\", \"bar\"]",
  ch "{ \"foo\" : 42 }",
  ch "{ \"foo\"\n : 42 }",
  ch "{ \"foo\" : \n 42 }",
  ch "[10, 11]",
  ch "[10,\"foo\"]",
  ch "{ \"foo\" : \"bar\", \"baz\" : \"boo\" }",
  ch "{ \"foo\" : { \"bar\" : \"baz\" }, \"baz\" : \"boo\" }",
  ch "{ \"foo\" : { \"bar\" : \"baz\", \"woo\" : \"w00t\" }, \"baz\" : \"boo\" }",
  ch "{ \"foo\" : [10,11,12], \"baz\" : \"boo\" }",
  ch "[{},{},{},{}]",
  ch "[[[[[[]]]]]]",
  ch "[[1], [1,2], [1,2,3], []]",
  ch "{\"a\":{\"a\":{\"a\":{\"a\":{\"a\":{\"a\":{\"a\":{\"a\":42}}}}}}}}",
  ch "[ \"#comment\" ]",
  ch "[ \"//comment\" ]",
  ch "{ \"foo\" : { \"bar\" : \"baz\", \"woo\" : \"w00t\" }, \"baz\" : { \"bar\" : \"baz\", \"woo\" : [1,2,3,4], \"w00t\" : true, \"a\" : false, \"b\" : 3.14, \"c\" : null } }",
  ch "{}",
  ch "[ 10e+3 ]"]

/-- Texts only HOCON accepts: `valid_conf_invalid_json_`, /repo/lib/tests/test_utils.cc. -/
def confTexts : List Str := [
  ch "",
  ch " ",
  ch "\n",
  ch " \n \n   \n\n\n",
  ch "# foo",
  ch "# bar\n",
  ch "# foo\n//bar",
  ch "{ \"foo\" = 42 }",
  ch "{ foo { \"bar\" : 42 } }",
  ch "{ foo baz { \"bar\" : 42 } }",
  ch " \"foo\" : 42 ",
  ch "{ \"foo\" : bar }",
  ch "{ \"foo\" : null bar 42 baz true 3.14 \"hi\" }",
  ch "{ foo : \"bar\" }",
  ch "{ foo : bar }",
  ch "{ foo.bar : bar }",
  ch "{ foo.\"hello world\".baz : bar }",
  ch "{ foo.bar \n : bar }",
  ch "{ foo  bar : bar }",
  ch "{ true : bar }",
  ch "{ \"foo\" : \"bar\", \"foo\" : \"bar2\" }",
  ch "[ 1, 2, 3, ]",
  ch "[1,2,3  , ]",
  ch "[1,2,3\n\n , \n]",
  ch "[1,]",
  ch "{ \"foo\" : 10, }",
  ch "{ \"a\" : \"b\", }",
  ch "{ a : b, }",
  ch "{ a : b  \n  , \n }",
  ch "a : b, c : d,",
  ch "{ a : b\nc : d }",
  ch "a : b\nc : d",
  ch "a : b\nc : d,",
  ch "[ foo ]",
  ch "[ t ]",
  ch "[ tx ]",
  ch "[ tr ]",
  ch "[ trx ]",
  ch "[ tru ]",
  ch "[ trux ]",
  ch "[ truex ]",
  ch "[ 10x ]",
  ch "[ / ]",
  ch "[ ${foo} ]",
  ch "[ ${?foo} ]",
  ch "[ ${\"foo\"} ]",
  ch "[ ${foo.bar} ]",
  ch "[ abc  xyz  ${foo.bar}  qrs tuv ]",
  ch "[ 1, 2, 3, blah ]",
  ch "[ ${\"foo.bar\"} ]",
  ch "{} # comment",
  ch "{} // comment",
  ch "{ \"foo\" #comment\n: 10 }",
  ch "{ \"foo\") // comment\n: 10 }",
  ch "{ \"foo\" : #comment\n10 }",
  ch "{ \"foo\" : // comment\n10 }",
  ch "{ \"foo\" : 10 #comment\n}",
  ch "{ \"foo\" : 10 // comment\n}",
  ch "[ 10, # comment\n11]",
  ch "[ 10, // comment\n11]",
  ch "[ 10 # comment\n, 11]",
  ch "[ 10 // comment\n, 11]",
  ch "{ /a/b/c : 10 }",
  ch "[${ foo.bar}]",
  ch "[${foo.bar }]",
  ch "[${ \"foo.bar\"}]",
  ch "[${\"foo.bar\" }]",
  ch "[ ${\"foo\"\"bar\"} ]",
  ch "[ ${foo  \"bar\"  baz} ]",
  ch "[${true}]",
  ch "a = [], a += b",
  ch "{ a = [], a += 10 }",
  ch "a += b",
  ch "{ a += 10 }",
  ch "[ 10e3e3 ]",
  ch "[ 1-e3 ]",
  ch "[ 1.0.0 ]",
  ch "[ 1.0. ]"]

/-- The texts of /repo/lib/tests/concatenation_test.cc with what those tests expect; `none` where they
expect an exception. -/
def concatenations : List (Str × Option Str) := [
  (ch "a :  true \"xyz\" 123 foo", some (ch "{\"a\":\"true xyz 123 foo\"}")),
  (ch "a : ${x}foo, x = 1", some (ch "{\"a\":\"1foo\",\"x\":1}")),
  (ch "a : ${x}foo${x}, x = 1", some (ch "{\"a\":\"1foo1\",\"x\":1}")),
  (ch "a : ${x}\n                                        foo, x = 1", none),
  (ch "R(a : abc { x : y })", none),
  (ch "a : null { x : y }", none),
  (ch "a : abc [1, 2]", none),
  (ch "a : abc ${x}, x: { y : z }", none),
  (ch "a : abc ${x}, x: [1, 2]", none),
  (ch " a :  [1,2] [3,4]  ", some (ch "{\"a\":[1,2,3,4]}")),
  (ch " a :  ${x} [3,4] ${y}, x : [1,2], y : [5,6]  ", some (ch "{\"a\":[1,2,3,4,5,6],\"x\":[1,2],\"y\":[5,6]}")),
  (ch " a : [1, 2], a : ${a} [3,4], a : ${a} [5,6]  ", some (ch "{\"a\":[1,2,3,4,5,6]}")),
  (ch " a :  [1,2\n] [3,4]  ", some (ch "{\"a\":[1,2,3,4]}")),
  (ch "a: [1,2]\n   [3,4]", none),
  (ch " a : { b : c } { x : y }  ", some (ch "{\"a\":{\"b\":\"c\",\"x\":\"y\"}}")),
  (ch " a : { b : 1 } { b : 2 } { b : 3 } { b : 4 } ", some (ch "{\"a\":{\"b\":4}}")),
  (ch " a : ${x} { b : 1 } ${y}, x : { a : 0 }, y : { c : 2 } ", some (ch "{\"a\":{\"a\":0,\"b\":1,\"c\":2},\"x\":{\"a\":0},\"y\":{\"c\":2}}")),
  (ch " a : { a : 0 }, a : ${a} { b : 1 }, a : ${a} { c : 2 } ", some (ch "{\"a\":{\"a\":0,\"b\":1,\"c\":2}}")),
  (ch " a : { b : 3 }, a : { b : 2 } ${a} ", some (ch "{\"a\":{\"b\":3}}")),
  (ch " a :  { b : c\n } { x : y }  ", some (ch "{\"a\":{\"b\":\"c\",\"x\":\"y\"}}")),
  (ch "A : { b : c}\n    {x : y }", none),
  (ch " a : [ [1, 2] [3, 4] ] ", some (ch "{\"a\":[[1,2,3,4]]}")),
  (ch "123 foo : \"value\" ", some (ch "{\"123 foo\":\"value\"}")),
  (ch "{ { a : 1 } : \"value\"", none),
  (ch "{ [ 1, 2 ] : \"value\"", none),
  (ch "bar=bar, a = foo${?bar}", some (ch "{\"a\":\"foobar\",\"bar\":\"bar\"}")),
  (ch "bar={ y : 42 }, a = { x : \"foo\" } ${?bar}", some (ch "{\"a\":{\"x\":\"foo\",\"y\":42},\"bar\":{\"y\":42}}")),
  (ch "foo=abc, bar=def, a = ${foo} ${bar}", some (ch "{\"a\":\"abc def\",\"bar\":\"def\",\"foo\":\"abc\"}")),
  (ch "foo = { a : 1}, bar = { b : 2 }, x = ${foo}${bar}", some (ch "{\"bar\":{\"b\":2},\"foo\":{\"a\":1},\"x\":{\"a\":1,\"b\":2}}")),
  (ch "foo = { a : 1}, bar = { b : 2 }, x = ${foo} ${bar}", some (ch "{\"bar\":{\"b\":2},\"foo\":{\"a\":1},\"x\":{\"a\":1,\"b\":2}}")),
  (ch "foo = { a : 1}, bar = { b : 2 }, x = ${foo}\"  \"${bar}", none),
  (ch "foo = [1], bar = [2], x = ${foo}\"  \"${bar}", none),
  (ch "a = foo${?bar}", some (ch "{\"a\":\"foo\"}")),
  (ch "a = { x : \"foo\" } ${?bar}", some (ch "{\"a\":{\"x\":\"foo\"}}")),
  (ch "a = ${?foo}${?bar}", some (ch "{}")),
  (ch "a = ${?foo}${?bar}${?baz}${?woooo}", some (ch "{}")),
  (ch "a = ${?foo} ${?bar}", some (ch "{\"a\":\" \"}")),
  (ch "a = \"\"${?foo}${?bar}", some (ch "{\"a\":\"\"}")),
  (ch "a = 10, a += 2", none),
  (ch "a = \"abc\", a += 2", none),
  (ch "a = { x : y }, a += 2", none)]

/-- Texts no syntax accepts are refused in both. -/
example : (invalidTexts.all fun t => shown .json t == none && shown .conf t == none) = true := by
  decide +kernel

/-- JSON texts are read in both syntaxes, with the same result. -/
example : (jsonTexts.all fun t => (shown .json t).isSome && shown .json t == shown .conf t) = true := by
  decide +kernel

/-- HOCON texts are read as HOCON and refused as JSON. -/
example : (confTexts.all fun t => (shown .conf t).isSome && shown .json t == none) = true := by
  decide +kernel

/-- Concatenations give the values their tests expect. -/
example : (concatenations.all fun c => shown .conf c.1 == c.2) = true := by
  decide +kernel

end Conformance
end Hocon
