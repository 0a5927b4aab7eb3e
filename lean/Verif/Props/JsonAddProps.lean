import Verif.Lemmas.JsonAdd

/-!
# Adding a value to a JSON document (C78)

`Spec.JText` are JSON texts with the values they denote (Verif/Spec/JsonText.lean); `Spec.Appended`, `Spec.Grown`
and `Spec.PathSpelling` are in Verif/Spec/JsonEdit.lean. `Doc.parse` and `Doc.withValueText` are the model of
`config_document` (Verif/DocEdit.lean), `parseText` the model of parsing to values.
-/

set_option autoImplicit false

namespace Hocon
namespace JsonAddProps

open Spec ConfigParser
open DocEdit (Doc)
open PathParser (Syntax)

/-- **C78.** In a JSON document of any layout, setting a path that has no value yet succeeds: one member, and a comma
if there are others before it, is put into the text, and every other character stays. Parsing the new
document as JSON gives the old tree with the given value added as the last member of the innermost existing object
on the path, below new objects for the rest of the path.

Missing from the full claim: paths that lead through a value that is not an object and paths with quoted and
unquoted elements, for both of which it is false (below), and documents opened as HOCON. -/
theorem C78_add_json_partial (env : Env) (hx : HexOk env) (fs fs' : List (Str × Value)) (w1 t w2 : Str)
    (h1 : JWs w1) (h : JText env (JNum env) (.value (.obj fs true false)) t) (h2 : JWs w2)
    (path : Str) (p : Path) (hp : PathSpelling env p path)
    (v : Value) (ha : Appended v fs p fs') (text : Str) (hv : JText env (JNum env) (.value v) text) :
    ∃ d d', Doc.parse env .json (w1 ++ t ++ w2) = .ok d ∧ d.withValueText env path text = .ok d' ∧
      Grown env (JNum env) (w1 ++ t ++ w2) d'.render ∧
      ∀ (inc : Includer) (n : Nat), parseText env inc .json d'.render n = .ok (.obj fs' true false, n) := by
  have hN := JsonLex.jnum_lex env
  obtain ⟨d, d', g1, g2, g3, w1', t', w2', e, k1, k2, k3⟩ := JsonAdd.add_json hN hx h1 h h2 hp ha hv
  refine ⟨d, d', g1, g2, g3, fun inc n => ?_⟩
  rw [e]
  exact JsonAccept.json_accepted env hN hx inc .json _ w1' t' w2' n k1 k2 k3 (by cases k2 <;> simp)

/-- What edits of a JSON document with one path and one value text yield. -/
def edited (s path text : Str) : Res Str :=
  (Doc.parse Tokenizer.exEnv .json s).bind fun d =>
    (d.withValueText Tokenizer.exEnv path text).bind fun d' => .ok d'.render

/-- The members of `{"a" : {"b":null}, "c":[ ]}` with `a.x.y` added. -/
example : Appended (.scalar (.bool true)) [(ch "a", .obj [(ch "b", .scalar .null)] true false), (ch "c", .list [])]
    [ch "a", ch "x", ch "y"]
    [(ch "a", .obj [(ch "b", .scalar .null), (ch "x", .obj [(ch "y", .scalar (.bool true))] true false)] true false),
      (ch "c", .list [])] :=
  .inside (fs := []) (.here (by decide))

example : PathSpelling Tokenizer.exEnv [ch "a", ch "x", ch "y"] (ch "\"a\".\"x\".\"y\"") :=
  .quoted (.cons (kt := ch "a") (.plain (by decide) (by decide) (by decide) (by decide) .nil)
    (.cons (kt := ch "x") (.plain (by decide) (by decide) (by decide) (by decide) .nil)
      (.one (kt := ch "y") (.plain (by decide) (by decide) (by decide) (by decide) .nil))))

example : PathSpelling Tokenizer.exEnv [ch "a", ch "x"] (ch "a.x") :=
  .bare (.bareCons (t := ch "a") (u := ch "x") (by simp) (by unfold WordChar; decide) (.bare (by simp) (by unfold WordChar; decide)))
    (by decide) ⟨by unfold JDigit; decide, by decide, by decide, by decide⟩

/-- A member in an existing object, at the end of the lines. -/
example : edited (ch "{\n  \"a\" : {\n    \"b\":null\n  }, \"c\":[ ]}") (ch "a.x.y") (ch "true")
    = .ok (ch "{\n  \"a\" : {\n    \"b\":null,\n    \"x\" : {\n      \"y\" : true\n    }\n  }, \"c\":[ ]}") := by
  decide +kernel

/-- A path through a value that is not an object: the element gets a second member, and the document cannot be parsed
as JSON any more. -/
theorem C78_through_scalar_violated :
    edited (ch "{\"a\":1}") (ch "a.b") (ch "2") = .ok (ch "{\"a\":1, \"a\" : { \"b\" : 2 }}") ∧
      ∀ (inc : Includer) (n : Nat), ∃ m,
        parseText Tokenizer.exEnv inc .json (ch "{\"a\":1, \"a\" : { \"b\" : 2 }}") n = .err m :=
  ⟨by decide +kernel, fun _ _ => ⟨_, by rfl⟩⟩

/-- A path of quoted and unquoted elements: the new key is followed by an empty string, and the document cannot be
parsed any more. -/
theorem C78_mixed_path_violated :
    edited (ch "{}") (ch "\"a\".b") (ch "2") = .ok (ch "{ \"a\"\"\" : { \"b\" : 2 }}") ∧
      ∃ m, Doc.parse Tokenizer.exEnv .json (ch "{ \"a\"\"\" : { \"b\" : 2 }}") = .err m :=
  ⟨by decide +kernel, _, by rfl⟩

/-- An unquoted element with a blank: each word gets its own quotes, and the document cannot be parsed any more. -/
theorem C78_blank_in_path_violated :
    edited (ch "{}") (ch "a b") (ch "2") = .ok (ch "{ \"a\"\" \"\"b\" : 2}") ∧
      ∃ m, Doc.parse Tokenizer.exEnv .json (ch "{ \"a\"\" \"\"b\" : 2}") = .err m :=
  ⟨by decide +kernel, _, by rfl⟩

end JsonAddProps
end Hocon
