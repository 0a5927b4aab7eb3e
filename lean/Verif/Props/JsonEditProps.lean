import Verif.Lemmas.JsonEdit

/-!
# Setting a value in a JSON document (C77)

`Spec.JText` are JSON texts with the values they denote (Verif/Spec/JsonText.lean); `Spec.Replaced` and
`Spec.Indented` are in Verif/Spec/JsonEdit.lean. `Doc.parse` and `Doc.withValueText` are the model of
`config_document` (Verif/DocEdit.lean), `parseText` the model of parsing to values.
-/

set_option autoImplicit false

namespace Hocon
namespace JsonEditProps

open Spec ConfigParser
open DocEdit (Doc)
open PathParser (Syntax)

/-- **C77.** In a JSON document of any layout, in either syntax, setting an existing value to any JSON value
succeeds and replaces the characters of the old value and no others. What is written in their place is
the given text, with whitespace put behind some of its newlines. Parsing the new document gives the old
tree with the given value in the place of the old one. -/
theorem C77_set_json (env : Env) (hx : HexOk env) (fl : Syntax) (fs fs' : List (Str × Value)) (w1 t w2 : Str)
    (h1 : JWs w1) (h : JText env (JNum env) (.value (.obj fs true false)) t) (h2 : JWs w2)
    (path : Str) (p : Path) (pt : List Tok) (hp : PathParser.parsePathNode env fl path = .ok (p, pt))
    (old new : Value) (hr : Replaced fs p old new fs') (text : Str) (hv : JText env (JNum env) (.value new) text) :
    ∃ d d' A o B ind u, Doc.parse env fl (w1 ++ t ++ w2) = .ok d ∧ d.withValueText env path text = .ok d' ∧
      w1 ++ t ++ w2 = A ++ o ++ B ∧ JText env (JNum env) (.value old) o ∧ d'.render = A ++ u ++ B ∧
      JWs ind ∧ Indented ind text u ∧
      ∀ (inc : Includer) (n : Nat), parseText env inc fl d'.render n = .ok (.obj fs' true false, n) := by
  have hN := JsonLex.jnum_lex env
  obtain ⟨d, d', A, o, B, ind, u, g1, g2, g3, g4, g5, g6, g7, w1', t', w2', e, k1, k2, k3⟩ :=
    JsonEdit.set_json hN hx fl h1 h h2 hp hr hv
  refine ⟨d, d', A, o, B, ind, u, g1, g2, g3, g4, g5, g6, g7, fun inc n => ?_⟩
  rw [e]
  exact JsonAccept.json_accepted env hN hx inc fl _ w1' t' w2' n k1 k2 k3 (by cases k2 <;> simp)

/-- The members of `{"a" : {"b":null}, "c":[ ]}` with `b` replaced. -/
example : Replaced [(ch "a", .obj [(ch "b", .scalar .null)] true false), (ch "c", .list [])] [ch "a", ch "b"]
    (.scalar .null) (.list [.scalar (.bool true)])
    [(ch "a", .obj [(ch "b", .list [.scalar (.bool true)])] true false), (ch "c", .list [])] := .inside .here

example : ∃ pt, PathParser.parsePathNode Tokenizer.exEnv .json (ch "\"a\".b") = .ok ([ch "a", ch "b"], pt) := ⟨_, rfl⟩

example : JText Tokenizer.exEnv (JNum Tokenizer.exEnv)
    (.value (.obj [(ch "a", .obj [(ch "b", .scalar .null)] true false), (ch "c", .list [])] true false))
    (ch "{\n  \"a\" : {\n    \"b\":null}, \"c\":[ ]}") := by
  refine .obj (t := ch "\n  \"a\" : {\n    \"b\":null}, \"c\":[ ]") ?_ (by decide)
  refine .memberCons (w1 := ch "\n  ") (kt := ch "a") (w2 := ch " ") (w3 := ch " ") (t := ch "{\n    \"b\":null}") (w4 := [])
    (u := ch " \"c\":[ ]") (by simp [JWs, JBlank]) (.plain (by decide) (by decide) (by decide) (by decide) .nil)
    (by simp [JWs, JBlank]) (by simp [JWs, JBlank]) ?_ (by simp [JWs]) ?_
  · exact .obj (t := ch "\n    \"b\":null") (.member (w1 := ch "\n    ") (kt := ch "b") (w2 := []) (w3 := []) (t := ch "null") (w4 := [])
      (by simp [JWs, JBlank]) (.plain (by decide) (by decide) (by decide) (by decide) .nil) (by simp [JWs]) (by simp [JWs])
      .null (by simp [JWs])) (by decide)
  · exact .member (w1 := ch " ") (kt := ch "c") (w2 := []) (w3 := []) (t := ch "[ ]") (w4 := []) (by simp [JWs, JBlank])
      (.plain (by decide) (by decide) (by decide) (by decide) .nil) (by simp [JWs]) (by simp [JWs])
      (.emptyArr (w := ch " ") (by simp [JWs, JBlank])) (by simp [JWs])

/-- In both syntaxes: the second line of the new value is indented like the setting. -/
example : ∀ fl : Syntax, (Doc.parse Tokenizer.exEnv fl (ch "{\n  \"a\" : {\n    \"b\":null}, \"c\":[ ]}")).bind (fun d =>
      (d.withValueText Tokenizer.exEnv (ch "\"a\".b") (ch "[\ntrue]")).bind fun d' => .ok d'.render)
    = .ok (ch "{\n  \"a\" : {\n    \"b\":[\n    true]}, \"c\":[ ]}") := by
  intro fl; cases fl <;> decide +kernel

end JsonEditProps
end Hocon
