import Verif.Lemmas.JsonRemove

/-!
# Removing a value from a JSON document (C80)

`Spec.JText` are JSON texts with the values they denote (Verif/Spec/JsonText.lean); `Spec.Dropped`,
`Spec.CommasInLine` and `Spec.Shrunk` are in Verif/Spec/JsonEdit.lean. `Doc.parse` and `Doc.withoutPath` are the model
of `config_document` (Verif/DocEdit.lean), `parseText` the model of parsing to values.
-/

set_option autoImplicit false

namespace Hocon
namespace JsonRemoveProps

open Spec ConfigParser
open DocEdit (Doc)
open PathParser (Syntax)

/-- **C80.** In a JSON document in which no comma begins a line, removing a path that leads to a member of an object
succeeds: the member and one comma beside it leave the text, and every other character stays. Parsing the new document
as JSON gives the old tree without that member, all others in their order.

Missing from the full claim: documents with a comma at the beginning of a line, for which it is false (below), and
documents opened as HOCON. -/
theorem C80_remove_json_partial (env : Env) (hx : HexOk env) (fs fs' : List (Str × Value)) (w1 t w2 : Str)
    (h1 : JWs w1) (h : JText env (JNum env) (.value (.obj fs true false)) t) (h2 : JWs w2)
    (hc : CommasInLine (w1 ++ t ++ w2))
    (path : Str) (p : Path) (hp : PathSpelling env p path) (hd : Dropped fs p fs') :
    ∃ d d', Doc.parse env .json (w1 ++ t ++ w2) = .ok d ∧ d.withoutPath env path = .ok d' ∧
      Shrunk env (JNum env) (w1 ++ t ++ w2) d'.render ∧
      ∀ (inc : Includer) (n : Nat), parseText env inc .json d'.render n = .ok (.obj fs' true false, n) := by
  have hN := JsonLex.jnum_lex env
  obtain ⟨pt, hpt, _⟩ := JsonPath.path_keys hx hp
  obtain ⟨d, d', g1, g2, g3, w1', t', w2', e, k1, k2, k3⟩ := JsonRemove.remove_json hN hx h1 h h2 hc hpt hd
  refine ⟨d, d', g1, g2, g3, fun inc n => ?_⟩
  rw [e]
  exact JsonAccept.json_accepted env hN hx inc .json _ w1' t' w2' n k1 k2 k3 (by cases k2 <;> simp)

/-- What removing a path from a JSON document yields. -/
def removed (s path : Str) : Res Str :=
  (Doc.parse Tokenizer.exEnv .json s).bind fun d =>
    (d.withoutPath Tokenizer.exEnv path).bind fun d' => .ok d'.render

/-- The members of `{"a" : {"b":null, "x":1}, "c":[ ]}` without `a.b`. -/
example : Dropped [(ch "a", .obj [(ch "b", .scalar .null), (ch "x", .scalar (.bool true))] true false), (ch "c", .list [])]
    [ch "a", ch "b"] [(ch "a", .obj [(ch "x", .scalar (.bool true))] true false), (ch "c", .list [])] :=
  .inside (fs := []) (.here (fs := []))

/-- No comma of the text begins a line. -/
example : CommasInLine (ch "{\n \"a\":1,\n \"b\":2}") := by
  intro w hw h
  have key : ∀ (w b : Str), JWs w → ∀ s, s = w ++ ',' :: b → (s.dropWhile (fun c => c ∈ [' ', '\t', '\n', '\r'])).head? = some ',' := by
    rintro w b hw _ rfl
    induction w with
    | nil => rfl
    | cons c w ih =>
      have hc : c ∈ [' ', '\t', '\n', '\r'] := by simpa [JBlank] using hw c (by simp)
      rw [List.cons_append, List.dropWhile_cons_of_pos (by simpa using hc)]
      exact ih fun c h => hw c (by simp [h])
  obtain ⟨a, b, e⟩ := h
  have h0 : ∀ i < 17, ((ch "{\n \"a\":1,\n \"b\":2}").drop i).head? = some '\n' →
      (((ch "{\n \"a\":1,\n \"b\":2}").drop (i + 1)).dropWhile (fun c => c ∈ [' ', '\t', '\n', '\r'])).head? ≠ some ',' := by
    decide
  have hl : a.length < 17 := by have := congrArg List.length e; simp at this; omega
  refine h0 a.length hl ?_ (key w b hw _ ?_) <;> rw [← e]
  · simp
  · rw [show a ++ ('\n' :: w ++ [',']) ++ b = (a ++ ['\n']) ++ (w ++ ',' :: b) by simp]
    exact List.drop_left' (by simp)

/-- The member in the middle, the last member and the sole member of an object. -/
example : removed (ch "{\n  \"a\":1,\n  \"b\":{\"x\":null},\n  \"c\":[ ]\n}") (ch "b")
    = .ok (ch "{\n  \"a\":1,\n  \n  \"c\":[ ]\n}") := by decide +kernel
example : removed (ch "{\n  \"a\":1,\n  \"b\":{\"x\":null},\n  \"c\":[ ]\n}") (ch "c")
    = .ok (ch "{\n  \"a\":1,\n  \"b\":{\"x\":null}\n  \n}") := by decide +kernel
example : removed (ch "{\n  \"a\":1,\n  \"b\":{\"x\":null},\n  \"c\":[ ]\n}") (ch "b.x")
    = .ok (ch "{\n  \"a\":1,\n  \"b\":{},\n  \"c\":[ ]\n}") := by decide +kernel

/-- A comma at the beginning of a line stays when the first member is removed, and the document cannot be parsed any
more. -/
theorem C80_comma_line_violated :
    removed (ch "{\"a\":1\n,\"b\":2}") (ch "a") = .ok (ch "{\n,\"b\":2}") ∧
      ∃ m, Doc.parse Tokenizer.exEnv .json (ch "{\n,\"b\":2}") = .err m :=
  ⟨by decide +kernel, _, by rfl⟩

end JsonRemoveProps
end Hocon
