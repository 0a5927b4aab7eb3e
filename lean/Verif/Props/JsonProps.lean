import Verif.Lemmas.JsonAccept

/-!
# JSON texts (C60)

`Spec.JText` (Verif/Spec/JsonText.lean) is the grammar of JSON over characters together with the
value a text stands for.
-/

set_option autoImplicit false

namespace Hocon
namespace JsonProps

open Spec ConfigParser DocParser JsonParse
open PathParser (Syntax)

/-- **C60.** Every JSON text whose root is an object or an array is accepted, with or without JSON mode,
and yields exactly the value it denotes (field order, number texts and all), whatever the includer; no
reference objects are created. -/
theorem C60_json_accepted (env : Env) (hx : HexOk env) (inc : Includer) (fl : Syntax) (v : Value) (w1 t w2 : Str)
    (n : Nat) (h1 : JWs w1) (h : JText env (JNum env) (.value v) t) (h2 : JWs w2)
    (hroot : t.head? = some '{' ∨ t.head? = some '[') :
    parseText env inc fl (w1 ++ t ++ w2) n = .ok (v, n) :=
  JsonAccept.json_accepted env (JsonLex.jnum_lex env) hx inc fl v w1 t w2 n h1 h h2 hroot

/-- A JSON text with a number, an escape, an empty key and nested composites. -/
example : JText Tokenizer.exEnv (JNum Tokenizer.exEnv)
    (.value (.obj [(ch "a\n", .list [.scalar (.int (-12) (ch "-12")), .scalar (.bool true)]), ([], .obj [] true false)] true false))
    (ch "{\"a\\n\" : [-12, true],\"\":{ }}") := by
  refine .obj (t := ch "\"a\\n\" : [-12, true],\"\":{ }") ?_ (by decide)
  refine .memberCons (w1 := []) (kt := ch "a\\n") (w2 := ch " ") (w3 := ch " ") (t := ch "[-12, true]") (w4 := [])
    (u := ch "\"\":{ }") (by simp [JWs]) ?_ (by simp [JWs, JBlank]) (by simp [JWs, JBlank]) ?_ (by simp [JWs]) ?_
  · exact .plain (by decide) (by decide) (by decide) (by decide) (.escape (by decide) .nil)
  · refine .arr (t := ch "-12, true") (.elemCons (w1 := []) (t := ch "-12") (w2 := []) (u := ch " true")
      (by simp [JWs]) (.num ?_) (by simp [JWs])
      (.elem (w1 := ch " ") (t := ch "true") (w2 := []) (by simp [JWs, JBlank]) .true_ (by simp [JWs])))
    exact .int (sg := ch "-") (ds := ch "12") (i := -12) (Or.inr rfl)
      (Or.inr ⟨'1', ['2'], rfl, by unfold JDigit; decide, by decide, by simp [JDigit]⟩) (by decide) (by decide) (by decide)
  · exact .member (w1 := []) (kt := []) (w2 := []) (w3 := []) (t := ch "{ }") (w4 := []) (by simp [JWs]) .nil
      (by simp [JWs]) (by simp [JWs]) (.emptyObj (w := ch " ") (by simp [JWs, JBlank])) (by simp [JWs])

/-- The restriction to `int64_t` is needed: a larger integer is refused in JSON mode and read as a
string otherwise. -/
theorem C60_big_integer (env : Env) (inc : Includer) (n : Nat) :
    parseText env inc .json (ch "[9223372036854775808]") n = .err .parse ∧
    parseText env inc .conf (ch "[9223372036854775808]") n
      = .ok (.list [.scalar (.str (ch "9223372036854775808") false)], n) := ⟨rfl, rfl⟩

/-- The restriction to ASCII is needed: other characters within a string are refused in both modes. -/
theorem C60_non_ascii (env : Env) (inc : Includer) (fl : Syntax) (n : Nat) :
    parseText env inc fl (ch "[\"é\"]") n = .err .config := by
  cases fl <;> rfl

end JsonProps
end Hocon
