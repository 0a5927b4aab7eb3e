import Verif.Lemmas.ValueText
import Verif.Props.LinesEditProps

/-!
# Setting a value object in a document (C79)

`Doc.withValue` (Verif/DocValue.lean) is the model of `config_document::with_value`. `Spec.Renderable` are the resolved
values over the supported alphabet and `Spec.Same` structural equality (Verif/Spec/RenderText.lean);
`Spec.Uncommented` says that nothing inside a value has comments (Verif/Spec/Notes.lean); the rest is explained for C74,
C77 and C78.
-/

set_option autoImplicit false

namespace Hocon
namespace ValueProps

open Spec Notes ConfigParser Lines
open DocEdit (Doc)
open PathParser (Syntax)

/-- **C79 (partial).** In a JSON document of any layout, in either syntax, setting an existing value to any resolved
value object without comments succeeds and replaces the characters of the old value and no others. Parsing the
new document gives the old tree with, in the place of the old value, a value equal to the given one. Missing: values
with comments, for which it is false in JSON syntax (below). -/
theorem C79_set_partial (env : Env) (hx : HexOk env) (fl : Syntax) (fs fs' : List (Str × Value)) (w1 t w2 : Str)
    (h1 : JWs w1) (h : JText env (JNum env) (.value (.obj fs true false)) t) (h2 : JWs w2)
    (path : Str) (p : Path) (pt : List Tok) (hp : PathParser.parsePathNode env fl path = .ok (p, pt))
    (v : AVal) (hv : Renderable env v.erase) (hq : Uncommented v)
    (old : Value) (hr : Replaced fs p old v.erase fs') :
    ∃ d d' A o B u v' fs'', Doc.parse env fl (w1 ++ t ++ w2) = .ok d ∧ d.withValue env path (some v) = .ok d' ∧
      w1 ++ t ++ w2 = A ++ o ++ B ∧ JText env (Numeral env) (.value old) o ∧ d'.render = A ++ u ++ B ∧
      Same env v.erase v' ∧ Replaced fs p old v' fs'' ∧
      ∀ (inc : Includer) (n : Nat), parseText env inc fl d'.render n = .ok (.obj fs'' true false, n) := by
  have hN := JsonLex.numeral_lex env
  obtain ⟨v', hj, hs⟩ := DocEdit.valueText_json hv hq
  obtain ⟨fs'', hr'⟩ := DocEdit.Replaced.any hr v'
  have h' := Render.jtext_mono (fun _ _ => JsonLex.jnum_numeral) h
  obtain ⟨d, d', A, o, B, ind, u, g1, g2, g3, g4, g5, g6, g7, w1', t', w2', e, k1, k2, k3⟩ :=
    JsonEdit.set_json hN hx fl h1 h' h2 hp hr' hj
  refine ⟨d, d', A, o, B, u, v', fs'', g1, g2, g3, g4, g5, hs, hr', fun inc n => ?_⟩
  rw [e]
  exact JsonAccept.json_accepted env hN hx inc fl _ w1' t' w2' n k1 k2 k3 (by cases k2 <;> simp)

/-- **C79 (new values, partial).** In a JSON document of any layout, setting a path without a value to any resolved value
object without comments puts one member, and perhaps a comma, into the text, and parsing the new document
as JSON gives the old tree with a value equal to the given one added. Missing: as for `C79_set_partial` and
`C78_add_json_partial`. -/
theorem C79_add_partial (env : Env) (hx : HexOk env) (fs fs' : List (Str × Value)) (w1 t w2 : Str)
    (h1 : JWs w1) (h : JText env (JNum env) (.value (.obj fs true false)) t) (h2 : JWs w2)
    (path : Str) (p : Path) (hp : PathSpelling env p path)
    (v : AVal) (hv : Renderable env v.erase) (hq : Uncommented v) (ha : Appended v.erase fs p fs') :
    ∃ d d' v' fs'', Doc.parse env .json (w1 ++ t ++ w2) = .ok d ∧ d.withValue env path (some v) = .ok d' ∧
      Grown env (Numeral env) (w1 ++ t ++ w2) d'.render ∧ Same env v.erase v' ∧ Appended v' fs p fs'' ∧
      ∀ (inc : Includer) (n : Nat), parseText env inc .json d'.render n = .ok (.obj fs'' true false, n) := by
  have hN := JsonLex.numeral_lex env
  obtain ⟨v', hj, hs⟩ := DocEdit.valueText_json hv hq
  obtain ⟨fs'', ha'⟩ := DocEdit.Appended.any ha v'
  have h' := Render.jtext_mono (fun _ _ => JsonLex.jnum_numeral) h
  obtain ⟨d, d', g1, g2, g3, w1', t', w2', e, k1, k2, k3⟩ := JsonAdd.add_json hN hx h1 h' h2 hp ha' hj
  refine ⟨d, d', v', fs'', g1, g2, g3, hs, ha', fun inc n => ?_⟩
  rw [e]
  exact JsonAccept.json_accepted env hN hx inc .json _ w1' t' w2' n k1 k2 k3 (by cases k2 <;> simp)

/-- **C79 (documents made of lines, partial).** Setting a scalar of a document made of lines to a scalar value object replaces
the characters of the old value and no others; every setting keeps its line and its comments, and the value at the
given path is equal to the given one. Missing: as for `C74_set_partial`. -/
theorem C79_set_lines_partial (env : Env) (hx : HexOk env) (its : List Item) (t : Str)
    (ht : HLines env (Numeral env) true true its t) (htidy : Tidy [] its)
    (path : Str) (p : Path) (pt : List Tok) (hp : PathParser.parsePathNode env .conf path = .ok (p, pt))
    (m : Nat) (cs : List Str) (old : Scalar) (hold : Stands 1 [] its p m cs (some old))
    (o : Origin) (new : Scalar) (hnew : Writable env new) :
    ∃ new', SameScalar env new new' ∧
    ∃ d d' A t0 u B, Doc.parse env .conf t = .ok d ∧ d.withValue env path (some (.scalar o new)) = .ok d' ∧
      t = A ++ (t0 ++ B) ∧ d'.render = A ++ (u ++ B) ∧ (∃ x0, HAtom env (Numeral env) old x0 t0) ∧
      ∀ (base : Origin) (inc : AIncluder) (n : Nat), base.comments = [] →
        ∃ c', parseTextA env base inc .conf d'.render n = .ok (c', n) ∧
          (∀ q m' ds s, Stands 1 [] its q m' ds s → ∃ w, peekPathA c' q = .ok (some w) ∧
            w.origin = { base with line := m', endLine := m', comments := ds } ∧
            ValueIs w.erase (if q = p then some new' else s)) ∧
          (∀ q w, q ≠ [] → peekPathA c' q = .ok (some w) → ∃ m' ds s, Stands 1 [] its q m' ds s) := by
  obtain ⟨v', hj, hs⟩ := DocEdit.valueText_json (v := .scalar o new) (by simpa [AVal.erase, Renderable] using hnew)
    (by simp [Uncommented])
  obtain ⟨new', rfl⟩ : ∃ s, v' = .scalar s := by
    cases v' <;> simp [AVal.erase, Same] at hs
    exact ⟨_, rfl⟩
  have hs' : SameScalar env new new' := by simpa [AVal.erase, Same] using hs
  obtain ⟨x, hx1, hx2⟩ := DocEdit.jtext_atom hj
  obtain ⟨d, d', A, t0, B, g1, g2, g3, g4, g5, g6⟩ := LinesEditProps.C74_set_partial env hx its t ht htidy path p pt hp m cs old
    hold new' x _ hx1 hx2
  exact ⟨new', hs', d, d', A, t0, _, B, g1, g2, g3, g4, g5, g6⟩

/-- A null pointer is refused. -/
theorem C79_null (env : Env) (d : Doc) (path : Str) : d.withValue env path none = .err .config := rfl

/-- An object whose member has a comment. -/
def exCommented : AVal :=
  .obj CommentProps.exBase [(ch "b", .scalar { CommentProps.exBase with comments := [ch " why"] } (.bool true))] true false

/-- A value with a comment inside cannot be set in a JSON document. -/
theorem C79_comment_violated :
    ∃ m, (Doc.parse Tokenizer.exEnv .json (ch "{\"a\":1}")).bind (fun d =>
      d.withValue Tokenizer.exEnv (ch "a") (some exCommented)) = .err m :=
  ⟨_, by rfl⟩

/-- In HOCON syntax the same is possible, and the comment is written. -/
example : (Doc.parse Tokenizer.exEnv .conf (ch "{\"a\":1}")).bind (fun d =>
      (d.withValue Tokenizer.exEnv (ch "a") (some exCommented)).bind fun d' => .ok d'.render)
    = .ok (ch "{\"a\":{\n    # why\n    \"b\" : true\n}}") := by
  decide +kernel

/-- A list as a new value below a new object: it is indented for both. -/
example : (Doc.parse Tokenizer.exEnv .json (ch "{\n  \"a\" : 1\n}")).bind (fun d =>
      (d.withValue Tokenizer.exEnv (ch "b.c") (some (.list CommentProps.exBase [.scalar CommentProps.exBase (.str (ch "q") false)]))).bind
        fun d' => .ok d'.render)
    = .ok (ch "{\n  \"a\" : 1,\n  \"b\" : {\n    \"c\" : [\n          \"q\"\n      ]\n  }\n}") := by
  decide +kernel

/-- A value without comments. -/
example : Uncommented (.list CommentProps.exBase [.scalar CommentProps.exBase (.str (ch "q") false)]) :=
  ⟨rfl, trivial, trivial⟩

example : Renderable Tokenizer.exEnv (AVal.erase (.list CommentProps.exBase [.scalar CommentProps.exBase (.str (ch "q") false)])) := by
  simp [AVal.erase, eraseL, Renderable, RenderableL, Writable, PlainStr, PlainChar]

end ValueProps
end Hocon
