import Verif.Lemmas.LinesRemove
import Verif.Props.CommentProps

/-!
# Removing a setting from a document made of lines (C75)

`Doc.parse` and `Doc.withoutPath` are the model of `config_document` (Verif/DocEdit.lean), `Spec.HLines`
are documents made of lines, `Spec.Stands` says where a setting stands (Verif/Spec/Lines.lean) and
`Spec.Removed` which lines are left when a setting is removed (Verif/Spec/LinesEdit.lean).
-/

set_option autoImplicit false

namespace Hocon
namespace LinesRemoveProps

open Spec Notes Lines
open DocEdit (Doc)

/-- **C75 (partial).** Removing a setting or a section from a document made of lines takes one piece of the
text away, except for the comment `X` behind it. Parsing the new document gives the other settings with
their values, on the lines that are left, and nothing at or below the removed path. The comments of the
others are the same when there is no comment behind what is removed; otherwise the comments of the
removed setting may go to another one. Missing: settings that are neither scalars on one line nor sections,
keys with several elements, keys set twice, braces around the document. -/
theorem C75_remove_partial (env : Env) (hx : HexOk env) (its its' : List Item) (t : Str)
    (ht : HLines env (Numeral env) true true its t) (htidy : Tidy [] its)
    (path : Str) (p : Path) (pt : List Tok) (hp : PathParser.parsePathNode env .conf path = .ok (p, pt))
    (o : Option Str) (hrem : Removed o its p its') (htidy' : o = none ∨ Tidy [] its') :
    ∃ d d' A F X B, Doc.parse env .conf t = .ok d ∧ d.withoutPath env path = .ok d' ∧
      t = A ++ (F ++ B) ∧ d'.render = A ++ (X ++ B) ∧ (∃ f, f ≠ [] ∧ F = f ++ X) ∧
      (o = none → X = []) ∧ (∀ c, o = some c → X = '#' :: c ∨ X = '/' :: '/' :: c) ∧
      ∃ m0 d0 s0 r, Stands 1 [] its p m0 d0 s0 ∧ rows its = rows its' + r ∧
      ∀ (base : Origin) (inc : AIncluder) (n : Nat), base.comments = [] →
        ∃ c', parseTextA env base inc .conf d'.render n = .ok (c', n) ∧
          (∀ q m ds s, Stands 1 [] its q m ds s → ¬ p <+: q → ∃ w e, peekPathA c' q = .ok (some w) ∧
            (e = [] ∨ (o ≠ none ∧ e = d0)) ∧
            w.origin = { base with line := ↑(if m ≤ m0 then m else m - r), endLine := ↑(if m ≤ m0 then m else m - r), comments := e ++ ds } ∧
            ValueIs w.erase s) ∧
          (∀ q w, q ≠ [] → peekPathA c' q = .ok (some w) →
            ¬ p <+: q ∧ ∃ m ds s, Stands 1 [] its q m ds s) := by
  obtain ⟨A, F, X, B, hg, rfl⟩ := gap_of ht hrem
  obtain ⟨cs, cs', hd, hcut, hr⟩ := gap_doc hx hg htidy
  obtain ⟨d', hd', hroot⟩ := DocEdit.withoutPath_once (.parsed hd) rfl (a := []) (cs := cs) (b := []) rfl hp hcut
  have hr : d'.render = A ++ (X ++ B) := by
    rw [← hr, Doc.render, hroot]
    simp [Node.renderList, Node.tokens, Node.tokensList]
  have htidy' : Tidy [] its' := by
    rcases htidy' with rfl | h
    · exact Removed.tidy hrem htidy
    · exact h
  obtain ⟨m0, d0, s0, r, h0, hrows, _, h1, h2⟩ := Removed.left hrem htidy 1 []
  obtain ⟨hF, hX, hXn⟩ := Gap.texts hg
  refine ⟨_, d', A, F, X, B, hd, hd', rfl, hr, hF, hX, hXn, m0, d0, s0, r, h0, hrows, fun base inc n hb => ?_⟩
  rw [hr]
  refine ⟨_, lines_parse hx hg.left htidy' base hb inc n, ?_, ?_⟩
  · intro q m ds s h hpq
    obtain ⟨e, he, h⟩ := h1 q m ds s h hpq
    obtain ⟨w, k1, k2, k3⟩ := stands_peek (base := base) h htidy' (at_ base 1 []) true false
    exact ⟨w, e, k1, he, k2, k3⟩
  · intro q w hq h
    obtain ⟨m', ds, s, h⟩ := peek_stands hq h
    obtain ⟨g1, m, ds', g2⟩ := h2 _ _ _ _ h
    exact ⟨g1, m, ds', s, g2⟩

/-- The text of `CommentProps.exText` and its section `b`, with no comment behind. -/
example : ∃ pt, PathParser.parsePathNode Tokenizer.exEnv .conf (ch "b") = .ok ([ch "b"], pt) := ⟨_, rfl⟩

example : Removed none CommentProps.exItems [ch "b"] [.remark (ch " about a"), .set (ch "a") (.bool true) (some (ch " yes")),
    .blank, .remark (ch " gone"), .blank, .remark (ch " about b"), .remark (ch " more"), .blank] :=
  .sect (pre := [.remark (ch " about a"), .set (ch "a") (.bool true) (some (ch " yes")), .blank,
    .remark (ch " gone"), .blank, .remark (ch " about b"), .remark (ch " more")]) (post := [])

example : (Doc.parse Tokenizer.exEnv .conf CommentProps.exText).bind (fun d =>
      (d.withoutPath Tokenizer.exEnv (ch "b")).bind fun d' => .ok d'.render)
    = .ok (ch "# about a
a = true # yes

# gone

# about b
// more

") := by decide +kernel

/-- Its setting `b.c`, with a comment behind. -/
example : Removed (some (ch " see")) CommentProps.exItems [ch "b", ch "c"] [.remark (ch " about a"),
    .set (ch "a") (.bool true) (some (ch " yes")), .blank, .remark (ch " gone"), .blank, .remark (ch " about b"),
    .remark (ch " more"), .sect (ch "b") (some (ch " first")) [.remark (ch " see")] none] :=
  .inside (pre := [.remark (ch " about a"), .set (ch "a") (.bool true) (some (ch " yes")), .blank,
    .remark (ch " gone"), .blank, .remark (ch " about b"), .remark (ch " more")]) (post := []) (.set (pre := []) (post := []))

example : (Doc.parse Tokenizer.exEnv .conf CommentProps.exText).bind (fun d =>
      (d.withoutPath Tokenizer.exEnv (ch "b.c")).bind fun d' => .ok d'.render)
    = .ok (ch "# about a
a = true # yes

# gone

# about b
// more
b { # first
  // see
}
") := by decide +kernel

/-! ### Where the code departs from it -/

/-- **C75 (violated).** The comments of a setting that is removed go to the next setting. -/
theorem C75_comment_moves_violated (inc : AIncluder) (n : Nat) :
    ∃ d d', Doc.parse Tokenizer.exEnv .conf (ch "# x\na = true # y\nb = null") = .ok d ∧
      d.withoutPath Tokenizer.exEnv (ch "a") = .ok d' ∧ d'.render = ch "# x\n# y\nb = null" ∧
      parseTextA Tokenizer.exEnv CommentProps.exBase inc .conf (ch "# x\na = true # y\nb = null") n
        = .ok (.obj (CommentProps.on 1 []) [(ch "a", .scalar (CommentProps.on 2 [ch " x", ch " y"]) (.bool true)),
            (ch "b", .scalar (CommentProps.on 3 []) .null)] true false, n) ∧
      parseTextA Tokenizer.exEnv CommentProps.exBase inc .conf d'.render n
        = .ok (.obj (CommentProps.on 1 []) [(ch "b", .scalar (CommentProps.on 3 [ch " x", ch " y"]) .null)] true false, n) :=
  ⟨_, _, rfl, rfl, rfl, rfl, rfl⟩

end LinesRemoveProps
end Hocon
