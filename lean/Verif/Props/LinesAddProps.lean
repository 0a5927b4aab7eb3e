import Verif.Lemmas.LinesAdd
import Verif.Props.CommentProps

/-!
# Adding a setting to a document made of lines (C76)

`Doc.parse` and `Doc.withValueText` are the model of `config_document` (Verif/DocEdit.lean), `Spec.HLines`
are documents made of lines, `Spec.Stands` says where a setting stands (Verif/Spec/Lines.lean), `Spec.Added`
which lines there are when a setting is added and `Spec.NewPath` how the path is written
(Verif/Spec/LinesEdit.lean).
-/

set_option autoImplicit false

namespace Hocon
namespace LinesAddProps

open Spec Notes Lines
open DocEdit (Doc)

/-- **C76 (partial).** Setting a path that is not set, in a section that exists or at the top level, adds one
line `key : value` to the text and changes nothing else of it. Parsing the new document gives every other
setting with its value and its comments, on its line, or one line further down when it stands below the new
line; it gives the new setting with the new value, and nothing more. At the top level the document has to
end with a newline (see `C76_comment_swallows_violated`). Missing: new sections, values that are not scalars
on one line, empty documents, documents with settings that are neither scalars on one line nor sections,
with keys of several elements or keys set twice, with braces around them, and paths of several elements with
quotes. -/
theorem C76_add_partial (env : Env) (hx : HexOk env) (z : Bool) (its its' : List Item) (t : Str)
    (ht : HLines env (Numeral env) z true its t) (htidy : Tidy [] its)
    (path kt : Str) (p : Path) (pt : List Tok) (hp : PathParser.parsePathNode env .conf path = .ok (p, pt))
    (hpath : NewPath env p path kt) (k : Str) (hk : HKey env [k] kt) (v : Scalar)
    (hadd : Added k v its p its') (hz : p = [k] → z = false ∧ its ≠ [])
    (x text : Str) (hv : HAtom env (Numeral env) v x text) (hn : '\n' ∉ text) :
    ∃ d d' A w B, Doc.parse env .conf t = .ok d ∧ d.withValueText env path text = .ok d' ∧
      t = A ++ B ∧ Blanks w ∧ d'.render = A ++ ((w ++ (kt ++ (ch " : " ++ (text ++ ['\n'])))) ++ B) ∧
      (p = [k] → B = []) ∧
      ∃ m0 d0, Stands 1 [] its' p m0 d0 (some v) ∧
      ∀ (base : Origin) (inc : AIncluder) (n : Nat), base.comments = [] →
        ∃ c', parseTextA env base inc .conf d'.render n = .ok (c', n) ∧
          (∃ w, peekPathA c' p = .ok (some w) ∧ ValueIs w.erase (some v) ∧
            w.origin = { base with line := ↑m0, endLine := ↑m0, comments := d0 }) ∧
          (∀ q m ds s, Stands 1 [] its q m ds s → q ≠ p ∧ ∃ w, peekPathA c' q = .ok (some w) ∧ ValueIs w.erase s ∧
            w.origin = { base with line := ↑(if m < m0 then m else m + 1), endLine := ↑(if m < m0 then m else m + 1), comments := ds }) ∧
          (∀ q w, q ≠ [] → peekPathA c' q = .ok (some w) → q = p ∨ ∃ m ds s, Stands 1 [] its q m ds s) := by
  obtain ⟨tok, hne, htok, htext, hsv⟩ := atom_single hx hv hn
  have hspell := NewPath.spell hx hpath hp
  have hren : (Node.simple tok).render = text := by simpa [Node.render, Node.tokens, Tok.textList] using htext
  have main : ∃ cs cs' A w B, Doc.parse env .conf t = .ok ⟨[.object cs], .conf⟩ ∧ DocEdit.Put (.simple tok) cs p pt cs' ∧
      t = A ++ B ∧ Blanks w ∧ Node.renderList cs' = A ++ ((w ++ (kt ++ (ch " : " ++ (text ++ ['\n'])))) ++ B) ∧
      (p = [k] → B = []) ∧
      HLines env (Numeral env) true true its' (A ++ ((w ++ (kt ++ (ch " : " ++ (text ++ ['\n'])))) ++ B)) := by
    by_cases hpk : p = [k]
    · subst hpk
      obtain ⟨rfl, hne⟩ := hz rfl
      obtain ⟨hki, rfl⟩ := Added.here_iff hadd
      obtain ⟨cs, cs', w, h1, h2, h3, h4⟩ := end_doc hx ht hne hki hspell (.simple tok)
      rw [hren] at h4
      refine ⟨cs, cs', t, w, [], h1, h2, by simp, h3, by simpa using h4, fun _ => rfl, ?_⟩
      rw [List.append_nil]
      exact HLines.weaken (HLines.snoc ht rfl h3 hk hv hn)
    · obtain ⟨A, B, hs, rfl⟩ := slot_of ht hpk hadd
      obtain ⟨cs, cs', w, h1, h2, h3, h4⟩ := slot_doc hx hs.weaken htidy hspell (.simple tok)
      rw [hren] at h4
      exact ⟨cs, cs', A, w, B, h1, h2, rfl, h3, h4, fun h => absurd h hpk, hs.weaken.fill h3 hk hv hn⟩
  obtain ⟨cs, cs', A, w, B, hd, hput, rfl, hw, hr, hB, hl⟩ := main
  obtain ⟨d', hd', hroot⟩ := DocEdit.withValue_absent (.parsed hd) rfl hne (a := []) (cs := cs) (b := []) rfl hp htok hsv rfl hput
  have hr : d'.render = A ++ ((w ++ (kt ++ (ch " : " ++ (text ++ ['\n'])))) ++ B) := by
    rw [← hr, Doc.render, hroot]
    simp [Node.renderList, Node.tokens, Node.tokensList]
  have htidy' := Added.tidy hadd htidy
  obtain ⟨m0, d0, h0, _, h1, h2⟩ := Added.grown hadd htidy 1 []
  refine ⟨_, d', A, w, B, hd, hd', rfl, hw, hr, hB, m0, d0, h0, fun base inc n hb => ?_⟩
  rw [hr]
  refine ⟨_, lines_parse hx hl htidy' base hb inc n, ?_, ?_, ?_⟩
  · obtain ⟨w, k1, k2, k3⟩ := stands_peek (base := base) h0 htidy' (at_ base 1 []) true false
    exact ⟨w, k1, k3, k2⟩
  · intro q m ds s h
    obtain ⟨g1, h⟩ := h1 q m ds s h
    obtain ⟨w, k1, k2, k3⟩ := stands_peek (base := base) h htidy' (at_ base 1 []) true false
    exact ⟨g1, w, k1, k3, k2⟩
  · intro q w hq h
    obtain ⟨m', ds, s, h⟩ := peek_stands hq h
    rcases h2 _ _ _ _ h with ⟨h, _⟩ | ⟨m, h⟩
    · exact Or.inl h
    · exact Or.inr ⟨m, ds, s, h⟩

theorem key_of {k : Str} (h1 : k ≠ []) (h2 : ∀ c ∈ k, WordChar c ∧ c ≠ '.' ∧ c ≠ '/') (h3 : WordStart k)
    (h4 : k ≠ ch "include") : HKey Tokenizer.exEnv [k] k := ⟨.bare h1 h2, h3, h4⟩

/-- The text of `CommentProps.exText` and its section `b`, which gets the new setting `d`. -/
example : NewPath Tokenizer.exEnv [ch "b", ch "d"] (ch "b.d") (ch "d") :=
  .bare (q := [ch "b"]) ⟨.bareCons (t := ch "b") (by decide) (by unfold WordChar; decide) (.bare (t := ch "d") (by decide) (by unfold WordChar; decide)),
    ⟨by unfold JDigit; decide, by decide, by decide, by decide⟩, by decide⟩ (by decide)
    (key_of (by decide) (by unfold WordChar; decide) ⟨by unfold JDigit; decide, by decide, by decide, by decide⟩ (by decide))

example : ∃ inner', Added (ch "d") .null CommentProps.exItems [ch "b", ch "d"] [.remark (ch " about a"),
    .set (ch "a") (.bool true) (some (ch " yes")), .blank, .remark (ch " gone"), .blank, .remark (ch " about b"),
    .remark (ch " more"), .sect (ch "b") (some (ch " first")) inner' none] :=
  ⟨_, .inside (pre := [.remark (ch " about a"), .set (ch "a") (.bool true) (some (ch " yes")), .blank,
    .remark (ch " gone"), .blank, .remark (ch " about b"), .remark (ch " more")]) (post := []) (.here (by decide))⟩

example : (Doc.parse Tokenizer.exEnv .conf CommentProps.exText).bind (fun d =>
      (d.withValueText Tokenizer.exEnv (ch "b.d") (ch "null")).bind fun d' => .ok d'.render)
    = .ok (ch "# about a
a = true # yes

# gone

# about b
// more
b { # first
  c : \"x\", // see
  d : null
}
") := by decide +kernel

/-- At the top level. -/
example : HLines Tokenizer.exEnv (Numeral Tokenizer.exEnv) false true
    [.set (ch "a") (.bool true) none, .remark (ch " x")] (ch "a = true\n# x\n") :=
  .set (w := []) (kt := ch "a") (w1 := [' ']) (c := '=') (w2 := [' ']) (t := ch "true") (e := []) (u := ch "\n# x\n") Blanks.nil
    (key_of (by decide) (by unfold WordChar; decide) ⟨by unfold JDigit; decide, by decide, by decide, by decide⟩ (by decide))
    (by intro c hc; simp at hc; exact Or.inl hc) (Or.inr rfl) (by intro c hc; simp at hc; exact Or.inl hc)
    .true_ (by decide) (.plain (.none Blanks.nil))
    (.newline (.note (o := some (ch " x")) (t := ch "# x") (.hash (w := []) Blanks.nil (by decide)) (.newline .nil)))

example : NewPath Tokenizer.exEnv [ch "k"] (ch "k") (ch "k") :=
  .one (key_of (by decide) (by unfold WordChar; decide) ⟨by unfold JDigit; decide, by decide, by decide, by decide⟩ (by decide))

example : (Doc.parse Tokenizer.exEnv .conf (ch "a = true\n# x\n")).bind (fun d =>
      (d.withValueText Tokenizer.exEnv (ch "k") (ch "null")).bind fun d' => .ok d'.render)
    = .ok (ch "a = true\n# x\nk : null\n") := by decide +kernel

/-! ### Where the code departs from it -/

/-- **C76 (violated).** When the last line of the document is a comment without a newline, the new setting
becomes part of this comment: the call succeeds, but the new document does not have the setting. -/
theorem C76_comment_swallows_violated (inc : AIncluder) (n : Nat) :
    ∃ d d', Doc.parse Tokenizer.exEnv .conf (ch "a = true # x") = .ok d ∧
      d.withValueText Tokenizer.exEnv (ch "k") (ch "null") = .ok d' ∧ d'.render = ch "a = true, # x k : null" ∧
      d'.hasPath Tokenizer.exEnv (ch "k") = .ok true ∧
      parseTextA Tokenizer.exEnv CommentProps.exBase inc .conf d'.render n
        = .ok (.obj (CommentProps.on 1 []) [(ch "a", .scalar (CommentProps.on 1 [ch " x k : null"]) (.bool true))] true false, n) :=
  ⟨_, _, rfl, rfl, rfl, rfl, rfl⟩

end LinesAddProps
end Hocon
