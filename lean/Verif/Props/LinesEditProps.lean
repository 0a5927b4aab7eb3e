import Verif.Lemmas.LinesEdit
import Verif.Props.CommentProps

/-!
# Setting a value in a document made of lines (C74)

`Doc.parse` and `Doc.withValueText` are the model of `config_document` (Verif/DocEdit.lean), `Spec.HLines`
are documents made of lines and `Spec.Stands` says where a setting stands (Verif/Spec/Lines.lean).
-/

set_option autoImplicit false

namespace Hocon
namespace LinesEditProps

open Spec Notes Lines
open DocEdit (Doc)

/-- **C74 (partial).** Setting a scalar in a document made of lines replaces the characters of the old value
and no others. Parsing the new document gives the same settings on the same lines with the same
comments, and only the value at the given path is new. Missing: settings that are not scalars on one
line, keys with several elements, keys set twice, braces around the document. -/
theorem C74_set_partial (env : Env) (hx : HexOk env) (its : List Item) (t : Str)
    (ht : HLines env (Numeral env) true true its t) (htidy : Tidy [] its)
    (path : Str) (p : Path) (pt : List Tok) (hp : PathParser.parsePathNode env .conf path = .ok (p, pt))
    (m : Nat) (cs : List Str) (old : Scalar) (hold : Stands 1 [] its p m cs (some old))
    (new : Scalar) (x u : Str) (hnew : HAtom env (Numeral env) new x u) (hu : '\n' ∉ u) :
    ∃ d d' A t0 B, Doc.parse env .conf t = .ok d ∧ d.withValueText env path u = .ok d' ∧
      t = A ++ (t0 ++ B) ∧ d'.render = A ++ (u ++ B) ∧ (∃ x0, HAtom env (Numeral env) old x0 t0) ∧
      ∀ (base : Origin) (inc : AIncluder) (n : Nat), base.comments = [] →
        ∃ c', parseTextA env base inc .conf d'.render n = .ok (c', n) ∧
          (∀ q m' ds s, Stands 1 [] its q m' ds s → ∃ w, peekPathA c' q = .ok (some w) ∧
            w.origin = { base with line := m', endLine := m', comments := ds } ∧
            ValueIs w.erase (if q = p then some new else s)) ∧
          (∀ q w, q ≠ [] → peekPathA c' q = .ok (some w) → ∃ m' ds s, Stands 1 [] its q m' ds s) := by
  obtain ⟨its', hc⟩ := Stands.change hold rfl new
  obtain ⟨A, t0, B, g, hh, rfl, rfl⟩ := hole_of ht hc
  obtain ⟨ns, v, hd, ho, hv⟩ := hole_doc hx hh htidy
  obtain ⟨tok, hne, htk, htt, hps⟩ := atom_single hx hnew hu
  obtain ⟨d', hd', hr⟩ := withValue_once (.parsed hd) hne (a := []) (cs := ns) (b := []) rfl hp ho
    (by simpa using htk) hps (by simpa [Node.render, Node.tokens, Tok.textList, htt] using hu)
  have hr : d'.render = A ++ (u ++ B) := by simpa [Node.render, Node.renderList, Node.tokens, Node.tokensList, Tok.textList, htt] using hr
  obtain ⟨s0, x0, hs0, _, _, hself⟩ := Hole.old hh
  have hsame : s0 = old := by
    have h1 := Stands.changed hself htidy hold
    rw [if_pos rfl] at h1
    obtain ⟨w, e, _, hw⟩ := stands_peek (base := CommentProps.exBase) hold htidy CommentProps.exBase true false
    obtain ⟨w', e', _, hw'⟩ := stands_peek (base := CommentProps.exBase) h1 htidy CommentProps.exBase true false
    rw [e] at e'
    cases e'
    have hw2 : w.erase = .scalar old := hw
    have hw3 : w.erase = .scalar s0 := hw'
    rw [hw2] at hw3
    cases hw3
    rfl
  subst hsame
  refine ⟨_, d', A, t0, B, hd, hd', rfl, hr, ⟨x0, hs0⟩, fun base inc n hb => ?_⟩
  have htidy' := Change.tidy hc htidy
  rw [hr]
  refine ⟨_, lines_parse hx (hh.fill hnew hu) htidy' base hb inc n, ?_, ?_⟩
  · intro q m' ds s h
    exact stands_peek (Stands.changed hc htidy h) htidy' _ _ _
  · intro q w hq h
    obtain ⟨m', ds, s, h⟩ := peek_stands hq h
    obtain ⟨s', h⟩ := Stands.unchanged hc h
    exact ⟨m', ds, s', h⟩

/-- The text of `CommentProps.exText`, its setting `b.c`, and `null` as the new value. -/
example : ∃ pt, PathParser.parsePathNode Tokenizer.exEnv .conf (ch "b.c") = .ok ([ch "b", ch "c"], pt) := ⟨_, rfl⟩

example : HAtom Tokenizer.exEnv (Numeral Tokenizer.exEnv) .null (ch "null") (ch "null") := .null

example : (Doc.parse Tokenizer.exEnv .conf CommentProps.exText).bind (fun d =>
      (d.withValueText Tokenizer.exEnv (ch "b.c") (ch "null")).bind fun d' => .ok d'.render)
    = .ok (ch "# about a
a = true # yes

# gone

# about b
// more
b { # first
  c : null, // see
}
") := by decide +kernel

end LinesEditProps
end Hocon
