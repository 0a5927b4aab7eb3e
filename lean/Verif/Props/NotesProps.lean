import Verif.Lemmas.NotesText
import Verif.Props.RenderProps

/-!
# Rendering with comments and origins (C67)

`Notes.AVal` (Verif/RenderNotes.lean) are values with their origins, `Notes.renderValue` renders them with
all four options; `Spec.OneLine` says that no comment contains a newline.
-/

set_option autoImplicit false

namespace Hocon
namespace NotesProps

open Spec Notes ConfigParser
open PathParser (Syntax)

/-- Without comments and origins, rendering is that of `Verif/Render.lean`, so C23, C47, C61 and C63 speak
about it. -/
theorem C67_without_notes (env : Env) (o : Options) (h1 : o.origins = false) (h2 : o.comments = false) (v : AVal) :
    renderValue env o v = Render.renderValue env o.base v.erase :=
  render_quiet env o h1 h2 v 0 true

/-- **C67 (partial).** A resolved object (or, in JSON style, list), rendered with any of the sixteen
combinations of options, in particular the default ones, is read back as HOCON, and the value read is
equal to the one rendered, whatever the descriptions of the origins and the comments are, as long as no
comment contains a newline. -/
theorem C67_notes_roundtrip_partial (env : Env) (hx : HexOk env) (inc : Includer) (o : Options) (v : AVal)
    (hv : Renderable env v.erase) (hl : OneLine v)
    (hroot : (∃ og fs r i, v = .obj og fs r i) ∨ o.json = true ∧ ∃ og vs, v = .list og vs) (n : Nat) :
    ∃ v', parseText env inc .conf (renderValue env o v) n = .ok (v', n) ∧ Same env v.erase v' := by
  have fin : ∀ {v' : Value} {t g : Str}, renderValue env o v = t ++ g → HGap g → HText env (Numeral env) (.value v') t →
      Same env v.erase v' → ∃ v', parseText env inc .conf (renderValue env o v) n = .ok (v', n) ∧ Same env v.erase v' := by
    intro v' t g e hg ht hs
    refine ⟨v', HoconAccept.hocon_accepted env hx inc v' _ n ?_, hs⟩
    rw [e]
    have hh : t.head? = some '{' ∨ t.head? = some '[' := by
      have hne : ∀ s, v' ≠ .scalar s := by
        rintro s rfl
        rcases hroot with ⟨og, fs, r, i, rfl⟩ | ⟨_, og, vs, rfl⟩ <;> simp [AVal.erase, Same] at hs
      cases ht with
      | atom => exact absurd rfl (hne _)
      | words => exact absurd rfl (hne _)
      | emptyArr => exact Or.inr rfl
      | arr => exact Or.inr rfl
      | emptyObj => exact Or.inl rfl
      | obj => exact Or.inl rfl
    exact HDoc.braces (g := []) .nil ht hh (.gap hg)
  cases ho : o.json with
  | true =>
    obtain ⟨v', t, g, h1, h2, _, h3, h4⟩ := render_text o v hv hl 0 true (Or.inr ho)
    exact fin h1 h2 h3 h4
  | false =>
    rcases hroot with ⟨og, fs, r, i, rfl⟩ | ⟨h, _⟩
    · cases fs with
      | nil =>
        refine fin (v' := assigned []) (t := ch "{}") (g := Render.rootNewline o.base true) (by rw [renderValue, render])
          (rootNewline_gap o true) (.emptyObj (g := []) .nil) ?_
        simp [AVal.erase, eraseF, Same, SameF, assigned]
      | cons f fs =>
        rw [AVal.erase, Renderable] at hv
        rw [OneLine] at hl
        obtain ⟨g, body, gs, h1, hg, h2, h3⟩ := object_entries o (f :: fs) (by simp) hv.1 0 0 (r := r) (i := i)
          (renderFields_text o (f :: fs) hv.2 hl.2 0 0)
        refine ⟨assigned (Render.asAssign gs), HoconAccept.hocon_accepted env hx inc _ _ n ?_, by rw [AVal.erase]; exact h3⟩
        rw [renderValue, render, objectText]
        simp only [ho, Bool.false_or, Bool.not_true, Bool.false_eq_true, if_false]
        rw [h1, Render.chop_append _ _ _ (Render.entrySep_length o.base)]
        have := HDoc.open_ hg h2 (.gap (rootNewline_gap o true))
        simpa using this
    · rw [ho] at h; cases h

/-- An origin for the examples. -/
def from_ (desc : Str) (line : Int) (cs : List Str) : Origin := ⟨desc, line, line, .generic, [], cs⟩

/-- Comments with and without a leading blank, a description of two lines, nested composites. -/
def exNotes : AVal :=
  .obj (from_ (ch "t") 1 []) [
    (ch "b", .list (from_ (ch "t: 3") 3 [ch " list"]) [.scalar (from_ (ch "t: 4") 4 [ch "one"]) (.int 1 [])]),
    (ch "a", .obj (from_ (ch "two\nlines") 5 [ch "x { = ${", []])
      [(ch "s t", .scalar (from_ (ch "") 6 []) (.str (ch "v") false))] true false)] true false

example : OneLine exNotes ∧ Renderable Tokenizer.exEnv exNotes.erase := by
  refine ⟨?_, ?_⟩
  · simp [exNotes, OneLine, OneLineL, OneLineF, from_]
  · simp only [exNotes, AVal.erase, eraseF, eraseL, Renderable, RenderableL, RenderableF, Writable, PlainStr, PlainChar,
      if_true]
    decide

/-- The text with the default options. -/
example : renderValue Tokenizer.exEnv {} exNotes = ch "{\n    # two\n    # lines\n    # x { = ${\n    # \n    \"a\" : {\n" ++
    ch "        #\n        \"s t\" : \"v\"\n    },\n    # t: 3\n    # list\n    \"b\" : [\n        # t: 4\n        # one\n" ++
    ch "        1\n    ]\n}\n" := by decide +kernel

/-- **C67 (violated).** A comment can be given a newline (`config_origin::with_comments`,
`config_value::with_origin`); its second line is then rendered outside of the comment and read as part of
the configuration. Descriptions of origins are split into lines, comments are not. -/
theorem C67_newline_comment_violated (env : Env) (inc : Includer) (n : Nat) :
    let v := AVal.obj (from_ (ch "t") 1 [])
      [(ch "a", .scalar (from_ (ch "t") 1 [ch "note\nb=1"]) (.bool true))] true false
    renderValue env { origins := false, json := false } v = ch "# note\nb=1\na=true\n" ∧
    parseText env inc .conf (ch "# note\nb=1\na=true\n") n
      = .ok (.obj [(ch "b", .scalar (.int 1 (ch "1"))), (ch "a", .scalar (.bool true))] true false, n) :=
  ⟨by rfl, by rfl⟩

end NotesProps
end Hocon
