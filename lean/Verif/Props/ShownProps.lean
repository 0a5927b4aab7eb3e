import Verif.Lemmas.NotesLines
import Verif.Props.CommentProps
import Verif.Props.NotesProps

/-!
# Comments of settings that are written out and read back (C88)

`Notes.renderValue` (Verif/RenderNotes.lean) writes values with their comments, `Notes.parseTextA`
(Verif/ParseNotes.lean) reads a text with its comments. `Spec.Section` are objects made of scalars and
sections, `Spec.shown` are the comments that a setting is written with (Verif/Spec/Shown.lean).
-/

set_option autoImplicit false

namespace Hocon
namespace ShownProps

open Spec Notes Lines ConfigParser NotesLines

/-- **C88 (partial).** A section, written in HOCON style on several lines and read back, has the same
settings, and each setting has the comments it was written with. Missing: JSON style and everything on
one line, lists and empty objects. -/
theorem C88_read_back_partial (env : Env) (hx : HexOk env) (o : Options) (hf : o.formatted = true) (hj : o.json = false)
    (v : AVal) (hv : Renderable env v.erase) (hl : OneLine v) (hs : Section v) (base : Origin) (hb : base.comments = [])
    (inc : AIncluder) (n : Nat) :
    ∃ v', parseTextA env base inc .conf (renderValue env o v) n = .ok (v', n) ∧ Same env v.erase v'.erase ∧
      (∀ p w, Has v p w → ∃ w', peekPathA v' p = .ok (some w') ∧ w'.origin.comments = shown o w.origin ∧
        SameKind env w w'.erase) ∧
      (∀ p w', p ≠ [] → peekPathA v' p = .ok (some w') → ∃ w, Has v p w) := by
  cases v with
  | obj g fs r i =>
    obtain ⟨bs, cs, h1, h2, h3⟩ := section_lines hf hj hv hl hs
    have hn : (fs.map Prod.fst).Nodup := by
      rw [AVal.erase, Renderable] at hv
      rw [← eraseF_keys]; exact hv.1
    have ht : Tidy [] (flat cs) := flat_tidy (env := env) (o := o)
      (fun b hm => blocks_tidy h1 b (h2.mem_iff.1 hm)) (by rw [(h2.map Prod.fst).nodup_iff, blocks_keys h1]; exact hn)
    obtain ⟨v', h4, _, h5, h6⟩ := CommentProps.C72_comments_partial env hx _ _ h3 ht base hb inc n
    refine ⟨v', h4, ?_, ?_, ?_⟩
    · obtain ⟨v'', h7, h8⟩ := NotesProps.C67_notes_roundtrip_partial env hx inc.erase o (.obj g fs r i) hv hl
        (Or.inl ⟨_, _, _, _, rfl⟩) n
      have := CommentProps.C71_parse env base inc .conf (renderValue env o (.obj g fs r i)) n
      rw [h4, h7] at this
      have e : v'.erase = v'' := by
        have h9 : Res.ok (v'.erase, n) = Res.ok (v'', n) := this
        simpa using h9
      rw [e]; exact h8
    · intro p w hw
      obtain ⟨m, s, h7, h8⟩ := has_stands (env := env) (o := o) hw rfl h1 h2 1
      obtain ⟨w', h9, h10, h11⟩ := h5 _ _ _ _ h7
      refine ⟨w', h9, by rw [h10], ?_⟩
      cases w with
      | scalar _ x =>
        cases s with
        | some s' => exact ⟨s', h11, h8⟩
        | none => exact absurd h8 (by simp [KindIs])
      | obj =>
        cases s with
        | some s' => exact absurd h8 (by simp [KindIs])
        | none => exact h11
      | _ => cases s <;> exact absurd h8 (by simp [KindIs])
    · intro p w' hp h
      obtain ⟨m, ds, s, h7⟩ := h6 p w' hp h
      exact stands_has (env := env) (o := o) h7 rfl h1 h2
  | _ => simp [Section] at hs

/-- Writing a comment that was already written does not change it. -/
theorem commentShown_twice (c : Str) : commentShown (commentShown c) = commentShown c := by
  unfold commentShown
  by_cases h : c.head? = some ' '
  · simp [h]
  · simp [h]

theorem mem_of_findKeyA {fs : AFields} {k : Str} {w : AVal} (h : findKeyA fs k = some w) : (k, w) ∈ fs := by
  induction fs with
  | nil => simp [findKeyA] at h
  | cons f fs ih =>
    obtain ⟨k', v⟩ := f
    rw [findKeyA] at h
    split at h
    · rename_i hk
      subst hk
      cases h
      simp
    · simp [ih h]

/-- Sections have what is found in them. -/
theorem has_of_peek {p : Path} : ∀ {o : Origin} {fs : AFields} {r i : Bool} {w : AVal}, SectionF fs →
    peekPathA (.obj o fs r i) p = .ok (some w) → Has (.obj o fs r i) p w := by
  induction p with
  | nil => intro o fs r i w _ h; simp [peekPathA] at h
  | cons k p ih =>
    intro o fs r i w hs h
    cases p with
    | nil =>
      rw [peek_one] at h
      exact .here (mem_of_findKeyA (by simpa using h))
    | cons k2 p =>
      rw [peekPathA, attemptPeekA] at h
      cases hfk : findKeyA fs k with
      | none => rw [hfk] at h; cases h
      | some x =>
        rw [hfk] at h
        have hm := mem_of_findKeyA hfk
        have hset : Setting x := by
          clear h hfk ih
          induction fs with
          | nil => cases hm
          | cons f fs ihf =>
            obtain ⟨k', v⟩ := f
            rw [SectionF] at hs
            rcases List.mem_cons.1 hm with h | h
            · cases h; exact hs.1
            · exact ihf hs.2 h
        cases x with
        | obj o2 fs2 r2 i2 =>
          rw [Setting] at hset
          have h : Value.recatch (peekPathA (.obj o2 fs2 r2 i2) (k2 :: p)) = .ok (some w) := h
          rw [recatch_peek] at h
          exact .inside hm (ih hset.2 h)
        | scalar => cases h
        | _ => simp [Setting] at hset

/-- **C88 (partial).** With comments and without origins, the comments stay what they are when what was
read is written and read again. -/
theorem C88_stable_partial (env : Env) (hx : HexOk env) (hnan : NoNaN env) (o : Options) (hf : o.formatted = true)
    (hj : o.json = false) (hc : o.comments = true) (ho : o.origins = false)
    (v : AVal) (hv : Renderable env v.erase) (hl : OneLine v) (hs : Section v) (base base' : Origin)
    (hb : base.comments = []) (hb' : base'.comments = []) (inc inc' : AIncluder) (n n' : Nat) :
    ∃ v' v'', parseTextA env base inc .conf (renderValue env o v) n = .ok (v', n) ∧
      parseTextA env base' inc' .conf (renderValue env o v') n' = .ok (v'', n') ∧
      ∀ p w, Has v p w → ∃ w' w'', peekPathA v' p = .ok (some w') ∧ peekPathA v'' p = .ok (some w'') ∧
        w'.origin.comments = w.origin.comments.map commentShown ∧ w''.origin.comments = w'.origin.comments := by
  obtain ⟨v', h1, _, h2, _⟩ := C88_read_back_partial env hx o hf hj v hv hl hs base hb inc n
  have h3 : (Renderable env v'.erase ∧ OneLine v' ∧ Section v') ∧ ∃ og fs, v' = .obj og fs true false := by
    cases v with
    | obj g fs r i =>
      obtain ⟨bs, cs, h1', h2', h3⟩ := section_lines hf hj hv hl hs
      have hn : (fs.map Prod.fst).Nodup := by
        rw [AVal.erase, Renderable] at hv
        rw [← eraseF_keys]; exact hv.1
      have ht : Tidy [] (flat cs) := flat_tidy (env := env) (o := o)
        (fun b hm => blocks_tidy h1' b (h2'.mem_iff.1 hm)) (by rw [(h2'.map Prod.fst).nodup_iff, blocks_keys h1']; exact hn)
      have h4 := lines_parse hx h3 ht base hb inc n
      rw [h1] at h4
      have e : v' = .obj (at_ base 1 []) (tree base 1 [] (flat cs)) true false := by simpa using h4
      subst e
      exact ⟨section_again hnan hv hl hs h1' h2' ht base, _, _, rfl⟩
    | _ => simp [Section] at hs
  obtain ⟨⟨hv', hl', hs'⟩, og, fs, rfl⟩ := h3
  obtain ⟨v'', h5, _, h6, _⟩ := C88_read_back_partial env hx o hf hj _ hv' hl' hs' base' hb' inc' n'
  refine ⟨_, v'', h1, h5, ?_⟩
  intro p w hw
  obtain ⟨w', h7, h8, _⟩ := h2 p w hw
  rw [Section] at hs'
  obtain ⟨w'', h9, h10, _⟩ := h6 p w' (has_of_peek hs'.2 h7)
  have e : w'.origin.comments = w.origin.comments.map commentShown := by rw [h8, shown, hc, ho]; rfl
  refine ⟨w', w'', h7, h9, e, ?_⟩
  rw [h10, shown, hc, ho, e]
  simp [commentShown_twice]

/-- **C88 (violated).** With origins, which are on by default, what a setting came from is read as a comment
of it: every setting has more comments than before. -/
theorem C88_origins_violated (env : Env) (hx : HexOk env) (o : Options) (hf : o.formatted = true) (hj : o.json = false)
    (hc : o.comments = true) (ho : o.origins = true) (v : AVal) (hv : Renderable env v.erase) (hl : OneLine v)
    (hs : Section v) (base : Origin) (hb : base.comments = []) (inc : AIncluder) (n : Nat) :
    ∃ v', parseTextA env base inc .conf (renderValue env o v) n = .ok (v', n) ∧
      ∀ p w, Has v p w → ∃ w', peekPathA v' p = .ok (some w') ∧
        w.origin.comments.length < w'.origin.comments.length := by
  obtain ⟨v', h1, _, h2, _⟩ := C88_read_back_partial env hx o hf hj v hv hl hs base hb inc n
  refine ⟨v', h1, ?_⟩
  intro p w hw
  obtain ⟨w', h3, h4, _⟩ := h2 p w hw
  refine ⟨w', h3, ?_⟩
  rw [h4, shown, hc, ho]
  have := List.length_pos_of_ne_nil (List.splitOn_ne_nil '\n' w.origin.desc)
  simp
  omega

/-! ### A concrete case -/

open NotesProps (from_)

/-- A section with comments. -/
def exSection : AVal :=
  .obj (from_ (ch "t") 1 []) [
    (ch "b", .obj (from_ (ch "t") 3 [ch "about b"])
      [(ch "c d", .scalar (from_ (ch "t") 4 [ch " one", []]) (.str (ch "x y") true))] true false),
    (ch "a", .scalar (from_ (ch "t") 2 []) (.int 1 []))] true false

example : Section exSection ∧ OneLine exSection ∧ Renderable Tokenizer.exEnv exSection.erase := by
  refine ⟨?_, ?_, ?_⟩
  · simp [exSection, Section, SectionF, Setting]
  · simp [exSection, OneLine, OneLineF, from_]
  · simp only [exSection, AVal.erase, eraseF, Renderable, RenderableF, Writable, PlainStr, PlainChar, if_true]
    decide

example : renderValue Tokenizer.exEnv { origins := false, json := false } exSection
    = ch "a=1\n# about b\nb {\n    # one\n    # \n    \"c d\"=\"x y\"\n}\n" := by decide +kernel

example : Has exSection [ch "b", ch "c d"] (.scalar (from_ (ch "t") 4 [ch " one", []]) (.str (ch "x y") true)) :=
  .inside (w := .obj (from_ (ch "t") 3 [ch "about b"])
      [(ch "c d", .scalar (from_ (ch "t") 4 [ch " one", []]) (.str (ch "x y") true))] true false)
    (by simp) (.here (by simp))

/-- Written twice with origins. -/
example : shown { json := false } (from_ (ch "t") 4 [ch " one", []]) = [ch " t", ch " one", ch " "] := by decide

end ShownProps
end Hocon
