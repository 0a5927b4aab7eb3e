import Verif.DocValue
import Verif.Lemmas.NotesText
import Verif.Lemmas.JsonAdd
import Verif.Lemmas.KeyPath

/-!
# The text written by `with_value`
-/

set_option autoImplicit false

namespace Hocon
namespace Notes

open Spec

/-- The same options without comments. -/
def Options.mute (o : Options) : Options := { o with comments := false }

theorem entriesText_mute (o : Options) (es : List (Str × Str)) : entriesText o es = entriesText o.mute es := by
  induction es with
  | nil => rfl
  | cons e es ih => rw [entriesText, entriesText, ih]; rfl

mutual
theorem render_mute (env : Env) (o : Options) (ho : o.origins = false) : ∀ (v : AVal) (ind : Nat) (root : Bool), Renderable env v.erase → Uncommented v →
    render env o v ind root = render env o.mute v ind root
  | .scalar _ s, ind, root, _, _ => by rw [render, render]; rfl
  | .list _ [], ind, root, _, _ => by rw [render, render]
  | .list _ (v :: vs), ind, root, h, hq => by
    rw [AVal.erase, Renderable] at h
    rw [Uncommented] at hq
    rw [render, render, renderElems_mute env o ho (v :: vs) ind root h hq]
    rfl
  | .obj _ [] _ _, ind, root, _, _ => by rw [render, render]; rfl
  | .obj _ (f :: fs) r i, ind, root, h, hq => by
    rw [AVal.erase, Renderable] at h
    rw [Uncommented] at hq
    rw [render, render, renderFields_mute env o ho (f :: fs) ind _ h.2 hq, objectText, objectText, entriesText_mute]
    rfl
  | .ref .., _, _, h, _ => by simp [AVal.erase, Renderable] at h
  | .concat .., _, _, h, _ => by simp [AVal.erase, Renderable] at h
  | .dm .., _, _, h, _ => by simp [AVal.erase, Renderable] at h
  | .dmo .., _, _, h, _ => by simp [AVal.erase, Renderable] at h
theorem renderElems_mute (env : Env) (o : Options) (ho : o.origins = false) : ∀ (vs : List AVal) (ind : Nat) (root : Bool),
    RenderableL env (eraseL vs) → UncommentedL vs → renderElems env o vs ind root = renderElems env o.mute vs ind root
  | [], _, _, _, _ => by rw [renderElems, renderElems]
  | v :: vs, ind, root, h, hq => by
    rw [eraseL, RenderableL] at h
    rw [UncommentedL] at hq
    have hn : elemNotes o ind v = elemNotes o.mute ind v := by
      rw [elemNotes, elemNotes, hq.1, ho]
      simp [elemCommentLines, Options.mute, ho]
    rw [renderElems, renderElems, render_mute env o ho v _ _ h.1 hq.2.1, renderElems_mute env o ho vs _ _ h.2 hq.2.2, hn]
    rfl
theorem renderFields_mute (env : Env) (o : Options) (ho : o.origins = false) : ∀ (fs : List (Str × AVal)) (ind inner : Nat),
    RenderableF env (eraseF fs) → UncommentedF fs → renderFields env o fs ind inner = renderFields env o.mute fs ind inner
  | [], _, _, _, _ => by rw [renderFields, renderFields]
  | (k, v) :: fs, ind, inner, h, hq => by
    rw [eraseF, RenderableF] at h
    rw [UncommentedF] at hq
    have hn : fieldNotes o ind inner v = fieldNotes o.mute ind inner v := by
      rw [fieldNotes, fieldNotes, hq.1, ho]
      simp [fieldCommentLines, Options.mute, ho]
    have hv := render_mute env o ho v inner false h.2.1 hq.2.1
    have hfs := renderFields_mute env o ho fs ind inner h.2.2 hq.2.2
    cases v with
    | dm => simp [AVal.erase, Renderable] at h
    | dmo => simp [AVal.erase, Renderable] at h
    | _ =>
      rw [renderFields, renderFields, hn, hv, hfs] <;> first | rfl | (intros; contradiction)
end

end Notes

namespace DocEdit

open Spec

theorem jws_space {w : Str} (h : JWs w) : ∀ c ∈ w, isSpace c = true := by
  intro c hc
  rcases h c hc with rfl | rfl | rfl | rfl <;> decide

theorem trim_back {t w : Str} (h1 : ∀ c, t.head? = some c → isSpace c = false)
    (h2 : ∀ c, t.getLast? = some c → isSpace c = false) (hne : t ≠ []) (hw : ∀ c ∈ w, isSpace c = true) :
    PathParser.trim (t ++ w) = t := by
  have e : PathParser.trim (t ++ w) = PathParser.trim t := by
    obtain ⟨c, b, rfl⟩ := List.exists_cons_of_ne_nil hne
    have hc := h1 c rfl
    unfold PathParser.trim
    rw [List.cons_append, List.dropWhile_cons_of_neg (by simpa using hc), List.dropWhile_cons_of_neg (by simpa using hc),
      ← List.cons_append, List.reverse_append, List.dropWhile_append_of_pos]
    intro x hx
    exact hw x (List.mem_reverse.1 hx)
  rw [e]
  exact KeyPath.trim_eq h1 h2

theorem numeral_chars {env : Env} {t : Str} {s : Scalar} (h : Numeral env t s) :
    t ≠ [] ∧ ∀ c ∈ t, isSpace c = false := by
  have hd : ∀ c, JDigit c → isSpace c = false := fun c h => by
    have := h.elim (fun y => !isSpace y) (by decide)
    simpa using this
  have hl : ∀ (c : Char) (b : Str), (c = '-' ∨ JDigit c) → (∀ x ∈ b, x ∈ ch "0123456789eE+-.") → ∀ x ∈ c :: b, isSpace x = false := by
    intro c b h1 h2 x hx
    rcases List.mem_cons.1 hx with rfl | hx
    · rcases h1 with rfl | h1
      · decide
      · exact hd _ h1
    · have : ∀ y ∈ ch "0123456789eE+-.", isSpace y = false := by decide
      exact this _ (h2 x hx)
  cases h with
  | int hs hne hds =>
    refine ⟨by simp [hne], ?_⟩
    intro c hc
    rcases List.mem_append.1 hc with hc | hc
    · rcases hs with rfl | rfl
      · cases hc
      · simp at hc; subst hc; decide
    · exact hd _ (hds c hc)
  | whole h1 h2 => exact ⟨by simp, hl _ _ h1 h2⟩
  | double h1 h2 => exact ⟨by simp, hl _ _ h1 h2⟩

/-- A JSON text neither begins nor ends with whitespace. -/
theorem jtext_ends {env : Env} {v : Value} {t : Str} (h : JText env (Numeral env) (.value v) t) :
    t ≠ [] ∧ (∀ c, t.head? = some c → isSpace c = false) ∧ ∀ c, t.getLast? = some c → isSpace c = false := by
  have hb : ∀ (a z : Char) (b : Str), isSpace a = false → isSpace z = false →
      (a :: b ++ [z] ≠ []) ∧ (∀ c, (a :: b ++ [z]).head? = some c → isSpace c = false) ∧
        ∀ c, (a :: b ++ [z]).getLast? = some c → isSpace c = false := by
    intro a z b ha hz
    refine ⟨by simp, ?_, ?_⟩
    · rintro c ⟨⟩; exact ha
    · intro c hc
      rw [List.getLast?_append] at hc
      simp at hc
      subst hc
      exact hz
  cases h with
  | null => exact ⟨by simp, by rintro c ⟨⟩; decide, by rintro c ⟨⟩; decide⟩
  | true_ => exact ⟨by simp, by rintro c ⟨⟩; decide, by rintro c ⟨⟩; decide⟩
  | false_ => exact ⟨by simp, by rintro c ⟨⟩; decide, by rintro c ⟨⟩; decide⟩
  | num h =>
    obtain ⟨h1, h2⟩ := numeral_chars h
    exact ⟨h1, fun c hc => h2 c (List.mem_of_mem_head? hc), fun c hc => h2 c (List.mem_of_getLast? hc)⟩
  | str => exact hb _ _ _ (by decide) (by decide)
  | emptyArr => exact hb _ _ _ (by decide) (by decide)
  | arr => exact hb _ _ _ (by decide) (by decide)
  | emptyObj => exact hb _ _ _ (by decide) (by decide)
  | obj => exact hb _ _ _ (by decide) (by decide)

/-- What `with_value` writes for a resolved value without comments is a JSON text of an equal value. -/
theorem valueText_json {env : Env} {v : Notes.AVal} (hv : Renderable env v.erase) (hq : Uncommented v) :
    ∃ v', JText env (Numeral env) (.value v') (valueText env v) ∧ Same env v.erase v' := by
  have e : Notes.renderValue env valueOptions v = Render.renderValue env ⟨true, true⟩ v.erase := by
    rw [Notes.renderValue, Notes.render_mute env valueOptions rfl v 0 true hv hq]
    exact Notes.render_quiet env valueOptions.mute rfl rfl v 0 true
  obtain ⟨t, w, v', h1, h2, h3, h4⟩ := Render.render_json (o := ⟨true, true⟩) rfl v.erase hv 0 true
  refine ⟨v', ?_, h4⟩
  obtain ⟨g1, g2, g3⟩ := jtext_ends h3
  rw [valueText, e, Render.renderValue, h1, trim_back g2 g3 g1 (jws_space h2)]
  exact h3

theorem jchars_newline {env : Env} {t s : Str} (h : JChars env t s) : '\n' ∉ t := by
  induction h with
  | nil => simp
  | plain h1 _ _ _ _ ih =>
    intro hc
    rcases List.mem_cons.1 hc with rfl | hc
    · simp at h1
    · exact ih hc
  | escape he _ ih =>
    simp only [List.mem_cons, not_or]
    refine ⟨by decide, ?_, ih⟩
    rintro rfl
    simp [escapes] at he
  | unicode hh _ ih =>
    have hd : hexDigit '\n' = none := by decide
    simp only [List.mem_cons, not_or]
    refine ⟨by decide, by decide, ?_, ?_, ?_, ?_, ih⟩ <;> rintro rfl <;>
      (simp only [hex4, hd, Option.bind_eq_bind, Option.bind_none, Option.bind_fun_none] at hh; first | done | exact absurd hh (by simp))

/-- A scalar in JSON is one in HOCON, on one line. -/
theorem jtext_atom {env : Env} {s : Scalar} {t : Str} (h : JText env (Numeral env) (.value (.scalar s)) t) :
    ∃ x, HAtom env (Numeral env) s x t ∧ '\n' ∉ t := by
  cases h with
  | null => exact ⟨_, .null, by decide⟩
  | true_ => exact ⟨_, .true_, by decide⟩
  | false_ => exact ⟨_, .false_, by decide⟩
  | num h =>
    refine ⟨_, .num h, fun hc => ?_⟩
    have := (numeral_chars h).2 _ hc
    revert this
    decide
  | str h =>
    refine ⟨_, .str h, ?_⟩
    simpa using jchars_newline h

/-- Any other value can be put in the same place. -/
theorem Replaced.any {fs fs' : List (Str × Value)} {p : Path} {old a : Value} (h : Replaced fs p old a fs') (b : Value) :
    ∃ fs'', Replaced fs p old b fs'' := by
  induction h with
  | here => exact ⟨_, .here⟩
  | inside _ ih => obtain ⟨_, h⟩ := ih; exact ⟨_, .inside h⟩
  | later _ ih => obtain ⟨_, h⟩ := ih; exact ⟨_, .later h⟩

theorem Appended.any {fs fs' : List (Str × Value)} {p : Path} {a : Value} (h : Appended a fs p fs') (b : Value) :
    ∃ fs'', Appended b fs p fs'' := by
  induction h with
  | here h => exact ⟨_, .here h⟩
  | inside _ ih => obtain ⟨_, h⟩ := ih; exact ⟨_, .inside h⟩

end DocEdit
end Hocon
