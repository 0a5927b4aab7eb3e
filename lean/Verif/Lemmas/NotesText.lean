import Verif.Spec.Notes
import Verif.Lemmas.RenderHocon

/-!
# Rendering with comments produces HOCON texts
-/

set_option autoImplicit false

namespace Hocon
namespace Notes

open Spec
open Render (All2 SameEntry entrySep hgap_indent hgap_opt_nl all2_sort asAssign indent)

/-! ### Without comments -/

/-- An entry with its indentation. -/
def indented (o : Options) (ind : Nat) (e : Str × Str) : Str × Str := (e.1, indent o.base ind ++ e.2)

theorem insert_indented (o : Options) (ind : Nat) (e : Str × Str) (es : List (Str × Str)) :
    Render.insert (indented o ind e) (es.map (indented o ind)) = (Render.insert e es).map (indented o ind) := by
  induction es with
  | nil => rfl
  | cons x xs ih =>
    rw [List.map_cons, Render.insert, Render.insert, ih]
    change (if Render.compare e.1 x.1 = true then _ else _) = _
    split <;> rfl

theorem sort_indented (o : Options) (ind : Nat) (es : List (Str × Str)) :
    Render.sort (es.map (indented o ind)) = (Render.sort es).map (indented o ind) := by
  induction es with
  | nil => rfl
  | cons x xs ih => rw [List.map_cons, Render.sort, Render.sort, ih, insert_indented]

theorem entriesText_indented (o : Options) (ind : Nat) (es : List (Str × Str)) :
    entriesText o (es.map (indented o ind)) = Render.entriesText o.base ind es := by
  induction es with
  | nil => rfl
  | cons x xs ih =>
    obtain ⟨k, t⟩ := x
    rw [List.map_cons, indented, entriesText, Render.entriesText, ih]
    rfl

theorem eraseL_length (vs : List AVal) : (eraseL vs).length = vs.length := by
  induction vs with
  | nil => rw [eraseL]; rfl
  | cons v vs ih => rw [eraseL, List.length_cons, ih]; rfl

mutual
theorem render_quiet (env : Env) (o : Options) (h1 : o.origins = false) (h2 : o.comments = false) : ∀ (v : AVal) (ind : Nat)
    (root : Bool), render env o v ind root = Render.render env o.base v.erase ind root
  | .scalar _ s, ind, root => by rw [render, AVal.erase, Render.render]
  | .list _ [], ind, root => by rw [render, AVal.erase, eraseL, Render.render]
  | .list _ (v :: vs), ind, root => by
    rw [render, AVal.erase, renderElems_quiet env o h1 h2, eraseL, Render.render]; rfl
  | .obj _ [] _ _, ind, root => by rw [render, AVal.erase, eraseF, Render.render]
  | .obj _ (f :: fs) r i, ind, root => by
    obtain ⟨k, v⟩ := f
    rw [render, AVal.erase, eraseF, Render.render, objectText, Render.objectText, renderFields_quiet env o h1 h2, eraseF,
      sort_indented, entriesText_indented]
    rfl
  | .ref _ _ p opt _, ind, root => by rw [render, AVal.erase, Render.render]
  | .concat _ ps, ind, root => by rw [render, AVal.erase, Render.render, renderPieces_quiet env o h1 h2]
  | .dm _ st, ind, root => by
    rw [render, AVal.erase, Render.render, renderStack_quiet env o h1 h2, mergeHead, mergeTail, h2]; simp
  | .dmo _ st, ind, root => by
    rw [render, AVal.erase, Render.render, renderStack_quiet env o h1 h2, mergeHead, mergeTail, h2]; simp
theorem renderElems_quiet (env : Env) (o : Options) (h1 : o.origins = false) (h2 : o.comments = false) : ∀ (vs : List AVal)
    (ind : Nat) (root : Bool), renderElems env o vs ind root = Render.renderElems env o.base (eraseL vs) ind root
  | [], ind, root => by rw [renderElems, eraseL, Render.renderElems]
  | v :: vs, ind, root => by
    rw [renderElems, eraseL, Render.renderElems, render_quiet env o h1 h2, renderElems_quiet env o h1 h2, elemNotes, h1, h2]
    simp [Options.base]
    rfl
theorem renderPieces_quiet (env : Env) (o : Options) (h1 : o.origins = false) (h2 : o.comments = false) : ∀ (vs : List AVal)
    (ind : Nat) (root : Bool), renderPieces env o vs ind root = Render.renderPieces env o.base (eraseL vs) ind root
  | [], ind, root => by rw [renderPieces, eraseL, Render.renderPieces]
  | v :: vs, ind, root => by
    rw [renderPieces, eraseL, Render.renderPieces, render_quiet env o h1 h2, renderPieces_quiet env o h1 h2]
theorem renderStack_quiet (env : Env) (o : Options) (h1 : o.origins = false) (h2 : o.comments = false) : ∀ (vs : List AVal)
    (ind : Nat) (root : Bool) (key : Str),
    renderStack env o vs ind root key = Render.renderStack env o.base (eraseL vs) ind root key
  | [], ind, root, key => by rw [renderStack, eraseL, Render.renderStack]
  | v :: vs, ind, root, key => by
    rw [renderStack, eraseL, Render.renderStack, render_quiet env o h1 h2, renderStack_quiet env o h1 h2, mergeNotes, h2]
    simp [Options.base]
    rfl
theorem renderFields_quiet (env : Env) (o : Options) (h1 : o.origins = false) (h2 : o.comments = false) :
    ∀ (fs : List (Str × AVal)) (ind inner : Nat),
    renderFields env o fs ind inner = (Render.renderFields env o.base (eraseF fs) inner).map (indented o inner)
  | [], ind, inner => by rw [renderFields, eraseF, Render.renderFields]; rfl
  | (k, v) :: fs, ind, inner => by
    have hn : ∀ v, fieldNotes o ind inner v = [] := by intro v; rw [fieldNotes, h1, h2]; rfl
    have hh : ∀ (key : Str) (c : Nat), mergeHead o inner key c = [] := by intro k c; rw [mergeHead, h2]; rfl
    have ht : ∀ (b : Str), mergeTail o inner b = Render.closeStack o.base b := by intro b; rw [mergeTail, h2]; simp
    cases v with
    | dm og st =>
      rw [renderFields, eraseF, AVal.erase, Render.renderFields, hn, hh, ht, renderStack_quiet env o h1 h2,
        renderFields_quiet env o h1 h2]
      rfl
    | dmo og st =>
      rw [renderFields, eraseF, AVal.erase, Render.renderFields, hn, hh, ht, renderStack_quiet env o h1 h2,
        renderFields_quiet env o h1 h2]
      rfl
    | _ =>
      rw [renderFields, eraseF, hn, render_quiet env o h1 h2, renderFields_quiet env o h1 h2, AVal.erase,
        Render.renderFields] <;> first | rfl | (intros; contradiction) | simp
end

/-! ### Gaps -/

theorem hgap_append {a b : Str} (ha : HGap a) (hb : HGap b) : HGap (a ++ b) := by
  induction ha with
  | nil => exact hb
  | blank hc _ ih => exact .blank hc ih
  | newline _ ih => exact .newline ih
  | @hash x g hx _ ih =>
    rw [show '#' :: x ++ '\n' :: g ++ b = '#' :: x ++ '\n' :: (g ++ b) by simp]
    exact .hash hx ih
  | @slashes x g hx _ ih =>
    rw [show '/' :: '/' :: x ++ '\n' :: g ++ b = '/' :: '/' :: x ++ '\n' :: (g ++ b) by simp]
    exact .slashes hx ih

theorem splitLines_clean (s : Str) : ∀ l ∈ splitLines s, '\n' ∉ l := by
  induction s with
  | nil => simp [splitLines]
  | cons c s ih =>
    rw [splitLines]
    split
    · intro l hl
      rcases List.mem_cons.1 hl with rfl | h
      · simp
      · exact ih l h
    · rename_i hc
      split
      · rename_i l ls e
        intro x hx
        rw [e] at ih
        rcases List.mem_cons.1 hx with rfl | h
        · have := ih l (by simp)
          simp only [List.mem_cons, not_or]
          exact ⟨fun h => hc h.symm, this⟩
        · exact ih x (by simp [h])
      · intro l hl
        obtain rfl : l = [c] := by simpa using hl
        simpa using fun h => hc h.symm

theorem hgap_line {o : Options} {ind : Nat} {b g : Str} (hb : '\n' ∉ b) (hg : HGap g) :
    HGap (indent o.base ind ++ ('#' :: b ++ '\n' :: g)) := hgap_append (hgap_indent _ _) (.hash hb hg)

theorem hgap_originLines (o : Options) (ind : Nat) (ls : List Str) (h : ∀ l ∈ ls, '\n' ∉ l) : HGap (originLines o ind ls) := by
  induction ls with
  | nil => exact .nil
  | cons l ls ih =>
    rw [originLines]
    have h1 : '\n' ∉ (if l.isEmpty then [] else ch " ") ++ l := by
      have := h l (by simp)
      split <;> simp [this]
    have := hgap_line (o := o) (ind := ind) h1 (ih fun x hx => h x (by simp [hx]))
    simpa using this

theorem hgap_fieldCommentLines (o : Options) (ind : Nat) (cs : List Str) (h : ∀ l ∈ cs, '\n' ∉ l) :
    HGap (fieldCommentLines o ind cs) := by
  induction cs with
  | nil => exact .nil
  | cons l ls ih =>
    rw [fieldCommentLines]
    have h1 : '\n' ∉ (if (ch " ").isPrefixOf l then [] else ch " ") ++ l := by
      have := h l (by simp)
      split <;> simp [this]
    have := hgap_line (o := o) (ind := ind) h1 (ih fun x hx => h x (by simp [hx]))
    simpa using this

theorem hgap_elemCommentLines (o : Options) (ind : Nat) (cs : List Str) (h : ∀ l ∈ cs, '\n' ∉ l) :
    HGap (elemCommentLines o ind cs) := by
  induction cs with
  | nil => exact .nil
  | cons l ls ih =>
    rw [elemCommentLines]
    have h1 : '\n' ∉ ' ' :: l := by simpa using h l (by simp)
    have := hgap_line (o := o) (ind := ind) h1 (ih fun x hx => h x (by simp [hx]))
    simpa using this

theorem hgap_fieldNotes (o : Options) (ind inner : Nat) (v : AVal) (h : ∀ l ∈ v.origin.comments, '\n' ∉ l) :
    HGap (fieldNotes o ind inner v) := by
  rw [fieldNotes]
  refine hgap_append ?_ ?_
  · split
    · exact hgap_originLines _ _ _ (splitLines_clean _)
    · exact .nil
  · split
    · exact hgap_fieldCommentLines _ _ _ h
    · exact .nil

theorem hgap_elemNotes (o : Options) (ind : Nat) (v : AVal) (h : ∀ l ∈ v.origin.comments, '\n' ∉ l) :
    HGap (elemNotes o ind v) := by
  rw [elemNotes]
  refine hgap_append ?_ ?_
  · split
    · exact hgap_originLines _ _ _ (splitLines_clean _)
    · exact .nil
  · split
    · exact hgap_elemCommentLines _ _ _ h
    · exact .nil

theorem oneLine_comments {env : Env} {v : AVal} (hv : Renderable env v.erase) (h : OneLine v) :
    ∀ l ∈ v.origin.comments, '\n' ∉ l := by
  cases v with
  | scalar => rw [OneLine] at h; exact h
  | list => rw [OneLine] at h; exact h.1
  | obj => rw [OneLine] at h; exact h.1
  | _ => simp [AVal.erase, Renderable] at hv

/-! ### Scalars and keys -/

theorem scalar_text {env : Env} {o : Render.Options} {s : Scalar} (h : Writable env s) :
    ∃ s', HText env (Numeral env) (.value (.scalar s')) (Render.scalar env o s) ∧ SameScalar env s s' := by
  cases ho : o.json
  · exact Render.scalar_hocon ho h
  · obtain ⟨s', h1, h2⟩ := Render.scalar_json ho h
    refine ⟨s', ?_, h2⟩
    generalize Render.scalar env o s = t at h1
    cases h1 with
    | null => exact .atom .null
    | true_ => exact .atom .true_
    | false_ => exact .atom .false_
    | num h => exact .atom (.num h)
    | str h => exact .atom (.str h)

theorem key_json {env : Env} {k : Str} (h : PlainStr k) : HKey env [k] (renderJsonString k) := by
  refine ⟨.quoted (Render.plainStr_chars h), ⟨?_, ?_, ?_, ?_⟩, ?_⟩
  · intro x hx
    obtain rfl : '"' = x := by simpa [renderJsonString] using hx
    exact ⟨by unfold JDigit; decide, by decide⟩
  · rintro ⟨_, h⟩; simp [renderJsonString] at h
  · rintro ⟨_, h⟩; simp [renderJsonString] at h
  · rintro ⟨_, h⟩; simp [renderJsonString] at h
  · intro h; simp [renderJsonString] at h

/-- Objects are rendered in braces unless at the root of a HOCON text. -/
theorem isObject_text {v : AVal} {env : Env} {o : Options} {ind : Nat} (h : Render.isObject v.erase = true)
    (hr : Renderable env v.erase) : ∃ t, render env o v ind false = '{' :: t := by
  cases v with
  | obj og fs r i =>
    cases fs with
    | nil => exact ⟨_, by rw [render]; rfl⟩
    | cons f fs =>
      rw [render, objectText]
      simp
  | dmo => simp [AVal.erase, Renderable] at hr
  | _ => simp [AVal.erase, Render.isObject] at h

theorem field_text {env : Env} {o : Options} {k : Str} (hk : k ≠ [] ∧ PlainStr k) {v : AVal} {v' : Value} {ind : Nat}
    (hr : Renderable env v.erase) (h : HText env (Numeral env) (.value v') (render env o v ind false)) :
    HText env (Numeral env) (.member [k] v') (Render.keyPrefix o.base k v.erase ++ render env o v ind false) := by
  rw [Render.keyPrefix, if_neg (by simpa using hk.1)]
  cases ho : o.json
  · simp only [show o.base.json = false from ho, Bool.false_eq_true, if_false]
    cases hv : Render.isObject v.erase
    · simp only [Bool.false_eq_true, if_false]
      have := HText.field (g1 := []) (c := '=') (g2 := []) (Render.key_hocon (env := env) hk.2) .nil (Or.inr rfl) .nil h
      simpa using this
    · obtain ⟨t, e⟩ := isObject_text (o := o) (ind := ind) hv hr
      rw [e] at h ⊢
      simp only [if_true]
      refine .sect (Render.key_hocon (env := env) hk.2) ?_ h
      split
      · exact .blank (Or.inl rfl) .nil
      · exact .nil
  · simp only [show o.base.json = true from ho, if_true]
    have hb : HGap (ch " ") := .blank (Or.inl rfl) .nil
    split
    · have := HText.field (g1 := ch " ") (c := ':') (g2 := ch " ") (key_json (env := env) hk.2) hb (Or.inl rfl) hb h
      simpa using this
    · have := HText.field (g1 := []) (c := ':') (g2 := []) (key_json (env := env) hk.2) .nil (Or.inl rfl) .nil h
      simpa using this

/-! ### Composite values -/

/-- A rendered entry is the text of a member after a gap. -/
def IsEntry (env : Env) (e : Str × Str) (f : Str × Value) : Prop :=
  e.1 = f.1 ∧ ∃ g t, e.2 = g ++ t ∧ HGap g ∧ HText env (Numeral env) (.member [f.1] f.2) t

theorem hsep_entry (o : Options) {g : Str} (hg : HGap g) : HSep (entrySep o.base ++ g) := by
  rw [entrySep]
  split
  · split
    · exact .comma (g1 := []) .nil (.newline hg)
    · exact .newline (.newline hg) (by simp)
  · exact .comma (g1 := []) .nil hg

theorem entries_text {env : Env} (o : Options) {es : List (Str × Str)} {fs : List (Str × Value)}
    (h : All2 (IsEntry env) es fs) (hne : es ≠ []) :
    ∃ g body, entriesText o es = g ++ body ++ entrySep o.base ∧ HGap g ∧
      HText env (Numeral env) (.members (asAssign fs)) body := by
  induction h with
  | nil => exact absurd rfl hne
  | @cons e f es fs hef hs ih =>
    obtain ⟨k, t⟩ := e
    obtain ⟨k', v⟩ := f
    obtain ⟨hk, g, u, hu, hg, ht⟩ := hef
    have hk' : k = k' := hk
    subst hk'
    have hu' : t = g ++ u := hu
    subst hu'
    cases hs with
    | nil =>
      refine ⟨g, u, ?_, hg, .last ht⟩
      rw [entriesText, entriesText, List.append_nil]; rfl
    | cons hab hs =>
      obtain ⟨g2, body, hb1, hb2, hb3⟩ := ih (by simp)
      refine ⟨g, u ++ (entrySep o.base ++ g2) ++ body, ?_, hg, .memberCons ht (hsep_entry o hb2) hb3⟩
      rw [entriesText, hb1]
      simp [entrySep, Options.base]
      rfl

theorem eraseF_keys (fs : List (Str × AVal)) : (eraseF fs).map Prod.fst = fs.map Prod.fst := by
  induction fs with
  | nil => rw [eraseF]; rfl
  | cons f fs ih => obtain ⟨k, v⟩ := f; rw [eraseF, List.map_cons, ih]; rfl

theorem object_entries {env : Env} (o : Options) (fs : List (Str × AVal)) (hne : fs ≠ [])
    (hn : ((eraseF fs).map Prod.fst).Nodup) (ind inner : Nat) {r i : Bool}
    (h : ∃ fs', All2 (IsEntry env) (renderFields env o fs ind inner) fs' ∧ All2 (SameEntry env) (eraseF fs) fs') :
    ∃ g body gs, entriesText o (Render.sort (renderFields env o fs ind inner)) = g ++ body ++ entrySep o.base ∧ HGap g ∧
      HText env (Numeral env) (.members (asAssign gs)) body ∧ Same env (.obj (eraseF fs) r i) (assigned (asAssign gs)) := by
  obtain ⟨fs', h1, h2⟩ := h
  obtain ⟨gs, h3, h4⟩ := all2_sort h1
  have hne : Render.sort (renderFields env o fs ind inner) ≠ [] := by
    intro he
    have := (Render.sort_perm (renderFields env o fs ind inner)).length_eq
    rw [he, Render.all2_length h1, ← Render.all2_length h2] at this
    have h5 := congrArg List.length (eraseF_keys fs)
    simp only [List.length_map] at h5
    rw [h5] at this
    exact hne (List.length_eq_zero_iff.1 this.symm)
  obtain ⟨g, body, h5, h5', h6⟩ := entries_text o h3 hne
  have hng : (gs.map Prod.fst).Nodup := by
    rw [(h4.map Prod.fst).nodup_iff, ← Render.all2_keys h2]; exact hn
  refine ⟨g, body, gs, h5, h5', h6, ?_⟩
  rw [Render.assigned_distinct gs hng]
  exact Render.same_obj h2 h4 hn

theorem rootNewline_gap (o : Options) (root : Bool) : HGap (Render.rootNewline o.base root) := by
  rw [Render.rootNewline]
  split
  · exact .newline .nil
  · exact .nil

mutual
theorem render_text {env : Env} (o : Options) : ∀ (v : AVal), Renderable env v.erase → OneLine v → ∀ ind root,
    (root = false ∨ o.json = true) → ∃ v' t g, render env o v ind root = t ++ g ∧ HGap g ∧ (root = false → g = []) ∧
      HText env (Numeral env) (.value v') t ∧ Same env v.erase v'
  | .scalar _ s, h, _, ind, root, _ => by
    rw [AVal.erase, Renderable] at h
    obtain ⟨s', h1, h2⟩ := scalar_text (o := o.base) h
    exact ⟨.scalar s', _, [], by rw [render, List.append_nil], .nil, fun _ => rfl, h1, by rw [AVal.erase, Same]; exact h2⟩
  | .list _ [], _, _, ind, root, _ =>
    ⟨.list [], ch "[]", [], by rw [render]; rfl, .nil, fun _ => rfl, .emptyArr (g := []) .nil, by
      simp [AVal.erase, eraseL, Same, SameL]⟩
  | .list _ (v :: vs), h, hl, ind, root, hr => by
    rw [AVal.erase, Renderable] at h
    rw [OneLine] at hl
    obtain ⟨g, body, g', vs', h1, hg, hg', h2, h3⟩ := renderElems_text o (v :: vs) h hl.2 (by simp) ind root hr
    refine ⟨.list vs', _, [], (by rw [List.append_nil]), .nil, fun _ => rfl, ?_, by rw [AVal.erase, Same]; exact h3⟩
    rw [render, Render.closeList, h1]
    have hgg : HGap ((if o.formatted then ch "\n" else []) ++ g) := hgap_opt_nl o.base hg
    cases hf : o.formatted
    · simp only [show o.base.formatted = false from hf, Bool.false_eq_true, if_false]
      rw [Render.chop_append _ _ 1 rfl]
      simp only [hf, Bool.false_eq_true, if_false] at hgg
      have := HText.arr hgg h2 (.gap hg')
      simpa using this
    · simp only [show o.base.formatted = true from hf, if_true]
      rw [show g ++ body ++ g' ++ ',' :: ch "\n" = (g ++ body ++ g' ++ ch ",") ++ ch "\n" by simp,
        Render.chop_append _ _ 1 rfl, Render.chop_append _ _ 1 rfl]
      simp only [hf, if_true] at hgg
      have := HText.arr hgg h2 (.gap (hgap_append hg' (.newline (hgap_indent o.base ind))))
      simpa using this
  | .obj _ [] r i, _, _, ind, root, _ =>
    ⟨assigned [], ch "{}", _, by rw [render], rootNewline_gap o root, by rintro rfl; rfl, .emptyObj (g := []) .nil, by
      simp [AVal.erase, eraseF, Same, SameF, assigned]⟩
  | .obj _ (f :: fs) r i, h, hl, ind, root, hr => by
    rw [AVal.erase, Renderable] at h
    rw [OneLine] at hl
    have hb : (o.json || !root) = true := by
      rcases hr with rfl | h
      · simp
      · simp [h]
    obtain ⟨g, body, gs, h1, hg, h2, h3⟩ := object_entries o (f :: fs) (by simp) h.1 ind (ind + 1) (r := r) (i := i)
      (renderFields_text o (f :: fs) h.2 hl.2 ind (ind + 1))
    refine ⟨_, _, Render.rootNewline o.base root, (by rw [render]), rootNewline_gap o root, by rintro rfl; rfl, ?_,
      by rw [AVal.erase]; exact h3⟩
    rw [objectText]
    simp only [hb, if_true]
    rw [h1, Render.chop_append _ _ _ (Render.entrySep_length o.base)]
    have he : HEnd (if o.formatted then '\n' :: indent o.base ind else []) := by
      split
      · exact .gap (.newline (hgap_indent o.base ind))
      · exact .gap .nil
    have hgg : HGap ((if o.formatted then ch "\n" else []) ++ g) := hgap_opt_nl o.base hg
    have := HText.obj hgg h2 he
    simpa using this
  | .ref .., h, _, _, _, _ => by simp [AVal.erase, Renderable] at h
  | .concat .., h, _, _, _, _ => by simp [AVal.erase, Renderable] at h
  | .dm .., h, _, _, _, _ => by simp [AVal.erase, Renderable] at h
  | .dmo .., h, _, _, _, _ => by simp [AVal.erase, Renderable] at h
theorem renderElems_text {env : Env} (o : Options) : ∀ (vs : List AVal), RenderableL env (eraseL vs) → OneLineL vs →
    vs ≠ [] → ∀ ind root, (root = false ∨ o.json = true) → ∃ g body g' vs', renderElems env o vs ind root
      = g ++ body ++ g' ++ ',' :: (if o.formatted then ch "\n" else []) ∧ HGap g ∧ HGap g' ∧
      HText env (Numeral env) (.elems vs') body ∧ SameL env (eraseL vs) vs'
  | [], _, _, hne, _, _, _ => absurd rfl hne
  | [v], h, hl, _, ind, root, hr => by
    rw [eraseL, RenderableL] at h
    rw [OneLineL] at hl
    obtain ⟨v', t, g, h1, h2, _, h3, h4⟩ := render_text o v h.1 hl.1 (ind + 1) root hr
    refine ⟨elemNotes o ind v ++ indent o.base (ind + 1), t, g, [v'], ?_,
      hgap_append (hgap_elemNotes o ind v (oneLine_comments h.1 hl.1)) (hgap_indent _ _), h2, .elem h3, by
        rw [eraseL, eraseL]; simp [SameL, h4]⟩
    rw [renderElems, renderElems, List.append_nil, h1]
    simp
  | v :: v2 :: vs, h, hl, _, ind, root, hr => by
    rw [eraseL, RenderableL] at h
    rw [OneLineL] at hl
    obtain ⟨v', t, g, h1, h2, _, h3, h4⟩ := render_text o v h.1 hl.1 (ind + 1) root hr
    obtain ⟨g1, body, g2, vs', h5, hg1, hg2, h6, h7⟩ := renderElems_text o (v2 :: vs) h.2 hl.2 (by simp) ind root hr
    refine ⟨elemNotes o ind v ++ indent o.base (ind + 1), t ++ (g ++ ',' :: ((if o.formatted then ch "\n" else []) ++ g1)) ++ body,
      g2, v' :: vs', ?_,
      hgap_append (hgap_elemNotes o ind v (oneLine_comments h.1 hl.1)) (hgap_indent _ _), hg2,
      .elemCons h3 (.comma h2 (hgap_opt_nl o.base hg1)) h6, by rw [eraseL, SameL]; exact ⟨h4, h7⟩⟩
    rw [renderElems, h5, h1]
    simp
theorem renderFields_text {env : Env} (o : Options) : ∀ (fs : List (Str × AVal)), RenderableF env (eraseF fs) →
    OneLineF fs → ∀ ind inner, ∃ fs', All2 (IsEntry env) (renderFields env o fs ind inner) fs' ∧
      All2 (SameEntry env) (eraseF fs) fs'
  | [], _, _, ind, inner => ⟨[], by rw [renderFields]; exact .nil, by rw [eraseF]; exact .nil⟩
  | (k, v) :: fs, h, hl, ind, inner => by
    rw [eraseF, RenderableF] at h
    rw [OneLineF] at hl
    obtain ⟨hk, hv, hfs⟩ := h
    obtain ⟨v', t, g, h1, h2, h2', h3, h4⟩ := render_text o v hv hl.1 inner false (Or.inl rfl)
    obtain rfl := h2' rfl
    rw [List.append_nil] at h1
    obtain ⟨fs', h5, h6⟩ := renderFields_text o fs hfs hl.2 ind inner
    refine ⟨(k, v') :: fs', ?_, by rw [eraseF]; exact .cons ⟨rfl, h4⟩ h6⟩
    have he : renderFields env o ((k, v) :: fs) ind inner
        = (k, fieldNotes o ind inner v ++ indent o.base inner ++ (Render.keyPrefix o.base k v.erase
          ++ render env o v inner false)) :: renderFields env o fs ind inner := by
      cases v with
      | dm _ => exact absurd hv (by simp [AVal.erase, Renderable])
      | dmo _ => exact absurd hv (by simp [AVal.erase, Renderable])
      | _ => rw [renderFields] <;> simp
    rw [he]
    rw [← h1] at h3
    exact .cons ⟨rfl, _, _, rfl, hgap_append (hgap_fieldNotes o ind inner v (oneLine_comments hv hl.1)) (hgap_indent _ _),
      field_text hk hv h3⟩ h5
end

end Notes
end Hocon
