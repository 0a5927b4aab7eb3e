import Verif.Lemmas.RenderJson
import Verif.Lemmas.HoconAccept

/-!
# HOCON rendering produces HOCON texts
-/

set_option autoImplicit false

namespace Hocon
namespace Render

open Spec

/-! ### Gaps -/

theorem hgap_spaces (n : Nat) : HGap (List.replicate n ' ') := by
  induction n with
  | zero => exact .nil
  | succ n ih => exact .blank (Or.inl rfl) ih

theorem hgap_indent (o : Options) (n : Nat) : HGap (indent o n) := by
  rw [indent]
  split
  · exact hgap_spaces _
  · exact .nil

theorem hgap_opt_nl (o : Options) {g : Str} (h : HGap g) : HGap ((if o.formatted then ch "\n" else []) ++ g) := by
  split
  · exact .newline h
  · exact h

/-! ### Strings -/

theorem bare_spec (s : Str) : (∃ c r, s = c :: r) ∧ s.all (fun c => isAlpha c || isDigit c || c == '-') ∧
      WordStart s ∧ ¬ ch "include" <+: s ∧ renderStringUnquotedIfPossible s = s ∨
    renderStringUnquotedIfPossible s = renderJsonString s := by
  cases s with
  | nil => exact Or.inr rfl
  | cons c r =>
    by_cases h1 : (isDigit c || c == '-') = true
    · right; simp only [renderStringUnquotedIfPossible, h1, if_true]
    by_cases h2 : ((ch "include").isPrefixOf (c :: r) || (ch "true").isPrefixOf (c :: r) || (ch "false").isPrefixOf (c :: r)
        || (ch "null").isPrefixOf (c :: r) || (ch "//").isPrefixOf (c :: r)) = true
    · right; simp only [renderStringUnquotedIfPossible, h1, h2, if_true]; rfl
    by_cases h3 : ((c :: r).any fun c => !(isAlpha c || isDigit c || c == '-')) = true
    · right; simp only [renderStringUnquotedIfPossible, h1, h2, h3, if_true]; rfl
    · left
      refine ⟨⟨c, r, rfl⟩, ?_, ⟨?_, ?_, ?_, ?_⟩, ?_, ?_⟩
      · rw [List.all_eq_not_any_not, Bool.not_eq_true']
        exact Bool.eq_false_iff.2 h3
      · rintro x hx
        obtain rfl : c = x := by simpa using hx
        simp only [Bool.or_eq_true, not_or] at h1
        refine ⟨fun hd => h1.1 ?_, by simpa using h1.2⟩
        have : JDigit c := hd
        simp only [JDigit] at this
        simp only [isDigit, Bool.and_eq_true, decide_eq_true_eq]
        exact this
      · intro h; apply h2; simp only [Bool.or_eq_true, List.isPrefixOf_iff_prefix]; simp [h]
      · intro h; apply h2; simp only [Bool.or_eq_true, List.isPrefixOf_iff_prefix]; simp [h]
      · intro h; apply h2; simp only [Bool.or_eq_true, List.isPrefixOf_iff_prefix]; simp [h]
      · intro h; apply h2; simp only [Bool.or_eq_true, List.isPrefixOf_iff_prefix]; simp [h]
      · simp only [renderStringUnquotedIfPossible, h1, h2, h3]; rfl

theorem bare_char {c : Char} (h : (isAlpha c || isDigit c || c == '-') = true) : WordChar c ∧ c ≠ '.' ∧ c ≠ '/' := by
  simp only [isAlpha, isDigit, Bool.or_eq_true, Bool.and_eq_true, decide_eq_true_eq, beq_iff_eq] at h
  have hr : 0x2d ≤ c.toNat ∧ c.toNat ≤ 0x7a ∧ (c.toNat = 0x2d ∨ 0x30 ≤ c.toNat ∧ c.toNat ≤ 0x39 ∨
      0x41 ≤ c.toNat ∧ c.toNat ≤ 0x5a ∨ 0x61 ≤ c.toNat ∧ c.toNat ≤ 0x7a) := by
    rcases h with ((h | h) | h) | rfl
    · have h1 : 0x61 ≤ c.toNat ∧ c.toNat ≤ 0x7a := h
      omega
    · have h1 : 0x41 ≤ c.toNat ∧ c.toNat ≤ 0x5a := h
      omega
    · have h1 : 0x30 ≤ c.toNat ∧ c.toNat ≤ 0x39 := h
      omega
    · decide
  have hne : ∀ d : Char, ¬ (d.toNat = 0x2d ∨ 0x30 ≤ d.toNat ∧ d.toNat ≤ 0x39 ∨
      0x41 ≤ d.toNat ∧ d.toNat ≤ 0x5a ∨ 0x61 ≤ d.toNat ∧ d.toNat ≤ 0x7a) → c ≠ d := by
    rintro d hd rfl
    exact hd hr.2.2
  refine ⟨⟨by omega, by omega, ?_⟩, hne _ (by decide), hne _ (by decide)⟩
  intro hm
  have : ∀ d ∈ ch "$\"{}[]:=,+#`^?!@*&\\", ¬ (d.toNat = 0x2d ∨ 0x30 ≤ d.toNat ∧ d.toNat ≤ 0x39 ∨
      0x41 ≤ d.toNat ∧ d.toNat ≤ 0x5a ∨ 0x61 ≤ d.toNat ∧ d.toNat ≤ 0x7a) := by decide
  exact this c hm hr.2.2

theorem key_hocon {env : Env} {k : Str} (h : PlainStr k) : HKey env [k] (renderStringUnquotedIfPossible k) := by
  rcases bare_spec k with ⟨⟨c, r, e⟩, h1, h2, h3, h4⟩ | h4
  · rw [h4]
    refine ⟨.bare (by simp [e]) fun x hx => bare_char (List.all_eq_true.1 h1 x hx), h2, ?_⟩
    rintro rfl
    exact h3 (List.prefix_refl _)
  · rw [h4]
    refine ⟨.quoted (plainStr_chars h), ⟨?_, ?_, ?_, ?_⟩, ?_⟩
    · intro x hx
      obtain rfl : '"' = x := by simpa [renderJsonString] using hx
      exact ⟨by unfold JDigit; decide, by decide⟩
    · rintro ⟨_, h⟩; simp [renderJsonString] at h
    · rintro ⟨_, h⟩; simp [renderJsonString] at h
    · rintro ⟨_, h⟩; simp [renderJsonString] at h
    · intro h; simp [renderJsonString] at h

theorem str_hocon {env : Env} {s : Str} (h : PlainStr s) :
    ∃ q, HText env (Numeral env) (.value (.scalar (.str s q))) (renderStringUnquotedIfPossible s) := by
  rcases bare_spec s with ⟨⟨c, r, e⟩, h1, h2, h3, h4⟩ | h4
  · rw [h4]
    have hc : ∀ x ∈ s, WordChar x ∧ x ≠ '.' ∧ x ≠ '/' := fun x hx => bare_char (List.all_eq_true.1 h1 x hx)
    refine ⟨false, .atom (.word ⟨by simp [e], fun x hx => (hc x hx).1, ?_, ?_, h2⟩)⟩
    · intro hi
      exact (hc '/' (hi.subset (by simp))).2.2 rfl
    · intro hl
      exact (hc '/' (List.mem_of_getLast? hl)).2.2 rfl
  · rw [h4]
    exact ⟨true, .atom (.str (plainStr_chars h))⟩

theorem num_hocon {env : Env} {s : Scalar} (h : Writable env s) {o : Options} (hs : ∀ x q, s ≠ .str x q) :
    ∃ s', HText env (Numeral env) (.value (.scalar s')) (scalar env o s) ∧ SameScalar env s s' := by
  have e : scalar env o s = scalar env ⟨o.formatted, true⟩ s := by
    cases s with
    | str x q => exact absurd rfl (hs x q)
    | _ => rfl
  rw [e]
  obtain ⟨s', h1, h2⟩ := scalar_json (o := ⟨o.formatted, true⟩) rfl h
  refine ⟨s', ?_, h2⟩
  generalize scalar env ⟨o.formatted, true⟩ s = t at h1
  cases h1 with
  | null => exact .atom .null
  | true_ => exact .atom .true_
  | false_ => exact .atom .false_
  | num h => exact .atom (.num h)
  | str h => exact .atom (.str h)

theorem scalar_hocon {env : Env} {o : Options} (ho : o.json = false) {s : Scalar} (h : Writable env s) :
    ∃ s', HText env (Numeral env) (.value (.scalar s')) (scalar env o s) ∧ SameScalar env s s' := by
  cases s with
  | str s q =>
    obtain ⟨q', h1⟩ := str_hocon (env := env) h
    refine ⟨_, ?_, .str s q q'⟩
    rw [scalar, ho]
    exact h1
  | null => exact num_hocon h (by simp)
  | bool => exact num_hocon h (by simp)
  | int => exact num_hocon h (by simp)
  | long => exact num_hocon h (by simp)
  | double => exact num_hocon h (by simp)

/-! ### Objects -/

/-- A rendered entry is the text of a member. -/
def IsEntry (env : Env) (e : Str × Str) (f : Str × Value) : Prop :=
  e.1 = f.1 ∧ HText env (Numeral env) (.member [f.1] f.2) e.2

theorem hsep_entry {o : Options} (ho : o.json = false) {g : Str} (hg : HGap g) : HSep (entrySep o ++ g) := by
  rw [entrySep, ho]
  split
  · exact .newline (.newline hg) (by simp)
  · exact .comma (g1 := []) .nil hg

/-- Fields as assignments. -/
def asAssign (fs : List (Str × Value)) : List (Path × Value) := fs.map fun f => ([f.1], f.2)

theorem entries_hocon {env : Env} {o : Options} (ho : o.json = false) (ind : Nat) {es : List (Str × Str)}
    {fs : List (Str × Value)} (h : All2 (IsEntry env) es fs) (hne : es ≠ []) :
    ∃ body, entriesText o ind es = indent o ind ++ body ++ entrySep o ∧
      HText env (Numeral env) (.members (asAssign fs)) body := by
  induction h with
  | nil => exact absurd rfl hne
  | @cons e f es fs hef hs ih =>
    obtain ⟨k, t⟩ := e
    obtain ⟨k', v⟩ := f
    obtain ⟨rfl, ht⟩ := hef
    cases hs with
    | nil =>
      refine ⟨t, ?_, .last ht⟩
      rw [entriesText, entriesText, List.append_nil]; rfl
    | cons hab hs =>
      obtain ⟨body, hb1, hb2⟩ := ih (by simp)
      refine ⟨t ++ (entrySep o ++ indent o ind) ++ body, ?_, .memberCons ht (hsep_entry ho (hgap_indent o ind)) hb2⟩
      rw [entriesText, hb1]
      simp [entrySep]

theorem setField_fresh (k : Str) (v : Value) (fs : List (Str × Value)) (h : k ∉ fs.map Prod.fst) :
    setField k v fs = fs ++ [(k, v)] := by
  induction fs with
  | nil => rfl
  | cons f fs ih =>
    obtain ⟨k', w⟩ := f
    simp only [List.map_cons, List.mem_cons, not_or] at h
    rw [setField, if_neg (fun e => h.1 e.symm), ih h.2]
    rfl

theorem assigned_distinct (fs : List (Str × Value)) (h : (fs.map Prod.fst).Nodup) :
    assigned (asAssign fs) = .obj fs true false := by
  have H : ∀ (fs pre : List (Str × Value)), ((pre ++ fs).map Prod.fst).Nodup →
      (asAssign fs).foldl assign pre = pre ++ fs := by
    intro fs
    induction fs with
    | nil => intro pre _; simp [asAssign]
    | cons f fs ih =>
      intro pre hn
      obtain ⟨k, v⟩ := f
      have hk : k ∉ pre.map Prod.fst := by
        rw [List.map_append, List.nodup_append] at hn
        intro hm
        exact hn.2.2 _ hm k (by simp) rfl
      have := ih (pre ++ [(k, v)]) (by simpa using hn)
      rw [asAssign, List.map_cons, List.foldl_cons]
      rw [show assign pre ([k], v) = pre ++ [(k, v)] from setField_fresh k v pre hk]
      rw [asAssign] at this
      rw [this]
      simp
  rw [assigned, H fs [] (by simpa using h)]
  rfl

theorem isObject_value {v : Value} {env : Env} {o : Options} {ind : Nat} (h : isObject v = true) (hr : Renderable env v) :
    ∃ t, render env o v ind false = '{' :: t := by
  cases v with
  | obj fs r i =>
    cases fs with
    | nil => exact ⟨_, by rw [render]; rfl⟩
    | cons f fs =>
      rw [render, objectText]
      simp
  | dmo => simp [Renderable] at hr
  | _ => simp [isObject] at h

theorem field_hocon {env : Env} {o : Options} (ho : o.json = false) {k : Str} (hk : k ≠ [] ∧ PlainStr k) {v v' : Value}
    {ind : Nat} (hr : Renderable env v) (h : HText env (Numeral env) (.value v') (render env o v ind false)) :
    HText env (Numeral env) (.member [k] v') (keyPrefix o k v ++ render env o v ind false) := by
  rw [keyPrefix, if_neg (by simpa using hk.1), ho]
  simp only [Bool.false_eq_true, if_false]
  cases hv : isObject v
  · simp only [Bool.false_eq_true, if_false]
    have := HText.field (g1 := []) (c := '=') (g2 := []) (key_hocon (env := env) hk.2) .nil (Or.inr rfl) .nil h
    simpa using this
  · obtain ⟨t, e⟩ := isObject_value (o := o) (ind := ind) hv hr
    rw [e] at h ⊢
    simp only [if_true]
    refine .sect (key_hocon (env := env) hk.2) ?_ h
    split
    · exact .blank (Or.inl rfl) .nil
    · exact .nil

theorem objectEntries_hocon {env : Env} {o : Options} (ho : o.json = false) (f : Str × Value) (fs : List (Str × Value))
    (hn : ((f :: fs).map Prod.fst).Nodup) (ind : Nat) {r i : Bool}
    (h : ∃ fs', All2 (IsEntry env) (renderFields env o (f :: fs) ind) fs' ∧ All2 (SameEntry env) (f :: fs) fs') :
    ∃ body gs, entriesText o ind (sort (renderFields env o (f :: fs) ind)) = (indent o ind ++ body) ++ entrySep o ∧
      HText env (Numeral env) (.members (asAssign gs)) body ∧ Same env (.obj (f :: fs) r i) (assigned (asAssign gs)) := by
  obtain ⟨fs', h1, h2⟩ := h
  obtain ⟨gs, h3, h4⟩ := all2_sort h1
  have hne : sort (renderFields env o (f :: fs) ind) ≠ [] := by
    intro he
    have := (sort_perm (renderFields env o (f :: fs) ind)).length_eq
    rw [he, all2_length h1, ← all2_length h2] at this
    simp at this
  obtain ⟨body, h5, h6⟩ := entries_hocon ho ind h3 hne
  have hng : (gs.map Prod.fst).Nodup := by
    rw [(h4.map Prod.fst).nodup_iff, ← all2_keys h2]; exact hn
  refine ⟨body, gs, h5, h6, ?_⟩
  rw [assigned_distinct gs hng]
  exact same_obj h2 h4 hn

mutual
theorem render_hocon {env : Env} {o : Options} (ho : o.json = false) : ∀ (v : Value), Renderable env v →
    ∀ ind, ∃ v', HText env (Numeral env) (.value v') (render env o v ind false) ∧ Same env v v'
  | .scalar s, h, ind => by
    obtain ⟨s', h1, h2⟩ := scalar_hocon ho h
    exact ⟨_, (by rw [render]; exact h1), by rw [Same]; exact h2⟩
  | .list [], _, ind =>
    ⟨.list [], by rw [render]; exact .emptyArr (g := []) .nil, by simp [Same, SameL]⟩
  | .list (v :: vs), h, ind => by
    rw [Renderable] at h
    obtain ⟨body, vs', h1, h2, h3⟩ := renderElems_hocon ho (v :: vs) h (by simp) ind
    refine ⟨.list vs', ?_, by rw [Same]; exact h3⟩
    rw [render, closeList, h1]
    have hg := hgap_opt_nl o (hgap_indent o (ind + 1))
    cases hf : o.formatted
    · simp only [Bool.false_eq_true, if_false]
      rw [chop_append _ _ 1 rfl]
      simp only [hf, Bool.false_eq_true, if_false] at hg
      have := HText.arr hg h2 (.gap .nil)
      simpa using this
    · simp only [if_true]
      rw [show indent o (ind + 1) ++ body ++ ',' :: ch "\n" = (indent o (ind + 1) ++ body ++ ch ",") ++ ch "\n" by simp,
        chop_append _ _ 1 rfl, chop_append _ _ 1 rfl]
      simp only [hf, if_true] at hg
      have := HText.arr hg h2 (.gap (.newline (hgap_indent o ind)))
      simpa using this
  | .obj [] r i, _, ind =>
    ⟨assigned [], by rw [render]; exact .emptyObj (g := []) .nil, by
      simp [Same, SameF, assigned]⟩
  | .obj (f :: fs) r i, h, ind => by
    rw [Renderable] at h
    obtain ⟨body, gs, h1, h2, h3⟩ := objectEntries_hocon ho f fs h.1 (ind + 1) (r := r) (i := i)
      (renderFields_hocon ho (f :: fs) h.2 (ind + 1))
    refine ⟨_, ?_, h3⟩
    rw [render, objectText]
    simp only [ho, Bool.false_or, Bool.not_false, if_true]
    rw [h1, chop_append _ _ _ (entrySep_length o), show rootNewline o false = [] from rfl]
    have he : HEnd (if o.formatted then '\n' :: indent o ind else []) := by
      split
      · exact .gap (.newline (hgap_indent o ind))
      · exact .gap .nil
    have := HText.obj (hgap_opt_nl o (hgap_indent o (ind + 1))) h2 he
    simpa using this
theorem renderElems_hocon {env : Env} {o : Options} (ho : o.json = false) : ∀ (vs : List Value), RenderableL env vs →
    vs ≠ [] → ∀ ind, ∃ body vs', renderElems env o vs ind false
      = indent o (ind + 1) ++ body ++ ',' :: (if o.formatted then ch "\n" else []) ∧
      HText env (Numeral env) (.elems vs') body ∧ SameL env vs vs'
  | [], _, hne, _ => absurd rfl hne
  | [v], h, _, ind => by
    rw [RenderableL] at h
    obtain ⟨v', h3, h4⟩ := render_hocon ho v h.1 (ind + 1)
    refine ⟨_, [v'], ?_, .elem h3, by simp [SameL, h4]⟩
    rw [renderElems, renderElems, List.append_nil]
  | v :: v2 :: vs, h, _, ind => by
    rw [RenderableL] at h
    obtain ⟨v', h3, h4⟩ := render_hocon ho v h.1 (ind + 1)
    obtain ⟨body, vs', h5, h6, h7⟩ := renderElems_hocon ho (v2 :: vs) h.2 (by simp) ind
    refine ⟨_, v' :: vs', ?_, .elemCons h3
      (.comma (g1 := []) .nil (hgap_opt_nl o (hgap_indent o (ind + 1)))) h6, by rw [SameL]; exact ⟨h4, h7⟩⟩
    rw [renderElems, h5]
    simp
theorem renderFields_hocon {env : Env} {o : Options} (ho : o.json = false) : ∀ (fs : List (Str × Value)),
    RenderableF env fs → ∀ ind, ∃ fs', All2 (IsEntry env) (renderFields env o fs ind) fs' ∧
      All2 (SameEntry env) fs fs'
  | [], _, ind => ⟨[], by rw [renderFields]; exact .nil, .nil⟩
  | (k, v) :: fs, h, ind => by
    rw [RenderableF] at h
    obtain ⟨hk, hv, hfs⟩ := h
    obtain ⟨v', h3, h4⟩ := render_hocon ho v hv ind
    obtain ⟨fs', h5, h6⟩ := renderFields_hocon ho fs hfs ind
    refine ⟨(k, v') :: fs', ?_, .cons ⟨rfl, h4⟩ h6⟩
    have he : renderFields env o ((k, v) :: fs) ind
        = (k, keyPrefix o k v ++ render env o v ind false) :: renderFields env o fs ind := by
      cases v with
      | dm _ => exact absurd hv (by simp [Renderable])
      | dmo _ => exact absurd hv (by simp [Renderable])
      | _ => rw [renderFields] <;> simp
    rw [he]
    exact .cons ⟨rfl, field_hocon ho hk hv h3⟩ h5
end

/-- The text of an object at the root. -/
theorem renderRoot_hocon {env : Env} {o : Options} (ho : o.json = false) (fs : List (Str × Value)) (r i : Bool)
    (h : Renderable env (.obj fs r i)) :
    ∃ v', HDoc env (Numeral env) v' (renderValue env o (.obj fs r i)) ∧ Same env (.obj fs r i) v' := by
  have hl : HLast (rootNewline o true) := by
    rw [rootNewline]
    split
    · exact .gap (.newline .nil)
    · exact .gap .nil
  cases fs with
  | nil =>
    refine ⟨assigned [], ?_, by simp [Same, SameF, assigned]⟩
    rw [renderValue, render]
    exact .braces (g := []) .nil (.emptyObj (g := []) .nil) (Or.inl rfl) hl
  | cons f fs =>
    rw [Renderable] at h
    obtain ⟨body, gs, h1, h2, h3⟩ := objectEntries_hocon ho f fs h.1 0 (r := r) (i := i)
      (renderFields_hocon ho (f :: fs) h.2 0)
    refine ⟨_, ?_, h3⟩
    rw [renderValue, render, objectText]
    simp only [ho, Bool.false_or, Bool.not_true, Bool.false_eq_true, if_false]
    rw [h1, chop_append _ _ _ (entrySep_length o)]
    have := HDoc.open_ (hgap_indent o 0) h2 hl
    simpa using this

end Render
end Hocon
