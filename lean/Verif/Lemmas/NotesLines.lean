import Verif.Spec.Shown
import Verif.Spec.Lines
import Verif.Lemmas.NotesText
import Verif.Lemmas.LinesFind

/-!
# A rendered section is a document made of lines
-/

set_option autoImplicit false

namespace Hocon
namespace NotesLines

open Spec Notes Lines
open Render (All2 entrySep indent)

/-! ### Texts on one line -/

theorem digit_nl {c : Char} (h : JDigit c) : c ≠ '\n' := by
  rintro rfl; unfold JDigit at h; revert h; decide

theorem numeral_nl {env : Env} {t : Str} {s : Scalar} (h : Numeral env t s) : '\n' ∉ t := by
  have hm : ∀ {c : Char} {b : Str}, (c = '-' ∨ JDigit c) → (∀ x ∈ b, x ∈ ch "0123456789eE+-.") → '\n' ∉ c :: b := by
    intro c b hc hb hn
    rcases List.mem_cons.1 hn with h | h
    · subst h
      rcases hc with hc | hc
      · exact absurd hc (by decide)
      · exact digit_nl hc rfl
    · exact absurd (hb _ h) (by decide)
  cases h with
  | int hs _ hd =>
    intro hn
    rcases List.mem_append.1 hn with h | h
    · rcases hs with rfl | rfl
      · cases h
      · exact absurd h (by decide)
    · exact digit_nl (hd _ h) rfl
  | whole hc hb => exact hm hc hb
  | double hc hb => exact hm hc hb

theorem hexDigit_nl {c : Char} {n : Nat} (h : hexDigit c = some n) : c ≠ '\n' := by
  rintro rfl
  simp [hexDigit] at h

theorem jchars_nl {env : Env} {t s : Str} (h : JChars env t s) : '\n' ∉ t := by
  induction h with
  | nil => simp
  | @plain c t s h1 _ _ _ _ ih =>
    simp only [List.mem_cons, not_or]
    refine ⟨?_, ih⟩
    rintro rfl
    exact absurd h1 (by decide)
  | @escape e c t s he _ ih =>
    simp only [List.mem_cons, not_or]
    refine ⟨by decide, ?_, ih⟩
    rintro rfl
    revert he
    simp [escapes]
  | @unicode a b c d n t s hn _ ih =>
    simp only [hex4, Option.bind_eq_bind, Option.bind_eq_some_iff] at hn
    obtain ⟨x, hx, y, hy, z, hz, w, hw, _⟩ := hn
    simp [ih, (hexDigit_nl hx).symm, (hexDigit_nl hy).symm, (hexDigit_nl hz).symm, (hexDigit_nl hw).symm]

theorem atom_nl_str {env : Env} {s : Str} (h : PlainStr s) :
    ∃ q x, HAtom env (Numeral env) (.str s q) x (renderStringUnquotedIfPossible s) ∧
      '\n' ∉ renderStringUnquotedIfPossible s := by
  rcases Render.bare_spec s with ⟨⟨c, r, e⟩, h1, h2, h3, h4⟩ | h4
  · rw [h4]
    have hc : ∀ x ∈ s, WordChar x ∧ x ≠ '.' ∧ x ≠ '/' := fun x hx => Render.bare_char (List.all_eq_true.1 h1 x hx)
    refine ⟨false, s, .word ⟨by simp [e], fun x hx => (hc x hx).1, ?_, ?_, h2⟩, ?_⟩
    · intro hi
      exact (hc '/' (hi.subset (by simp))).2.2 rfl
    · intro hl
      exact (hc '/' (List.mem_of_getLast? hl)).2.2 rfl
    · intro hn
      have := (hc _ hn).1.1
      exact absurd this (by decide)
  · rw [h4]
    have hj : JChars env _ s := Render.plainStr_chars (env := env) h
    refine ⟨true, s, .str hj, ?_⟩
    have := jchars_nl hj
    intro hn
    rcases List.mem_cons.1 hn with h | h
    · exact absurd h (by decide)
    · rcases List.mem_append.1 h with h | h
      · exact this h
      · exact absurd h (by decide)

/-- A scalar is written as a single word on one line. -/
theorem scalar_atom {env : Env} {o : Render.Options} (ho : o.json = false) {s : Scalar} (h : Writable env s) :
    ∃ s' x, HAtom env (Numeral env) s' x (Render.scalar env o s) ∧ '\n' ∉ Render.scalar env o s ∧ SameScalar env s s' ∧
      (NoNaN env → Writable env s') := by
  cases s with
  | str s q =>
    obtain ⟨q', x, h1, h2⟩ := atom_nl_str (env := env) h
    refine ⟨_, x, ?_, ?_, .str s q q', fun _ => h⟩
    · rw [Render.scalar, ho]; exact h1
    · rw [Render.scalar, ho]; exact h2
  | _ =>
    obtain ⟨s', h1, h2⟩ := Render.scalar_json (o := ⟨o.formatted, true⟩) rfl h
    refine ⟨s', ?_⟩
    rw [Render.scalar] at h1 ⊢ <;> try simp
    generalize Scalar.transformToString env _ = t at h1
    cases h1 with
    | null => exact ⟨⟨_, .null⟩, by decide, h2, fun _ => trivial⟩
    | true_ => exact ⟨⟨_, .true_⟩, by decide, h2, fun _ => trivial⟩
    | false_ => exact ⟨⟨_, .false_⟩, by decide, h2, fun _ => trivial⟩
    | num h => exact ⟨⟨_, .num h⟩, numeral_nl h, h2, fun hn => Render.numeral_writable hn h⟩
    | str h => exact absurd h2 (by intro h; cases h <;> simp_all [intOf])

/-! ### Sorting -/

theorem all2_insert {β : Type} {R : Str × Str → β → Prop} {e : Str × Str} {f : β}
    {es : List (Str × Str)} {fs : List β} (h : R e f) (hs : All2 R es fs) :
    ∃ gs, All2 R (Render.insert e es) gs ∧ gs.Perm (f :: fs) := by
  induction hs with
  | nil => exact ⟨[f], .cons h .nil, .refl _⟩
  | @cons a b as bs hab hs ih =>
    rw [Render.insert]
    split
    · exact ⟨f :: b :: bs, .cons h (.cons hab hs), .refl _⟩
    · obtain ⟨gs, h1, h2⟩ := ih
      exact ⟨b :: gs, .cons hab h1, (h2.cons b).trans (.swap ..)⟩

theorem all2_sort {β : Type} {R : Str × Str → β → Prop} {es : List (Str × Str)} {fs : List β}
    (hs : All2 R es fs) : ∃ gs, All2 R (Render.sort es) gs ∧ gs.Perm fs := by
  induction hs with
  | nil => exact ⟨[], .nil, .refl _⟩
  | @cons a b as bs hab hs ih =>
    obtain ⟨gs, h1, h2⟩ := ih
    obtain ⟨hs, h3, h4⟩ := all2_insert hab h1
    exact ⟨hs, h3, h4.trans (h2.cons b)⟩

/-! ### Blocks of lines -/

/-- The comment lines of a setting. -/
def remarks (o : Options) (g : Origin) : List Item := (shown o g).map .remark

/-- The lines of all blocks. -/
def flat (bs : List (Str × List Item)) : List Item := bs.flatMap Prod.snd

mutual
/-- The lines of a setting: its comments, then the setting. -/
inductive Block (env : Env) (o : Options) : Str × AVal → Str × List Item → Prop
  | scalar {k : Str} {g : Origin} {s s' : Scalar} : SameScalar env s s' → (NoNaN env → Writable env s') →
      Block env o (k, .scalar g s) (k, remarks o g ++ [.set k s' none])
  | obj {k : Str} {g : Origin} {fs : List (Str × AVal)} {r i : Bool} {bs cs : List (Str × List Item)} :
      Blocks env o fs bs → cs.Perm bs → (fs.map Prod.fst).Nodup →
      Block env o (k, .obj g fs r i) (k, remarks o g ++ [.sect k none (flat cs) none])
/-- Field by field. -/
inductive Blocks (env : Env) (o : Options) : List (Str × AVal) → List (Str × List Item) → Prop
  | nil : Blocks env o [] []
  | cons {f : Str × AVal} {b : Str × List Item} {fs : List (Str × AVal)} {bs : List (Str × List Item)} :
      Block env o f b → Blocks env o fs bs → Blocks env o (f :: fs) (b :: bs)
end

/-- The text `e` consists of the lines of `b`, without the last newline. -/
def IsBlock (env : Env) (e : Str × Str) (b : Str × List Item) : Prop :=
  ∀ z its u, HLines env (Numeral env) z false its u → HLines env (Numeral env) z true (b.2 ++ its) (e.2 ++ u)

theorem blanks_indent (o : Render.Options) (n : Nat) : Blanks (indent o n) := by
  intro c hc
  rw [indent] at hc
  split at hc
  · exact Or.inl (List.eq_of_mem_replicate hc)
  · cases hc

theorem comment_line {env : Env} {z : Bool} {its : List Item} {w c u : Str} (hw : Blanks w) (hc : '\n' ∉ c)
    (h : HLines env (Numeral env) z true its u) :
    HLines env (Numeral env) z true (.remark c :: its) (w ++ ('#' :: (c ++ '\n' :: u))) := by
  have := HLines.note (HNote.hash hw hc) (.newline h)
  simpa [noteItem] using this

theorem fieldCommentLines_lines {env : Env} {o : Options} {z : Bool} {its : List Item} {u : Str} (ind : Nat)
    (cs : List Str) (hc : ∀ c ∈ cs, '\n' ∉ c) (h : HLines env (Numeral env) z true its u) :
    HLines env (Numeral env) z true ((cs.map commentShown).map .remark ++ its) (fieldCommentLines o ind cs ++ u) := by
  induction cs with
  | nil => exact h
  | cons c cs ih =>
    rw [fieldCommentLines]
    have h1 := hc c (by simp)
    have e : (if (ch " ").isPrefixOf c then [] else ch " ") ++ c = commentShown c := by
      rw [commentShown]
      cases c with
      | nil => rfl
      | cons a c =>
        by_cases ha : a = ' '
        · subst ha; rfl
        · have : (ch " ").isPrefixOf (a :: c) = false := by
            simp [List.isPrefixOf, Ne.symm ha]
          rw [this, if_neg (show ¬ (a :: c).head? = some ' ' by simpa using ha)]; rfl
    have hn : '\n' ∉ commentShown c := by
      rw [commentShown]; split
      · exact h1
      · simpa using h1
    have := comment_line (blanks_indent o.base ind) hn (ih fun x hx => hc x (by simp [hx]))
    simp only [List.map_cons, List.cons_append]
    rw [← e] at this ⊢
    simpa using this

theorem splitLines_splitOn (s : Str) : splitLines s = s.splitOn '\n' := by
  induction s with
  | nil => rfl
  | cons c s ih =>
    rw [splitLines, ih, List.splitOn_cons_eq_if_modifyHead]
    by_cases hc : c = '\n'
    · subst hc; rfl
    · rw [if_neg hc, if_neg (by simpa using hc)]
      have := List.splitOn_ne_nil '\n' s
      cases he : s.splitOn '\n' with
      | nil => exact absurd he this
      | cons l ls => rfl

theorem originLines_lines {env : Env} {o : Options} {z : Bool} {its : List Item} {u : Str} (ind : Nat)
    (ls : List Str) (hl : ∀ c ∈ ls, '\n' ∉ c) (h : HLines env (Numeral env) z true its u) :
    HLines env (Numeral env) z true ((ls.map descShown).map .remark ++ its) (originLines o ind ls ++ u) := by
  induction ls with
  | nil => exact h
  | cons c cs ih =>
    rw [originLines]
    have h1 := hl c (by simp)
    have e : (if c.isEmpty then [] else ch " ") ++ c = descShown c := by
      rw [descShown]; cases c <;> rfl
    have hn : '\n' ∉ descShown c := by
      rw [descShown]; split
      · simp
      · simpa using h1
    have := comment_line (blanks_indent o.base ind) hn (ih fun x hx => hl x (by simp [hx]))
    simp only [List.map_cons, List.cons_append]
    rw [← e] at this ⊢
    simpa using this

theorem fieldNotes_lines {env : Env} {o : Options} {z : Bool} {its : List Item} {u : Str} (ind inner : Nat)
    (v : AVal) (hc : ∀ c ∈ v.origin.comments, '\n' ∉ c) (h : HLines env (Numeral env) z true its u) :
    HLines env (Numeral env) z true (remarks o v.origin ++ its) (fieldNotes o ind inner v ++ u) := by
  rw [remarks, shown, fieldNotes, List.map_append, List.append_assoc, List.append_assoc, ← splitLines_splitOn]
  have h2 : HLines env (Numeral env) z true
      ((if o.comments then v.origin.comments.map commentShown else []).map .remark ++ its)
      ((if o.comments then fieldCommentLines o inner v.origin.comments else []) ++ u) := by
    split
    · exact fieldCommentLines_lines _ _ hc h
    · exact h
  split
  · exact originLines_lines _ _ (splitLines_clean _) h2
  · exact h2

theorem entries_lines {env : Env} {o : Options} (hf : o.formatted = true) (hj : o.json = false) {es : List (Str × Str)}
    {bs : List (Str × List Item)} (h : All2 (IsBlock env) es bs) (z : Bool) :
    HLines env (Numeral env) z true (flat bs) (entriesText o es) := by
  induction h with
  | nil => exact .nil
  | @cons e b es bs hab _ ih =>
    obtain ⟨k, t⟩ := e
    rw [entriesText, hf, hj]
    have := hab z _ _ (.newline ih)
    simpa [flat] using this

/-- The last newline is taken off and put back. -/
theorem entries_chop {o : Options} (hf : o.formatted = true) (hj : o.json = false) {es : List (Str × Str)} (hne : es ≠ []) :
    Render.chop (Render.separatorCount o.base) (entriesText o es) ++ ch "\n" = entriesText o es := by
  have h : ∃ t, entriesText o es = t ++ ch "\n" := by
    induction es with
    | nil => exact absurd rfl hne
    | cons e es ih =>
      obtain ⟨k, t⟩ := e
      rw [entriesText, hf, hj]
      cases es with
      | nil => exact ⟨t, by simp [entriesText]⟩
      | cons e es =>
        obtain ⟨u, hu⟩ := ih (by simp)
        exact ⟨_, by rw [hu, ← List.append_assoc]⟩
  obtain ⟨t, ht⟩ := h
  rw [ht, Render.chop_append _ _ _ (by simp [Render.separatorCount, Options.base, hj])]

theorem renderFields_length {env : Env} {o : Options} (fs : List (Str × AVal)) (ind inner : Nat) :
    (renderFields env o fs ind inner).length = fs.length := by
  induction fs with
  | nil => rw [renderFields]; rfl
  | cons f fs ih =>
    obtain ⟨k, v⟩ := f
    cases v <;> rw [renderFields] <;> simp [ih]

theorem sort_ne_nil {env : Env} {o : Options} {fs : List (Str × AVal)} {ind inner : Nat} (h : fs ≠ []) :
    Render.sort (renderFields env o fs ind inner) ≠ [] := by
  intro he
  have := (Render.sort_perm (renderFields env o fs ind inner)).length_eq
  rw [he, renderFields_length] at this
  exact h (List.length_eq_zero_iff.1 this.symm)

mutual
theorem setting_block {env : Env} {o : Options} (hf : o.formatted = true) (hj : o.json = false) (k : Str)
    (hk : k ≠ [] ∧ PlainStr k) : ∀ (v : AVal), Renderable env v.erase → OneLine v → Setting v → ∀ ind inner,
    ∃ b, Block env o (k, v) b ∧ IsBlock env (k, fieldNotes o ind inner v ++ indent o.base inner ++
      (Render.keyPrefix o.base k v.erase ++ render env o v inner false)) b
  | .scalar g s, hr, hl, _, ind, inner => by
    rw [AVal.erase, Renderable] at hr
    obtain ⟨s', x, h1, h2, h3, h4⟩ := scalar_atom (o := o.base) hj hr
    refine ⟨_, .scalar h3 h4, ?_⟩
    intro z its u hu
    have hs := HLines.set (w := indent o.base inner) (kt := renderStringUnquotedIfPossible k) (w1 := []) (c := '=') (w2 := [])
      (e := []) (blanks_indent _ _) (Render.key_hocon hk.2) (by intro c hc; cases hc) (Or.inr rfl)
      (by intro c hc; cases hc) h1 h2 (.plain (.none (by intro c hc; cases hc))) hu
    have := fieldNotes_lines (o := o) ind inner (.scalar g s) (by rw [OneLine] at hl; exact hl) hs
    rw [Render.keyPrefix, if_neg (by simpa using hk.1), show o.base.json = false from hj, AVal.erase, render]
    simpa [Render.isObject, AVal.origin] using this
  | .obj g [] r i, _, _, h, _, _ => by simp [Setting] at h
  | .obj g (f :: fs) r i, hr, hl, h, ind, inner => by
    rw [AVal.erase, Renderable] at hr
    rw [OneLine] at hl
    rw [Setting] at h
    obtain ⟨bs, h1, h2⟩ := fields_blocks hf hj (f :: fs) hr.2 hl.2 h.2 inner (inner + 1)
    obtain ⟨cs, h3, h4⟩ := all2_sort h2
    refine ⟨_, .obj h1 h4 (by rw [← eraseF_keys]; exact hr.1), ?_⟩
    intro z its u hu
    have hx := entries_lines hf hj h3 false
    have hs := HLines.sect (w := indent o.base inner) (kt := renderStringUnquotedIfPossible k) (w1 := ch " ") (f := [])
      (w2 := indent o.base inner) (e := []) (blanks_indent _ _) (Render.key_hocon hk.2)
      (by intro c hc; left; simpa using hc) (.none (by intro c hc; cases hc)) (.newline hx) (blanks_indent _ _)
      (.plain (.none (by intro c hc; cases hc))) hu
    have := fieldNotes_lines (o := o) ind inner (.obj g (f :: fs) r i) hl.1 hs
    rw [← entries_chop hf hj (sort_ne_nil (by simp))] at this
    rw [Render.keyPrefix, if_neg (by simpa using hk.1), show o.base.json = false from hj, AVal.erase, render, objectText,
      Render.rootNewline]
    simpa [Render.isObject, AVal.origin, show o.base.formatted = true from hf, hf, hj] using this
  | .list .., _, _, h, _, _ => by simp [Setting] at h
  | .ref .., h, _, _, _, _ => by simp [AVal.erase, Renderable] at h
  | .concat .., h, _, _, _, _ => by simp [AVal.erase, Renderable] at h
  | .dm .., h, _, _, _, _ => by simp [AVal.erase, Renderable] at h
  | .dmo .., h, _, _, _, _ => by simp [AVal.erase, Renderable] at h
theorem fields_blocks {env : Env} {o : Options} (hf : o.formatted = true) (hj : o.json = false) :
    ∀ (fs : List (Str × AVal)), RenderableF env (eraseF fs) → OneLineF fs → SectionF fs → ∀ ind inner,
    ∃ bs, Blocks env o fs bs ∧ All2 (IsBlock env) (renderFields env o fs ind inner) bs
  | [], _, _, _, ind, inner => ⟨[], .nil, by rw [renderFields]; exact .nil⟩
  | (k, v) :: fs, hr, hl, h, ind, inner => by
    rw [eraseF, RenderableF] at hr
    rw [OneLineF] at hl
    rw [SectionF] at h
    obtain ⟨b, h1, h2⟩ := setting_block hf hj k hr.1 v hr.2.1 hl.1 h.1 ind inner
    obtain ⟨bs, h3, h4⟩ := fields_blocks hf hj fs hr.2.2 hl.2 h.2 ind inner
    refine ⟨b :: bs, .cons h1 h3, ?_⟩
    have hv := hr.2.1
    have he : renderFields env o ((k, v) :: fs) ind inner
        = (k, fieldNotes o ind inner v ++ indent o.base inner ++ (Render.keyPrefix o.base k v.erase
          ++ render env o v inner false)) :: renderFields env o fs ind inner := by
      cases v with
      | dm _ => exact absurd hv (by simp [AVal.erase, Renderable])
      | dmo _ => exact absurd hv (by simp [AVal.erase, Renderable])
      | _ => rw [renderFields] <;> simp
    rw [he]
    exact .cons h2 h4
end

/-- A rendered section consists of the lines of its blocks. -/
theorem section_lines {env : Env} {o : Options} (hf : o.formatted = true) (hj : o.json = false) {g : Origin}
    {fs : List (Str × AVal)} {r i : Bool} (hr : Renderable env (AVal.obj g fs r i).erase) (hl : OneLine (.obj g fs r i))
    (h : Section (.obj g fs r i)) : ∃ bs cs, Blocks env o fs bs ∧ cs.Perm bs ∧
      HLines env (Numeral env) true true (flat cs) (renderValue env o (.obj g fs r i)) := by
  rw [AVal.erase, Renderable] at hr
  rw [OneLine] at hl
  rw [Section] at h
  obtain ⟨bs, h1, h2⟩ := fields_blocks hf hj fs hr.2 hl.2 h.2 0 0
  obtain ⟨cs, h3, h4⟩ := all2_sort h2
  refine ⟨bs, cs, h1, h4, ?_⟩
  have hx := entries_lines hf hj h3 true
  rw [← entries_chop hf hj (sort_ne_nil h.1)] at hx
  cases fs with
  | nil => exact absurd rfl h.1
  | cons f fs =>
    rw [renderValue, render, objectText, Render.rootNewline]
    simpa [show o.base.formatted = true from hf, hj] using hx

/-! ### Which comments belong to which setting -/

theorem above_append (cs : List Str) (pre q : List Item) : above cs (pre ++ q) = above (above cs pre) q := by
  induction pre generalizing cs with
  | nil => rfl
  | cons it pre ih => rw [List.cons_append, above_cons, ih, above_cons cs it pre]

theorem above_remarks (cs ds : List Str) : above cs (ds.map .remark) = cs ++ ds := by
  induction ds generalizing cs with
  | nil => simp [above]
  | cons d ds ih => rw [List.map_cons, above, ih]; simp

theorem keysIn_append (a b : List Item) : keysIn (a ++ b) = keysIn a ++ keysIn b := by
  induction a with
  | nil => rfl
  | cons it a ih => cases it <;> simp [keysIn, ih]

theorem keysIn_remarks (ds : List Str) : keysIn (ds.map .remark) = [] := by
  induction ds with
  | nil => rfl
  | cons d ds ih => simpa [keysIn] using ih

/-- The shape of a block. -/
theorem block_shape {env : Env} {o : Options} {f : Str × AVal} {b : Str × List Item} (h : Block env o f b) :
    b.1 = f.1 ∧ ∃ it, b.2 = remarks o f.2.origin ++ [it] ∧ keysIn [it] = [f.1] ∧ (∀ c, it ≠ .remark c) := by
  cases h with
  | scalar => exact ⟨rfl, _, rfl, by simp [keysIn], by simp⟩
  | obj => exact ⟨rfl, _, rfl, by simp [keysIn], by simp⟩

theorem blocks_mem {env : Env} {o : Options} {fs : List (Str × AVal)} {bs : List (Str × List Item)}
    (h : Blocks env o fs bs) : (∀ f ∈ fs, ∃ b ∈ bs, Block env o f b) ∧ (∀ b ∈ bs, ∃ f ∈ fs, Block env o f b) := by
  induction fs generalizing bs with
  | nil => cases h; simp
  | cons f fs ih =>
    cases h with
    | @cons _ b _ bs h1 h2 =>
      obtain ⟨h3, h4⟩ := ih h2
      constructor
      · intro x hx
        rcases List.mem_cons.1 hx with rfl | hx
        · exact ⟨b, by simp, h1⟩
        · obtain ⟨y, hy, hb⟩ := h3 x hx
          exact ⟨y, by simp [hy], hb⟩
      · intro x hx
        rcases List.mem_cons.1 hx with rfl | hx
        · exact ⟨f, by simp, h1⟩
        · obtain ⟨y, hy, hb⟩ := h4 x hx
          exact ⟨y, by simp [hy], hb⟩

theorem blocks_keys {env : Env} {o : Options} {fs : List (Str × AVal)} {bs : List (Str × List Item)}
    (h : Blocks env o fs bs) : bs.map Prod.fst = fs.map Prod.fst := by
  induction fs generalizing bs with
  | nil => cases h; rfl
  | cons f fs ih =>
    cases h with
    | cons h1 h2 => rw [List.map_cons, List.map_cons, ih h2, (block_shape h1).1]

/-- All of the blocks are blocks of fields. -/
def AreBlocks (env : Env) (o : Options) (bs : List (Str × List Item)) : Prop := ∀ b ∈ bs, ∃ f, Block env o f b

theorem keysIn_flat {env : Env} {o : Options} {bs : List (Str × List Item)} (h : AreBlocks env o bs) :
    keysIn (flat bs) = bs.map Prod.fst := by
  induction bs with
  | nil => rfl
  | cons b bs ih =>
    obtain ⟨f, hf⟩ := h b (by simp)
    obtain ⟨h1, it, h2, h3, _⟩ := block_shape hf
    rw [flat, List.flatMap_cons, keysIn_append, h2, keysIn_append, remarks, keysIn_remarks, h3, List.map_cons, h1]
    simp only [List.nil_append, List.cons_append, List.cons.injEq, true_and]
    exact ih fun x hx => h x (by simp [hx])

theorem above_flat {env : Env} {o : Options} {bs : List (Str × List Item)} (h : AreBlocks env o bs) :
    above [] (flat bs) = [] := by
  induction bs with
  | nil => rfl
  | cons b bs ih =>
    obtain ⟨f, hf⟩ := h b (by simp)
    obtain ⟨h1, it, h2, h3, h4⟩ := block_shape hf
    rw [flat, List.flatMap_cons, h2, above_append, above_append]
    have : ∀ cs, above cs [it] = [] := by
      intro cs
      cases it <;> simp [above] at h4 ⊢
    rw [this]
    exact ih fun x hx => h x (by simp [hx])

theorem tidy_remarks {cs ds : List Str} {its : List Item} (h : Tidy (cs ++ ds) its) : Tidy cs (ds.map .remark ++ its) := by
  induction ds generalizing cs with
  | nil => simpa using h
  | cons d ds ih =>
    rw [List.map_cons, List.cons_append]
    exact .remark (ih (by simpa using h))

theorem flat_tidy {env : Env} {o : Options} {bs : List (Str × List Item)}
    (h : ∀ b ∈ bs, ∃ f, Block env o f b ∧ ∀ its, f.1 ∉ keysIn its → Tidy [] its → Tidy [] (b.2 ++ its))
    (hn : (bs.map Prod.fst).Nodup) : Tidy [] (flat bs) := by
  induction bs with
  | nil => exact .nil
  | cons b bs ih =>
    obtain ⟨f, hf, ht⟩ := h b (by simp)
    rw [List.map_cons, List.nodup_cons] at hn
    rw [flat, List.flatMap_cons]
    refine ht _ ?_ (ih (fun x hx => h x (by simp [hx])) hn.2)
    have := keysIn_flat (env := env) (o := o) (bs := bs) (fun x hx => (h x (by simp [hx])).imp fun _ h => h.1)
    rw [flat] at this
    rw [this, ← (block_shape hf).1]
    exact hn.1

theorem areBlocks_perm {env : Env} {o : Options} {fs : List (Str × AVal)} {bs cs : List (Str × List Item)}
    (h : Blocks env o fs bs) (hp : cs.Perm bs) : AreBlocks env o cs := by
  intro b hb
  obtain ⟨f, _, h⟩ := (blocks_mem h).2 b (hp.mem_iff.1 hb)
  exact ⟨f, h⟩

mutual
theorem block_tidy {env : Env} {o : Options} : ∀ {f : Str × AVal} {b : Str × List Item}, Block env o f b →
    ∀ its, f.1 ∉ keysIn its → Tidy [] its → Tidy [] (b.2 ++ its)
  | _, _, .scalar _ _, its, hk, ht => by
    rw [List.append_assoc]
    exact tidy_remarks (.set hk (by simp) ht)
  | _, _, .obj (bs := bs) (cs := cs) hb hp hn, its, hk, ht => by
    rw [List.append_assoc]
    refine tidy_remarks (.sect hk (by simp) ?_ ht)
    refine flat_tidy (env := env) (o := o) ?_ (by rw [(hp.map Prod.fst).nodup_iff, blocks_keys hb]; exact hn)
    intro b hm
    exact blocks_tidy hb b (hp.mem_iff.1 hm)
theorem blocks_tidy {env : Env} {o : Options} : ∀ {fs : List (Str × AVal)} {bs : List (Str × List Item)}, Blocks env o fs bs →
    ∀ b ∈ bs, ∃ f, Block env o f b ∧ ∀ its, f.1 ∉ keysIn its → Tidy [] its → Tidy [] (b.2 ++ its)
  | _, _, .nil, b, hb => by cases hb
  | _, _, .cons (f := f) h1 h2, b, hb => by
    rcases List.mem_cons.1 hb with rfl | hb
    · exact ⟨f, h1, block_tidy h1⟩
    · exact blocks_tidy h2 b hb
end

/-- What kind of line a setting makes. -/
def KindIs (env : Env) : AVal → Option Scalar → Prop
  | .scalar _ s, some s' => SameScalar env s s'
  | .obj .., none => True
  | _, _ => False

theorem flat_split {bs : List (Str × List Item)} {b : Str × List Item} (h : b ∈ bs) :
    ∃ b1 b2, bs = b1 ++ b :: b2 ∧ flat bs = flat b1 ++ (b.2 ++ flat b2) := by
  obtain ⟨b1, b2, rfl⟩ := List.append_of_mem h
  exact ⟨b1, b2, rfl, by simp [flat]⟩

/-- Every setting stands below its comments. -/
theorem has_stands {env : Env} {o : Options} {v w : AVal} {p : Path} (h : Has v p w) :
    ∀ {g : Origin} {fs : List (Str × AVal)} {r i : Bool} {bs cs : List (Str × List Item)}, v = .obj g fs r i →
    Blocks env o fs bs → cs.Perm bs → ∀ l, ∃ m s, Stands l [] (flat cs) p m (shown o w.origin) s ∧ KindIs env w s := by
  induction h with
  | @here g0 fs r i k w hm =>
    intro g fs' r' i' bs cs e hb hp l
    cases e
    obtain ⟨b, hbm, hblk⟩ := (blocks_mem hb).1 _ hm
    have ha := areBlocks_perm hb hp
    obtain ⟨b1, b2, he, hfl⟩ := flat_split (hp.mem_iff.2 hbm)
    have ha1 : above [] (flat b1) = [] := above_flat (env := env) (o := o) fun x hx => ha x (by simp [he, hx])
    have hab : ∀ g, above [] (flat b1 ++ remarks o g) = shown o g := by
      intro g; rw [above_append, ha1, remarks, above_remarks]; rfl
    cases hblk with
    | @scalar _ g s s' hs _ =>
      refine ⟨l + rows (flat b1 ++ remarks o g), some s', ?_, hs⟩
      have := Stands.set (l := l) (cs := []) (pre := flat b1 ++ remarks o g) (post := flat b2) (k := k) (s := s') (o := none)
      rw [hab] at this
      rw [hfl]
      simpa [AVal.origin] using this
    | @obj _ g fs2 r2 i2 bs2 cs2 hb2 hp2 hn =>
      refine ⟨l + rows (flat b1 ++ remarks o g), none, ?_, trivial⟩
      have := Stands.sect (l := l) (cs := []) (pre := flat b1 ++ remarks o g) (post := flat b2) (k := k) (o := none)
        (o' := none) (inner := flat cs2)
      rw [hab] at this
      rw [hfl]
      simpa [AVal.origin] using this
  | @inside g0 fs r i k w x p hm hh ih =>
    intro g fs' r' i' bs cs e hb hp l
    cases e
    obtain ⟨b, hbm, hblk⟩ := (blocks_mem hb).1 _ hm
    obtain ⟨b1, b2, he, hfl⟩ := flat_split (hp.mem_iff.2 hbm)
    cases hblk with
    | scalar => cases hh
    | @obj _ g fs2 r2 i2 bs2 cs2 hb2 hp2 hn =>
      obtain ⟨m, s, h1, h2⟩ := ih rfl hb2 hp2 (l + rows (flat b1 ++ remarks o g) + 1)
      refine ⟨m, s, ?_, h2⟩
      have := Stands.inside (cs := []) (post := flat b2) (k := k) (o := none) (o' := none) h1
      rw [hfl]
      simpa using this

theorem mem_flat {env : Env} {o : Options} {fs : List (Str × AVal)} {bs cs : List (Str × List Item)}
    (hb : Blocks env o fs bs) (hp : cs.Perm bs) {it : Item} (h : it ∈ flat cs) (hr : ∀ c, it ≠ .remark c) :
    ∃ f b, f ∈ fs ∧ Block env o f b ∧ b.2 = remarks o f.2.origin ++ [it] := by
  obtain ⟨b, hbm, hit⟩ := List.mem_flatMap.1 h
  obtain ⟨f, hf, hblk⟩ := (blocks_mem hb).2 b (hp.mem_iff.1 hbm)
  obtain ⟨_, it', h2, _, _⟩ := block_shape hblk
  rw [h2] at hit
  rcases List.mem_append.1 hit with hit | hit
  · rw [remarks] at hit
    obtain ⟨c, _, rfl⟩ := List.mem_map.1 hit
    exact absurd rfl (hr c)
  · obtain rfl : it = it' := by simpa using hit
    exact ⟨f, b, hf, hblk, h2⟩

/-- Nothing else stands there. -/
theorem stands_has {env : Env} {o : Options} {l m : Nat} {ds0 ds : List Str} {its : List Item} {p : Path} {s : Option Scalar}
    (h : Stands l ds0 its p m ds s) : ∀ {g : Origin} {fs : List (Str × AVal)} {r i : Bool}
    {bs cs : List (Str × List Item)}, its = flat cs → Blocks env o fs bs → cs.Perm bs → ∃ w, Has (.obj g fs r i) p w := by
  induction h with
  | @set l ds0 pre post k s nt =>
    intro g fs r i bs cs e hb hp
    obtain ⟨f, b, hf, hblk, h2⟩ := mem_flat (it := .set k s nt) hb hp (by rw [← e]; simp) (by simp)
    obtain ⟨_, it', h3, h4, _⟩ := block_shape hblk
    rw [h2] at h3
    obtain rfl : Item.set k s nt = it' := by simpa using h3
    simp [keysIn] at h4
    exact ⟨f.2, .here (by rw [h4]; exact hf)⟩
  | @sect l ds0 pre post inner k nt nt' =>
    intro g fs r i bs cs e hb hp
    obtain ⟨f, b, hf, hblk, h2⟩ := mem_flat (it := .sect k nt inner nt') hb hp (by rw [← e]; simp) (by simp)
    obtain ⟨_, it', h3, h4, _⟩ := block_shape hblk
    rw [h2] at h3
    obtain rfl : Item.sect k nt inner nt' = it' := by simpa using h3
    simp [keysIn] at h4
    exact ⟨f.2, .here (by rw [h4]; exact hf)⟩
  | @inside l m ds0 ds pre post inner k nt nt' p s hs ih =>
    intro g fs r i bs cs e hb hp
    obtain ⟨f, b, hf, hblk, h2⟩ := mem_flat (it := .sect k nt inner nt') hb hp (by rw [← e]; simp) (by simp)
    cases hblk with
    | scalar => simp at h2
    | @obj k' g2 fs2 r2 i2 bs2 cs2 hb2 hp2 hn =>
      simp [AVal.origin] at h2
      obtain ⟨w, hw⟩ := ih (g := g2) (r := r2) (i := i2) h2.2.2.1.symm hb2 hp2
      refine ⟨w, .inside (w := .obj g2 fs2 r2 i2) ?_ hw⟩
      rw [← h2.1]; exact hf

/-! ### What was read can be written again -/

mutual
/-- Lines that make a section that can be written. -/
def Fine (env : Env) : Item → Prop
  | .blank => True
  | .remark c => '\n' ∉ c
  | .set k s o => (k ≠ [] ∧ PlainStr k) ∧ Writable env s ∧ o = none
  | .sect k o inner o' => (k ≠ [] ∧ PlainStr k) ∧ o = none ∧ o' = none ∧ keysIn inner ≠ [] ∧ FineL env inner
/-- `Fine` for all lines. -/
def FineL (env : Env) : List Item → Prop
  | [] => True
  | it :: its => Fine env it ∧ FineL env its
end

theorem fineL_append {env : Env} {a b : List Item} : FineL env (a ++ b) ↔ FineL env a ∧ FineL env b := by
  induction a with
  | nil => simp [FineL]
  | cons it a ih => simp [FineL, ih, and_assoc]

theorem fineL_iff {env : Env} {its : List Item} : FineL env its ↔ ∀ it ∈ its, Fine env it := by
  induction its with
  | nil => simp [FineL]
  | cons it its ih => simp [FineL, ih]

theorem tree_keys_eq (base : Origin) (l : Nat) (cs : List Str) (its : List Item) :
    (tree base l cs its).map Prod.fst = keysIn its := by
  induction its generalizing l cs with
  | nil => rw [tree]; rfl
  | cons it its ih =>
    rw [tree, List.map_append, ih]
    cases it <;> simp [itemTree, keysIn]

theorem tidy_nodup {cs : List Str} {its : List Item} (h : Tidy cs its) : (keysIn its).Nodup := by
  induction h with
  | nil => exact .nil
  | blank _ ih => simpa [keysIn] using ih
  | remark _ ih => simpa [keysIn] using ih
  | set hk _ _ ih => simpa [keysIn] using ⟨hk, ih⟩
  | sect hk _ _ _ _ ih => simpa [keysIn] using ⟨hk, ih⟩

theorem renderableF_append {env : Env} {a b : List (Str × AVal)} :
    RenderableF env (eraseF (a ++ b)) ↔ RenderableF env (eraseF a) ∧ RenderableF env (eraseF b) := by
  induction a with
  | nil => simp [eraseF, RenderableF]
  | cons f a ih => obtain ⟨k, v⟩ := f; simp [eraseF, RenderableF, ih, and_assoc]

theorem oneLineF_append {a b : List (Str × AVal)} : OneLineF (a ++ b) ↔ OneLineF a ∧ OneLineF b := by
  induction a with
  | nil => simp [OneLineF]
  | cons f a ih => obtain ⟨k, v⟩ := f; simp [OneLineF, ih, and_assoc]

theorem sectionF_append {a b : List (Str × AVal)} : SectionF (a ++ b) ↔ SectionF a ∧ SectionF b := by
  induction a with
  | nil => simp [SectionF]
  | cons f a ih => obtain ⟨k, v⟩ := f; simp [SectionF, ih, and_assoc]

theorem tree_fine {env : Env} {cs : List Str} {its : List Item} (h : Tidy cs its) (base : Origin) : ∀ (l : Nat),
    FineL env its → (∀ c ∈ cs, '\n' ∉ c) →
    RenderableF env (eraseF (tree base l cs its)) ∧ OneLineF (tree base l cs its) ∧ SectionF (tree base l cs its) := by
  induction h with
  | nil => intro l _ _; rw [tree]; simp [eraseF, RenderableF, OneLineF, SectionF]
  | blank _ ih =>
    intro l hf _
    rw [FineL] at hf
    rw [tree, itemTree, List.nil_append]
    exact ih _ hf.2 (by simp [above])
    all_goals simp
  | @remark cs c its _ ih =>
    intro l hf hc
    rw [FineL, Fine] at hf
    rw [tree, itemTree, List.nil_append]
    · refine ih _ hf.2 ?_
      intro x hx
      rcases List.mem_append.1 hx with h | h
      · exact hc x h
      · rw [List.mem_singleton.1 h]; exact hf.1
    all_goals simp
  | @set cs k s o its _ _ _ ih =>
    intro l hf hc
    rw [FineL, Fine] at hf
    obtain ⟨⟨hk, hs, rfl⟩, hf⟩ := hf
    obtain ⟨h1, h2, h3⟩ := ih (l + 1) hf (by simp)
    rw [tree, itemTree, renderableF_append, oneLineF_append, sectionF_append]
    refine ⟨⟨?_, h1⟩, ⟨?_, h2⟩, ⟨?_, h3⟩⟩
    · simp only [eraseF, RenderableF, AVal.erase, Renderable]
      exact ⟨hk, hs, trivial⟩
    · simp only [OneLineF, OneLine, and_true]
      simpa [at_] using hc
    · simp [SectionF, Setting]
  | @sect cs k o o' inner its _ _ hi _ ih1 ih2 =>
    intro l hf hc
    rw [FineL, Fine] at hf
    obtain ⟨⟨hk, rfl, rfl, hne, hin⟩, hf⟩ := hf
    obtain ⟨h1, h2, h3⟩ := ih2 (l + Item.rows (.sect k none inner none)) hf (by simp)
    obtain ⟨h4, h5, h6⟩ := ih1 (l + 1) hin (by simp)
    rw [tree, itemTree, renderableF_append, oneLineF_append, sectionF_append]
    refine ⟨⟨?_, h1⟩, ⟨?_, h2⟩, ⟨?_, h3⟩⟩
    · simp only [eraseF, RenderableF, AVal.erase, Renderable]
      refine ⟨hk, ⟨?_, h4⟩, trivial⟩
      rw [eraseF_keys, tree_keys_eq]
      exact tidy_nodup hi
    · simp only [OneLineF, OneLine, and_true]
      exact ⟨by simpa [at_] using hc, h5⟩
    · simp only [SectionF, Setting, and_true]
      refine ⟨?_, h6⟩
      intro he
      have := tree_keys_eq base (l + 1) (Option.toList none) inner
      rw [he] at this
      exact hne this.symm

theorem shown_nl {o : Options} {g : Origin} (h : ∀ c ∈ g.comments, '\n' ∉ c) : ∀ c ∈ shown o g, '\n' ∉ c := by
  intro c hc
  rw [shown, ← splitLines_splitOn] at hc
  rcases List.mem_append.1 hc with hc | hc
  · split at hc
    · obtain ⟨l, hl, rfl⟩ := List.mem_map.1 hc
      have := splitLines_clean _ l hl
      rw [descShown]; split
      · simp
      · simpa using this
    · cases hc
  · split at hc
    · obtain ⟨l, hl, rfl⟩ := List.mem_map.1 hc
      have := h l hl
      rw [commentShown]; split
      · exact this
      · simpa using this
    · cases hc

mutual
theorem block_fine {env : Env} (hnan : NoNaN env) {o : Options} : ∀ {f : Str × AVal} {b : Str × List Item}, Block env o f b →
    (f.1 ≠ [] ∧ PlainStr f.1) → Renderable env f.2.erase → OneLine f.2 → Setting f.2 → FineL env b.2
  | _, _, .scalar (g := g) _ hw, hk, _, hl, _ => by
    rw [fineL_append]
    refine ⟨?_, ?_⟩
    · rw [fineL_iff]
      intro it hit
      obtain ⟨c, hc, rfl⟩ := List.mem_map.1 hit
      rw [Fine]
      simp only [OneLine] at hl
      exact shown_nl hl c hc
    · simp only [FineL, Fine, and_true]
      exact ⟨hk, hw hnan⟩
  | _, _, .obj (fs := fs) (bs := bs) (cs := cs) hb hp _, hk, hr, hl, hs => by
    simp only [AVal.erase, Renderable] at hr
    simp only [OneLine] at hl
    simp only [Setting] at hs
    rw [fineL_append]
    refine ⟨?_, ?_⟩
    · rw [fineL_iff]
      intro it hit
      obtain ⟨c, hc, rfl⟩ := List.mem_map.1 hit
      rw [Fine]
      exact shown_nl hl.1 c hc
    · simp only [FineL, Fine, and_true, true_and]
      refine ⟨hk, ?_, ?_⟩
      · rw [keysIn_flat (areBlocks_perm hb hp)]
        intro he
        have := (hp.map Prod.fst).length_eq
        rw [he, blocks_keys hb] at this
        exact hs.1 (List.length_eq_zero_iff.1 (by simpa using this.symm))
      · rw [fineL_iff]
        intro it hit
        obtain ⟨b, hbm, hit⟩ := List.mem_flatMap.1 hit
        exact fineL_iff.1 (blocks_fine hnan hb hr.2 hl.2 hs.2 b (hp.mem_iff.1 hbm)) it hit
theorem blocks_fine {env : Env} (hnan : NoNaN env) {o : Options} : ∀ {fs : List (Str × AVal)} {bs : List (Str × List Item)},
    Blocks env o fs bs → RenderableF env (eraseF fs) → OneLineF fs → SectionF fs → ∀ b ∈ bs, FineL env b.2
  | _, _, .nil, _, _, _, b, hb => by cases hb
  | _, _, .cons (f := (k, v)) h1 h2, hr, hl, hs, b, hb => by
    rw [eraseF, RenderableF] at hr
    rw [OneLineF] at hl
    rw [SectionF] at hs
    rcases List.mem_cons.1 hb with rfl | hb
    · exact block_fine hnan h1 hr.1 hr.2.1 hl.1 hs.1
    · exact blocks_fine hnan h2 hr.2.2 hl.2 hs.2 b hb
end

/-- The section read from the text of a section can be written. -/
theorem section_again {env : Env} (hnan : NoNaN env) {o : Options} {g : Origin}
    {fs : List (Str × AVal)} {r i : Bool} (hr : Renderable env (AVal.obj g fs r i).erase) (hl : OneLine (.obj g fs r i))
    (hs : Section (.obj g fs r i)) {bs cs : List (Str × List Item)} (hb : Blocks env o fs bs) (hp : cs.Perm bs)
    (ht : Tidy [] (flat cs)) (base : Origin) :
    let v' := AVal.obj (at_ base 1 []) (tree base 1 [] (flat cs)) true false
    Renderable env v'.erase ∧ OneLine v' ∧ Section v' := by
  rw [AVal.erase, Renderable] at hr
  rw [OneLine] at hl
  rw [Section] at hs
  have hf : FineL env (flat cs) := by
    rw [fineL_iff]
    intro it hit
    obtain ⟨b, hbm, hit⟩ := List.mem_flatMap.1 hit
    exact fineL_iff.1 (blocks_fine hnan hb hr.2 hl.2 hs.2 b (hp.mem_iff.1 hbm)) it hit
  obtain ⟨h1, h2, h3⟩ := tree_fine ht base 1 hf (by simp)
  refine ⟨?_, ?_, ?_⟩
  · rw [AVal.erase, Renderable]
    refine ⟨?_, h1⟩
    rw [eraseF_keys, tree_keys_eq]
    exact tidy_nodup ht
  · rw [OneLine]
    exact ⟨by simp [at_], h2⟩
  · rw [Section]
    refine ⟨?_, h3⟩
    intro he
    have h4 := tree_keys_eq base 1 [] (flat cs)
    rw [he, keysIn_flat (areBlocks_perm hb hp)] at h4
    have := (hp.map Prod.fst).length_eq
    rw [← h4, blocks_keys hb] at this
    exact hs.1 (List.length_eq_zero_iff.1 (by simpa using this.symm))

end NotesLines
end Hocon
