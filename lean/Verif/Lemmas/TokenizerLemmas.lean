import Verif.Tokenizer

/-!
# Facts about the tokenizer model used by several property files
-/

namespace Hocon
namespace Tokenizer

/-- No blank directly before a `}`, unless there is no `$` at all. -/
def NoLostBlank (s : Str) : Prop :=
  '$' ∉ s ∨ ∀ a x b, s = a ++ x :: '}' :: b → isWhitespaceNotNewline x = false

/-- Inputs on which the tokens keep every character: no NUL, and no blank before `}` when there are
substitutions. -/
def Faithful (s : Str) : Prop := '\x00' ∉ s ∧ NoLostBlank s

/-- No newline among the four characters after a backslash-u. -/
def NoEscapedNewline (s : Str) : Prop :=
  ∀ a b, s = a ++ '\\' :: 'u' :: b → '\n' ∉ b.take 4

theorem NoLostBlank.infix {a s b : Str} (h : NoLostBlank (a ++ s ++ b)) : NoLostBlank s := by
  rcases h with h | h
  · left; intro hm; exact h (by simp [hm])
  · right
    intro a' x b' he
    exact h (a ++ a') x (b' ++ b) (by simp [he])

theorem Faithful.infix {a s b : Str} (h : Faithful (a ++ s ++ b)) : Faithful s :=
  ⟨fun hm => h.1 (by simp [hm]), h.2.infix⟩

theorem NoEscapedNewline.infix {a s b : Str} (h : NoEscapedNewline (a ++ s ++ b)) :
    NoEscapedNewline s := by
  intro a' b' he hm
  refine h (a ++ a') (b' ++ b) (by simp [he]) ?_
  rw [List.take_append]
  exact List.mem_append_left _ hm

theorem Faithful.left {s b : Str} (h : Faithful (s ++ b)) : Faithful s :=
  Faithful.infix (a := []) (b := b) (by simpa using h)
theorem Faithful.right {a s : Str} (h : Faithful (a ++ s)) : Faithful s :=
  Faithful.infix (a := a) (b := []) (by simpa using h)
theorem NoEscapedNewline.left {s b : Str} (h : NoEscapedNewline (s ++ b)) : NoEscapedNewline s :=
  NoEscapedNewline.infix (a := []) (b := b) (by simpa using h)
theorem NoEscapedNewline.right {a s : Str} (h : NoEscapedNewline (a ++ s)) : NoEscapedNewline s :=
  NoEscapedNewline.infix (a := a) (b := []) (by simpa using h)
theorem NoEscapedNewline.tail {c : Char} {s : Str} (h : NoEscapedNewline (c :: s)) :
    NoEscapedNewline s := NoEscapedNewline.right (a := [c]) h

/-- All characters are blanks (whitespace other than newline). -/
def AllBlank (s : Str) : Prop := ∀ x ∈ s, isWhitespaceNotNewline x = true

theorem AllBlank.count_newline {s : Str} (h : AllBlank s) : s.count '\n' = 0 := by
  rw [List.count_eq_zero]
  intro hm
  have := h _ hm
  simp [isWhitespaceNotNewline] at this

theorem nextChar_none {ws s ws' : Str} (h : nextCharAfterWhitespace ws s = (ws', none)) :
    ws' = ws ++ s ∧ AllBlank s := by
  induction s generalizing ws with
  | nil => simp [nextCharAfterWhitespace] at h; simp [h, AllBlank]
  | cons c r ih =>
    simp only [nextCharAfterWhitespace] at h
    split at h
    · rename_i hb
      obtain ⟨h1, h2⟩ := ih h
      refine ⟨by simp [h1], ?_⟩
      intro x hx
      rcases List.mem_cons.1 hx with rfl | hx
      · exact hb
      · exact h2 _ hx
    · simp at h

theorem nextChar_some {ws s ws' : Str} {c : Char} {r : Str}
    (h : nextCharAfterWhitespace ws s = (ws', some (c, r))) :
    ∃ w, ws' = ws ++ w ∧ s = w ++ c :: r ∧ AllBlank w ∧ isWhitespaceNotNewline c = false := by
  induction s generalizing ws with
  | nil => simp [nextCharAfterWhitespace] at h
  | cons c' r' ih =>
    simp only [nextCharAfterWhitespace] at h
    split at h
    · rename_i hb
      obtain ⟨w, h1, h2, h3, h4⟩ := ih h
      refine ⟨c' :: w, by simp [h1], by simp [h2], ?_, h4⟩
      intro x hx
      rcases List.mem_cons.1 hx with rfl | hx
      · exact hb
      · exact h3 _ hx
    · rename_i hb
      simp only [Prod.mk.injEq, Option.some.injEq] at h
      obtain ⟨rfl, rfl, rfl⟩ := h
      exact ⟨[], by simp, by simp, by simp [AllBlank], by simpa using hb⟩

theorem nextChar_blank {ws w : Str} (hw : AllBlank w) (s : Str) :
    nextCharAfterWhitespace ws (w ++ s) = nextCharAfterWhitespace (ws ++ w) s := by
  induction w generalizing ws with
  | nil => simp
  | cons c w ih =>
    have hc := hw c (by simp)
    simp only [List.cons_append, nextCharAfterWhitespace, hc, if_true]
    rw [ih (fun x hx => hw x (by simp [hx]))]
    simp

theorem commentBody_spec (s : Str) :
    (commentBody s).1 ++ (commentBody s).2 = s ∧ '\n' ∉ (commentBody s).1 := by
  induction s with
  | nil => simp [commentBody]
  | cons c r ih =>
    simp only [commentBody]
    split
    · simp
    · rename_i hc
      refine ⟨by simp [ih.1], ?_⟩
      simp only [List.mem_cons, not_or]
      exact ⟨fun h => hc h.symm, ih.2⟩

theorem numberBody_spec (s : Str) :
    (numberBody s).1 ++ (numberBody s).2 = s ∧ (∀ c ∈ (numberBody s).1, c ∈ numberChars) := by
  induction s with
  | nil => simp [numberBody]
  | cons c r ih =>
    simp only [numberBody]
    split
    · rename_i hc
      refine ⟨by simp [ih.1], ?_⟩
      intro x hx
      rcases List.mem_cons.1 hx with rfl | hx
      · simpa using hc
      · exact ih.2 _ hx
    · simp

/-- What every successfully pulled token satisfies; `u` is the input consumed for it (without the
preceding blanks). -/
structure TokSpec (t : Tok) (u : Str) (line line' : Nat) : Prop where
  nonempty : u ≠ []
  sub : t.text.Sublist u
  exact : Faithful u → t.text = u
  lines : NoEscapedNewline u → line' = line + u.count '\n'
  nl : NoEscapedNewline u → t.text.count '\n' = u.count '\n'
  originNl : ∀ l, t = .newline l → l = line
  origin : ∀ l, (∀ l', t ≠ .newline l') → t.originLine = some l → l = line'
  notStart : t ≠ .start
  notEnd : t ≠ .end_

theorem pullUnquoted_spec {allow : Bool} {line : Nat} {acc s : Str} {t : Tok} {r : Str}
    (h : pullUnquoted allow line acc s = (t, r)) :
    ∃ u, s = u ++ r ∧ t.text = acc ++ u ∧ '\n' ∉ u ∧ t.originLine = some (line : Int) ∧
      (∀ l, t ≠ .newline l) := by
  induction s generalizing acc with
  | nil =>
    simp only [pullUnquoted, Prod.mk.injEq] at h
    obtain ⟨rfl, rfl⟩ := h
    exact ⟨[], by simp, by simp [Tok.text], by simp, by simp [Tok.originLine], by simp⟩
  | cons c s ih =>
    simp only [pullUnquoted] at h
    split at h
    · simp only [Prod.mk.injEq] at h
      obtain ⟨rfl, rfl⟩ := h
      exact ⟨[], by simp, by simp [Tok.text], by simp, by simp [Tok.originLine], by simp⟩
    · rename_i hs
      have hc : c ≠ '\n' := by
        rintro rfl
        simp [isWhitespace] at hs
      split at h
      · rename_i hk
        simp only [Prod.mk.injEq] at h
        obtain ⟨rfl, rfl⟩ := h
        exact ⟨[c], by simp, by simp [Tok.text, hk.2], by simpa using hc.symm,
          by simp [Tok.originLine], by simp⟩
      · split at h
        · rename_i hk
          simp only [Prod.mk.injEq] at h
          obtain ⟨rfl, rfl⟩ := h
          exact ⟨[c], by simp, by simp [Tok.text, hk.2], by simpa using hc.symm,
            by simp [Tok.originLine], by simp⟩
        · split at h
          · rename_i hk
            simp only [Prod.mk.injEq] at h
            obtain ⟨rfl, rfl⟩ := h
            exact ⟨[c], by simp, by simp [Tok.text, hk.2], by simpa using hc.symm,
              by simp [Tok.originLine], by simp⟩
          · obtain ⟨u, h1, h2, h3, h4, h5⟩ := ih h
            exact ⟨c :: u, by simp [h1], by simp [h2], by simp [hc.symm, h3], h4, h5⟩

theorem pullUnquoted_simple {allow : Bool} {line : Nat} {acc s : Str} {t : Tok} {r : Str}
    (h : pullUnquoted allow line acc s = (t, r)) : t.isSimple = true := by
  induction s generalizing acc with
  | nil =>
    simp only [pullUnquoted, Prod.mk.injEq] at h
    obtain ⟨rfl, rfl⟩ := h
    rfl
  | cons c s ih =>
    simp only [pullUnquoted] at h
    repeat' split at h
    all_goals first | exact ih h | (simp only [Prod.mk.injEq] at h; obtain ⟨rfl, rfl⟩ := h; rfl)

theorem transform_newNumberI64 (env : Env) (i : Int) (text : Str) (ht : text ≠ []) :
    (newNumberI64 i text).transformToString env = text := by
  cases text with
  | nil => exact absurd rfl ht
  | cons c cs => unfold newNumberI64; split <;> simp [Scalar.transformToString]

theorem transform_newNumberDouble {env : Env} {d : Dbl} {text : Str} {v : Scalar} (ht : text ≠ [])
    (h : newNumberDouble env d text = .ok v) : v.transformToString env = text := by
  unfold newNumberDouble at h
  split at h
  · simp at h
  · split at h
    · simp only [Res.ok.injEq] at h
      subst h
      exact transform_newNumberI64 env _ _ ht
    · simp only [Res.ok.injEq] at h
      subst h
      cases text with
      | nil => exact absurd rfl ht
      | cons c cs => simp [Scalar.transformToString]

theorem notANumber_spec {text : Str} {line : Nat} {t : Tok} (h : notANumber text line = .ok t) :
    t = .unquoted text line := by
  unfold notANumber at h
  split at h
  · simp at h
  · simpa using h.symm

theorem pullNumber_spec {env : Env} {c : Char} {s : Str} {line : Nat} {t : Tok} {r : Str}
    (h : pullNumber env c s line = .ok (t, r)) :
    ∃ u, s = u ++ r ∧ t.text = c :: u ∧ '\n' ∉ u ∧ t.originLine = some (line : Int) ∧
      (∀ l, t ≠ .newline l) ∧ t.isSimple = true := by
  have hb := numberBody_spec s
  unfold pullNumber at h
  simp only at h
  have hn : '\n' ∉ (numberBody s).1 := by
    intro hm
    have := hb.2 _ hm
    simp [numberChars] at this
  split at h
  · split at h
    · rw [Res.bind_eq_ok] at h
      obtain ⟨v, hv, h⟩ := h
      simp only [Res.ok.injEq, Prod.mk.injEq] at h
      obtain ⟨rfl, rfl⟩ := h
      refine ⟨_, hb.1.symm, ?_, hn, by simp [Tok.originLine], by simp, rfl⟩
      simp [Tok.text, transform_newNumberDouble (by simp) hv]
    · rw [Res.bind_eq_ok] at h
      obtain ⟨v, hv, h⟩ := h
      simp only [Res.ok.injEq, Prod.mk.injEq] at h
      obtain ⟨rfl, rfl⟩ := h
      have := notANumber_spec hv
      subst this
      exact ⟨_, hb.1.symm, by simp [Tok.text], hn, by simp [Tok.originLine], by simp, rfl⟩
  · split at h
    · simp only [Res.ok.injEq, Prod.mk.injEq] at h
      obtain ⟨rfl, rfl⟩ := h
      refine ⟨_, hb.1.symm, ?_, hn, by simp [Tok.originLine], by simp, rfl⟩
      simp [Tok.text, transform_newNumberI64 env _ _ (List.cons_ne_nil _ _)]
    · rw [Res.bind_eq_ok] at h
      obtain ⟨v, hv, h⟩ := h
      simp only [Res.ok.injEq, Prod.mk.injEq] at h
      obtain ⟨rfl, rfl⟩ := h
      have := notANumber_spec hv
      subst this
      exact ⟨_, hb.1.symm, by simp [Tok.text], hn, by simp [Tok.originLine], by simp, rfl⟩

theorem cstr_sublist (s : Str) : (cstr s).Sublist s := List.takeWhile_sublist _

theorem cstr_of_noNul {s : Str} (h : '\x00' ∉ s) : cstr s = s := by
  unfold cstr
  induction s with
  | nil => rfl
  | cons c s ih =>
    have hc : c ≠ '\x00' := fun hc => h (by simp [hc])
    rw [List.takeWhile_cons_of_pos (by simpa using hc), ih (fun hm => h (by simp [hm]))]

theorem quotedLoop_spec {env : Env} {res o s : Str} {res' o' r : Str}
    (h : quotedLoop env res o s = .ok (res', o', r)) :
    ∃ u v, s = u ++ r ∧ o' = o ++ v ∧ u ≠ [] ∧ v.Sublist u ∧ ('\x00' ∉ u → v = u) ∧
      (NoEscapedNewline u → u.count '\n' = 0) := by
  fun_induction quotedLoop env res o s with
  | case1 => simp at h
  | case2 => simp at h
  | case3 res o e r1 p hp ih =>
    obtain ⟨u, v, h1, h2, h3, h4, h5, h6⟩ := ih h
    refine ⟨'\\' :: e :: u, '\\' :: e :: v, by simp [h1], by simp [h2], by simp,
      by simpa using h4, ?_, ?_⟩
    · intro hn
      rw [h5 (fun hm => hn (by simp [hm]))]
    · intro hn
      have he : e ≠ '\n' := by rintro rfl; simp [simpleEscape] at hp
      rw [List.count_cons_of_ne (by decide), List.count_cons_of_ne he, h6 hn.tail.tail]
  | case4 => simp at h
  | case5 res o a b c d r2 n hs hx ih =>
    obtain ⟨u, v, h1, h2, h3, h4, h5, h6⟩ := ih h
    refine ⟨'\\' :: 'u' :: ([a, b, c, d] ++ u), '\\' :: 'u' :: (cstr [a, b, c, d] ++ v),
      by simp [h1], by simp [h2], by simp, ?_, ?_, ?_⟩
    · exact ((cstr_sublist _).append h4).cons_cons _ |>.cons_cons _
    · intro hn
      rw [h5 (fun hm => hn (by simp [hm])), cstr_of_noNul]
      intro hm
      exact hn (List.mem_cons_of_mem _ (List.mem_cons_of_mem _ (List.mem_append_left _ hm)))
    · intro hn
      have h4' := hn [] ([a, b, c, d] ++ u) (by simp)
      simp only [List.cons_append, List.take_succ_cons, List.nil_append, List.take_zero] at h4'
      have hu : NoEscapedNewline u :=
        NoEscapedNewline.right (a := ['\\', 'u', a, b, c, d]) (by simpa using hn)
      rw [List.count_cons_of_ne (by decide), List.count_cons_of_ne (by decide), List.count_append,
        h6 hu, List.count_eq_zero.2 h4']
  | case6 => simp at h
  | case7 => simp at h
  | case8 => simp at h
  | case9 => simp at h
  | case10 res o r1 hc =>
    simp only [Res.ok.injEq, Prod.mk.injEq] at h
    obtain ⟨rfl, rfl, rfl⟩ := h
    exact ⟨['"'], ['"'], by simp, by simp, by simp, by simp, by simp, by simp⟩
  | case11 => simp at h
  | case12 res o c r hc hq hn ih =>
    obtain ⟨u, v, h1, h2, h3, h4, h5, h6⟩ := ih h
    refine ⟨c :: u, c :: v, by simp [h1], by simp [h2], by simp, by simpa using h4, ?_, ?_⟩
    · intro hn
      rw [h5 (fun hm => hn (by simp [hm]))]
    · intro hne
      have he : c ≠ '\n' := by rintro rfl; simp [isC0Control] at hn
      rw [List.count_cons_of_ne he, h6 hne.tail]

theorem tripleLoop_spec {p o : Str} {q line : Nat} {s p' o' r : Str} {line' : Nat}
    (h : tripleLoop p o q line s = .ok (p', o', r, line')) :
    ∃ u, s = u ++ r ∧ o' = o ++ u ∧ line' = line + u.count '\n' := by
  induction s generalizing p o q line with
  | nil =>
    simp only [tripleLoop] at h
    split at h
    · simp only [Res.ok.injEq, Prod.mk.injEq] at h
      obtain ⟨rfl, rfl, rfl, rfl⟩ := h
      exact ⟨[], by simp, by simp, by simp⟩
    · simp at h
  | cons c s ih =>
    simp only [tripleLoop] at h
    split at h
    · rename_i hc
      obtain ⟨u, h1, h2, h3⟩ := ih h
      refine ⟨c :: u, by simp [h1], by simp [h2], ?_⟩
      rw [h3, List.count_cons_of_ne (by rw [hc]; decide)]
    · split at h
      · simp only [Res.ok.injEq, Prod.mk.injEq] at h
        obtain ⟨rfl, rfl, rfl, rfl⟩ := h
        exact ⟨[], by simp, by simp, by simp⟩
      · obtain ⟨u, h1, h2, h3⟩ := ih h
        refine ⟨c :: u, by simp [h1], by simp [h2], ?_⟩
        rw [h3, List.count_cons]
        by_cases hc : c = '\n'
        · simp [hc]; omega
        · simp [hc]

theorem pullQuoted_spec {env : Env} {s : Str} {line : Nat} {t : Tok} {r : Str} {line' : Nat}
    (h : pullQuoted env s line = .ok (t, r, line')) :
    ∃ u, s = u ++ r ∧ TokSpec t ('"' :: u) line line' ∧ (∃ x, t = .value (.str x true) t.text line') := by
  unfold pullQuoted at h
  rw [Res.bind_eq_ok] at h
  obtain ⟨⟨res, o, r0⟩, hq, h⟩ := h
  obtain ⟨u, v, h1, h2, h3, h4, h5, h6⟩ := quotedLoop_spec hq
  have key : ∀ x, TokSpec (.value (.str x true) o line) ('"' :: u) line line := by
    intro x
    refine ⟨by simp, ?_, ?_, ?_, ?_, by simp, ?_, by simp, by simp⟩
    · simpa [Tok.text, h2] using h4
    · intro hf
      simp [Tok.text, h2, h5 (fun hm => hf.1 (by simp [hm]))]
    · intro hn
      rw [List.count_cons_of_ne (by decide), h6 hn.tail]
      rfl
    · intro hn
      have hv := h4.count_le '\n'
      have hz := h6 hn.tail
      simp only [Tok.text, h2, List.cons_append, List.nil_append]
      rw [List.count_cons_of_ne (by decide), List.count_cons_of_ne (by decide)]
      omega
    · intro l _ hl
      simpa [Tok.originLine] using hl.symm
  simp only at h
  split at h
  · split at h
    · rename_i r'
      rw [Res.bind_eq_ok] at h
      obtain ⟨⟨p, o2, r2, l2⟩, ht, h⟩ := h
      simp only [Res.ok.injEq, Prod.mk.injEq] at h
      obtain ⟨rfl, rfl, rfl⟩ := h
      obtain ⟨w, g1, g2, g3⟩ := tripleLoop_spec ht
      refine ⟨u ++ '"' :: w, by simp [h1, g1], ⟨by simp, ?_, ?_, ?_, ?_, by simp, ?_, by simp,
        by simp⟩, ⟨p, by simp [Tok.text]⟩⟩
      · simp only [Tok.text, g2, h2]
        simpa using h4
      · intro hf
        simp [Tok.text, g2, h2, h5 (fun hm => hf.1 (by simp [hm]))]
      · intro hn
        have hu : NoEscapedNewline u := (NoEscapedNewline.left (b := '"' :: w) hn.tail)
        rw [List.count_cons_of_ne (by decide), List.count_append, h6 hu,
          List.count_cons_of_ne (by decide), g3]
        omega
      · intro hn
        have hu : NoEscapedNewline u := (NoEscapedNewline.left (b := '"' :: w) hn.tail)
        have hv := h4.count_le '\n'
        have hz := h6 hu
        simp only [Tok.text, g2, h2, List.cons_append, List.nil_append, List.append_assoc]
        rw [List.count_cons_of_ne (by decide), List.count_cons_of_ne (by decide),
          List.count_append, List.count_append]
        omega
      · intro l _ hl
        simpa [Tok.originLine] using hl.symm
    · simp only [Res.ok.injEq, Prod.mk.injEq] at h
      obtain ⟨rfl, rfl, rfl⟩ := h
      exact ⟨u, h1, key _, ⟨res, by simp [Tok.text]⟩⟩
  · simp only [Res.ok.injEq, Prod.mk.injEq] at h
    obtain ⟨rfl, rfl, rfl⟩ := h
    exact ⟨u, h1, key _, ⟨res, by simp [Tok.text]⟩⟩

theorem TokSpec.mk_exact {t : Tok} {u : Str} {line : Nat} (hu : u ≠ []) (ht : t.text = u)
    (hn : '\n' ∉ u) (hnl : ∀ l, t ≠ .newline l)
    (ho : ∀ l, t.originLine = some l → l = line) (hs : t ≠ .start) (he : t ≠ .end_) :
    TokSpec t u line line :=
  ⟨hu, by rw [ht]; exact List.Sublist.refl _, fun _ => ht,
    fun _ => by rw [List.count_eq_zero.2 hn]; rfl, fun _ => by rw [ht],
    fun l h => absurd h (hnl l), fun l _ h => ho l h, hs, he⟩

theorem punctuation_spec {c : Char} {t : Tok} (h : punctuation c = some t) :
    t.text = [c] ∧ c ≠ '\n' ∧ t.originLine = none ∧ t.isSimple = false ∧ t ≠ .start ∧ t ≠ .end_ ∧
      (∀ l, t ≠ .newline l) := by
  unfold punctuation at h
  repeat' split at h
  all_goals first
    | (simp at h; done)
    | (rename_i hx; subst hx
       simp only [Option.some.injEq] at h; subst h
       exact ⟨rfl, by decide, rfl, rfl, by simp, by simp, by simp⟩)

theorem pullComment_spec {allow : Bool} {c : Char} {s : Str} {line : Nat} {t : Tok} {r : Str}
    (hcm : startOfComment allow c s = true) (hp : pullComment c s line = .ok (t, r)) :
    ∃ u, s = u ++ r ∧ TokSpec t (c :: u) line line ∧ t.isSimple = false := by
  unfold pullComment at hp
  by_cases hslash : c = '/'
  · rw [if_pos hslash] at hp
    split at hp
    · rename_i r1
      simp only [Res.ok.injEq, Prod.mk.injEq] at hp
      obtain ⟨rfl, rfl⟩ := hp
      have hb := commentBody_spec r1
      refine ⟨'/' :: (commentBody r1).1, by simp [hb.1], TokSpec.mk_exact (by simp)
        (by simp [Tok.text, hslash]) ?_ (by simp) (by simp [Tok.originLine]) (by simp) (by simp), rfl⟩
      simp [hslash, hb.2]
    · simp at hp
  · rw [if_neg hslash] at hp
    simp only [Res.ok.injEq, Prod.mk.injEq] at hp
    obtain ⟨rfl, rfl⟩ := hp
    have hb := commentBody_spec s
    have hh : c = '#' := by
      simp only [startOfComment, Bool.and_eq_true, Bool.or_eq_true, beq_iff_eq] at hcm
      rcases hcm.2 with h | h
      · exact h
      · exact absurd h.1 hslash
    refine ⟨(commentBody s).1, hb.1.symm, TokSpec.mk_exact (by simp)
      (by simp [Tok.text, hh]) ?_ (by simp) (by simp [Tok.originLine]) (by simp) (by simp), rfl⟩
    simp [hh, hb.2]

theorem pullUnquoted_first {allow : Bool} {line : Nat} {c : Char} {s : Str}
    (hcond : (notInUnquotedText.contains c || isWhitespace c || startOfComment allow c s) = false) :
    pullUnquoted allow line [] (c :: s) = pullUnquoted allow line [c] s := by
  rw [pullUnquoted, if_neg (by rw [hcond]; decide)]
  simp

theorem pullWord_spec {env : Env} {allow : Bool} {c : Char} {s : Str} {line : Nat} {t : Tok}
    {r : Str} (hc : c ≠ '\n') (hw : isWhitespaceNotNewline c = false)
    (hcm : startOfComment allow c s = false)
    (h : pullWord env allow c s line = .ok (t, r)) :
    ∃ u, s = u ++ r ∧ t.text = c :: u ∧ '\n' ∉ u ∧ t.originLine = some (line : Int) ∧
      (∀ l, t ≠ .newline l) ∧ t.isSimple = true := by
  unfold pullWord at h
  split at h
  · exact pullNumber_spec h
  · split at h
    · simp at h
    · rename_i hni
      have hcws : isWhitespace c = false := by
        simp only [isWhitespaceNotNewline, Bool.and_eq_false_imp] at hw
        exact hw (by simpa using hc)
      have hcond : (notInUnquotedText.contains c || isWhitespace c || startOfComment allow c s)
          = false := by
        simp only [hcws, Bool.or_false, Bool.or_eq_false_iff]
        exact ⟨by simpa using hni, hcm⟩
      rw [pullUnquoted_first hcond] at h
      simp only [Res.ok.injEq] at h
      obtain ⟨u, h1, h2, h3, h4, h5⟩ := pullUnquoted_spec h
      exact ⟨u, h1, by simpa using h2, h3, h4, h5, pullUnquoted_simple h⟩

theorem pullPlain_spec {env : Env} {allow : Bool} {c : Char} {s : Str} {line : Nat} {t : Tok}
    {r : Str} {line' : Nat} (hc : c ≠ '\n') (hw : isWhitespaceNotNewline c = false)
    (h : pullPlain env allow c s line = .ok (t, r, line')) :
    ∃ u, s = u ++ r ∧ TokSpec t (c :: u) line line' := by
  unfold pullPlain at h
  by_cases hcm : startOfComment allow c s = true
  · rw [if_pos hcm, Res.bind_eq_ok] at h
    obtain ⟨⟨t0, r0⟩, hp, h⟩ := h
    simp only [Res.ok.injEq, Prod.mk.injEq] at h
    obtain ⟨rfl, rfl, rfl⟩ := h
    obtain ⟨u, h1, h2, _⟩ := pullComment_spec hcm hp
    exact ⟨u, h1, h2⟩
  · rw [if_neg hcm] at h
    by_cases hq : c = '"'
    · rw [if_pos hq] at h
      subst hq
      obtain ⟨u, h1, h2, _⟩ := pullQuoted_spec h
      exact ⟨u, h1, h2⟩
    · rw [if_neg hq] at h
      cases hpt : punctuation c with
      | some t1 =>
        rw [hpt] at h
        simp only [Res.ok.injEq, Prod.mk.injEq] at h
        obtain ⟨rfl, rfl, rfl⟩ := h
        obtain ⟨g1, g2, g3, g4, g5, g6, g7⟩ := punctuation_spec hpt
        exact ⟨[], by simp, TokSpec.mk_exact (by simp) g1 (by simpa using hc.symm) g7
          (by simp [g3]) g5 g6⟩
      | none =>
        rw [hpt] at h
        simp only at h
        by_cases hx : c = '+'
        · rw [if_pos hx, Res.bind_eq_ok] at h
          obtain ⟨⟨t0, r0⟩, hp, h⟩ := h
          simp only [Res.ok.injEq, Prod.mk.injEq] at h
          obtain ⟨rfl, rfl, rfl⟩ := h
          unfold pullPlusEquals at hp
          split at hp
          · simp only [Res.ok.injEq, Prod.mk.injEq] at hp
            obtain ⟨rfl, rfl⟩ := hp
            exact ⟨['='], by simp, TokSpec.mk_exact (by simp) (by simp [Tok.text, hx])
              (by simp [hc.symm]) (by simp) (by simp [Tok.originLine]) (by simp) (by simp)⟩
          · simp at hp
        · rw [if_neg hx, Res.bind_eq_ok] at h
          obtain ⟨⟨t0, r0⟩, hp, h⟩ := h
          simp only [Res.ok.injEq, Prod.mk.injEq] at h
          obtain ⟨rfl, rfl, rfl⟩ := h
          obtain ⟨u, h1, h2, h3, h4, h5, h6⟩ := pullWord_spec hc hw (by simpa using hcm) hp
          refine ⟨u, h1, TokSpec.mk_exact (by simp) h2 (by simp [hc.symm, h3]) h5 ?_ ?_ ?_⟩
          · intro l hl
            rw [h4] at hl
            simpa using hl.symm
          · rintro rfl; simp [Tok.isSimple] at h6
          · rintro rfl; simp [Tok.isSimple] at h6

/-- Inside a substitution: no NUL and no blank before a `}`. -/
def Strict (s : Str) : Prop :=
  '\x00' ∉ s ∧ ∀ a x b, s = a ++ x :: '}' :: b → isWhitespaceNotNewline x = false

theorem Strict.faithful {s : Str} (h : Strict s) : Faithful s := ⟨h.1, Or.inr h.2⟩

theorem Strict.infix {a s b : Str} (h : Strict (a ++ s ++ b)) : Strict s := by
  refine ⟨fun hm => h.1 (by simp [hm]), ?_⟩
  intro a' x b' he
  exact h.2 (a ++ a') x (b' ++ b) (by simp [he])

theorem Strict.left {s b : Str} (h : Strict (s ++ b)) : Strict s :=
  Strict.infix (a := []) (b := b) (by simpa using h)
theorem Strict.right {a s : Str} (h : Strict (a ++ s)) : Strict s :=
  Strict.infix (a := a) (b := []) (by simpa using h)

theorem Saver.check_ws (s : Saver) (simple : Bool) (line : Nat) : (s.check simple line).2.ws = [] := by
  unfold Saver.check Saver.create
  cases simple <;> by_cases h : s.ws.length > 0 <;> simp [h] <;> simpa using h

theorem Saver.check_text (s : Saver) (simple : Bool) (line : Nat) :
    Tok.textList (s.check simple line).1.toList = s.ws := by
  unfold Saver.check Saver.create
  cases simple <;> by_cases h : s.ws.length > 0 <;> simp [h]
  · simp [Tok.textList, Tok.text]
  · have : s.ws = [] := by simpa using h
    simp [this, Tok.textList]
  · cases s.lastSimple <;> simp [Tok.textList, Tok.text]
  · have : s.ws = [] := by simpa using h
    simp [this, Tok.textList]

theorem substOpen_spec {s : Str} {o : Bool} {r : Str} (h : substOpen s = some (o, r)) :
    s = (if o then ['{', '?'] else ['{']) ++ r := by
  unfold substOpen at h
  split at h
  · simp only [Option.some.injEq, Prod.mk.injEq] at h
    obtain ⟨rfl, rfl⟩ := h
    simp
  · simp only [Option.some.injEq, Prod.mk.injEq] at h
    obtain ⟨rfl, rfl⟩ := h
    simp
  · simp at h

/-- Result of one `pullNext`. -/
def PullSpec (sv : Saver) (s : Str) (line : Nat) (t : Tok) (sv' : Saver) (r : Str) (line' : Nat) :
    Prop :=
  ∃ w, AllBlank w ∧ sv'.ws = sv.ws ++ w ∧ sv'.lastSimple = sv.lastSimple ∧
    ((t = .end_ ∧ r = [] ∧ s = w ∧ line' = line) ∨
      ∃ u, s = w ++ u ++ r ∧ TokSpec t u line line')

theorem pull_specs (env : Env) (allow : Bool) (fuel : Nat) :
    (∀ sv s line t sv' r line', pullNext env allow fuel sv s line = .ok (t, sv', r, line') →
      PullSpec sv s line t sv' r line') ∧
    (∀ s line t r line', pullSubst env allow fuel s line = .ok (t, r, line') →
      ∃ u, s = u ++ r ∧ TokSpec t ('$' :: u) line line' ∧ t.isSimple = true) ∧
    (∀ sv e s line e' r line', sv.ws = [] →
      substLoop env allow fuel sv e s line = .ok (e', r, line') →
      ∃ u v, s = u ++ r ∧ e' = e ++ v ∧ (Tok.textList v ++ ['}']).Sublist u ∧
        (Strict u → Tok.textList v ++ ['}'] = u) ∧
        (NoEscapedNewline u → line' = line + u.count '\n') ∧
        (NoEscapedNewline u → (Tok.textList v).count '\n' = u.count '\n')) := by
  induction fuel with
  | zero =>
    refine ⟨?_, ?_, ?_⟩
    · intro sv s line t sv' r line' h; simp [pullNext] at h
    · intro s line t r line' h; simp [pullSubst] at h
    · intro sv e s line e' r line' _ h; simp [substLoop] at h
  | succ fuel ih =>
    obtain ⟨ihN, ihS, ihL⟩ := ih
    refine ⟨?_, ?_, ?_⟩
    · intro sv s line t sv' r line' h
      rw [pullNext] at h
      split at h
      · rename_i ws heq
        simp only [Res.ok.injEq, Prod.mk.injEq] at h
        obtain ⟨rfl, rfl, rfl, rfl⟩ := h
        obtain ⟨h1, h2⟩ := nextChar_none heq
        exact ⟨s, h2, h1, rfl, Or.inl ⟨rfl, rfl, rfl, rfl⟩⟩
      · rename_i ws c r0 heq
        obtain ⟨w, h1, h2, h3, h4⟩ := nextChar_some heq
        by_cases hc : c = '\n'
        · simp only [if_pos hc, Res.ok.injEq, Prod.mk.injEq] at h
          obtain ⟨rfl, rfl, rfl, rfl⟩ := h
          refine ⟨w, h3, h1, rfl, Or.inr ⟨['\n'], by simp [h2, hc], ?_⟩⟩
          refine ⟨by simp, by simp [Tok.text], by simp [Tok.text], by simp, by simp [Tok.text], ?_,
            by simp, by simp, by simp⟩
          intro l hl
          simpa using hl.symm
        · simp only [if_neg hc] at h
          by_cases hd : c = '$'
          · simp only [if_pos hd] at h
            rw [Res.bind_eq_ok] at h
            obtain ⟨⟨t0, r1, l1⟩, hp, h⟩ := h
            simp only [Res.ok.injEq, Prod.mk.injEq] at h
            obtain ⟨rfl, rfl, rfl, rfl⟩ := h
            obtain ⟨u, g1, g2, _⟩ := ihS _ _ _ _ _ hp
            exact ⟨w, h3, h1, rfl, Or.inr ⟨'$' :: u, by simp [h2, hd, g1], g2⟩⟩
          · simp only [if_neg hd] at h
            rw [Res.bind_eq_ok] at h
            obtain ⟨⟨t0, r1, l1⟩, hp, h⟩ := h
            simp only [Res.ok.injEq, Prod.mk.injEq] at h
            obtain ⟨rfl, rfl, rfl, rfl⟩ := h
            obtain ⟨u, g1, g2⟩ := pullPlain_spec hc h4 hp
            exact ⟨w, h3, h1, rfl, Or.inr ⟨c :: u, by simp [h2, g1], g2⟩⟩
    · intro s line t r line' h
      rw [pullSubst] at h
      have key : ∀ (o : Bool) (q r0 : Str) (e' : List Tok), (q = if o then ['{', '?'] else ['{']) →
          substLoop env allow fuel Saver.init [] r0 line = .ok (e', r, line') →
          ∃ u, q ++ r0 = u ++ r ∧ TokSpec (.subst o e' line') ('$' :: u) line line' := by
        intro o q r0 e' hq hl
        obtain ⟨u, v, h1, h2, h3, h4, h5, h6⟩ := ihL _ _ _ _ _ _ _ rfl hl
        have hqn : q.count '\n' = 0 := by subst hq; cases o <;> decide
        refine ⟨q ++ u, by simp [h1], ⟨by simp, ?_, ?_, ?_, ?_, by simp, ?_, by simp, by simp⟩⟩
        · subst hq
          simp only [Tok.text, h2, List.nil_append]
          cases o <;> simpa using h3
        · intro hf
          have hst : Strict u := by
            refine ⟨fun hm => hf.1 (by simp [hm]), ?_⟩
            rcases hf.2 with hf | hf
            · exact absurd (by simp) hf
            · intro a x b he
              exact hf ('$' :: q ++ a) x b (by simp [he])
          rw [← h4 hst]
          subst hq
          simp only [Tok.text, h2, List.nil_append]
          cases o <;> simp
        · intro hn
          have hu : NoEscapedNewline u := NoEscapedNewline.right (a := '$' :: q) (by simpa using hn)
          rw [List.count_cons_of_ne (by decide), List.count_append, hqn, h5 hu]
          omega
        · intro hn
          have hu : NoEscapedNewline u := NoEscapedNewline.right (a := '$' :: q) (by simpa using hn)
          have hz := h6 hu
          rw [List.count_cons_of_ne (by decide), List.count_append, hqn, ← hz, h2]
          cases o <;> simp [Tok.text, List.count_append]
        · intro l _ hl
          simpa [Tok.originLine] using hl.symm
      split at h
      · rename_i o r0 hso
        rw [Res.bind_eq_ok] at h
        obtain ⟨⟨e', r1, l1⟩, hp, h⟩ := h
        simp only [Res.ok.injEq, Prod.mk.injEq] at h
        obtain ⟨rfl, rfl, rfl⟩ := h
        obtain ⟨u, h1, h2⟩ := key o _ _ _ rfl hp
        refine ⟨u, ?_, h2, rfl⟩
        rw [← h1, substOpen_spec hso]
      · simp at h
    · intro sv e s line e' r line' hsv h
      rw [substLoop] at h
      split at h
      · rename_i sv1 r1 l1 heq
        simp only [Res.ok.injEq, Prod.mk.injEq] at h
        obtain ⟨rfl, rfl, rfl⟩ := h
        obtain ⟨w, h1, h2, h3, h4⟩ := ihN _ _ _ _ _ _ _ heq
        rcases h4 with ⟨h4, _⟩ | ⟨u, h4, h5⟩
        · simp at h4
        refine ⟨w ++ u, [], h4, by simp, ?_, ?_, ?_, ?_⟩
        · have := h5.sub
          simp only [Tok.text] at this
          simpa [Tok.textList] using this.trans (List.sublist_append_right w u)
        · intro hs
          have hu := h5.exact hs.right.faithful
          simp only [Tok.text] at hu
          have hw : w = [] := by
            rcases List.eq_nil_or_concat w with h | ⟨w', x, rfl⟩
            · exact h
            · exfalso
              have := hs.2 w' x [] (by simp [← hu])
              rw [h1 x (by simp)] at this
              simp at this
          simp [hw, ← hu, Tok.textList]
        · intro hn
          rw [List.count_append, h1.count_newline, h5.lines hn.right]
          omega
        · intro hn
          rw [List.count_append, h1.count_newline, ← h5.nl hn.right]
          simp [Tok.text, Tok.textList]
      · simp at h
      · rename_i t sv1 r1 l1 hne hne2 heq
        have hcl : t ≠ .closeCurly := by
          rintro rfl; exact hne rfl
        obtain ⟨w, h1, h2, h3, h4⟩ := ihN _ _ _ _ _ _ _ heq
        rcases h4 with ⟨h4, _⟩ | ⟨u, h4, h5⟩
        · exact absurd h4 hne2
        simp only at h
        obtain ⟨u2, v, g1, g2, g3, g4, g5, g6⟩ := ihL _ _ _ _ _ _ _ (Saver.check_ws _ _ _) h
        refine ⟨w ++ u ++ u2, (sv1.check t.isSimple l1).1.toList ++ t :: v, by simp [h4, g1],
          by simp [g2], ?_, ?_, ?_, ?_⟩
        · have := ((List.Sublist.refl w).append h5.sub).append g3
          simpa [Tok.textList_append, Saver.check_text, h2, hsv, Tok.textList] using this
        · intro hs
          have e1 := h5.exact (Strict.infix (a := w) (b := u2) hs).faithful
          have e2 := g4 hs.right
          rw [← e2, ← e1]
          simp [Tok.textList_append, Saver.check_text, h2, hsv, Tok.textList]
        · intro hn
          rw [List.count_append, List.count_append, h1.count_newline, g5 hn.right,
            h5.lines (NoEscapedNewline.infix (a := w) (b := u2) hn)]
          omega
        · intro hn
          rw [Tok.textList_append, Saver.check_text, h2, hsv, Tok.textList, List.nil_append,
            List.count_append, List.count_append, List.count_append, List.count_append,
            h5.nl (NoEscapedNewline.infix (a := w) (b := u2) hn), g6 hn.right]
          omega
      · simp at h
      · simp at h
      · simp at h

theorem pullNext_spec {env : Env} {allow : Bool} {fuel : Nat} {sv : Saver} {s : Str} {line : Nat}
    {t : Tok} {sv' : Saver} {r : Str} {line' : Nat}
    (h : pullNext env allow fuel sv s line = .ok (t, sv', r, line')) :
    PullSpec sv s line t sv' r line' :=
  (pull_specs env allow fuel).1 _ _ _ _ _ _ _ h

/-- `tokenLoop` as a relation: the tokens, with the input consumed by each. -/
inductive Lexed : Saver → Str → Nat → List Tok → Prop where
  | done {sv : Saver} {w : Str} {line : Nat} {sv' : Saver} (hw : AllBlank w)
      (hsv : sv'.ws = sv.ws ++ w) (hls : sv'.lastSimple = sv.lastSimple) :
      Lexed sv w line ((sv'.check false line).1.toList ++ [.end_])
  | step {sv : Saver} {w u r : Str} {line line' : Nat} {sv' : Saver} {t : Tok} {ts : List Tok}
      (hw : AllBlank w) (hsv : sv'.ws = sv.ws ++ w) (hls : sv'.lastSimple = sv.lastSimple)
      (ht : TokSpec t u line line')
      (htl : Lexed (sv'.check t.isSimple line').2 r line' ts) :
      Lexed sv (w ++ u ++ r) line ((sv'.check t.isSimple line').1.toList ++ t :: ts)

theorem tokenLoop_lexed {env : Env} {allow : Bool} {fuel : Nat} {sv : Saver} {s : Str} {line : Nat}
    {ts : List Tok} (h : tokenLoop env allow fuel sv s line = .ok ts) : Lexed sv s line ts := by
  induction fuel generalizing sv s line ts with
  | zero => simp [tokenLoop] at h
  | succ fuel ih =>
    rw [tokenLoop] at h
    split at h
    · rename_i t sv1 r1 l1 heq
      obtain ⟨w, h1, h2, h3, h4⟩ := pullNext_spec heq
      simp only at h
      split at h
      · rcases h4 with ⟨_, g2, rfl, rfl⟩ | ⟨u, h4, h5⟩
        · simp only [Res.ok.injEq] at h
          subst h
          exact Lexed.done h1 h2 h3
        · exact absurd rfl h5.notEnd
      · rename_i hne
        rcases h4 with ⟨h4, _⟩ | ⟨u, h4, h5⟩
        · exact absurd h4 hne
        rw [Res.bind_eq_ok] at h
        obtain ⟨ts', hp, h⟩ := h
        simp only [Res.ok.injEq] at h
        subst h
        subst h4
        exact Lexed.step h1 h2 h3 h5 (ih hp)
    · simp at h
    · simp at h
    · simp at h

/-! ## Fuel -/

theorem quotedLoop_ne_fuel (env : Env) (res o s : Str) : quotedLoop env res o s ≠ .fuel := by
  fun_induction quotedLoop env res o s <;> simp_all

theorem tripleLoop_ne_fuel (p o : Str) (q line : Nat) (s : Str) : tripleLoop p o q line s ≠ .fuel := by
  fun_induction tripleLoop p o q line s <;> simp_all

theorem Res.bind_ne_fuel {α β : Type} {x : Res α} {f : α → Res β} (hx : x ≠ .fuel)
    (hf : ∀ a, x = .ok a → f a ≠ .fuel) : (x >>= f) ≠ .fuel := by
  cases x with
  | ok a => exact hf a rfl
  | err => simp
  | ub => simp
  | fuel => exact absurd rfl hx

theorem pullQuoted_ne_fuel (env : Env) (s : Str) (line : Nat) : pullQuoted env s line ≠ .fuel := by
  unfold pullQuoted
  refine Res.bind_ne_fuel (quotedLoop_ne_fuel _ _ _ _) ?_
  rintro ⟨a, b, c⟩ _
  simp only
  split
  · split
    · refine Res.bind_ne_fuel (tripleLoop_ne_fuel _ _ _ _ _) ?_
      simp
    · simp
  · simp

theorem newNumberDouble_ne_fuel (env : Env) (d : Dbl) (t : Str) : newNumberDouble env d t ≠ .fuel := by
  unfold newNumberDouble
  split
  · simp
  · split <;> simp

theorem notANumber_ne_fuel (t : Str) (line : Nat) : notANumber t line ≠ .fuel := by
  unfold notANumber
  split <;> simp

theorem pullNumber_ne_fuel (env : Env) (c : Char) (s : Str) (line : Nat) :
    pullNumber env c s line ≠ .fuel := by
  unfold pullNumber
  simp only
  split
  · split
    · exact Res.bind_ne_fuel (newNumberDouble_ne_fuel _ _ _) (by simp)
    · exact Res.bind_ne_fuel (notANumber_ne_fuel _ _) (by simp)
  · split
    · simp
    · exact Res.bind_ne_fuel (notANumber_ne_fuel _ _) (by simp)

theorem pullPlain_ne_fuel (env : Env) (allow : Bool) (c : Char) (s : Str) (line : Nat) :
    pullPlain env allow c s line ≠ .fuel := by
  unfold pullPlain
  by_cases hcm : startOfComment allow c s = true
  · rw [if_pos hcm]
    refine Res.bind_ne_fuel ?_ (by simp)
    unfold pullComment
    split
    · split <;> simp
    · simp
  · rw [if_neg hcm]
    by_cases hq : c = '"'
    · rw [if_pos hq]; exact pullQuoted_ne_fuel _ _ _
    · rw [if_neg hq]
      cases hpt : punctuation c with
      | some t1 => simp
      | none =>
        simp only
        by_cases hx : c = '+'
        · rw [if_pos hx]
          refine Res.bind_ne_fuel ?_ (by simp)
          unfold pullPlusEquals
          split <;> simp
        · rw [if_neg hx]
          refine Res.bind_ne_fuel ?_ (by simp)
          unfold pullWord
          split
          · exact pullNumber_ne_fuel _ _ _ _
          · split <;> simp

/-- Enough fuel for one token. -/
theorem pull_fuel (env : Env) (allow : Bool) (fuel : Nat) :
    (∀ sv s line, 2 * s.length + 1 ≤ fuel → pullNext env allow fuel sv s line ≠ .fuel) ∧
    (∀ s line, 2 * s.length + 1 ≤ fuel → pullSubst env allow fuel s line ≠ .fuel) ∧
    (∀ sv e s line, 2 * s.length + 2 ≤ fuel → substLoop env allow fuel sv e s line ≠ .fuel) := by
  induction fuel with
  | zero => refine ⟨?_, ?_, ?_⟩ <;> intros <;> omega
  | succ fuel ih =>
    obtain ⟨ihN, ihS, ihL⟩ := ih
    refine ⟨?_, ?_, ?_⟩
    · intro sv s line hf
      rw [pullNext]
      split
      · simp
      · rename_i ws c r heq
        obtain ⟨w, h1, h2, h3, h4⟩ := nextChar_some heq
        have hlen : r.length + 1 ≤ s.length := by rw [h2]; simp
        by_cases hc : c = '\n'
        · simp [if_pos hc]
        · simp only [if_neg hc]
          by_cases hd : c = '$'
          · simp only [if_pos hd]
            exact Res.bind_ne_fuel (ihS _ _ (by omega)) (by simp)
          · simp only [if_neg hd]
            exact Res.bind_ne_fuel (pullPlain_ne_fuel _ _ _ _ _) (by simp)
    · intro s line hf
      rw [pullSubst]
      split
      · rename_i o r hso
        have hlen : r.length + 1 ≤ s.length := by
          rw [substOpen_spec hso]
          cases o <;> simp <;> omega
        exact Res.bind_ne_fuel (ihL _ _ _ _ (by omega)) (by simp)
      · simp
    · intro sv e s line hf
      rw [substLoop]
      split
      · simp
      · simp
      · rename_i t sv1 r1 l1 hne hne2 heq
        obtain ⟨w, h1, h2, h3, h4⟩ := pullNext_spec heq
        rcases h4 with ⟨h4, _⟩ | ⟨u, h4, h5⟩
        · exact absurd h4 hne2
        have hu : 0 < u.length := List.length_pos_iff.2 h5.nonempty
        refine ihL _ _ _ _ ?_
        rw [h4] at hf
        simp only [List.length_append] at hf
        omega
      · simp
      · simp
      · rename_i heq
        exact absurd heq (ihN _ _ _ (by omega))

/-- More fuel does not change a result. -/
theorem pull_mono (env : Env) (allow : Bool) (fuel : Nat) :
    (∀ sv s line, pullNext env allow fuel sv s line ≠ .fuel →
      pullNext env allow (fuel + 1) sv s line = pullNext env allow fuel sv s line) ∧
    (∀ s line, pullSubst env allow fuel s line ≠ .fuel →
      pullSubst env allow (fuel + 1) s line = pullSubst env allow fuel s line) ∧
    (∀ sv e s line, substLoop env allow fuel sv e s line ≠ .fuel →
      substLoop env allow (fuel + 1) sv e s line = substLoop env allow fuel sv e s line) := by
  induction fuel with
  | zero => refine ⟨?_, ?_, ?_⟩ <;> intros <;> simp_all [pullNext, pullSubst, substLoop]
  | succ fuel ih =>
    obtain ⟨ihN, ihS, ihL⟩ := ih
    refine ⟨?_, ?_, ?_⟩
    · intro sv s line hf
      rw [pullNext] at hf ⊢
      rw [pullNext]
      cases hnc : nextCharAfterWhitespace sv.ws s with
      | mk ws o =>
        cases o with
        | none => rfl
        | some cr =>
          obtain ⟨c, r⟩ := cr
          simp only [hnc] at hf ⊢
          by_cases hc : c = '\n'
          · simp only [if_pos hc]
          · simp only [if_neg hc] at hf ⊢
            by_cases hd : c = '$'
            · simp only [if_pos hd] at hf ⊢
              rw [ihS]
              intro hx
              rw [hx] at hf
              exact hf rfl
            · simp only [if_neg hd]
    · intro s line hf
      rw [pullSubst] at hf ⊢
      rw [pullSubst]
      cases hso : substOpen s with
      | none => rfl
      | some or =>
        obtain ⟨o, r⟩ := or
        simp only [hso] at hf ⊢
        rw [ihL]
        intro hx
        rw [hx] at hf
        exact hf rfl
    · intro sv e s line hf
      rw [substLoop] at hf ⊢
      rw [substLoop]
      have hN : pullNext env allow fuel sv s line ≠ .fuel := by
        intro hx; rw [hx] at hf; exact hf rfl
      rw [ihN _ _ _ hN]
      cases hp : pullNext env allow fuel sv s line with
      | ok x =>
        obtain ⟨t, sv1, r1, l1⟩ := x
        rw [hp] at hf
        cases t <;> first
          | rfl
          | (simp only at hf ⊢
             exact ihL _ _ _ _ hf)
      | err => rfl
      | ub => rfl
      | fuel => exact absurd hp hN

theorem pullNext_mono {env : Env} {allow : Bool} {f f' : Nat} (hle : f ≤ f') {sv : Saver} {s : Str}
    {line : Nat} (h : pullNext env allow f sv s line ≠ .fuel) :
    pullNext env allow f' sv s line = pullNext env allow f sv s line := by
  obtain ⟨k, rfl⟩ := Nat.exists_eq_add_of_le hle
  induction k with
  | zero => rfl
  | succ k ih =>
    have hk := ih (Nat.le_add_right _ _)
    rw [← Nat.add_assoc, (pull_mono env allow (f + k)).1 _ _ _ (by rw [hk]; exact h), hk]

theorem tokenLoop_ne_fuel {env : Env} {allow : Bool} {fuel : Nat} {sv : Saver} {s : Str}
    {line : Nat} (hf : s.length + 1 ≤ fuel) : tokenLoop env allow fuel sv s line ≠ .fuel := by
  induction fuel generalizing sv s line with
  | zero => omega
  | succ fuel ih =>
    rw [tokenLoop]
    split
    · rename_i t sv1 r1 l1 heq
      simp only
      split
      · simp
      · rename_i hne
        obtain ⟨w, h1, h2, h3, h4⟩ := pullNext_spec heq
        rcases h4 with ⟨h4, _⟩ | ⟨u, h4, h5⟩
        · exact absurd h4 hne
        have hu : 0 < u.length := List.length_pos_iff.2 h5.nonempty
        refine Res.bind_ne_fuel (ih ?_) (by simp)
        rw [h4] at hf
        simp only [List.length_append] at hf
        omega
    · simp
    · simp
    · rename_i heq
      exact absurd heq ((pull_fuel env allow _).1 _ _ _ (Nat.le_refl _))

theorem tokenLoop_mono {env : Env} {allow : Bool} {f : Nat} (k : Nat) {sv : Saver} {s : Str}
    {line : Nat} (h : tokenLoop env allow f sv s line ≠ .fuel) :
    tokenLoop env allow (f + k) sv s line = tokenLoop env allow f sv s line := by
  induction f generalizing sv s line with
  | zero => simp [tokenLoop] at h
  | succ f ih =>
    have hk : f + 1 + k = (f + k) + 1 := by omega
    rw [hk, tokenLoop]
    rw [tokenLoop] at h ⊢
    cases hp : pullNext env allow (2 * s.length + 1) sv s line with
    | ok x =>
      obtain ⟨t, sv1, r1, l1⟩ := x
      rw [hp] at h
      cases t <;> first
        | rfl
        | (simp only at h ⊢
           rw [ih]
           intro hx
           rw [hx] at h
           exact h rfl)
    | err => rfl
    | ub => rfl
    | fuel => rfl

end Tokenizer
end Hocon
