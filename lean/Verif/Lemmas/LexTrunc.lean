import Verif.Lemmas.TokenizerLocal

/-!
# The tokenizer on a shorter input

The converse of `pull_local`: what has been read from a text is read from the part of it that was looked at.
-/

set_option autoImplicit false

namespace Hocon
namespace Tokenizer

/-- A rest that still contains `y`. -/
theorem rest_split {s y u R : Str} (h : s ++ y = u ++ R) (hl : y.length ≤ R.length) :
    ∃ r, R = r ++ y ∧ s = u ++ r := by
  have hu : u.length ≤ s.length := by
    have := congrArg List.length h
    simp at this
    omega
  obtain ⟨r, hr⟩ : ∃ r, s = u ++ r := by
    refine ⟨s.drop u.length, ?_⟩
    have h1 : s.take u.length = u := by
      have := congrArg (List.take u.length) h
      rwa [List.take_append_of_le_length hu, List.take_left' rfl] at this
    conv => lhs; rw [← List.take_append_drop u.length s, h1]
  subst hr
  rw [List.append_assoc] at h
  exact ⟨r, (List.append_cancel_left h).symm, rfl⟩

theorem no_rest {y u r : Str} (h : y = u ++ (r ++ y)) : r = [] := by
  have := congrArg List.length h
  simp at this
  exact List.length_eq_zero_iff.1 (by omega)

theorem commentBody_trunc {s y b r : Str} (h : commentBody (s ++ y) = (b, r ++ y)) (hr : r ≠ []) :
    commentBody s = (b, r) := by
  induction s generalizing b with
  | nil =>
    have := (commentBody_spec y).1
    rw [List.nil_append] at h
    rw [h] at this
    exact absurd (no_rest this.symm) hr
  | cons c s ih =>
    rw [List.cons_append, commentBody] at h
    rw [commentBody]
    split at h
    · rename_i hc
      rw [if_pos hc]
      simp only [Prod.mk.injEq] at h ⊢
      refine ⟨h.1, ?_⟩
      have : (c :: s) ++ y = r ++ y := h.2
      exact List.append_cancel_right this
    · rename_i hc
      rw [if_neg hc]
      cases hb : commentBody (s ++ y) with
      | mk b' r' =>
        rw [hb] at h
        simp only [Prod.mk.injEq] at h
        obtain ⟨rfl, rfl⟩ := h
        rw [ih hb]

theorem numberBody_trunc {s y b r : Str} (h : numberBody (s ++ y) = (b, r ++ y)) (hr : r ≠ []) :
    numberBody s = (b, r) := by
  induction s generalizing b with
  | nil =>
    have := (numberBody_spec y).1
    rw [List.nil_append] at h
    rw [h] at this
    exact absurd (no_rest this.symm) hr
  | cons c s ih =>
    rw [List.cons_append, numberBody] at h
    rw [numberBody]
    split at h
    · rename_i hc
      rw [if_pos hc]
      cases hb : numberBody (s ++ y) with
      | mk b' r' =>
        rw [hb] at h
        simp only [Prod.mk.injEq] at h
        obtain ⟨rfl, rfl⟩ := h
        rw [ih hb]
    · rename_i hc
      rw [if_neg hc]
      simp only [Prod.mk.injEq] at h ⊢
      refine ⟨h.1, ?_⟩
      have : (c :: s) ++ y = r ++ y := h.2
      exact List.append_cancel_right this

theorem pullUnquoted_trunc {allow : Bool} {line : Nat} {acc s y : Str} {t : Tok} {r : Str}
    (h : pullUnquoted allow line acc (s ++ y) = (t, r ++ y)) (hr : r ≠ []) (hr2 : r ≠ ['/']) :
    pullUnquoted allow line acc s = (t, r) := by
  induction s generalizing acc with
  | nil =>
    obtain ⟨u, hu, _⟩ := pullUnquoted_spec h
    exact absurd (no_rest hu) hr
  | cons c s ih =>
    have hs : startOfComment allow c (s ++ y) = startOfComment allow c s := by
      cases s with
      | cons a s => rfl
      | nil =>
        by_cases hsl : c = '/'
        · exfalso
          subst hsl
          simp only [List.cons_append, List.nil_append] at h
          rw [pullUnquoted] at h
          split at h
          · simp only [Prod.mk.injEq] at h
            have : ['/'] ++ y = r ++ y := h.2
            exact hr2 (List.append_cancel_right this).symm
          · simp only at h
            repeat' split at h
            all_goals first
              | (simp only [Prod.mk.injEq] at h
                 exact hr (no_rest (u := []) h.2))
              | (obtain ⟨u, hu, _⟩ := pullUnquoted_spec h
                 exact hr (no_rest hu))
        · have hb : (c == '/') = false := by simpa using hsl
          simp [startOfComment, hb]
    rw [List.cons_append, pullUnquoted, hs] at h
    rw [pullUnquoted]
    have fin : ∀ {x z : Tok} {a : Str}, (x, a ++ y) = (z, r ++ y) → (x, a) = (z, r) := by
      intro x z a e
      simp only [Prod.mk.injEq] at e ⊢
      exact ⟨e.1, List.append_cancel_right e.2⟩
    split at h
    · rename_i hc
      rw [if_pos hc]
      exact fin (a := c :: s) h
    · rename_i hc
      rw [if_neg hc]
      simp only at h ⊢
      split at h
      · rename_i hk
        rw [if_pos hk]
        exact fin h
      · rename_i hk
        rw [if_neg hk]
        split at h
        · rename_i hk
          rw [if_pos hk]
          exact fin h
        · rename_i hk
          rw [if_neg hk]
          split at h
          · rename_i hk
            rw [if_pos hk]
            exact fin h
          · rename_i hk
            rw [if_neg hk]
            exact ih h

theorem pullNumber_trunc {env : Env} {c : Char} {s y : Str} {line : Nat} {t : Tok} {r : Str}
    (h : pullNumber env c (s ++ y) line = .ok (t, r ++ y)) (hr : r ≠ []) :
    pullNumber env c s line = .ok (t, r) := by
  have hb : r ++ y = (numberBody (s ++ y)).2 := by
    unfold pullNumber at h
    simp only at h
    repeat' split at h
    all_goals first
      | (rw [Res.bind_eq_ok] at h
         obtain ⟨v, hv, h⟩ := h
         simp only [Res.ok.injEq, Prod.mk.injEq] at h
         exact h.2.symm)
      | (simp only [Res.ok.injEq, Prod.mk.injEq] at h
         exact h.2.symm)
  have hl := numberBody_trunc (s := s) (y := y) (b := (numberBody (s ++ y)).1) (r := r) (by rw [hb]) hr
  unfold pullNumber at h ⊢
  rw [hl]
  simp only at h ⊢
  split at h
  · rename_i hd
    rw [if_pos hd]
    split at h
    · rename_i d hp
      try simp only
      rw [Res.bind_eq_ok] at h
      obtain ⟨v, hv, h⟩ := h
      simp only [Res.ok.injEq, Prod.mk.injEq] at h
      obtain ⟨rfl, _⟩ := h
      rw [hv]
      rfl
    · rename_i hp
      try simp only
      rw [Res.bind_eq_ok] at h
      obtain ⟨v, hv, h⟩ := h
      simp only [Res.ok.injEq, Prod.mk.injEq] at h
      obtain ⟨rfl, _⟩ := h
      rw [hv]
      rfl
  · rename_i hd
    rw [if_neg hd]
    split at h
    · rename_i d hp
      simp only [Res.ok.injEq, Prod.mk.injEq] at h
      obtain ⟨rfl, _⟩ := h
      rfl
    · rename_i hp
      try simp only
      rw [Res.bind_eq_ok] at h
      obtain ⟨v, hv, h⟩ := h
      simp only [Res.ok.injEq, Prod.mk.injEq] at h
      obtain ⟨rfl, _⟩ := h
      rw [hv]
      rfl

theorem quotedLoop_trunc (n : Nat) {env : Env} {res o s y : Str} {res' o' r : Str} (hn : s.length ≤ n)
    (h : quotedLoop env res o (s ++ y) = .ok (res', o', r ++ y)) :
    quotedLoop env res o s = .ok (res', o', r) := by
  have short : ∀ {res o z : Str}, quotedLoop env res o z = .ok (res', o', r ++ y) → y.length < z.length := by
    intro res o z hz
    obtain ⟨u, v, h1, _, h3, _⟩ := quotedLoop_spec hz
    have := congrArg List.length h1
    have hp := List.length_pos_iff.2 h3
    simp at this
    omega
  induction n generalizing res o s with
  | zero =>
    have hs : s = [] := List.length_eq_zero_iff.1 (by omega)
    subst hs
    have := short h
    simp at this
  | succ n ih =>
    cases s with
    | nil =>
      have := short h
      simp at this
    | cons c s =>
      rw [List.cons_append] at h
      by_cases hb : c = '\\'
      · subst hb
        cases s with
        | nil =>
          exfalso
          rw [List.nil_append, quotedLoop.eq_def] at h
          simp only [if_true] at h
          cases y with
          | nil => simp at h
          | cons e y1 =>
            simp only at h
            split at h
            · have := short h
              simp at this
              omega
            · split at h
              · split at h
                · split at h
                  · simp at h
                  · have := short h
                    simp at this
                    omega
                · split at h <;> simp at h
                · simp at h
              · simp at h
        | cons e s =>
          rw [List.cons_append] at h
          cases hp : simpleEscape e with
          | some p =>
            rw [quotedLoop_escape _ hp] at h ⊢
            exact ih (by simp at hn; omega) h
          | none =>
            rw [quotedLoop.eq_def] at h
            simp only [if_true, hp] at h
            split at h
            · rename_i hu
              subst hu
              split at h
              · rename_i a b c' d r2 heq
                split at h
                · simp at h
                · rename_i m hm
                  have hlen := short h
                  obtain ⟨s', hs', hs''⟩ := rest_split (s := s) (y := y) (u := [a, b, c', d]) (R := r2) heq (by omega)
                  subst hs' hs''
                  have := ih (by simp at hn; omega) h
                  rw [quotedLoop.eq_def]
                  simp only [if_true, hp]
                  simp only [List.cons_append, List.nil_append, hm]
                  exact this
              · split at h <;> simp at h
              · simp at h
            · simp at h
      · by_cases hq : c = '"'
        · subst hq
          rw [quotedLoop_close] at h ⊢
          simp only [Res.ok.injEq, Prod.mk.injEq] at h ⊢
          exact ⟨h.1, h.2.1, List.append_cancel_right h.2.2⟩
        · by_cases hc : isC0Control c = true
          · rw [quotedLoop.eq_def] at h
            simp [hb, hq, hc] at h
          · rw [quotedLoop_char _ hb hq (by simpa using hc)] at h ⊢
            exact ih (by simp at hn; omega) h

theorem tripleLoop_trunc {p o : Str} {q line : Nat} {s y p' o' r : Str} {line' : Nat}
    (h : tripleLoop p o q line (s ++ y) = .ok (p', o', r ++ y, line')) (hr : r ≠ []) :
    tripleLoop p o q line s = .ok (p', o', r, line') := by
  induction s generalizing p o q line with
  | nil =>
    obtain ⟨u, hu, _⟩ := tripleLoop_spec h
    exact absurd (no_rest hu) hr
  | cons c s ih =>
    rw [List.cons_append, tripleLoop] at h
    rw [tripleLoop]
    split at h
    · rename_i hc
      rw [if_pos hc]
      exact ih h
    · rename_i hc
      rw [if_neg hc]
      split at h
      · rename_i hq
        rw [if_pos hq]
        simp only [Res.ok.injEq, Prod.mk.injEq] at h ⊢
        refine ⟨h.1, h.2.1, ?_, h.2.2.2⟩
        have : (c :: s) ++ y = r ++ y := h.2.2.1
        exact List.append_cancel_right this
      · rename_i hq
        rw [if_neg hq]
        exact ih h

theorem pullQuoted_trunc {env : Env} {s y : Str} {line : Nat} {t : Tok} {r : Str} {line' : Nat}
    (h : pullQuoted env (s ++ y) line = .ok (t, r ++ y, line')) (hr : r ≠ []) :
    pullQuoted env s line = .ok (t, r, line') := by
  unfold pullQuoted at h ⊢
  rw [Res.bind_eq_ok] at h
  obtain ⟨⟨res, o, r0⟩, hq, h⟩ := h
  obtain ⟨u, _, hu, _⟩ := quotedLoop_spec hq
  simp only at h
  have hlen : y.length < r0.length := by
    have hrl := List.length_pos_iff.2 hr
    split at h
    · split at h
      · rw [Res.bind_eq_ok] at h
        obtain ⟨⟨p, o2, r2, l2⟩, ht, h⟩ := h
        simp only [Res.ok.injEq, Prod.mk.injEq] at h
        obtain ⟨rfl, rfl, rfl⟩ := h
        obtain ⟨u2, hu2, _⟩ := tripleLoop_spec ht
        have := congrArg List.length hu2
        simp at this ⊢
        omega
      · simp only [Res.ok.injEq, Prod.mk.injEq] at h
        rw [h.2.1]; simp; omega
    · simp only [Res.ok.injEq, Prod.mk.injEq] at h
      rw [h.2.1]; simp; omega
  obtain ⟨r0', rfl, rfl⟩ := rest_split hu (by omega)
  rw [quotedLoop_trunc _ (Nat.le_refl _) hq]
  simp only [Res.ok_bind]
  have hr0 : r0' ≠ [] := by
    rintro rfl
    simp at hlen
  split at h
  · rename_i he
    rw [if_pos he]
    cases r0' with
    | nil => exact absurd rfl hr0
    | cons a r0' =>
      by_cases ha : a = '"'
      · subst ha
        simp only [List.cons_append] at h ⊢
        rw [Res.bind_eq_ok] at h
        obtain ⟨⟨p, o2, r2, l2⟩, ht, h⟩ := h
        simp only [Res.ok.injEq, Prod.mk.injEq] at h
        obtain ⟨rfl, rfl, rfl⟩ := h
        rw [tripleLoop_trunc ht hr]
        rfl
      · split at h
        · rename_i heq
          simp only [List.cons_append, List.cons.injEq] at heq
          exact absurd heq.1 ha
        · split
          · rename_i heq
            simp only [List.cons.injEq] at heq
            exact absurd heq.1 ha
          · simp only [Res.ok.injEq, Prod.mk.injEq] at h ⊢
            exact ⟨h.1, List.append_cancel_right h.2.1, h.2.2⟩
  · rename_i he
    rw [if_neg he]
    simp only [Res.ok.injEq, Prod.mk.injEq] at h ⊢
    exact ⟨h.1, List.append_cancel_right h.2.1, h.2.2⟩

/-- What has to remain of the shorter input. -/
def Enough (t : Tok) (r : Str) : Prop := (r ≠ [] ∧ r ≠ ['/']) ∨ closedTok t = true

theorem pullUnquoted_open {allow : Bool} {line : Nat} {acc s : Str} {t : Tok} {d : Str}
    (hd : pullUnquoted allow line acc s = (t, d)) : closedTok t = false := by
  induction s generalizing acc with
  | nil =>
    simp only [pullUnquoted, Prod.mk.injEq] at hd
    rw [← hd.1]; rfl
  | cons c s ih =>
    simp only [pullUnquoted] at hd
    repeat' split at hd
    all_goals first
      | exact ih hd
      | (simp only [Prod.mk.injEq] at hd; rw [← hd.1]; rfl)

theorem pullNumber_open {env : Env} {c : Char} {s : Str} {line : Nat} {t : Tok} {d : Str}
    (hd : pullNumber env c s line = .ok (t, d)) : closedTok t = false := by
  unfold pullNumber at hd
  simp only at hd
  repeat' split at hd
  all_goals first
    | (rw [Res.bind_eq_ok] at hd
       obtain ⟨v, hv, hd⟩ := hd
       simp only [Res.ok.injEq, Prod.mk.injEq] at hd
       obtain ⟨rfl, _⟩ := hd
       first
         | rfl
         | (rw [notANumber_spec hv]; rfl))
    | (simp only [Res.ok.injEq, Prod.mk.injEq] at hd
       obtain ⟨rfl, _⟩ := hd
       rfl)

theorem pullWord_open {env : Env} {allow : Bool} {c : Char} {s : Str} {line : Nat} {t : Tok} {d : Str}
    (hd : pullWord env allow c s line = .ok (t, d)) : closedTok t = false := by
  unfold pullWord at hd
  split at hd
  · exact pullNumber_open hd
  · split at hd
    · simp at hd
    · simp only [Res.ok.injEq] at hd
      exact pullUnquoted_open hd

theorem pullComment_open {c : Char} {s : Str} {line : Nat} {t : Tok} {d : Str}
    (hd : pullComment c s line = .ok (t, d)) : closedTok t = false := by
  unfold pullComment at hd
  split at hd
  · split at hd
    · simp only [Res.ok.injEq, Prod.mk.injEq] at hd
      rw [← hd.1]; rfl
    · simp at hd
  · simp only [Res.ok.injEq, Prod.mk.injEq] at hd
    rw [← hd.1]; rfl

theorem pullPlain_trunc {env : Env} {allow : Bool} {c : Char} {s y : Str} {line : Nat} {t : Tok}
    {r : Str} {line' : Nat} (hc : c ≠ '\n') (hw : isWhitespaceNotNewline c = false)
    (h : pullPlain env allow c (s ++ y) line = .ok (t, r ++ y, line')) (hr : Enough t r) :
    pullPlain env allow c s line = .ok (t, r, line') := by
  have hcomm : startOfComment allow c (s ++ y) = startOfComment allow c s := by
    cases s with
    | cons a s => rfl
    | nil =>
      by_cases hsl : c = '/'
      · exfalso
        obtain ⟨u, hu, _⟩ := pullPlain_spec hc hw h
        have hr0 := no_rest (by simpa using hu)
        subst hr0
        have hcl : closedTok t = true := by
          rcases hr with hr | hr
          · exact absurd rfl hr.1
          · exact hr
        subst hsl
        rw [pullPlain] at h
        split at h
        · rw [Res.bind_eq_ok] at h
          obtain ⟨⟨t0, r0⟩, hp, h⟩ := h
          simp only [Res.ok.injEq, Prod.mk.injEq] at h
          obtain ⟨rfl, _⟩ := h
          rw [pullComment_open hp] at hcl
          cases hcl
        · rw [if_neg (by decide)] at h
          simp only [punctuation] at h
          simp only [show ('/' = ':') = False by decide, show ('/' = ',') = False by decide,
            show ('/' = '=') = False by decide, show ('/' = '{') = False by decide, show ('/' = '}') = False by decide,
            show ('/' = '[') = False by decide, show ('/' = ']') = False by decide,
            show ('/' = '+') = False by decide, if_false] at h
          rw [Res.bind_eq_ok] at h
          obtain ⟨⟨t0, r0⟩, hp, h⟩ := h
          simp only [Res.ok.injEq, Prod.mk.injEq] at h
          obtain ⟨rfl, _⟩ := h
          rw [pullWord_open hp] at hcl
          cases hcl
      · have hb : (c == '/') = false := by simpa using hsl
        simp [startOfComment, hb]
  unfold pullPlain at h ⊢
  rw [hcomm] at h
  by_cases hcm : startOfComment allow c s = true
  · rw [if_pos hcm] at h ⊢
    rw [Res.bind_eq_ok] at h
    obtain ⟨⟨t0, r0⟩, hp, h⟩ := h
    simp only [Res.ok.injEq, Prod.mk.injEq] at h
    obtain ⟨rfl, rfl, rfl⟩ := h
    have hr1 : r ≠ [] := by
      rcases hr with hr | hr
      · exact hr.1
      · rw [pullComment_open hp] at hr; cases hr
    have hp' : pullComment c s line = .ok (t0, r) := by
      unfold pullComment at hp ⊢
      by_cases hslash : c = '/'
      · rw [if_pos hslash] at hp ⊢
        have hsd : ∃ s', s = '/' :: s' := by
          subst hslash
          cases s with
          | nil => simp [startOfComment] at hcm
          | cons a s =>
            simp [startOfComment] at hcm
            exact ⟨s, by rw [hcm.2]⟩
        obtain ⟨s', rfl⟩ := hsd
        simp only [List.cons_append] at hp ⊢
        simp only [Res.ok.injEq, Prod.mk.injEq] at hp ⊢
        have := commentBody_trunc (s := s') (y := y) (b := (commentBody (s' ++ y)).1) (r := r) (by rw [← hp.2]) hr1
        rw [this]
        exact ⟨hp.1, rfl⟩
      · rw [if_neg hslash] at hp ⊢
        simp only [Res.ok.injEq, Prod.mk.injEq] at hp ⊢
        have := commentBody_trunc (s := s) (y := y) (b := (commentBody (s ++ y)).1) (r := r) (by rw [← hp.2]) hr1
        rw [this]
        exact ⟨hp.1, rfl⟩
    rw [hp']
    rfl
  · rw [if_neg hcm] at h ⊢
    by_cases hq : c = '"'
    · rw [if_pos hq] at h ⊢
      obtain ⟨u, _, _, x, hx⟩ := pullQuoted_spec h
      refine pullQuoted_trunc h ?_
      rcases hr with hr | hr
      · exact hr.1
      · rw [hx] at hr; cases hr
    · rw [if_neg hq] at h ⊢
      cases hpt : punctuation c with
      | some t1 =>
        rw [hpt] at h
        simp only [Res.ok.injEq, Prod.mk.injEq] at h ⊢
        exact ⟨h.1, List.append_cancel_right h.2.1, h.2.2⟩
      | none =>
        rw [hpt] at h
        simp only at h ⊢
        by_cases hx : c = '+'
        · rw [if_pos hx] at h ⊢
          rw [Res.bind_eq_ok] at h
          obtain ⟨⟨t0, r0⟩, hp, h⟩ := h
          simp only [Res.ok.injEq, Prod.mk.injEq] at h
          obtain ⟨rfl, rfl, rfl⟩ := h
          have hp' : pullPlusEquals s = .ok (t0, r) := by
            unfold pullPlusEquals at hp
            split at hp
            · rename_i r1 heq
              simp only [Res.ok.injEq, Prod.mk.injEq] at hp
              obtain ⟨rfl, rfl⟩ := hp
              obtain ⟨r', hr', hr''⟩ := rest_split (s := s) (y := y) (u := ['=']) (R := r ++ y) heq (by simp)
              have := List.append_cancel_right hr'
              subst this
              subst hr''
              rfl
            · simp at hp
          rw [hp']
          rfl
        · rw [if_neg hx] at h ⊢
          rw [Res.bind_eq_ok] at h
          obtain ⟨⟨t0, r0⟩, hp, h⟩ := h
          simp only [Res.ok.injEq, Prod.mk.injEq] at h
          obtain ⟨rfl, rfl, rfl⟩ := h
          have hr1 : r ≠ [] ∧ r ≠ ['/'] := by
            rcases hr with hr | hr
            · exact hr
            · rw [pullWord_open hp] at hr; cases hr
          have hp' : pullWord env allow c s line = .ok (t0, r) := by
            unfold pullWord at hp ⊢
            split at hp
            · rename_i hn
              rw [if_pos hn]
              exact pullNumber_trunc hp hr1.1
            · rename_i hn
              rw [if_neg hn]
              split at hp
              · simp at hp
              · rename_i hni
                rw [if_neg hni]
                simp only [Res.ok.injEq] at hp ⊢
                exact pullUnquoted_trunc (s := c :: s) hp hr1.1 hr1.2
          rw [hp']
          rfl

theorem substOpen_trunc {s y : Str} {o : Bool} {r : Str} (h : substOpen (s ++ y) = some (o, r ++ y))
    (hr : r ≠ []) : substOpen s = some (o, r) := by
  cases s with
  | nil =>
    have := substOpen_spec h
    exact absurd (no_rest this) hr
  | cons a s =>
    cases s with
    | nil =>
      have e := substOpen_spec h
      exfalso
      have := congrArg List.length e
      have hp := List.length_pos_iff.2 hr
      simp at this
      split at this <;> simp at this <;> omega
    | cons b s =>
      by_cases ha : a = '{'
      · subst ha
        by_cases hb : b = '?'
        · subst hb
          simp only [List.cons_append, substOpen, Option.some.injEq, Prod.mk.injEq] at h ⊢
          exact ⟨h.1, List.append_cancel_right h.2⟩
        · have e1 : ∀ z, substOpen ('{' :: b :: z) = some (false, b :: z) := by
            intro z
            unfold substOpen
            split
            · rename_i heq
              simp only [List.cons.injEq, true_and] at heq
              exact absurd heq.1 hb
            · rename_i heq
              simp only [List.cons.injEq, true_and] at heq
              simp [heq]
            · rename_i h1 h2
              exact absurd rfl (h2 _)
          rw [List.cons_append, List.cons_append, e1] at h
          rw [e1]
          simp only [Option.some.injEq, Prod.mk.injEq] at h ⊢
          refine ⟨h.1, ?_⟩
          have : (b :: s) ++ y = r ++ y := h.2
          exact List.append_cancel_right this
      · exfalso
        unfold substOpen at h
        split at h
        · rename_i heq
          simp only [List.cons_append, List.cons.injEq] at heq
          exact ha heq.1
        · rename_i heq
          simp only [List.cons_append, List.cons.injEq] at heq
          exact ha heq.1
        · simp at h

theorem nextChar_trunc {ws s y ws' : Str} {c : Char} {r : Str}
    (h : nextCharAfterWhitespace ws (s ++ y) = (ws', some (c, r ++ y))) :
    nextCharAfterWhitespace ws s = (ws', some (c, r)) := by
  induction s generalizing ws with
  | nil =>
    obtain ⟨w, _, h2, _⟩ := nextChar_some h
    exfalso
    have := congrArg List.length h2
    simp at this
    omega
  | cons a s ih =>
    rw [List.cons_append] at h
    simp only [nextCharAfterWhitespace] at h ⊢
    split at h
    · rename_i hb
      rw [if_pos hb]
      exact ih h
    · rename_i hb
      rw [if_neg hb]
      simp only [Prod.mk.injEq, Option.some.injEq] at h ⊢
      exact ⟨h.1, h.2.1, List.append_cancel_right h.2.2⟩

theorem substLoop_slash {env : Env} {allow : Bool} {fuel : Nat} {sv : Saver} {e : List Tok}
    {line : Nat} {x : List Tok × Str × Nat} : substLoop env allow fuel sv e ['/'] line ≠ .ok x := by
  cases fuel with
  | zero => simp [substLoop]
  | succ fuel =>
    rw [substLoop]
    cases fuel with
    | zero => simp [pullNext]
    | succ fuel =>
      have : pullNext env allow (fuel + 1) sv ['/'] line = .ok (.unquoted ['/'] line, sv, [], line) := by
        cases allow <;> simp [pullNext, nextCharAfterWhitespace, isWhitespaceNotNewline, isWhitespace, isSpace, pullPlain,
          startOfComment, punctuation, pullWord, firstNumberChars, notInUnquotedText, pullUnquoted] <;> rfl
      rw [this]
      exact substLoop_nil

/-- Reading from the part of the input that was looked at. -/
theorem pull_trunc (env : Env) (allow : Bool) (fuel : Nat) (y : Str) :
    (∀ sv s line t sv' r line', pullNext env allow fuel sv (s ++ y) line = .ok (t, sv', r ++ y, line') →
      Enough t r → pullNext env allow fuel sv s line = .ok (t, sv', r, line')) ∧
    (∀ s line t r line', pullSubst env allow fuel (s ++ y) line = .ok (t, r ++ y, line') →
      pullSubst env allow fuel s line = .ok (t, r, line')) ∧
    (∀ sv e s line e' r line', sv.ws = [] → substLoop env allow fuel sv e (s ++ y) line = .ok (e', r ++ y, line') →
      substLoop env allow fuel sv e s line = .ok (e', r, line')) := by
  induction fuel with
  | zero =>
    refine ⟨?_, ?_, ?_⟩
    · intro sv s line t sv' r line' h; simp [pullNext] at h
    · intro s line t r line' h; simp [pullSubst] at h
    · intro sv e s line e' r line' _ h; simp [substLoop] at h
  | succ fuel ih =>
    obtain ⟨ihN, ihS, ihL⟩ := ih
    refine ⟨?_, ?_, ?_⟩
    · intro sv s line t sv' r line' h hr
      rw [pullNext] at h
      split at h
      · simp only [Res.ok.injEq, Prod.mk.injEq] at h
        obtain ⟨rfl, rfl, h, rfl⟩ := h
        have : r = [] := (List.append_eq_nil_iff.1 h.symm).1
        subst this
        simp [Enough, closedTok] at hr
      · rename_i ws c r0 heq
        obtain ⟨w, _, hs0, _, hnb⟩ := nextChar_some heq
        have hlen : y.length ≤ r0.length := by
          by_cases hc : c = '\n'
          · simp only [if_pos hc, Res.ok.injEq, Prod.mk.injEq] at h
            rw [h.2.2.1]; simp
          · simp only [if_neg hc] at h
            by_cases hd : c = '$'
            · simp only [if_pos hd] at h
              rw [Res.bind_eq_ok] at h
              obtain ⟨⟨t0, r1, l1⟩, hp, h⟩ := h
              simp only [Res.ok.injEq, Prod.mk.injEq] at h
              obtain ⟨u, hu, _⟩ := (pull_specs env allow fuel).2.1 _ _ _ _ _ hp
              have := congrArg List.length hu
              rw [h.2.2.1] at this
              simp at this
              omega
            · simp only [if_neg hd] at h
              rw [Res.bind_eq_ok] at h
              obtain ⟨⟨t0, r1, l1⟩, hp, h⟩ := h
              simp only [Res.ok.injEq, Prod.mk.injEq] at h
              obtain ⟨u, hu, _⟩ := pullPlain_spec hc hnb hp
              have := congrArg List.length hu
              rw [h.2.2.1] at this
              simp at this
              omega
        obtain ⟨r0', rfl, hs⟩ := rest_split (u := w ++ [c]) (R := r0) (by rw [hs0]; simp) hlen
        rw [pullNext, nextChar_trunc heq]
        simp only
        by_cases hc : c = '\n'
        · simp only [if_pos hc] at h ⊢
          simp only [Res.ok.injEq, Prod.mk.injEq] at h ⊢
          exact ⟨h.1, h.2.1, List.append_cancel_right h.2.2.1, h.2.2.2⟩
        · simp only [if_neg hc] at h ⊢
          by_cases hd : c = '$'
          · simp only [if_pos hd] at h ⊢
            rw [Res.bind_eq_ok] at h
            obtain ⟨⟨t0, r1, l1⟩, hp, h⟩ := h
            simp only [Res.ok.injEq, Prod.mk.injEq] at h
            obtain ⟨rfl, rfl, rfl, rfl⟩ := h
            rw [ihS _ _ _ _ _ hp]
            rfl
          · simp only [if_neg hd] at h ⊢
            rw [Res.bind_eq_ok] at h
            obtain ⟨⟨t0, r1, l1⟩, hp, h⟩ := h
            simp only [Res.ok.injEq, Prod.mk.injEq] at h
            obtain ⟨rfl, rfl, rfl, rfl⟩ := h
            rw [pullPlain_trunc hc hnb hp hr]
            rfl
    · intro s line t r line' h
      rw [pullSubst] at h ⊢
      split at h
      · rename_i o r0 hso
        rw [Res.bind_eq_ok] at h
        obtain ⟨⟨e', r1, l1⟩, hp, h⟩ := h
        simp only [Res.ok.injEq, Prod.mk.injEq] at h
        obtain ⟨rfl, rfl, rfl⟩ := h
        obtain ⟨u, v, hu, _⟩ := (pull_specs env allow fuel).2.2 _ _ _ _ _ _ _ rfl hp
        obtain ⟨r0', rfl, hs⟩ := rest_split (substOpen_spec hso) (by
          have := congrArg List.length hu
          simp at this
          omega)
        have hp' := ihL _ _ _ _ _ _ _ rfl hp
        have hr0 : r0' ≠ [] := by
          rintro rfl
          exact substLoop_nil hp'
        rw [substOpen_trunc hso hr0]
        simp only
        rw [hp']
        rfl
      · simp at h
    · intro sv e s line e' r line' hws h
      rw [substLoop] at h
      split at h
      · rename_i sv1 r1 l1 heq
        simp only [Res.ok.injEq, Prod.mk.injEq] at h
        obtain ⟨rfl, rfl, rfl⟩ := h
        rw [substLoop, ihN _ _ _ _ _ _ _ heq (Or.inr rfl)]
      · simp at h
      · rename_i t sv1 r1 l1 hne hne2 heq
        obtain ⟨u, v, hu, _⟩ := (pull_specs env allow fuel).2.2 _ _ _ _ _ _ _ (Saver.check_ws _ _ _) h
        have hsplit : ∃ u', s ++ y = u' ++ r1 := by
          obtain ⟨w, _, _, _, h4⟩ := pullNext_spec heq
          rcases h4 with ⟨h4, _⟩ | ⟨u, h4, _⟩
          · exact absurd h4 hne2
          · exact ⟨w ++ u, h4⟩
        obtain ⟨u', hu'⟩ := hsplit
        obtain ⟨r1', rfl, _⟩ := rest_split hu' (by
          have := congrArg List.length hu
          simp at this
          omega)
        have h' := ihL _ _ _ _ _ _ _ (Saver.check_ws _ _ _) h
        have hr1 : r1' ≠ [] := by
          rintro rfl
          exact substLoop_nil h'
        have hr2 : r1' ≠ ['/'] := by
          rintro rfl
          exact substLoop_slash h'
        rw [substLoop, ihN _ _ _ _ _ _ _ heq (Or.inl ⟨hr1, hr2⟩)]
        cases t <;> first
          | exact h'
          | exact absurd rfl hne
          | exact absurd rfl hne2
      · simp at h
      · simp at h
      · simp at h

end Tokenizer
end Hocon
