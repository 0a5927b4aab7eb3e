import Verif.Lemmas.TokenizerLemmas

/-!
# The tokenizer only looks ahead

What has been read does not depend on what comes after the part that was looked at.
-/

namespace Hocon
namespace Tokenizer

/-- Tokens whose end does not depend on the following character. -/
def closedTok : Tok → Bool
  | .comma | .equals | .colon | .openCurly | .closeCurly | .openSquare | .closeSquare
  | .plusEquals | .newline _ | .subst .. => true
  | _ => false

theorem commentBody_local {s : Str} (y : Str) (h : (commentBody s).2 ≠ []) :
    commentBody (s ++ y) = ((commentBody s).1, (commentBody s).2 ++ y) := by
  induction s with
  | nil => simp [commentBody] at h
  | cons c r ih =>
    by_cases hc : c = '\n'
    · simp [commentBody, hc]
    · simp only [commentBody, if_neg hc, List.cons_append] at h ⊢
      rw [ih h]

theorem numberBody_local {s : Str} (y : Str) (h : (numberBody s).2 ≠ []) :
    numberBody (s ++ y) = ((numberBody s).1, (numberBody s).2 ++ y) := by
  induction s with
  | nil => simp [numberBody] at h
  | cons c r ih =>
    by_cases hc : numberChars.contains c = true
    · simp only [numberBody, if_pos hc, List.cons_append] at h ⊢
      rw [ih h]
    · simp only [numberBody, if_neg hc, List.cons_append]

theorem startOfComment_local {allow : Bool} {c : Char} {s : Str} (y : Str) (h : s ≠ []) :
    startOfComment allow c (s ++ y) = startOfComment allow c s := by
  cases s with
  | nil => exact absurd rfl h
  | cons a s => rfl

theorem pullUnquoted_local {allow : Bool} {line : Nat} {acc s : Str} {t : Tok} {r : Str} (y : Str)
    (h : pullUnquoted allow line acc s = (t, r)) (hr : r ≠ []) :
    pullUnquoted allow line acc (s ++ y) = (t, r ++ y) := by
  induction s generalizing acc with
  | nil =>
    simp only [pullUnquoted, Prod.mk.injEq] at h
    exact absurd h.2.symm hr
  | cons c s ih =>
    have hs : startOfComment allow c (s ++ y) = startOfComment allow c s := by
      cases s with
      | nil =>
        -- then the token would have reached the end of the input
        by_cases hc : (notInUnquotedText.contains c || isWhitespace c || startOfComment allow c [])
            = true
        · by_cases hcc : c = '#'
          · subst hcc; rfl
          · by_cases hsl : c = '/'
            · subst hsl
              simp [notInUnquotedText, isWhitespace, isSpace, startOfComment] at hc
            · cases allow <;> simp [startOfComment, hcc, hsl]
        · rw [pullUnquoted, if_neg hc] at h
          exfalso
          simp only [pullUnquoted] at h
          repeat' split at h
          all_goals exact hr (congrArg Prod.snd h).symm
      | cons a s => rfl
    rw [List.cons_append, pullUnquoted, hs]
    rw [pullUnquoted] at h
    split at h
    · rename_i hc
      rw [if_pos hc]
      simp only [Prod.mk.injEq] at h
      obtain ⟨rfl, rfl⟩ := h
      rfl
    · rename_i hc
      rw [if_neg hc]
      simp only at h ⊢
      split at h
      · rename_i hk
        rw [if_pos hk]
        simp only [Prod.mk.injEq] at h
        obtain ⟨rfl, rfl⟩ := h
        rfl
      · rename_i hk
        rw [if_neg hk]
        split at h
        · rename_i hk
          rw [if_pos hk]
          simp only [Prod.mk.injEq] at h
          obtain ⟨rfl, rfl⟩ := h
          rfl
        · rename_i hk
          rw [if_neg hk]
          split at h
          · rename_i hk
            rw [if_pos hk]
            simp only [Prod.mk.injEq] at h
            obtain ⟨rfl, rfl⟩ := h
            rfl
          · rename_i hk
            rw [if_neg hk]
            exact ih h

theorem pullNumber_local {env : Env} {c : Char} {s : Str} {line : Nat} {t : Tok} {r : Str} (y : Str)
    (h : pullNumber env c s line = .ok (t, r)) (hr : r ≠ []) :
    pullNumber env c (s ++ y) line = .ok (t, r ++ y) := by
  have hb : r = (numberBody s).2 := by
    unfold pullNumber at h
    simp only at h
    repeat' split at h
    all_goals first
      | (rw [Res.bind_eq_ok] at h
         obtain ⟨v, hv, h⟩ := h
         simp only [Res.ok.injEq, Prod.mk.injEq] at h
         exact h.2.symm)
      | (simp only [Res.ok.injEq, Prod.mk.injEq] at h
         exact h.2.symm)
  have hl := numberBody_local y (by rw [← hb]; exact hr)
  unfold pullNumber at h ⊢
  rw [hl]
  simp only at h ⊢
  split at h
  · rename_i hd
    rw [if_pos hd]
    split at h
    · rename_i d hp
      try simp only
      rw [Res.bind_eq_ok] at h
      obtain ⟨v, hv, h⟩ := h
      simp only [Res.ok.injEq, Prod.mk.injEq] at h
      obtain ⟨rfl, rfl⟩ := h
      rw [hv]
      rfl
    · rename_i hp
      try simp only
      rw [Res.bind_eq_ok] at h
      obtain ⟨v, hv, h⟩ := h
      simp only [Res.ok.injEq, Prod.mk.injEq] at h
      obtain ⟨rfl, rfl⟩ := h
      rw [hv]
      rfl
  · rename_i hd
    rw [if_neg hd]
    split at h
    · rename_i d hp
      simp only [Res.ok.injEq, Prod.mk.injEq] at h
      obtain ⟨rfl, rfl⟩ := h
      rfl
    · rename_i hp
      try simp only
      rw [Res.bind_eq_ok] at h
      obtain ⟨v, hv, h⟩ := h
      simp only [Res.ok.injEq, Prod.mk.injEq] at h
      obtain ⟨rfl, rfl⟩ := h
      rw [hv]
      rfl

theorem quotedLoop_escape {env : Env} {res o : Str} {e p : Char} (r : Str)
    (hp : simpleEscape e = some p) :
    quotedLoop env res o ('\\' :: e :: r) = quotedLoop env (res ++ [p]) (o ++ ['\\', e]) r := by
  rw [quotedLoop.eq_def]
  simp [hp]

theorem quotedLoop_close {env : Env} {res o : Str} (r : Str) :
    quotedLoop env res o ('"' :: r) = .ok (res, o ++ ['"'], r) := by
  rw [quotedLoop.eq_def]
  simp

theorem quotedLoop_char {env : Env} {res o : Str} {c : Char} (r : Str)
    (hb : c ≠ '\\') (hq : c ≠ '"') (hc : isC0Control c = false) :
    quotedLoop env res o (c :: r) = quotedLoop env (res ++ [c]) (o ++ [c]) r := by
  rw [quotedLoop.eq_def]
  simp [hb, hq, hc]

theorem quotedLoop_local {env : Env} {res o s : Str} {res' o' r : Str} (y : Str)
    (h : quotedLoop env res o s = .ok (res', o', r)) :
    quotedLoop env res o (s ++ y) = .ok (res', o', r ++ y) := by
  fun_induction quotedLoop env res o s with
  | case1 => simp at h
  | case2 => simp at h
  | case3 res o e r1 p hp ih =>
    rw [← ih h]
    exact quotedLoop_escape _ hp
  | case4 => simp at h
  | case5 res o a b c d r2 n hs hx ih =>
    rw [← ih h]
    simp [quotedLoop, hs, hx]
  | case6 => simp at h
  | case7 => simp at h
  | case8 => simp at h
  | case9 => simp at h
  | case10 res o r1 hc =>
    simp only [Res.ok.injEq, Prod.mk.injEq] at h
    obtain ⟨rfl, rfl, rfl⟩ := h
    exact quotedLoop_close _
  | case11 => simp at h
  | case12 res o c r hc hq hn ih =>
    rw [← ih h]
    exact quotedLoop_char _ hc hq (by simpa using hn)

theorem tripleLoop_local {p o : Str} {q line : Nat} {s p' o' r : Str} {line' : Nat} (y : Str)
    (h : tripleLoop p o q line s = .ok (p', o', r, line')) (hr : r ≠ []) :
    tripleLoop p o q line (s ++ y) = .ok (p', o', r ++ y, line') := by
  induction s generalizing p o q line with
  | nil =>
    simp only [tripleLoop] at h
    split at h
    · simp only [Res.ok.injEq, Prod.mk.injEq] at h
      exact absurd h.2.2.1.symm hr
    · simp at h
  | cons c s ih =>
    rw [List.cons_append, tripleLoop]
    rw [tripleLoop] at h
    split at h
    · rename_i hc
      rw [if_pos hc]
      exact ih h
    · rename_i hc
      rw [if_neg hc]
      split at h
      · rename_i hq
        rw [if_pos hq]
        simp only [Res.ok.injEq, Prod.mk.injEq] at h
        obtain ⟨rfl, rfl, rfl, rfl⟩ := h
        rfl
      · rename_i hq
        rw [if_neg hq]
        exact ih h

theorem pullQuoted_local {env : Env} {s : Str} {line : Nat} {t : Tok} {r : Str} {line' : Nat}
    (y : Str) (h : pullQuoted env s line = .ok (t, r, line')) (hr : r ≠ []) :
    pullQuoted env (s ++ y) line = .ok (t, r ++ y, line') := by
  unfold pullQuoted at h ⊢
  rw [Res.bind_eq_ok] at h
  obtain ⟨⟨res, o, r0⟩, hq, h⟩ := h
  rw [quotedLoop_local y hq]
  simp only [Res.ok_bind]
  simp only at h
  split at h
  · rename_i he
    rw [if_pos he]
    split at h
    · rename_i r1
      rw [Res.bind_eq_ok] at h
      obtain ⟨⟨p, o2, r2, l2⟩, ht, h⟩ := h
      simp only [Res.ok.injEq, Prod.mk.injEq] at h
      obtain ⟨rfl, rfl, rfl⟩ := h
      simp only [List.cons_append]
      rw [tripleLoop_local y ht hr]
      rfl
    · rename_i hne
      simp only [Res.ok.injEq, Prod.mk.injEq] at h
      obtain ⟨rfl, rfl, rfl⟩ := h
      cases r0 with
      | nil => exact absurd rfl hr
      | cons a r0 =>
        split
        · rename_i heq
          simp only [List.cons_append, List.cons.injEq] at heq
          exact absurd (by rw [heq.1]) (hne r0)
        · rfl
  · rename_i he
    rw [if_neg he]
    simp only [Res.ok.injEq, Prod.mk.injEq] at h
    obtain ⟨rfl, rfl, rfl⟩ := h
    rfl

theorem pullPlain_local {env : Env} {allow : Bool} {c : Char} {s : Str} {line : Nat} {t : Tok}
    {r : Str} {line' : Nat} (y : Str)
    (h : pullPlain env allow c s line = .ok (t, r, line')) (hr : r ≠ [] ∨ closedTok t = true) :
    pullPlain env allow c (s ++ y) line = .ok (t, r ++ y, line') := by
  have hcomm : startOfComment allow c (s ++ y) = startOfComment allow c s := by
    cases s with
    | cons a s => rfl
    | nil =>
      by_cases hsl : c = '/'
      · exfalso
        subst hsl
        simp [pullPlain, startOfComment, punctuation, pullWord, firstNumberChars,
          notInUnquotedText, pullUnquoted, isWhitespace, isSpace] at h
        obtain ⟨rfl, rfl, rfl⟩ := h
        simp [closedTok] at hr
      · have hb : (c == '/') = false := by simpa using hsl
        simp [startOfComment, hb]
  unfold pullPlain at h ⊢
  rw [hcomm]
  by_cases hcm : startOfComment allow c s = true
  · rw [if_pos hcm] at h ⊢
    rw [Res.bind_eq_ok] at h
    obtain ⟨⟨t0, r0⟩, hp, h⟩ := h
    simp only [Res.ok.injEq, Prod.mk.injEq] at h
    obtain ⟨rfl, rfl, rfl⟩ := h
    have hp' : pullComment c (s ++ y) line = .ok (t0, r0 ++ y) := by
      unfold pullComment at hp ⊢
      by_cases hslash : c = '/'
      · rw [if_pos hslash] at hp ⊢
        split at hp
        · rename_i r1
          simp only [Res.ok.injEq, Prod.mk.injEq] at hp
          obtain ⟨rfl, rfl⟩ := hp
          simp only [List.cons_append]
          rw [commentBody_local y (by simpa [closedTok] using hr)]
        · simp at hp
      · rw [if_neg hslash] at hp ⊢
        simp only [Res.ok.injEq, Prod.mk.injEq] at hp
        obtain ⟨rfl, rfl⟩ := hp
        rw [commentBody_local y (by simpa [closedTok] using hr)]
    rw [hp']
    rfl
  · rw [if_neg hcm] at h ⊢
    by_cases hq : c = '"'
    · rw [if_pos hq] at h ⊢
      obtain ⟨u, _, _, x, hx⟩ := pullQuoted_spec h
      rw [hx] at hr
      exact pullQuoted_local y h (by simpa [closedTok] using hr)
    · rw [if_neg hq] at h ⊢
      cases hpt : punctuation c with
      | some t1 =>
        rw [hpt] at h
        simp only [Res.ok.injEq, Prod.mk.injEq] at h
        obtain ⟨rfl, rfl, rfl⟩ := h
        rfl
      | none =>
        rw [hpt] at h
        simp only at h ⊢
        by_cases hx : c = '+'
        · rw [if_pos hx] at h ⊢
          rw [Res.bind_eq_ok] at h
          obtain ⟨⟨t0, r0⟩, hp, h⟩ := h
          simp only [Res.ok.injEq, Prod.mk.injEq] at h
          obtain ⟨rfl, rfl, rfl⟩ := h
          unfold pullPlusEquals at hp ⊢
          split at hp
          · simp only [Res.ok.injEq, Prod.mk.injEq] at hp
            obtain ⟨rfl, rfl⟩ := hp
            rfl
          · simp at hp
        · rw [if_neg hx] at h ⊢
          rw [Res.bind_eq_ok] at h
          obtain ⟨⟨t0, r0⟩, hp, h⟩ := h
          simp only [Res.ok.injEq, Prod.mk.injEq] at h
          obtain ⟨rfl, rfl, rfl⟩ := h
          have hp' : pullWord env allow c (s ++ y) line = .ok (t0, r0 ++ y) := by
            unfold pullWord at hp ⊢
            split at hp
            · rename_i hn
              rw [if_pos hn]
              have hsim := (pullNumber_spec hp)
              obtain ⟨_, _, _, _, ho, hnl, hsim⟩ := hsim
              refine pullNumber_local y hp ?_
              rcases hr with hr | hr
              · exact hr
              · exfalso
                have : ∀ d, pullNumber env c s line = .ok (t0, d) → closedTok t0 = false := by
                  intro d hd
                  unfold pullNumber at hd
                  simp only at hd
                  repeat' split at hd
                  all_goals first
                    | (rw [Res.bind_eq_ok] at hd
                       obtain ⟨v, hv, hd⟩ := hd
                       simp only [Res.ok.injEq, Prod.mk.injEq] at hd
                       obtain ⟨rfl, _⟩ := hd
                       first
                         | rfl
                         | (rw [notANumber_spec hv]; rfl))
                    | (simp only [Res.ok.injEq, Prod.mk.injEq] at hd
                       obtain ⟨rfl, _⟩ := hd
                       rfl)
                rw [this _ hp] at hr
                simp at hr
            · rename_i hn
              rw [if_neg hn]
              split at hp
              · simp at hp
              · rename_i hni
                rw [if_neg hni]
                simp only [Res.ok.injEq] at hp ⊢
                refine pullUnquoted_local y hp ?_
                rcases hr with hr | hr
                · exact hr
                · exfalso
                  have : ∀ acc s d, pullUnquoted allow line acc s = (t0, d) →
                      closedTok t0 = false := by
                    intro acc s d hd
                    induction s generalizing acc with
                    | nil =>
                      simp only [pullUnquoted, Prod.mk.injEq] at hd
                      rw [← hd.1]; rfl
                    | cons c s ih =>
                      simp only [pullUnquoted] at hd
                      repeat' split at hd
                      all_goals first
                        | exact ih _ hd
                        | (simp only [Prod.mk.injEq] at hd; rw [← hd.1]; rfl)
                  rw [this _ _ _ hp] at hr
                  simp at hr
          rw [hp']
          rfl

theorem substOpen_local {s : Str} {o : Bool} {r : Str} (y : Str) (h : substOpen s = some (o, r))
    (hr : r ≠ []) : substOpen (s ++ y) = some (o, r ++ y) := by
  unfold substOpen at h
  split at h
  · simp only [Option.some.injEq, Prod.mk.injEq] at h
    obtain ⟨rfl, rfl⟩ := h
    rfl
  · rename_i r1 hne
    simp only [Option.some.injEq, Prod.mk.injEq] at h
    obtain ⟨rfl, rfl⟩ := h
    cases r1 with
    | nil => exact absurd rfl hr
    | cons a r1 =>
      have ha : a ≠ '?' := by
        rintro rfl
        exact hne r1 rfl
      simp only [List.cons_append, substOpen]
      split
      · rename_i heq
        simp only [List.cons.injEq, true_and] at heq
        exact absurd heq.1 ha
      · rename_i heq
        simp only [List.cons.injEq, true_and] at heq
        simp [heq]
      · rename_i h1 h2
        exact absurd rfl (h2 _)
  · simp at h

theorem nextChar_local {ws s ws' : Str} {c : Char} {r : Str} (y : Str)
    (h : nextCharAfterWhitespace ws s = (ws', some (c, r))) :
    nextCharAfterWhitespace ws (s ++ y) = (ws', some (c, r ++ y)) := by
  induction s generalizing ws with
  | nil => simp [nextCharAfterWhitespace] at h
  | cons c' r' ih =>
    rw [List.cons_append]
    simp only [nextCharAfterWhitespace] at h ⊢
    split at h
    · rename_i hb
      rw [if_pos hb]
      exact ih h
    · rename_i hb
      rw [if_neg hb]
      simp only [Prod.mk.injEq, Option.some.injEq] at h
      obtain ⟨rfl, rfl, rfl⟩ := h
      rfl

theorem substLoop_nil {env : Env} {allow : Bool} {fuel : Nat} {sv : Saver} {e : List Tok}
    {line : Nat} {x : List Tok × Str × Nat} : substLoop env allow fuel sv e [] line ≠ .ok x := by
  cases fuel with
  | zero => simp [substLoop]
  | succ fuel =>
    rw [substLoop]
    cases fuel with
    | zero => simp [pullNext]
    | succ fuel => simp [pullNext, nextCharAfterWhitespace]

theorem pull_local (env : Env) (allow : Bool) (fuel : Nat) (y : Str) :
    (∀ sv s line t sv' r line', pullNext env allow fuel sv s line = .ok (t, sv', r, line') →
      (r ≠ [] ∨ closedTok t = true) →
      pullNext env allow fuel sv (s ++ y) line = .ok (t, sv', r ++ y, line')) ∧
    (∀ s line t r line', pullSubst env allow fuel s line = .ok (t, r, line') →
      pullSubst env allow fuel (s ++ y) line = .ok (t, r ++ y, line')) ∧
    (∀ sv e s line e' r line', substLoop env allow fuel sv e s line = .ok (e', r, line') →
      substLoop env allow fuel sv e (s ++ y) line = .ok (e', r ++ y, line')) := by
  induction fuel with
  | zero =>
    refine ⟨?_, ?_, ?_⟩
    · intro sv s line t sv' r line' h; simp [pullNext] at h
    · intro s line t r line' h; simp [pullSubst] at h
    · intro sv e s line e' r line' h; simp [substLoop] at h
  | succ fuel ih =>
    obtain ⟨ihN, ihS, ihL⟩ := ih
    refine ⟨?_, ?_, ?_⟩
    · intro sv s line t sv' r line' h hr
      rw [pullNext] at h ⊢
      split at h
      · simp only [Res.ok.injEq, Prod.mk.injEq] at h
        obtain ⟨rfl, rfl, rfl, rfl⟩ := h
        simp [closedTok] at hr
      · rename_i ws c r0 heq
        rw [nextChar_local y heq]
        simp only
        by_cases hc : c = '\n'
        · simp only [if_pos hc] at h ⊢
          simp only [Res.ok.injEq, Prod.mk.injEq] at h
          obtain ⟨rfl, rfl, rfl, rfl⟩ := h
          rfl
        · simp only [if_neg hc] at h ⊢
          by_cases hd : c = '$'
          · simp only [if_pos hd] at h ⊢
            rw [Res.bind_eq_ok] at h
            obtain ⟨⟨t0, r1, l1⟩, hp, h⟩ := h
            simp only [Res.ok.injEq, Prod.mk.injEq] at h
            obtain ⟨rfl, rfl, rfl, rfl⟩ := h
            rw [ihS _ _ _ _ _ hp]
            rfl
          · simp only [if_neg hd] at h ⊢
            rw [Res.bind_eq_ok] at h
            obtain ⟨⟨t0, r1, l1⟩, hp, h⟩ := h
            simp only [Res.ok.injEq, Prod.mk.injEq] at h
            obtain ⟨rfl, rfl, rfl, rfl⟩ := h
            rw [pullPlain_local y hp hr]
            rfl
    · intro s line t r line' h
      rw [pullSubst] at h ⊢
      split at h
      · rename_i o r0 hso
        rw [Res.bind_eq_ok] at h
        obtain ⟨⟨e', r1, l1⟩, hp, h⟩ := h
        simp only [Res.ok.injEq, Prod.mk.injEq] at h
        obtain ⟨rfl, rfl, rfl⟩ := h
        have hr0 : r0 ≠ [] := by
          rintro rfl
          exact substLoop_nil hp
        rw [substOpen_local y hso hr0]
        simp only
        rw [ihL _ _ _ _ _ _ _ hp]
        rfl
      · simp at h
    · intro sv e s line e' r line' h
      rw [substLoop] at h ⊢
      split at h
      · rename_i sv1 r1 l1 heq
        simp only [Res.ok.injEq, Prod.mk.injEq] at h
        obtain ⟨rfl, rfl, rfl⟩ := h
        rw [ihN _ _ _ _ _ _ _ heq (Or.inr rfl)]
      · simp at h
      · rename_i t sv1 r1 l1 hne hne2 heq
        have hr1 : r1 ≠ [] := by
          rintro rfl
          exact substLoop_nil h
        rw [ihN _ _ _ _ _ _ _ heq (Or.inl hr1)]
        have := ihL _ _ _ _ _ _ _ h
        cases t <;> first
          | exact this
          | exact absurd rfl hne
          | exact absurd rfl hne2
      · simp at h
      · simp at h
      · simp at h

end Tokenizer
end Hocon
