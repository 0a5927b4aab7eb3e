import Verif.Lemmas.LexLine

/-!
# A token at the end of the input, and before something that ends it
-/

set_option autoImplicit false

namespace Hocon
namespace Tokenizer

/-- A text that ends every token before it. -/
def StopHead (B : Str) : Prop :=
  B = [] ∨ ∃ c r, B = c :: r ∧
    (isWhitespace c = true ∨ c = '#' ∨ c = ',' ∨ c = '}' ∨ (c = '/' ∧ ∃ r', r = '/' :: r'))

theorem isWhitespace_cases {c : Char} (h : isWhitespace c = true) :
    c = ' ' ∨ c = '\t' ∨ c = '\n' ∨ c = '\x0b' ∨ c = '\x0c' ∨ c = '\r' := by
  simp only [isWhitespace, isSpace, Bool.or_eq_true, beq_iff_eq] at h
  grind

theorem StopHead.notQuote {B r : Str} (h : StopHead B) : B ≠ '"' :: r := by
  rintro rfl
  rcases h with h | ⟨c, r, h, h2⟩
  · simp at h
  · simp only [List.cons.injEq] at h
    obtain ⟨rfl, _⟩ := h
    rcases h2 with h2 | h2 | h2 | h2 | ⟨h2, _⟩ <;> revert h2 <;> decide

theorem StopHead.word {B : Str} (h : StopHead B) (line : Nat) (acc : Str) :
    pullUnquoted true line acc B = (.unquoted acc line, B) := by
  rcases h with rfl | ⟨c, r, rfl, h⟩
  · rfl
  · rw [pullUnquoted, if_pos]
    rcases h with h | rfl | rfl | rfl | ⟨rfl, r', rfl⟩
    · simp [h]
    · simp [notInUnquotedText]
    · simp [notInUnquotedText]
    · simp [notInUnquotedText]
    · simp [startOfComment]

theorem StopHead.number {B : Str} (h : StopHead B) : numberBody B = ([], B) := by
  rcases h with rfl | ⟨c, r, rfl, h⟩
  · rfl
  · rw [numberBody, if_neg]
    rcases h with h | rfl | rfl | rfl | ⟨rfl, _⟩
    · rcases isWhitespace_cases h with rfl | rfl | rfl | rfl | rfl | rfl <;> decide
    all_goals decide

theorem pullUnquoted_end {line : Nat} {acc s : Str} {t : Tok} {B : Str}
    (h : pullUnquoted true line acc s = (t, [])) (hl : s.getLast? ≠ some '/') (hB : StopHead B) :
    pullUnquoted true line acc (s ++ B) = (t, B) := by
  induction s generalizing acc with
  | nil =>
    rw [List.nil_append, hB.word]
    simp only [pullUnquoted, Prod.mk.injEq] at h
    rw [h.1]
  | cons c s ih =>
    have hs : startOfComment true c (s ++ B) = startOfComment true c s := by
      cases s with
      | cons a s => rfl
      | nil =>
        have : c ≠ '/' := by
          rintro rfl
          simp at hl
        simp [startOfComment, this]
    have hl' : s.getLast? ≠ some '/' := by
      cases s with
      | nil => simp
      | cons a s => simpa using hl
    rw [List.cons_append, pullUnquoted, hs]
    rw [pullUnquoted] at h
    simp only at h ⊢
    split at h
    · simp at h
    · rename_i h1
      rw [if_neg h1]
      split at h
      · rename_i h2
        rw [if_pos h2]
        simp only [Prod.mk.injEq] at h
        obtain ⟨rfl, rfl⟩ := h
        rfl
      · rename_i h2
        rw [if_neg h2]
        split at h
        · rename_i h3
          rw [if_pos h3]
          simp only [Prod.mk.injEq] at h
          obtain ⟨rfl, rfl⟩ := h
          rfl
        · rename_i h3
          rw [if_neg h3]
          split at h
          · rename_i h4
            rw [if_pos h4]
            simp only [Prod.mk.injEq] at h
            obtain ⟨rfl, rfl⟩ := h
            rfl
          · rename_i h4
            rw [if_neg h4]
            exact ih h hl'

theorem numberBody_end {s b B : Str} (h : numberBody s = (b, [])) (hB : StopHead B) :
    numberBody (s ++ B) = (b, B) := by
  induction s generalizing b with
  | nil =>
    simp only [numberBody, Prod.mk.injEq] at h
    rw [List.nil_append, hB.number, h.1]
  | cons c s ih =>
    rw [List.cons_append, numberBody]
    rw [numberBody] at h
    split at h
    · rename_i hc
      rw [if_pos hc]
      cases hb : numberBody s with
      | mk b' r' =>
        rw [hb] at h
        simp only [Prod.mk.injEq] at h
        obtain ⟨rfl, rfl⟩ := h
        rw [ih hb]
    · simp at h

theorem pullNumber_end {env : Env} {c : Char} {s B : Str} {line : Nat} {t : Tok}
    (h : pullNumber env c s line = .ok (t, [])) (hB : StopHead B) :
    pullNumber env c (s ++ B) line = .ok (t, B) := by
  have hb : [] = (numberBody s).2 := by
    unfold pullNumber at h
    simp only at h
    repeat' split at h
    all_goals first
      | (rw [Res.bind_eq_ok] at h
         obtain ⟨v, hv, h⟩ := h
         simp only [Res.ok.injEq, Prod.mk.injEq] at h
         exact h.2.symm)
      | (simp only [Res.ok.injEq, Prod.mk.injEq] at h
         exact h.2.symm)
  have hl := numberBody_end (s := s) (b := (numberBody s).1) (by rw [hb]) hB
  unfold pullNumber at h ⊢
  rw [hl]
  simp only at h ⊢
  split at h
  · rename_i hd
    rw [if_pos hd]
    split at h
    · rename_i d hp
      rw [Res.bind_eq_ok] at h
      obtain ⟨v, hv, h⟩ := h
      simp only [Res.ok.injEq, Prod.mk.injEq] at h
      obtain ⟨rfl, _⟩ := h
      rw [hv]
      rfl
    · rename_i hp
      rw [Res.bind_eq_ok] at h
      obtain ⟨v, hv, h⟩ := h
      simp only [Res.ok.injEq, Prod.mk.injEq] at h
      obtain ⟨rfl, _⟩ := h
      rw [hv]
      rfl
  · rename_i hd
    rw [if_neg hd]
    split at h
    · rename_i d hp
      simp only [Res.ok.injEq, Prod.mk.injEq] at h
      obtain ⟨rfl, _⟩ := h
      rfl
    · rename_i hp
      rw [Res.bind_eq_ok] at h
      obtain ⟨v, hv, h⟩ := h
      simp only [Res.ok.injEq, Prod.mk.injEq] at h
      obtain ⟨rfl, _⟩ := h
      rw [hv]
      rfl

theorem tripleLoop_end {p o : Str} {q line : Nat} {s p' o' : Str} {line' : Nat} {B : Str}
    (h : tripleLoop p o q line s = .ok (p', o', [], line')) (hB : StopHead B) :
    tripleLoop p o q line (s ++ B) = .ok (p', o', B, line') := by
  induction s generalizing p o q line with
  | nil =>
    simp only [tripleLoop] at h
    split at h
    · rename_i hq
      simp only [Res.ok.injEq, Prod.mk.injEq] at h
      obtain ⟨rfl, rfl, _, rfl⟩ := h
      cases B with
      | nil => simp [tripleLoop, hq]
      | cons c B =>
        rw [List.nil_append, tripleLoop, if_neg, if_pos hq]
        rintro rfl
        exact hB.notQuote rfl
    · simp at h
  | cons c s ih =>
    rw [List.cons_append, tripleLoop]
    rw [tripleLoop] at h
    split at h
    · rename_i hc
      rw [if_pos hc]
      exact ih h
    · rename_i hc
      rw [if_neg hc]
      split at h
      · simp at h
      · rename_i hq
        rw [if_neg hq]
        exact ih h

theorem pullQuoted_end {env : Env} {s : Str} {line : Nat} {t : Tok} {line' : Nat} {B : Str}
    (h : pullQuoted env s line = .ok (t, [], line')) (hB : StopHead B) :
    pullQuoted env (s ++ B) line = .ok (t, B, line') := by
  unfold pullQuoted at h ⊢
  rw [Res.bind_eq_ok] at h
  obtain ⟨⟨res, o, r0⟩, hq, h⟩ := h
  rw [quotedLoop_local B hq]
  simp only [Res.ok_bind] at h ⊢
  split at h
  · rename_i he
    rw [if_pos he]
    split at h
    · rw [Res.bind_eq_ok] at h
      obtain ⟨⟨p, o2, r2, l2⟩, ht, h⟩ := h
      simp only [Res.ok.injEq, Prod.mk.injEq] at h
      obtain ⟨rfl, rfl, rfl⟩ := h
      simp only [List.cons_append]
      rw [tripleLoop_end ht hB]
      rfl
    · simp only [Res.ok.injEq, Prod.mk.injEq] at h
      obtain ⟨rfl, rfl, rfl⟩ := h
      rw [List.nil_append]
      split
      · exact absurd rfl hB.notQuote
      · rfl
  · rename_i he
    rw [if_neg he]
    simp only [Res.ok.injEq, Prod.mk.injEq] at h
    obtain ⟨rfl, rfl, rfl⟩ := h
    rfl

theorem pullPlain_end {env : Env} {c : Char} {s : Str} {line : Nat} {t : Tok} {line' : Nat} {B : Str}
    (h : pullPlain env true c s line = .ok (t, [], line')) (ht : ∀ d x l, t ≠ .comment d x l)
    (hl : (c :: s).getLast? ≠ some '/') (hB : StopHead B) :
    pullPlain env true c (s ++ B) line = .ok (t, B, line') := by
  have hcomm : startOfComment true c (s ++ B) = startOfComment true c s := by
    cases s with
    | cons a s => rfl
    | nil =>
      have : c ≠ '/' := by
        rintro rfl
        simp at hl
      simp [startOfComment, this]
  unfold pullPlain at h ⊢
  rw [hcomm]
  split at h
  · rename_i hcm
    exfalso
    rw [Res.bind_eq_ok] at h
    obtain ⟨⟨t0, r0⟩, hp, h⟩ := h
    simp only [Res.ok.injEq, Prod.mk.injEq] at h
    obtain ⟨rfl, rfl, rfl⟩ := h
    unfold pullComment at hp
    repeat' split at hp
    · simp only [Res.ok.injEq, Prod.mk.injEq] at hp
      exact ht _ _ _ hp.1.symm
    · simp at hp
    · simp only [Res.ok.injEq, Prod.mk.injEq] at hp
      exact ht _ _ _ hp.1.symm
  · rename_i hcm
    rw [if_neg hcm]
    split at h
    · rename_i hq
      rw [if_pos hq]
      exact pullQuoted_end h hB
    · rename_i hq
      rw [if_neg hq]
      split at h
      · simp only [Res.ok.injEq, Prod.mk.injEq] at h
        obtain ⟨rfl, rfl, rfl⟩ := h
        rfl
      · split at h
        · rename_i hx
          rw [if_pos hx]
          rw [Res.bind_eq_ok] at h
          obtain ⟨⟨t0, r0⟩, hp, h⟩ := h
          simp only [Res.ok.injEq, Prod.mk.injEq] at h
          obtain ⟨rfl, rfl, rfl⟩ := h
          unfold pullPlusEquals at hp
          split at hp
          · simp only [Res.ok.injEq, Prod.mk.injEq] at hp
            obtain ⟨rfl, rfl⟩ := hp
            rfl
          · simp at hp
        · rename_i hx
          rw [if_neg hx]
          rw [Res.bind_eq_ok] at h
          obtain ⟨⟨t0, r0⟩, hp, h⟩ := h
          simp only [Res.ok.injEq, Prod.mk.injEq] at h
          obtain ⟨rfl, rfl, rfl⟩ := h
          have : pullWord env true c (s ++ B) line = .ok (t0, B) := by
            unfold pullWord at hp ⊢
            split at hp
            · rename_i hn
              rw [if_pos hn]
              exact pullNumber_end hp hB
            · rename_i hn
              rw [if_neg hn]
              split at hp
              · simp at hp
              · rename_i hni
                rw [if_neg hni]
                simp only [Res.ok.injEq] at hp ⊢
                exact pullUnquoted_end (s := c :: s) hp hl hB
          rw [this]
          rfl

/-- The last token of a text, before something that ends it. -/
theorem pullNext_end {env : Env} {f : Nat} {sv : Saver} {s : Str} {line : Nat} {t : Tok} {sv' : Saver} {line' : Nat}
    {B : Str} (h : pullNext env true f sv s line = .ok (t, sv', [], line')) (hne : t ≠ .end_)
    (ht : ∀ d x l, t ≠ .comment d x l) (hl : s.getLast? ≠ some '/') (hB : StopHead B) :
    pullNext env true f sv (s ++ B) line = .ok (t, sv', B, line') := by
  by_cases hcl : closedTok t = true
  · exact (pull_local env true f B).1 _ _ _ _ _ _ _ h (Or.inr hcl)
  cases f with
  | zero => simp [pullNext] at h
  | succ f =>
    rw [pullNext] at h ⊢
    split at h
    · simp only [Res.ok.injEq, Prod.mk.injEq] at h
      exact absurd h.1.symm hne
    · rename_i ws c r0 heq
      obtain ⟨w, _, hs0, _⟩ := nextChar_some heq
      rw [nextChar_local B heq]
      simp only
      have hl' : (c :: r0).getLast? ≠ some '/' := by
        rw [hs0] at hl
        simpa using hl
      by_cases hc : c = '\n'
      · simp only [if_pos hc] at h
        simp only [Res.ok.injEq, Prod.mk.injEq] at h
        rw [← h.1] at hcl
        simp [closedTok] at hcl
      · simp only [if_neg hc] at h ⊢
        by_cases hd : c = '$'
        · simp only [if_pos hd] at h
          rw [Res.bind_eq_ok] at h
          obtain ⟨⟨t0, r1, l1⟩, hp, h⟩ := h
          simp only [Res.ok.injEq, Prod.mk.injEq] at h
          obtain ⟨rfl, rfl, rfl, rfl⟩ := h
          cases f with
          | zero => simp [pullSubst] at hp
          | succ f =>
            rw [pullSubst] at hp
            split at hp
            · rw [Res.bind_eq_ok] at hp
              obtain ⟨⟨e', r1, l1⟩, _, hp⟩ := hp
              simp only [Res.ok.injEq, Prod.mk.injEq] at hp
              rw [← hp.1] at hcl
              simp [closedTok] at hcl
            · simp at hp
        · simp only [if_neg hd] at h ⊢
          rw [Res.bind_eq_ok] at h
          obtain ⟨⟨t0, r1, l1⟩, hp, h⟩ := h
          simp only [Res.ok.injEq, Prod.mk.injEq] at h
          obtain ⟨rfl, rfl, rfl, rfl⟩ := h
          rw [pullPlain_end hp ht hl' hB]
          rfl

end Tokenizer
end Hocon
