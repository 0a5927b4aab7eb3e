import Verif.Lemmas.PathParserLemmas

/-!
# Path texts with a newline or a comment

The full path parser rejects every text with a newline outside quotes, so that it agrees with the fast one on every
text that both accept. It rejects comments too, so that the tokens of a text it accepts do not depend on whether
comments are allowed.
-/

set_option autoImplicit false

namespace Hocon
namespace PathParser
open Tokenizer

/-- A newline outside quotes and substitutions is a token. -/
theorem tokenLoop_newline {env : Env} {allow : Bool} {fuel : Nat} {sv : Saver} {s : Str} {line : Nat} {ts : List Tok}
    (h : tokenLoop env allow fuel sv s line = .ok ts) (hn : '\n' ∈ s) (hq : '"' ∉ s) (hd : '$' ∉ s) (hb : '\\' ∉ s) :
    ∃ l, Tok.newline l ∈ ts := by
  induction fuel generalizing sv s line ts with
  | zero => simp [tokenLoop] at h
  | succ fuel ih =>
    rw [tokenLoop] at h
    split at h
    · rename_i t sv1 r1 l1 heq
      simp only at h
      rw [pullNext] at heq
      split at heq
      · rename_i ws he
        obtain ⟨-, h2⟩ := nextChar_none he
        have := h2.count_newline
        exact absurd hn (List.count_eq_zero.1 this)
      · rename_i ws c r0 he
        obtain ⟨w, h1, rfl, h3, h4⟩ := nextChar_some he
        by_cases hc : c = '\n'
        · simp only [if_pos hc, Res.ok.injEq, Prod.mk.injEq] at heq
          obtain ⟨rfl, rfl, rfl, rfl⟩ := heq
          simp only [Res.bind_eq_ok, Res.ok.injEq] at h
          obtain ⟨ts', _, rfl⟩ := h
          exact ⟨line, by simp⟩
        · have hc' : c ≠ '$' := by rintro rfl; simp at hd
          have hc2 : c ≠ '"' := by rintro rfl; simp at hq
          simp only [if_neg hc, if_neg hc', Res.bind_eq_ok, Res.ok.injEq, Prod.mk.injEq] at heq
          obtain ⟨⟨t', r', line'⟩, hp, rfl, rfl, rfl, rfl⟩ := heq
          obtain ⟨u, rfl, hu⟩ := pullPlain_spec hc h4 hp
          have hline : line' = line := by
            unfold pullPlain at hp
            rw [if_neg hc2] at hp
            split at hp
            · simp only [Res.bind_eq_ok, Res.ok.injEq, Prod.mk.injEq] at hp
              obtain ⟨_, _, _, _, e⟩ := hp
              exact e.symm
            · split at hp
              · simp only [Res.ok.injEq, Prod.mk.injEq] at hp
                exact hp.2.2.symm
              · split at hp <;>
                (simp only [Res.bind_eq_ok, Res.ok.injEq, Prod.mk.injEq] at hp
                 obtain ⟨_, _, _, _, e⟩ := hp
                 exact e.symm)
          have hne : NoEscapedNewline (c :: u) := by
            intro a b e
            exact absurd (show '\\' ∈ w ++ c :: (u ++ r') by
              rw [show w ++ c :: (u ++ r') = w ++ ((c :: u) ++ r') by simp, e]; simp) hb
          have hz := hu.lines hne
          have hz' : '\n' ∉ c :: u := List.count_eq_zero.1 (by omega)
          have hw' : '\n' ∉ w := List.count_eq_zero.1 h3.count_newline
          have hr : '\n' ∈ r' := by
            have : '\n' ∈ w ++ ((c :: u) ++ r') := by simpa using hn
            simp only [List.mem_append] at this
            rcases this with e | e | e
            · exact absurd e hw'
            · exact absurd e hz'
            · exact e
          simp only at h
          split at h
          · exact absurd rfl hu.notEnd
          · simp only [Res.bind_eq_ok, Res.ok.injEq] at h
            obtain ⟨ts', ht, rfl⟩ := h
            obtain ⟨l, hl⟩ := ih ht hr (fun m => hq (by simp [m])) (fun m => hd (by simp [m])) (fun m => hb (by simp [m]))
            exact ⟨l, by simp [hl]⟩
    · simp at h
    · simp at h
    · simp at h

/-- The full parser rejects it. -/
theorem plainLoop_newline {env : Env} {ho : Bool} {es es' : Elems} {ts : List Tok} {l : Int}
    (hl : Tok.newline l ∈ ts) : plainLoop env ho es ts ≠ .ok es' := by
  induction ts generalizing es with
  | nil => simp at hl
  | cons t ts ih =>
    intro h
    by_cases ht : t = .newline l
    · subst ht; cases ho <;> simp [plainLoop, badPath] at h
    · have hl' : Tok.newline l ∈ ts := by
        rcases List.mem_cons.1 hl with e | e
        · exact absurd e.symm ht
        · exact e
      unfold plainLoop at h
      split at h <;> first | exact ih hl' h | (cases ho <;> simp [badPath] at h)

/-- The texts of the fast parser. -/
theorem fastParse_chars {s : Str} {p : Path} (hf : fastParse s = .ok p) (hp : p ≠ []) :
    ∀ c ∈ s, isSpace c = true ∨ RawChar c := by
  unfold fastParse at hf
  simp only at hf
  split at hf
  · simp only [Res.ok.injEq] at hf
    exact absurd hf.symm hp
  · rename_i hsafe
    obtain ⟨l, r, hs, hl, hr⟩ := trim_split s
    generalize hcore : trim s = core at hs hsafe
    have hloop : unsafeLoop true core = false := by
      unfold looksUnsafe at hsafe
      cases core with
      | nil => simp at hsafe
      | cons c core =>
        simp only [Bool.or_eq_true, not_or] at hsafe
        simpa using hsafe.2
    have hchars := unsafeLoop_chars hloop
    intro c hc
    rw [hs] at hc
    simp only [List.mem_append] at hc
    rcases hc with (hc | hc) | hc
    · exact Or.inl (hl c hc)
    · exact Or.inr (hchars c hc).1
    · exact Or.inl (hr c hc)

/-- A text that both path parsers accept has no newline. -/
theorem both_no_newline {env : Env} {s : Str} {p q : Path} (hf : fastParse s = .ok p) (hp : p ≠ [])
    (h : parsePathSlow env s = .ok q) : '\n' ∉ s := by
  intro hn
  have hmem := fastParse_chars hf hp
  unfold parsePathSlow tokenize at h
  simp only [Res.bind_eq_ok, Res.ok.injEq] at h
  obtain ⟨_, ⟨ts, ht, rfl⟩, h⟩ := h
  obtain ⟨k, hk⟩ := tokenLoop_newline ht hn
    (fun m => by rcases hmem _ m with e | e <;> revert e <;> simp [RawChar] <;> decide)
    (fun m => by rcases hmem _ m with e | e <;> revert e <;> simp [RawChar] <;> decide)
    (fun m => by rcases hmem _ m with e | e <;> revert e <;> simp [RawChar] <;> decide)
  rw [List.tail_cons] at h
  unfold parsePathExpression at h
  rw [if_neg (by cases ts with | nil => simp at hk | cons _ _ => simp), Res.bind_eq_ok] at h
  obtain ⟨es, h1, _⟩ := h
  exact plainLoop_newline hk h1

/-- Tokens a path expression may have: no comments and no substitutions. -/
def NoNote (t : Tok) : Prop := (∀ b x l, t ≠ .comment b x l) ∧ ∀ o e l, t ≠ .subst o e l

theorem startOfComment_false (c : Char) (r : Str) : startOfComment false c r = false := by simp [startOfComment]

theorem pullUnquoted_note {line : Nat} {acc s : Str} {t : Tok} {r : Str} (h : pullUnquoted true line acc s = (t, r)) :
    pullUnquoted false line acc s = (t, r) ∨ ∃ c r', r = c :: r' ∧ startOfComment true c r' = true := by
  induction s generalizing acc with
  | nil => exact Or.inl h
  | cons c s ih =>
    by_cases hc : startOfComment true c s = true
    · rw [pullUnquoted, if_pos (by simp [hc])] at h
      cases h
      exact Or.inr ⟨c, s, rfl, hc⟩
    · simp only [Bool.not_eq_true] at hc
      rw [pullUnquoted, hc] at h
      rw [pullUnquoted, startOfComment_false]
      split at h
      · rename_i h0; rw [if_pos h0]; exact Or.inl h
      · rename_i h0; rw [if_neg h0]
        simp only at h ⊢
        split at h
        · rename_i h1; rw [if_pos h1]; exact Or.inl h
        · rename_i h1; rw [if_neg h1]
          split at h
          · rename_i h2; rw [if_pos h2]; exact Or.inl h
          · rename_i h2; rw [if_neg h2]
            split at h
            · rename_i h3; rw [if_pos h3]; exact Or.inl h
            · rename_i h3; rw [if_neg h3]
              exact ih h

theorem comment_chars {c : Char} {r : Str} (h : startOfComment true c r = true) : c = '#' ∨ c = '/' := by
  simp only [startOfComment, Bool.and_eq_true, Bool.or_eq_true, beq_iff_eq] at h
  rcases h.2 with h | h
  · exact Or.inl h
  · exact Or.inr h.1

theorem pullPlain_comment {env : Env} {c : Char} {r : Str} {line : Nat} (hc : startOfComment true c r = true)
    {t : Tok} {r' : Str} {line' : Nat} (h : pullPlain env true c r line = .ok (t, r', line')) : ¬ NoNote t := by
  unfold pullPlain at h
  rw [if_pos hc] at h
  simp only [Res.bind_eq_ok, Res.ok.injEq, Prod.mk.injEq] at h
  obtain ⟨⟨t0, r0⟩, hp, rfl, rfl, rfl⟩ := h
  unfold pullComment at hp
  split at hp
  · split at hp
    · simp only [Res.ok.injEq, Prod.mk.injEq] at hp
      obtain ⟨rfl, rfl⟩ := hp
      exact fun hn => hn.1 _ _ _ rfl
    · simp at hp
  · simp only [Res.ok.injEq, Prod.mk.injEq] at hp
    obtain ⟨rfl, rfl⟩ := hp
    exact fun hn => hn.1 _ _ _ rfl

/-- Where a comment starts, the next token is a comment. -/
theorem tokenLoop_comment {env : Env} {fuel : Nat} {sv : Saver} {c : Char} {r : Str} {line : Nat} {ts : List Tok}
    (hc : startOfComment true c r = true) (h : tokenLoop env true fuel sv (c :: r) line = .ok ts) :
    ∃ t ∈ ts, ¬ NoNote t := by
  have hch := comment_chars hc
  have hw : isWhitespaceNotNewline c = false := by rcases hch with rfl | rfl <;> decide
  have h1 : c ≠ '\n' := by rcases hch with rfl | rfl <;> decide
  have h2 : c ≠ '$' := by rcases hch with rfl | rfl <;> decide
  cases fuel with
  | zero => simp [tokenLoop] at h
  | succ fuel =>
    rw [tokenLoop, pullNext, nextCharAfterWhitespace, if_neg (by simp [hw])] at h
    simp only [if_neg h1, if_neg h2] at h
    cases hp : pullPlain env true c r line with
    | ok x =>
      obtain ⟨t, r', line'⟩ := x
      have hn := pullPlain_comment hc hp
      rw [hp] at h
      simp only [Res.ok_bind] at h
      split at h
      · simp only [Res.ok.injEq] at h
        exact absurd ⟨by simp, by simp⟩ hn
      · simp only [Res.bind_eq_ok, Res.ok.injEq] at h
        obtain ⟨ts', _, rfl⟩ := h
        exact ⟨t, by simp, hn⟩
    | err e => rw [hp] at h; simp at h
    | ub => rw [hp] at h; simp at h
    | fuel => rw [hp] at h; simp at h

theorem pullPlain_note {env : Env} {c : Char} {s : Str} {line : Nat} {t : Tok} {r : Str} {line' : Nat}
    (h : pullPlain env true c s line = .ok (t, r, line')) (hn : NoNote t) :
    pullPlain env false c s line = .ok (t, r, line') ∨ ∃ d r', r = d :: r' ∧ startOfComment true d r' = true := by
  by_cases hc : startOfComment true c s = true
  · exact absurd hn (pullPlain_comment hc h)
  · unfold pullPlain at h ⊢
    rw [if_neg hc] at h
    rw [startOfComment_false]
    simp only [Bool.false_eq_true, if_false]
    split at h
    · rename_i h0; rw [if_pos h0]; exact Or.inl h
    · rename_i h0; rw [if_neg h0]
      cases hp : punctuation c with
      | some t1 => rw [hp] at h; exact Or.inl h
      | none =>
        rw [hp] at h
        simp only at h ⊢
        split at h
        · rename_i h1; rw [if_pos h1]; exact Or.inl h
        · rename_i h1; rw [if_neg h1]
          unfold pullWord at h ⊢
          split at h
          · rename_i h2; rw [if_pos h2]; exact Or.inl h
          · rename_i h2; rw [if_neg h2]
            split at h
            · simp at h
            · rename_i h3; rw [if_neg h3]
              rw [Res.ok_bind] at h
              rw [Res.ok_bind]
              simp only [Res.ok.injEq, Prod.mk.injEq] at h
              obtain ⟨h4, h5, rfl⟩ := h
              rcases pullUnquoted_note (line := line) (acc := []) (s := c :: s) (t := t) (r := r) (Prod.ext h4 h5) with e | e
              · left; rw [e]
              · exact Or.inr e

theorem pullSubst_note {env : Env} {fuel : Nat} {s : Str} {line : Nat} {t : Tok} {r : Str} {line' : Nat}
    (h : pullSubst env true fuel s line = .ok (t, r, line')) : ¬ NoNote t := by
  cases fuel with
  | zero => simp [pullSubst] at h
  | succ fuel =>
    rw [pullSubst] at h
    split at h
    · simp only [Res.bind_eq_ok, Res.ok.injEq, Prod.mk.injEq] at h
      obtain ⟨_, _, rfl, _⟩ := h
      exact fun hn => hn.2 _ _ _ rfl
    · simp at h

/-- A text without comments and substitutions among its tokens has the same tokens when comments are off. -/
theorem tokenLoop_note {env : Env} {fuel : Nat} {sv : Saver} {s : Str} {line : Nat} {ts : List Tok}
    (h : tokenLoop env true fuel sv s line = .ok ts) (hn : ∀ t ∈ ts, NoNote t) :
    tokenLoop env false fuel sv s line = .ok ts := by
  induction fuel generalizing sv s line ts with
  | zero => simp [tokenLoop] at h
  | succ fuel ih =>
    rw [tokenLoop] at h ⊢
    rw [pullNext] at h ⊢
    cases hx : nextCharAfterWhitespace sv.ws s with
    | mk ws o =>
      rw [hx] at h
      cases o with
      | none => exact h
      | some cr =>
        obtain ⟨c, r0⟩ := cr
        simp only at h ⊢
        by_cases h1 : c = '\n'
        · simp only [if_pos h1, Res.bind_eq_ok, Res.ok.injEq] at h ⊢
          obtain ⟨ts', ht, rfl⟩ := h
          exact ⟨ts', ih ht fun t m => hn t (by simp [m]), rfl⟩
        · simp only [if_neg h1] at h ⊢
          by_cases h2 : c = '$'
          · exfalso
            simp only [if_pos h2] at h
            cases hp : pullSubst env true (2 * s.length) r0 line with
            | ok x =>
              obtain ⟨t, r', line'⟩ := x
              rw [hp] at h
              simp only [Res.ok_bind] at h
              have := pullSubst_note hp
              split at h
              · exact this ⟨by simp, by simp⟩
              · simp only [Res.bind_eq_ok, Res.ok.injEq] at h
                obtain ⟨ts', _, rfl⟩ := h
                exact this (hn _ (by simp))
            | err e => rw [hp] at h; simp at h
            | ub => rw [hp] at h; simp at h
            | fuel => rw [hp] at h; simp at h
          · simp only [if_neg h2] at h ⊢
            cases hp : pullPlain env true c r0 line with
            | ok x =>
              obtain ⟨t, r', line'⟩ := x
              rw [hp] at h
              simp only [Res.ok_bind] at h
              by_cases he : t = .end_
              · subst he
                have := pullPlain_note hp ⟨by simp, by simp⟩
                rcases this with e | ⟨d, r2, rfl, _⟩
                · rw [e]; exact h
                · exfalso
                  by_cases hw : isWhitespaceNotNewline c = true
                  · exact absurd (nextChar_some hx).choose_spec.2.2.2 (by simp [hw])
                  · obtain ⟨u, _, hu⟩ := pullPlain_spec h1 (by simpa using hw) hp
                    exact hu.notEnd rfl
              · have h' : (tokenLoop env true fuel
                    ((({ sv with ws := ws } : Saver).check t.isSimple line').2) r' line') >>= (fun ts =>
                      .ok ((({ sv with ws := ws } : Saver).check t.isSimple line').1.toList ++ t :: ts)) = .ok ts := by
                  cases t <;> first | exact absurd rfl he | exact h
                rw [Res.bind_eq_ok] at h'
                obtain ⟨ts', ht, hts⟩ := h'
                simp only [Res.ok.injEq] at hts
                subst hts
                have hnt : NoNote t := hn t (by simp)
                rcases pullPlain_note hp hnt with e | ⟨d, r2, rfl, hd⟩
                · rw [e]
                  have := ih ht fun t m => hn t (by simp [m])
                  cases t <;> first | exact absurd rfl he | (simp only [Res.ok_bind]; rw [this]; rfl)
                · obtain ⟨t', m, hm⟩ := tokenLoop_comment hd ht
                  exact absurd (hn t' (by simp [m])) hm
            | err e => rw [hp] at h; simp at h
            | ub => rw [hp] at h; simp at h
            | fuel => rw [hp] at h; simp at h

theorem plainLoop_note {env : Env} {ho : Bool} {es es' : Elems} {ts : List Tok}
    (h : plainLoop env ho es ts = .ok es') : ∀ t ∈ ts, NoNote t := by
  induction ts generalizing es with
  | nil => simp
  | cons t ts ih =>
    have key : NoNote t ∧ ∃ es1, plainLoop env ho es1 ts = .ok es' := by
      unfold plainLoop at h
      split at h <;> first | exact ⟨⟨by simp, by simp⟩, _, h⟩ | (cases ho <;> simp [badPath] at h)
    obtain ⟨h1, es1, h2⟩ := key
    intro x hx
    rcases List.mem_cons.1 hx with rfl | hx
    · exact h1
    · exact ih h2 x hx

theorem tokenize_of_slow {env : Env} {s : Str} {p : Path} (h : parsePathSlow env s = .ok p) :
    tokenize env false s = tokenize env true s := by
  unfold parsePathSlow tokenize at h
  simp only [Res.bind_eq_ok, Res.ok.injEq] at h
  obtain ⟨_, ⟨ts, ht, rfl⟩, h⟩ := h
  rw [List.tail_cons] at h
  have hn : ∀ t ∈ ts, NoNote t := by
    unfold parsePathExpression at h
    cases ts with
    | nil => simp
    | cons t ts =>
      rw [if_neg (by simp), Res.bind_eq_ok] at h
      obtain ⟨es, h1, _⟩ := h
      exact plainLoop_note h1
  unfold tokenize
  rw [ht, tokenLoop_note ht hn]

end PathParser
end Hocon
