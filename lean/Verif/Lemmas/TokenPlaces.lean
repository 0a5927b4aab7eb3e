import Verif.Lemmas.TokenizerLemmas
import Verif.Spec.Positions

/-!
# Where the tokens stand
-/

set_option autoImplicit false

namespace Hocon
namespace Tokenizer

open Spec

theorem count_suffix {s u r : Str} (h : s = u ++ r) : r.count '\n' ≤ s.count '\n' := by
  rw [h, List.count_append]; omega

theorem pullQuoted_lines {env : Env} {s : Str} {line : Nat} {t : Tok} {r : Str} {line' : Nat}
    (h : pullQuoted env s line = .ok (t, r, line')) :
    line ≤ line' ∧ line' + r.count '\n' ≤ line + s.count '\n' := by
  unfold pullQuoted at h
  rw [Res.bind_eq_ok] at h
  obtain ⟨⟨res, o, r0⟩, hq, h⟩ := h
  obtain ⟨u, v, h1, _⟩ := quotedLoop_spec hq
  have h2 := count_suffix h1
  simp only at h
  split at h
  · split at h
    · rename_i r'
      rw [Res.bind_eq_ok] at h
      obtain ⟨⟨p, o2, r2, l2⟩, ht, h⟩ := h
      simp only [Res.ok.injEq, Prod.mk.injEq] at h
      obtain ⟨rfl, rfl, rfl⟩ := h
      obtain ⟨w, g1, g2, g3⟩ := tripleLoop_spec ht
      rw [List.count_cons_of_ne (by decide), g1, List.count_append] at h2
      omega
    · simp only [Res.ok.injEq, Prod.mk.injEq] at h
      obtain ⟨rfl, rfl, rfl⟩ := h
      omega
  · simp only [Res.ok.injEq, Prod.mk.injEq] at h
    obtain ⟨rfl, rfl, rfl⟩ := h
    omega

theorem pullPlain_lines {env : Env} {allow : Bool} {c : Char} {s : Str} {line : Nat} {t : Tok}
    {r : Str} {line' : Nat} (hc : c ≠ '\n') (hw : isWhitespaceNotNewline c = false)
    (h : pullPlain env allow c s line = .ok (t, r, line')) :
    line ≤ line' ∧ line' + r.count '\n' ≤ line + s.count '\n' := by
  obtain ⟨u, hu, _⟩ := pullPlain_spec hc hw h
  have h2 := count_suffix hu
  have key : line' = line → line ≤ line' ∧ line' + r.count '\n' ≤ line + s.count '\n' := by omega
  unfold pullPlain at h
  split at h
  · simp only [Res.bind_eq_ok, Res.ok.injEq, Prod.mk.injEq] at h
    obtain ⟨_, _, _, _, rfl⟩ := h
    exact key rfl
  · split at h
    · exact pullQuoted_lines h
    · split at h
      · simp only [Res.ok.injEq, Prod.mk.injEq] at h
        exact key h.2.2.symm
      · split at h
        · simp only [Res.bind_eq_ok, Res.ok.injEq, Prod.mk.injEq] at h
          obtain ⟨_, _, _, _, rfl⟩ := h
          exact key rfl
        · simp only [Res.bind_eq_ok, Res.ok.injEq, Prod.mk.injEq] at h
          obtain ⟨_, _, _, _, rfl⟩ := h
          exact key rfl

theorem pull_lines (env : Env) (allow : Bool) (fuel : Nat) :
    (∀ sv s line t sv' r line', pullNext env allow fuel sv s line = .ok (t, sv', r, line') →
      line ≤ line' ∧ line' + r.count '\n' ≤ line + s.count '\n') ∧
    (∀ s line t r line', pullSubst env allow fuel s line = .ok (t, r, line') →
      line ≤ line' ∧ line' + r.count '\n' ≤ line + s.count '\n') ∧
    (∀ sv e s line e' r line', substLoop env allow fuel sv e s line = .ok (e', r, line') →
      line ≤ line' ∧ line' + r.count '\n' ≤ line + s.count '\n') := by
  induction fuel with
  | zero => refine ⟨?_, ?_, ?_⟩ <;> intros <;> simp_all [pullNext, pullSubst, substLoop]
  | succ fuel ih =>
    obtain ⟨ihN, ihS, ihL⟩ := ih
    refine ⟨?_, ?_, ?_⟩
    · intro sv s line t sv' r line' h
      rw [pullNext] at h
      split at h
      · simp only [Res.ok.injEq, Prod.mk.injEq] at h
        obtain ⟨_, _, rfl, rfl⟩ := h
        simp
      · rename_i ws c r1 heq
        obtain ⟨w, h1, h2, h3, h4⟩ := nextChar_some heq
        have hcount : s.count '\n' = (if c = '\n' then 1 else 0) + r1.count '\n' := by
          rw [h2, List.count_append, h3.count_newline, List.count_cons]
          by_cases hc : c = '\n' <;> simp [hc]; omega
        simp only at h
        split at h
        · rename_i hc
          simp only [Res.ok.injEq, Prod.mk.injEq] at h
          obtain ⟨_, _, rfl, rfl⟩ := h
          simp only [hc, if_true] at hcount
          omega
        · rename_i hc
          simp only [hc, if_false] at hcount
          split at h
          · simp only [Res.bind_eq_ok, Res.ok.injEq, Prod.mk.injEq] at h
            obtain ⟨⟨t1, r2, l2⟩, hs, _, _, rfl, rfl⟩ := h
            have := ihS _ _ _ _ _ hs
            simp only
            omega
          · simp only [Res.bind_eq_ok, Res.ok.injEq, Prod.mk.injEq] at h
            obtain ⟨⟨t1, r2, l2⟩, hs, _, _, rfl, rfl⟩ := h
            have := pullPlain_lines hc h4 hs
            simp only
            omega
    · intro s line t r line' h
      rw [pullSubst] at h
      split at h
      · rename_i o r1 hso
        have hcount : r1.count '\n' ≤ s.count '\n' := by
          rw [substOpen_spec hso]
          cases o <;> simp
        simp only [Res.bind_eq_ok, Res.ok.injEq, Prod.mk.injEq] at h
        obtain ⟨⟨t1, r2, l2⟩, hs, _, rfl, rfl⟩ := h
        have := ihL _ _ _ _ _ _ _ hs
        simp only
        omega
      · simp at h
    · intro sv e s line e' r line' h
      rw [substLoop] at h
      split at h
      · rename_i heq
        simp only [Res.ok.injEq, Prod.mk.injEq] at h
        obtain ⟨_, rfl, rfl⟩ := h
        exact ihN _ _ _ _ _ _ _ heq
      · simp at h
      · rename_i heq
        have h1 := ihN _ _ _ _ _ _ _ heq
        have h2 := ihL _ _ _ _ _ _ _ h
        omega
      · simp at h
      · simp at h
      · simp at h

/-- A comment token is a comment of the text. -/
theorem pullNext_comment {env : Env} {allow : Bool} {fuel : Nat} {sv : Saver} {s : Str} {line : Nat}
    {d : Bool} {c : Str} {l : Int} {sv' : Saver} {r : Str} {line' : Nat}
    (h : pullNext env allow fuel sv s line = .ok (.comment d c l, sv', r, line')) :
    allow = true ∧ CommentIn s c := by
  cases fuel with
  | zero => simp [pullNext] at h
  | succ fuel =>
    rw [pullNext] at h
    split at h
    · simp at h
    · rename_i ws x r1 heq
      obtain ⟨w, h1, h2, h3, h4⟩ := nextChar_some heq
      simp only at h
      split at h
      · simp at h
      · rename_i hx
        split at h
        · simp only [Res.bind_eq_ok, Res.ok.injEq, Prod.mk.injEq] at h
          obtain ⟨⟨t1, r2, l2⟩, hs, rfl, _⟩ := h
          obtain ⟨_, _, _, hs'⟩ := (pull_specs env allow fuel).2.1 _ _ _ _ _ hs
          simp [Tok.isSimple] at hs'
        · simp only [Res.bind_eq_ok, Res.ok.injEq, Prod.mk.injEq] at h
          obtain ⟨⟨t1, r2, l2⟩, hs, rfl, _⟩ := h
          have hbody : ∀ z : Str, (commentBody z).2 = [] ∨ ∃ b, (commentBody z).2 = '\n' :: b := by
            intro z
            induction z with
            | nil => simp [commentBody]
            | cons y z ih =>
              rw [commentBody]
              split
              · rename_i hy; subst hy; simp
              · exact ih
          unfold pullPlain at hs
          split at hs
          · rename_i hcm
            have ha : allow = true := by
              simp only [startOfComment, Bool.and_eq_true] at hcm
              exact hcm.1
            refine ⟨ha, ?_⟩
            simp only [Res.bind_eq_ok, Res.ok.injEq, Prod.mk.injEq] at hs
            obtain ⟨⟨t3, r3⟩, hp, rfl, _⟩ := hs
            unfold pullComment at hp
            simp only at hp
            split at hp
            · rename_i hslash
              split at hp
              · rename_i r4
                simp only [Res.ok.injEq, Prod.mk.injEq, Tok.comment.injEq] at hp
                obtain ⟨⟨_, rfl, _⟩, rfl⟩ := hp
                exact ⟨w, ['/', '/'], (commentBody r4).2, Or.inr rfl,
                  by rw [h2, hslash, (commentBody_spec r4).1]; rfl, (commentBody_spec r4).2, hbody r4⟩
              · simp at hp
            · rename_i hslash
              simp only [Res.ok.injEq, Prod.mk.injEq, Tok.comment.injEq] at hp
              obtain ⟨⟨_, rfl, _⟩, rfl⟩ := hp
              have hh : x = '#' := by
                simp only [startOfComment, Bool.and_eq_true, Bool.or_eq_true, beq_iff_eq] at hcm
                rcases hcm.2 with h | h
                · exact h
                · exact absurd h.1 hslash
              exact ⟨w, ['#'], (commentBody r1).2, Or.inl rfl,
                by rw [h2, hh, (commentBody_spec r1).1]; rfl, (commentBody_spec r1).2, hbody r1⟩
          · exfalso
            rename_i hcm
            split at hs
            · obtain ⟨_, _, _, y, hy⟩ := pullQuoted_spec hs
              simp at hy
            · split at hs
              · rename_i t1 hpt
                simp only [Res.ok.injEq, Prod.mk.injEq] at hs
                obtain ⟨rfl, _⟩ := hs
                unfold punctuation at hpt
                repeat' split at hpt
                all_goals simp at hpt
              · split at hs
                · simp only [Res.bind_eq_ok, Res.ok.injEq, Prod.mk.injEq] at hs
                  obtain ⟨⟨t3, r3⟩, hp, rfl, _⟩ := hs
                  unfold pullPlusEquals at hp
                  split at hp <;> simp at hp
                · simp only [Res.bind_eq_ok, Res.ok.injEq, Prod.mk.injEq] at hs
                  obtain ⟨⟨t3, r3⟩, hp, rfl, _⟩ := hs
                  obtain ⟨_, _, _, _, _, _, h6⟩ := pullWord_spec hx h4 (by simpa using hcm) hp
                  simp [Tok.isSimple] at h6

theorem commentIn_append {s c : Str} (h : CommentIn s c) (a : Str) : CommentIn (a ++ s) c := by
  obtain ⟨a', m, b, h1, h2, h3⟩ := h
  exact ⟨a ++ a', m, b, h1, by rw [h2]; simp, h3⟩

/-- What holds of every token. -/
structure Placed (allow : Bool) (s : Str) (lo hi : Nat) (t : Tok) : Prop where
  line : ∀ l, t.originLine = some l → (lo : Int) ≤ l ∧ l ≤ hi
  comment : ∀ d c l, t = .comment d c l → allow = true ∧ CommentIn s c

theorem check_placed {sv : Saver} {simple allow : Bool} {line lo hi : Nat} {s : Str} (h1 : lo ≤ line) (h2 : line ≤ hi) :
    ∀ t ∈ (sv.check simple line).1.toList, Placed allow s lo hi t := by
  intro t ht
  have : ∃ x, t = .ws x line ∨ t = .unquoted x line := by
    unfold Saver.check Saver.create at ht
    cases simple <;> by_cases h : sv.ws.length > 0 <;> cases h' : sv.lastSimple <;> simp [h, h'] at ht <;>
      first | exact ⟨_, Or.inl ht⟩ | exact ⟨_, Or.inr ht⟩
  obtain ⟨x, rfl | rfl⟩ := this <;> exact ⟨by simp [Tok.originLine]; omega, by simp⟩

theorem tokenLoop_placed {env : Env} {allow : Bool} {fuel : Nat} {sv : Saver} {s : Str} {line : Nat}
    {ts : List Tok} (h : tokenLoop env allow fuel sv s line = .ok ts) :
    ∀ t ∈ ts, Placed allow s line (line + s.count '\n') t := by
  induction fuel generalizing sv s line ts with
  | zero => simp [tokenLoop] at h
  | succ fuel ih =>
    rw [tokenLoop] at h
    split at h
    · rename_i t sv1 r1 l1 heq
      have hl := (pull_lines env allow _).1 _ _ _ _ _ _ _ heq
      obtain ⟨w, h1, h2, h3, h4⟩ := pullNext_spec heq
      simp only at h
      split at h
      · simp only [Res.ok.injEq] at h
        subst h
        intro t ht
        rcases List.mem_append.1 ht with ht | ht
        · exact check_placed hl.1 (by omega) t ht
        · simp only [List.mem_singleton] at ht
          subst ht
          exact ⟨by simp [Tok.originLine], by simp⟩
      · rename_i hne
        rcases h4 with ⟨h4, _⟩ | ⟨u, h4, h5⟩
        · exact absurd h4 hne
        rw [Res.bind_eq_ok] at h
        obtain ⟨ts', hp, h⟩ := h
        simp only [Res.ok.injEq] at h
        subst h
        intro x hx
        rcases List.mem_append.1 hx with hx | hx
        · exact check_placed hl.1 (by omega) x hx
        · rcases List.mem_cons.1 hx with rfl | hx
          · refine ⟨?_, ?_⟩
            · intro l hxl
              by_cases hnl : ∃ l', x = .newline l'
              · obtain ⟨l', rfl⟩ := hnl
                have := h5.originNl l' rfl
                simp only [Tok.originLine, Option.some.injEq] at hxl
                omega
              · have := h5.origin l (fun l' hl' => hnl ⟨l', hl'⟩) hxl
                omega
            · rintro d c l rfl
              exact pullNext_comment heq
          · have := ih hp x hx
            refine ⟨fun l hxl => ?_, fun d c l hc => ?_⟩
            · have := this.line l hxl
              omega
            · have := this.comment d c l hc
              exact ⟨this.1, by rw [h4]; exact commentIn_append this.2 _⟩
    · simp at h
    · simp at h
    · simp at h

/-- Every token of a text stands on one of its lines, and every comment token is a comment of it. -/
theorem tokenize_placed {env : Env} {allow : Bool} {s : Str} {toks : List Tok}
    (h : tokenize env allow s = .ok toks) : ∀ t ∈ toks, Placed allow s 1 (lineCount s) t := by
  unfold tokenize at h
  rw [Res.bind_eq_ok] at h
  obtain ⟨ts, ht, h⟩ := h
  simp only [Res.ok.injEq] at h
  subst h
  intro t ht'
  rcases List.mem_cons.1 ht' with rfl | ht'
  · exact ⟨by simp [Tok.originLine], by simp⟩
  · exact tokenLoop_placed ht t ht'

end Tokenizer
end Hocon
