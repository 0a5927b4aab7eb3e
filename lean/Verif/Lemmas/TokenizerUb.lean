import Verif.Lemmas.TokenizerLemmas

/-!
# When the tokenizer has undefined behaviour
-/

namespace Hocon
namespace Tokenizer

/-- What makes the tokenizer undefined: a `\u` escape whose digits `sscanf` cannot read, or a
numeral whose value does not fit into `int64_t`. -/
def UbCause (env : Env) (s : Str) : Prop :=
  (∃ a b, s = a ++ '\\' :: 'u' :: b ∧
    (env.scanHx (cstr (b.take 4)) = none ∨ b.length = 3 ∧ env.scanHx (cstr (b ++ ['\xff'])) = none)) ∨
  (∃ a t b d, s = a ++ t ++ b ∧ env.parseDouble t = some d ∧ env.doubleToI64 d = none)

theorem UbCause.append {env : Env} {s : Str} (p : Str) (h : UbCause env s) : UbCause env (p ++ s) := by
  rcases h with ⟨a, b, rfl, h⟩ | ⟨a, t, b, d, rfl, h⟩
  · exact Or.inl ⟨p ++ a, b, by simp, h⟩
  · exact Or.inr ⟨p ++ a, t, b, d, by simp, h⟩

theorem UbCause.cons {env : Env} {s : Str} (c : Char) (h : UbCause env s) : UbCause env (c :: s) :=
  h.append [c]

theorem quotedLoop_ub (env : Env) (res o s : Str) (h : quotedLoop env res o s = .ub) :
    UbCause env s := by
  fun_induction quotedLoop env res o s
  case case3 ih => exact (ih h).append ['\\', _]
  case case4 a b c d r2 hs _ => exact Or.inl ⟨[], _, rfl, Or.inl hs⟩
  case case5 a b c d r2 n hs _ ih => exact (ih h).append ['\\', 'u', a, b, c, d]
  case case6 a b c hs _ => exact Or.inl ⟨[], _, rfl, Or.inr ⟨rfl, hs⟩⟩
  case case12 ih => exact (ih h).cons _
  all_goals simp at h

theorem tripleLoop_ne_ub (p o : Str) (q line : Nat) (s : Str) : tripleLoop p o q line s ≠ .ub := by
  fun_induction tripleLoop p o q line s <;> simp_all

theorem Res.bind_eq_ub {α β : Type} {x : Res α} {f : α → Res β} (h : (x >>= f) = .ub) :
    x = .ub ∨ ∃ a, x = .ok a ∧ f a = .ub := by
  cases x with
  | ok a => exact Or.inr ⟨a, rfl, h⟩
  | err => simp at h
  | ub => exact Or.inl rfl
  | fuel => simp at h

theorem pullQuoted_ub {env : Env} {s : Str} {line : Nat} (h : pullQuoted env s line = .ub) :
    UbCause env s := by
  unfold pullQuoted at h
  rcases Res.bind_eq_ub h with h | ⟨⟨a, b, c⟩, h1, h⟩
  · exact quotedLoop_ub _ _ _ _ h
  · simp only at h
    split at h
    · split at h
      · rcases Res.bind_eq_ub h with h | ⟨_, _, h⟩
        · exact absurd h (tripleLoop_ne_ub _ _ _ _ _)
        · simp at h
      · simp at h
    · simp at h

theorem notANumber_ne_ub (t : Str) (line : Nat) : notANumber t line ≠ .ub := by
  unfold notANumber
  split <;> simp

theorem pullNumber_ub {env : Env} {c : Char} {s : Str} {line : Nat}
    (h : pullNumber env c s line = .ub) : UbCause env (c :: s) := by
  unfold pullNumber at h
  simp only at h
  split at h
  · split at h
    · rename_i d hd
      rcases Res.bind_eq_ub h with h | ⟨v, hv, h⟩
      · unfold newNumberDouble at h
        split at h
        · rename_i hn
          refine Or.inr ⟨[], c :: (numberBody s).1, (numberBody s).2, d, ?_, hd, hn⟩
          simp [(numberBody_spec s).1]
        · split at h <;> simp at h
      · simp at h
    · rcases Res.bind_eq_ub h with h | ⟨_, _, h⟩
      · exact absurd h (notANumber_ne_ub _ _)
      · simp at h
  · split at h
    · simp at h
    · rcases Res.bind_eq_ub h with h | ⟨_, _, h⟩
      · exact absurd h (notANumber_ne_ub _ _)
      · simp at h

theorem pullPlain_ub {env : Env} {allow : Bool} {c : Char} {s : Str} {line : Nat}
    (h : pullPlain env allow c s line = .ub) : UbCause env (c :: s) := by
  unfold pullPlain at h
  by_cases hcm : startOfComment allow c s = true
  · rw [if_pos hcm] at h
    rcases Res.bind_eq_ub h with h | ⟨_, _, h⟩
    · unfold pullComment at h
      split at h
      · split at h <;> simp at h
      · simp at h
    · simp at h
  · rw [if_neg hcm] at h
    by_cases hq : c = '"'
    · rw [if_pos hq] at h; exact (pullQuoted_ub h).cons c
    · rw [if_neg hq] at h
      cases hpt : punctuation c with
      | some t1 => simp [hpt] at h
      | none =>
        simp only [hpt] at h
        by_cases hx : c = '+'
        · rw [if_pos hx] at h
          rcases Res.bind_eq_ub h with h | ⟨_, _, h⟩
          · unfold pullPlusEquals at h
            split at h <;> simp at h
          · simp at h
        · rw [if_neg hx] at h
          rcases Res.bind_eq_ub h with h | ⟨_, _, h⟩
          · unfold pullWord at h
            split at h
            · exact pullNumber_ub h
            · split at h <;> simp at h
          · simp at h

theorem pull_ub (env : Env) (allow : Bool) (fuel : Nat) :
    (∀ sv s line, pullNext env allow fuel sv s line = .ub → UbCause env s) ∧
    (∀ s line, pullSubst env allow fuel s line = .ub → UbCause env s) ∧
    (∀ sv e s line, substLoop env allow fuel sv e s line = .ub → UbCause env s) := by
  induction fuel with
  | zero => refine ⟨?_, ?_, ?_⟩ <;> intros <;> simp_all [pullNext, pullSubst, substLoop]
  | succ fuel ih =>
    obtain ⟨ihN, ihS, ihL⟩ := ih
    refine ⟨?_, ?_, ?_⟩
    · intro sv s line h
      rw [pullNext] at h
      split at h
      · simp at h
      · rename_i ws c r heq
        obtain ⟨w, h1, h2, h3, h4⟩ := nextChar_some heq
        rw [h2]
        refine UbCause.append w ?_
        by_cases hc : c = '\n'
        · simp [if_pos hc] at h
        · simp only [if_neg hc] at h
          by_cases hd : c = '$'
          · simp only [if_pos hd] at h
            rcases Res.bind_eq_ub h with h | ⟨_, _, h⟩
            · exact (ihS _ _ h).cons c
            · simp at h
          · simp only [if_neg hd] at h
            rcases Res.bind_eq_ub h with h | ⟨_, _, h⟩
            · exact pullPlain_ub h
            · simp at h
    · intro s line h
      rw [pullSubst] at h
      split at h
      · rename_i o r hso
        rw [substOpen_spec hso]
        rcases Res.bind_eq_ub h with h | ⟨_, _, h⟩
        · exact (ihL _ _ _ _ h).append _
        · simp at h
      · simp at h
    · intro sv e s line h
      rw [substLoop] at h
      split at h
      · simp at h
      · simp at h
      · rename_i t sv1 r1 l1 hne hne2 heq
        obtain ⟨w, h1, h2, h3, h4⟩ := pullNext_spec heq
        rcases h4 with ⟨h4, _⟩ | ⟨u, h4, h5⟩
        · exact absurd h4 hne2
        rw [h4]
        exact (ihL _ _ _ _ h).append _
      · simp at h
      · rename_i heq
        exact ihN _ _ _ heq
      · simp at h

theorem tokenLoop_ub {env : Env} {allow : Bool} {f : Nat} {sv : Saver} {s : Str} {line : Nat}
    (h : tokenLoop env allow f sv s line = .ub) : UbCause env s := by
    induction f generalizing sv s line with
    | zero => simp [tokenLoop] at h
    | succ f ih =>
      rw [tokenLoop] at h
      split at h
      · rename_i t sv1 r1 l1 heq
        obtain ⟨w, h1, h2, h3, h4⟩ := pullNext_spec heq
        simp only at h
        split at h
        · simp at h
        · rename_i hne
          rcases h4 with ⟨h4, _⟩ | ⟨u, h4, h5⟩
          · exact absurd h4 hne
          rcases Res.bind_eq_ub h with h | ⟨_, _, h⟩
          · rw [h4]
            exact (ih h).append _
          · simp at h
      · simp at h
      · rename_i heq
        exact (pull_ub env allow _).1 _ _ _ heq
      · simp at h

theorem tokenize_ub {env : Env} {allow : Bool} {s : Str} (h : tokenize env allow s = .ub) :
    UbCause env s := by
  unfold tokenize at h
  rcases Res.bind_eq_ub h with h | ⟨_, _, h⟩
  · exact tokenLoop_ub h
  · simp at h

end Tokenizer
end Hocon
