import Verif.Lemmas.Reparse

/-!
# Tokens of a text from which a piece is taken out
-/

set_option autoImplicit false

namespace Hocon
namespace Tokenizer
open PathParser (Syntax)
open DocParser

theorem commentBody_rest (s : Str) : (commentBody s).2 = [] ∨ ∃ r, (commentBody s).2 = '\n' :: r := by
  induction s with
  | nil => exact Or.inl rfl
  | cons c s ih =>
    simp only [commentBody]
    split
    · rename_i h; exact Or.inr ⟨s, by rw [h]⟩
    · exact ih

theorem pullWord_shape {env : Env} {c : Char} {s : Str} {l : Nat} {t : Tok} {r : Str}
    (hc : isWhitespace c = false) (hs : startOfComment true c s = false) (h : pullWord env true c s l = .ok (t, r)) :
    isUnquotedWs t = false ∧ ∀ d b k, t ≠ .comment d b k := by
  unfold pullWord at h
  split at h
  · unfold pullNumber at h
    simp only at h
    have hn : ∀ b t', notANumber (c :: b) l = .ok t' → isUnquotedWs t' = false ∧ ∀ d b k, t' ≠ .comment d b k := by
      intro b t' ht
      unfold notANumber at ht
      split at ht
      · simp at ht
      · simp only [Res.ok.injEq] at ht
        subst ht
        simp [isUnquotedWs, hc]
    split at h <;> split at h
    · rw [Res.bind_eq_ok] at h
      obtain ⟨v, _, h⟩ := h
      simp only [Res.ok.injEq, Prod.mk.injEq] at h
      rw [← h.1]; simp [isUnquotedWs]
    · rw [Res.bind_eq_ok] at h
      obtain ⟨v, h1, h⟩ := h
      simp only [Res.ok.injEq, Prod.mk.injEq] at h
      rw [← h.1]; exact hn _ _ h1
    · simp only [Res.ok.injEq, Prod.mk.injEq] at h
      rw [← h.1]; simp [isUnquotedWs]
    · rw [Res.bind_eq_ok] at h
      obtain ⟨v, h1, h⟩ := h
      simp only [Res.ok.injEq, Prod.mk.injEq] at h
      rw [← h.1]; exact hn _ _ h1
  · split at h
    · simp at h
    · rename_i hni
      simp only [Res.ok.injEq] at h
      have key : ∀ (acc s : Str) (t : Tok) (r : Str), pullUnquoted true l acc s = (t, r) →
          (∃ x k, t = .unquoted (acc ++ x) k) ∨ (∃ v x k, t = .value v x k) := by
        intro acc s
        induction s generalizing acc with
        | nil =>
          intro t r h
          simp only [pullUnquoted, Prod.mk.injEq] at h
          exact Or.inl ⟨[], l, by rw [List.append_nil, h.1]⟩
        | cons e s ih =>
          intro t r h
          simp only [pullUnquoted] at h
          split at h
          · simp only [Prod.mk.injEq] at h
            exact Or.inl ⟨[], l, by rw [List.append_nil, h.1]⟩
          · split at h
            · simp only [Prod.mk.injEq] at h
              exact Or.inr ⟨_, _, _, h.1.symm⟩
            · split at h
              · simp only [Prod.mk.injEq] at h
                exact Or.inr ⟨_, _, _, h.1.symm⟩
              · split at h
                · simp only [Prod.mk.injEq] at h
                  exact Or.inr ⟨_, _, _, h.1.symm⟩
                · rcases ih _ _ _ h with ⟨x, k, h⟩ | h
                  · exact Or.inl ⟨e :: x, k, by rw [h]; simp⟩
                  · exact Or.inr h
      simp only [pullUnquoted] at h
      rw [if_neg (by simp at hni ⊢; exact ⟨⟨hni, hc⟩, hs⟩)] at h
      simp only [List.nil_append] at h
      have h2 : (∃ x k, t = .unquoted (c :: x) k) ∨ (∃ v x k, t = .value v x k) := by
        split at h
        · rename_i h3; simp at h3
        · split at h
          · rename_i h3; simp at h3
          · split at h
            · rename_i h3; simp at h3
            · rcases key _ _ _ _ h with ⟨x, k, h⟩ | h
              · exact Or.inl ⟨x, k, by rw [h]; simp⟩
              · exact Or.inr h
      rcases h2 with ⟨x, k, rfl⟩ | ⟨v, x, k, rfl⟩ <;> simp [isUnquotedWs, hc]


/-- What the tokenizer returns. -/
theorem pullNext_shape {env : Env} {F : Nat} {sv sv1 : Saver} {s r : Str} {l l1 : Nat} {t : Tok}
    (h : pullNext env true F sv s l = .ok (t, sv1, r, l1)) :
    isUnquotedWs t = false ∧ ((∃ d b k, t = .comment d b k) → r = [] ∨ ∃ r', r = '\n' :: r') := by
  cases F with
  | zero => simp [pullNext] at h
  | succ F =>
    rw [pullNext, nextChar_from] at h
    cases hn : (nextCharAfterWhitespace [] s).2 with
    | none =>
      rw [hn] at h
      simp only [Res.ok.injEq, Prod.mk.injEq] at h
      rw [← h.1]; simp [isUnquotedWs]
    | some cr =>
      obtain ⟨c, r0⟩ := cr
      have hcw : isWhitespaceNotNewline c = false := by
        clear h
        generalize ([] : Str) = ws at hn
        induction s generalizing ws with
        | nil => simp [nextCharAfterWhitespace] at hn
        | cons e s ih =>
          simp only [nextCharAfterWhitespace] at hn
          split at hn
          · exact ih _ hn
          · rename_i he
            simp only [Option.some.injEq, Prod.mk.injEq] at hn
            rw [← hn.1]; simpa using he
      rw [hn] at h
      simp only at h
      split at h
      · simp only [Res.ok.injEq, Prod.mk.injEq] at h
        rw [← h.1]; simp [isUnquotedWs]
      · rename_i hnl
        have hcw : isWhitespace c = false := by
          simp only [isWhitespaceNotNewline, Bool.and_eq_false_iff] at hcw
          rcases hcw with hcw | hcw
          · simp at hcw; exact absurd hcw hnl
          · exact hcw
        split at h
        · rw [Res.bind_eq_ok] at h
          obtain ⟨⟨t0, r1, l1⟩, hp, h⟩ := h
          simp only [Res.ok.injEq, Prod.mk.injEq] at h
          rw [← h.1]
          cases F with
          | zero => simp [pullSubst] at hp
          | succ F =>
            rw [pullSubst] at hp
            split at hp
            · rw [Res.bind_eq_ok] at hp
              obtain ⟨_, _, hp⟩ := hp
              simp only [Res.ok.injEq, Prod.mk.injEq] at hp
              rw [← hp.1]; simp [isUnquotedWs]
            · simp at hp
        · rw [Res.bind_eq_ok] at h
          obtain ⟨⟨t0, r1, l1⟩, hp, h⟩ := h
          simp only [Res.ok.injEq, Prod.mk.injEq] at h
          obtain ⟨rfl, _, rfl, _⟩ := h
          unfold pullPlain at hp
          split at hp
          · rw [Res.bind_eq_ok] at hp
            obtain ⟨⟨t1, r2⟩, h1, hp⟩ := hp
            simp only [Res.ok.injEq, Prod.mk.injEq] at hp
            obtain ⟨rfl, rfl, _⟩ := hp
            unfold pullComment at h1
            split at h1
            · split at h1
              · rename_i r3 _
                simp only [Res.ok.injEq, Prod.mk.injEq] at h1
                rw [← h1.1, ← h1.2]
                exact ⟨rfl, fun _ => commentBody_rest r3⟩
              · simp at h1
            · simp only [Res.ok.injEq, Prod.mk.injEq] at h1
              rw [← h1.1, ← h1.2]
              exact ⟨rfl, fun _ => commentBody_rest _⟩
          · rename_i hs
            have hs : startOfComment true c r0 = false := by simpa using hs
            split at hp
            · unfold pullQuoted at hp
              rw [Res.bind_eq_ok] at hp
              obtain ⟨⟨a, b, e⟩, _, hp⟩ := hp
              simp only at hp
              split at hp
              · split at hp
                · rw [Res.bind_eq_ok] at hp
                  obtain ⟨_, _, hp⟩ := hp
                  simp only [Res.ok.injEq, Prod.mk.injEq] at hp
                  rw [← hp.1]; simp [isUnquotedWs]
                · simp only [Res.ok.injEq, Prod.mk.injEq] at hp
                  rw [← hp.1]; simp [isUnquotedWs]
              · simp only [Res.ok.injEq, Prod.mk.injEq] at hp
                rw [← hp.1]; simp [isUnquotedWs]
            · split at hp
              · rename_i t1 hpu
                simp only [Res.ok.injEq, Prod.mk.injEq] at hp
                rw [← hp.1]
                unfold punctuation at hpu
                repeat' (split at hpu)
                all_goals first | (simp at hpu; done) | (simp only [Option.some.injEq] at hpu; rw [← hpu]; simp [isUnquotedWs])
              · split at hp
                · rw [Res.bind_eq_ok] at hp
                  obtain ⟨⟨t1, r2⟩, h1, hp⟩ := hp
                  simp only [Res.ok.injEq, Prod.mk.injEq] at hp
                  rw [← hp.1]
                  unfold pullPlusEquals at h1
                  split at h1
                  · simp only [Res.ok.injEq, Prod.mk.injEq] at h1
                    rw [← h1.1]; simp [isUnquotedWs]
                  · simp at h1
                · rw [Res.bind_eq_ok] at hp
                  obtain ⟨⟨t1, r2⟩, h1, hp⟩ := hp
                  simp only [Res.ok.injEq, Prod.mk.injEq] at hp
                  rw [← hp.1]
                  obtain ⟨k1, k2⟩ := pullWord_shape hcw hs h1
                  exact ⟨k1, by rintro ⟨d, b, k, rfl⟩; exact absurd rfl (k2 _ _ _)⟩

/-- What stands next to each other: blanks that are a value stand between simple tokens, a comment ends the line. -/
def Chain : Bool → List Tok → Prop
  | _, [] => True
  | b, t :: ts => (isUnquotedWs t = true → b = true ∧ ∃ y ys, ts = y :: ys ∧ y.isSimple = true ∧ isUnquotedWs y = false) ∧
      ((∃ d c k, t = .comment d c k) → ∃ y ys, ts = y :: ys ∧ (y = .end_ ∨ ∃ k, y = .newline k)) ∧ Chain t.isSimple ts

theorem lexAll_end {env : Env} {b : Bool} {l : Nat} {ts : List Tok} (h : lexAll env ⟨[], b⟩ [] l = .ok ts) :
    ts = [.end_] := by
  have : lexAll env ⟨[], b⟩ [] l = .ok [.end_] := by cases b <;> rfl
  rw [this] at h
  simpa using h.symm

theorem lexAll_newline {env : Env} {b : Bool} {r : Str} {l : Nat} {ts : List Tok}
    (h : lexAll env ⟨[], b⟩ ('\n' :: r) l = .ok ts) : ∃ ys, ts = .newline l :: ys := by
  have hp : pullNext env true (2 * ('\n' :: r).length + 1) ⟨[], b⟩ ('\n' :: r) l
      = .ok (.newline l, ⟨[], b⟩, r, l + 1) := by
    rw [pullNext]
    simp [nextCharAfterWhitespace, isWhitespaceNotNewline]
  rw [lexAll_step hp (by simp), Res.bind_eq_ok] at h
  obtain ⟨ys, _, h⟩ := h
  simp only [Res.ok.injEq] at h
  refine ⟨ys, ?_⟩
  rw [← h]
  cases b <;> rfl

theorem lexAll_chain {env : Env} (n : Nat) {b : Bool} {s : Str} {l : Nat} {ts : List Tok} (hn : s.length ≤ n)
    (h : lexAll env ⟨[], b⟩ s l = .ok ts) : Chain b ts := by
  induction n generalizing b s l ts with
  | zero =>
    have hs : s = [] := List.length_eq_zero_iff.1 (by omega)
    subst hs
    rw [lexAll_end h]
    simp [Chain, isUnquotedWs]
  | succ n ih =>
    obtain ⟨t, sv1, r, l1, hp⟩ := lexAll_inv h
    obtain ⟨x, rfl, _⟩ := pullNext_saver hp
    by_cases ht : t = .end_
    · subst ht
      rw [lexAll_done hp] at h
      simp only [Res.ok.injEq] at h
      rw [← h]
      rcases check_fst ⟨[] ++ x, b⟩ false l1 with hk | ⟨y, hk, _⟩ | ⟨y, hk, hb, _⟩
      · rw [hk]; simp [Chain, isUnquotedWs]
      · rw [hk]; simp [Chain, isUnquotedWs]
      · cases hb
    · have hlt := pullNext_short hp ht
      obtain ⟨k1, k2⟩ := pullNext_shape hp
      rw [lexAll_step hp ht, check_snd, Res.bind_eq_ok] at h
      obtain ⟨ts', hts, h⟩ := h
      simp only [Res.ok.injEq] at h
      have hc := ih (by omega) hts
      have hrest : ∀ b', Chain b' (t :: ts') := by
        intro b'
        refine ⟨by rw [k1]; simp, fun hcm => ?_, hc⟩
        have hsm : t.isSimple = false := by obtain ⟨d, c, k, rfl⟩ := hcm; rfl
        rw [hsm] at hts
        rcases k2 hcm with rfl | ⟨r', rfl⟩
        · rw [lexAll_end hts]; exact ⟨_, _, rfl, Or.inl rfl⟩
        · obtain ⟨ys, hys⟩ := lexAll_newline hts
          exact ⟨_, _, hys, Or.inr ⟨_, rfl⟩⟩
      rw [← h]
      rcases check_fst ⟨[] ++ x, b⟩ t.isSimple l1 with hk | ⟨y, hk, _⟩ | ⟨y, hk, hsimp, hb⟩
      · rw [hk]; exact hrest b
      · rw [hk]; exact ⟨by simp [isUnquotedWs], by simp, hrest _⟩
      · rw [hk]; exact ⟨fun _ => ⟨hb, _, _, rfl, hsimp, k1⟩, by simp, hrest _⟩

theorem Chain.suffix {b : Bool} {a c : List Tok} {p : Tok} (h : Chain b (a ++ p :: c)) : Chain p.isSimple c := by
  induction a generalizing b with
  | nil => exact h.2.2
  | cons x a ih => exact ih h.2.2

theorem Chain.at {b : Bool} {a c : List Tok} (h : Chain b (a ++ c)) : ∃ b', Chain b' c := by
  induction a generalizing b with
  | nil => exact ⟨b, h⟩
  | cons x a ih => exact ih h.2.2

theorem Chain.flag {b : Bool} {t : Tok} {ts : List Tok} (h : Chain b (t :: ts)) (ht : isUnquotedWs t = false) (b' : Bool) :
    Chain b' (t :: ts) := ⟨by rw [ht]; simp, h.2⟩

end Tokenizer
end Hocon
