import Verif.Lemmas.TokenizerLemmas

/-!
# Shape of the tokens produced by the tokenizer

Every token is well formed: unquoted text and whitespace are not empty, the text of a non-string
value is its string form, comments only occur where they are allowed, and no two whitespace tokens
are adjacent.
-/

namespace Hocon
namespace Tokenizer

/-- Shape of one token. -/
def WfTok (env : Env) (allow : Bool) : Tok → Prop
  | .value (.str ..) _ _ => True
  | .value v text _ => text = v.transformToString env ∧ text ≠ [] ∧ text ≠ ['.']
  | .unquoted text _ => text ≠ []
  | .ws text _ => text ≠ [] ∧ AllBlank text
  | .comment .. => allow = true
  | _ => True

/-- A token that `pull_next_token` returns: never a whitespace token. -/
def Pulled (env : Env) (allow : Bool) (t : Tok) : Prop := WfTok env allow t ∧ ∀ s l, t ≠ .ws s l

theorem pullUnquoted_wf {env : Env} {allow : Bool} {line : Nat} {acc s : Str} {t : Tok} {r : Str}
    (h : pullUnquoted allow line acc s = (t, r)) (ha : acc ≠ []) : Pulled env allow t := by
  induction s generalizing acc with
  | nil =>
    simp only [pullUnquoted, Prod.mk.injEq] at h
    obtain ⟨rfl, rfl⟩ := h
    exact ⟨ha, by simp⟩
  | cons c s ih =>
    simp only [pullUnquoted] at h
    split at h
    · simp only [Prod.mk.injEq] at h
      obtain ⟨rfl, rfl⟩ := h
      exact ⟨ha, by simp⟩
    · split at h
      · simp only [Prod.mk.injEq] at h
        obtain ⟨rfl, rfl⟩ := h
        exact ⟨⟨rfl, by simp, by simp⟩, by simp⟩
      · split at h
        · simp only [Prod.mk.injEq] at h
          obtain ⟨rfl, rfl⟩ := h
          exact ⟨⟨rfl, by simp, by simp⟩, by simp⟩
        · split at h
          · simp only [Prod.mk.injEq] at h
            obtain ⟨rfl, rfl⟩ := h
            exact ⟨⟨rfl, by simp, by simp⟩, by simp⟩
          · exact ih h (by simp)

theorem pullNumber_wf {env : Env} {allow : Bool} {c : Char} {s : Str} {line : Nat} {t : Tok} {r : Str}
    (h : pullNumber env c s line = .ok (t, r)) (hc : c ≠ '.') : Pulled env allow t := by
  unfold pullNumber at h
  simp only at h
  split at h
  · split at h
    · rw [Res.bind_eq_ok] at h
      obtain ⟨v, hv, h⟩ := h
      simp only [Res.ok.injEq, Prod.mk.injEq] at h
      obtain ⟨rfl, rfl⟩ := h
      have ht := transform_newNumberDouble (by simp) hv
      refine ⟨?_, by simp⟩
      have : v.transformToString env ≠ [] ∧ v.transformToString env ≠ ['.'] := by rw [ht]; simp [hc]
      cases v <;> first | exact ⟨rfl, this⟩ | trivial
    · rw [Res.bind_eq_ok] at h
      obtain ⟨v, hv, h⟩ := h
      simp only [Res.ok.injEq, Prod.mk.injEq] at h
      obtain ⟨rfl, rfl⟩ := h
      have := notANumber_spec hv
      subst this
      exact ⟨by simp [WfTok], by simp⟩
  · split at h
    · rename_i i _
      simp only [Res.ok.injEq, Prod.mk.injEq] at h
      obtain ⟨rfl, rfl⟩ := h
      refine ⟨?_, by simp⟩
      have ht := transform_newNumberI64 env i (c :: (numberBody s).1) (by simp)
      have : (newNumberI64 i (c :: (numberBody s).1)).transformToString env ≠ [] ∧
          (newNumberI64 i (c :: (numberBody s).1)).transformToString env ≠ ['.'] := by rw [ht]; simp [hc]
      revert this
      cases newNumberI64 i (c :: (numberBody s).1) <;> intro this <;>
        first | exact ⟨rfl, this⟩ | trivial
    · rw [Res.bind_eq_ok] at h
      obtain ⟨v, hv, h⟩ := h
      simp only [Res.ok.injEq, Prod.mk.injEq] at h
      obtain ⟨rfl, rfl⟩ := h
      have := notANumber_spec hv
      subst this
      exact ⟨by simp [WfTok], by simp⟩

theorem pullQuoted_wf {env : Env} {allow : Bool} {s : Str} {line : Nat} {t : Tok} {r : Str}
    {line' : Nat} (h : pullQuoted env s line = .ok (t, r, line')) : Pulled env allow t := by
  unfold pullQuoted at h
  rw [Res.bind_eq_ok] at h
  obtain ⟨⟨res, o, r1⟩, h1, h⟩ := h
  simp only at h
  split at h
  · split at h
    · rw [Res.bind_eq_ok] at h
      obtain ⟨⟨p, o2, r2, l2⟩, h2, h⟩ := h
      simp only [Res.ok.injEq, Prod.mk.injEq] at h
      obtain ⟨rfl, rfl, rfl⟩ := h
      exact ⟨trivial, by simp⟩
    · simp only [Res.ok.injEq, Prod.mk.injEq] at h
      obtain ⟨rfl, rfl, rfl⟩ := h
      exact ⟨trivial, by simp⟩
  · simp only [Res.ok.injEq, Prod.mk.injEq] at h
    obtain ⟨rfl, rfl, rfl⟩ := h
    exact ⟨trivial, by simp⟩

theorem pullPlain_wf {env : Env} {allow : Bool} {c : Char} {s : Str} {line : Nat} {t : Tok}
    {r : Str} {line' : Nat} (hb : isWhitespace c = false)
    (h : pullPlain env allow c s line = .ok (t, r, line')) : Pulled env allow t := by
  unfold pullPlain at h
  split at h
  · rename_i hsc
    have hallow : allow = true := by
      simp only [startOfComment, Bool.and_eq_true] at hsc
      exact hsc.1
    rw [Res.bind_eq_ok] at h
    obtain ⟨⟨t1, r1⟩, h1, h⟩ := h
    simp only [Res.ok.injEq, Prod.mk.injEq] at h
    obtain ⟨rfl, rfl, rfl⟩ := h
    unfold pullComment at h1
    split at h1
    · split at h1
      · simp only [Res.ok.injEq, Prod.mk.injEq] at h1
        obtain ⟨rfl, rfl⟩ := h1
        exact ⟨hallow, by simp⟩
      · simp at h1
    · simp only [Res.ok.injEq, Prod.mk.injEq] at h1
      obtain ⟨rfl, rfl⟩ := h1
      exact ⟨hallow, by simp⟩
  · rename_i hsc
    split at h
    · exact pullQuoted_wf h
    · split at h
      · rename_i t1 hp
        simp only [Res.ok.injEq, Prod.mk.injEq] at h
        obtain ⟨rfl, rfl, rfl⟩ := h
        unfold punctuation at hp
        repeat' split at hp
        all_goals first
          | (simp only [Option.some.injEq] at hp; subst hp; exact ⟨trivial, by simp⟩)
          | simp at hp
      · split at h
        · rw [Res.bind_eq_ok] at h
          obtain ⟨⟨t1, r1⟩, h1, h⟩ := h
          simp only [Res.ok.injEq, Prod.mk.injEq] at h
          obtain ⟨rfl, rfl, rfl⟩ := h
          unfold pullPlusEquals at h1
          split at h1
          · simp only [Res.ok.injEq, Prod.mk.injEq] at h1
            obtain ⟨rfl, rfl⟩ := h1
            exact ⟨trivial, by simp⟩
          · simp at h1
        · rw [Res.bind_eq_ok] at h
          obtain ⟨⟨t1, r1⟩, h1, h⟩ := h
          simp only [Res.ok.injEq, Prod.mk.injEq] at h
          obtain ⟨rfl, rfl, rfl⟩ := h
          unfold pullWord at h1
          split at h1
          · rename_i hfirst
            exact pullNumber_wf h1 (by rintro rfl; revert hfirst; decide)
          · split at h1
            · simp at h1
            · rename_i hni
              simp only [Res.ok.injEq] at h1
              rw [pullUnquoted_first] at h1
              · exact pullUnquoted_wf h1 (by simp)
              · have h2 : notInUnquotedText.contains c = false := by simpa using hni
                have h3 : startOfComment allow c s = false := by simpa using hsc
                rw [h2, hb, h3]
                rfl

theorem pullNext_wf {env : Env} {allow : Bool} {f : Nat} {sv : Saver} {s : Str} {line : Nat}
    {t : Tok} {sv' : Saver} {r : Str} {line' : Nat}
    (h : pullNext env allow f sv s line = .ok (t, sv', r, line')) :
    Pulled env allow t := by
  cases f with
  | zero => simp [pullNext] at h
  | succ f =>
    rw [pullNext] at h
    split at h
    · simp only [Res.ok.injEq, Prod.mk.injEq] at h
      obtain ⟨rfl, rfl, rfl, rfl⟩ := h
      exact ⟨trivial, by simp⟩
    · rename_i ws c r1 heq
      simp only at h
      split at h
      · simp only [Res.ok.injEq, Prod.mk.injEq] at h
        obtain ⟨rfl, rfl, rfl, rfl⟩ := h
        exact ⟨trivial, by simp⟩
      · rename_i hnl
        split at h
        · rw [Res.bind_eq_ok] at h
          obtain ⟨⟨t1, r2, l2⟩, h1, h⟩ := h
          simp only [Res.ok.injEq, Prod.mk.injEq] at h
          obtain ⟨rfl, rfl, rfl, rfl⟩ := h
          cases f with
          | zero => simp [pullSubst] at h1
          | succ f =>
            rw [pullSubst] at h1
            split at h1
            · rw [Res.bind_eq_ok] at h1
              obtain ⟨⟨e, r3, l3⟩, h2, h1⟩ := h1
              simp only [Res.ok.injEq, Prod.mk.injEq] at h1
              obtain ⟨rfl, rfl, rfl⟩ := h1
              exact ⟨trivial, by simp⟩
            · simp at h1
        · rw [Res.bind_eq_ok] at h
          obtain ⟨⟨t1, r2, l2⟩, h1, h⟩ := h
          simp only [Res.ok.injEq, Prod.mk.injEq] at h
          obtain ⟨rfl, rfl, rfl, rfl⟩ := h
          obtain ⟨_, _, _, hc⟩ := nextChar_some heq
          refine pullPlain_wf ?_ h1
          have hb : isWhitespaceNotNewline c = false := by
            first | exact hc | exact hc.1 | exact hc.2
          simp only [isWhitespaceNotNewline] at hb
          have : (c != '\n') = true := by simpa using hnl
          rw [this, Bool.true_and] at hb
          exact hb

/-- No two whitespace tokens in a row. -/
def NoAdjWs (ts : List Tok) : Prop :=
  ∀ a b s1 l1 s2 l2, ts ≠ a ++ .ws s1 l1 :: .ws s2 l2 :: b

theorem NoAdjWs.suffix {a b : List Tok} (h : NoAdjWs (a ++ b)) : NoAdjWs b := by
  rintro x y s1 l1 s2 l2 rfl
  exact h (a ++ x) y s1 l1 s2 l2 (by simp)

theorem NoAdjWs.tail {t : Tok} {b : List Tok} (h : NoAdjWs (t :: b)) : NoAdjWs b :=
  NoAdjWs.suffix (a := [t]) h

theorem NoAdjWs.cons {t : Tok} {b : List Tok} (h : NoAdjWs b)
    (ht : (∀ s l, t ≠ .ws s l) ∨ ∀ s l, b.head? ≠ some (.ws s l)) : NoAdjWs (t :: b) := by
  rintro x y s1 l1 s2 l2 he
  cases x with
  | nil =>
    simp only [List.nil_append, List.cons.injEq] at he
    rcases ht with ht | ht
    · exact ht _ _ he.1
    · exact ht s2 l2 (by rw [he.2]; rfl)
  | cons z x =>
    simp only [List.cons_append, List.cons.injEq] at he
    exact h x y s1 l1 s2 l2 he.2

theorem Saver.check_tok {s : Saver} {simple : Bool} {line : Nat} {t : Tok} (hb : AllBlank s.ws)
    (h : (s.check simple line).1 = some t) (env : Env) (allow : Bool) : WfTok env allow t := by
  unfold Saver.check at h
  split at h
  · simp only [Saver.create] at h
    split at h
    · rename_i hl
      have hne : s.ws ≠ [] := by rintro he; rw [he] at hl; simp at hl
      simp only at h
      split at h
      · simp only [Option.some.injEq] at h; subst h; exact hne
      · simp only [Option.some.injEq] at h; subst h; exact ⟨hne, hb⟩
    · simp at h
  · simp only [Saver.create] at h
    split at h
    · rename_i hl
      have hne : s.ws ≠ [] := by rintro he; rw [he] at hl; simp at hl
      simp only at h
      split at h
      · simp only [Option.some.injEq] at h; subst h; exact hne
      · simp only [Option.some.injEq] at h; subst h; exact ⟨hne, hb⟩
    · simp at h

theorem tokenLoop_wf {env : Env} {allow : Bool} {f : Nat} {sv : Saver} {s : Str} {line : Nat}
    {ts : List Tok} (hb : AllBlank sv.ws) (h : tokenLoop env allow f sv s line = .ok ts) :
    (∀ t ∈ ts, WfTok env allow t) ∧ NoAdjWs ts := by
  induction f generalizing sv s line ts with
  | zero => simp [tokenLoop] at h
  | succ f ih =>
    rw [tokenLoop] at h
    split at h
    · rename_i t sv1 r l heq
      have hp := pullNext_wf heq
      obtain ⟨w, h1, h2, h3, h4⟩ := pullNext_spec heq
      have hb1 : AllBlank sv1.ws := by
        have hw : AllBlank w := by first | exact h1 | exact h2 | exact h3
        have hs : sv1.ws = sv.ws ++ w := by first | exact h1 | exact h2 | exact h3
        rw [hs]
        intro x hx
        rcases List.mem_append.1 hx with hx | hx
        · exact hb x hx
        · exact hw x hx
      have key : ∀ ts' : List Tok, (∀ x ∈ ts', WfTok env allow x) → NoAdjWs (t :: ts') →
          (∀ x ∈ (sv1.check t.isSimple l).1.toList ++ t :: ts', WfTok env allow x) ∧
          NoAdjWs ((sv1.check t.isSimple l).1.toList ++ t :: ts') := by
        intro ts' g1 g2
        constructor
        · intro x hx
          rcases List.mem_append.1 hx with hx | hx
          · simp only [Option.mem_toList] at hx
            exact Saver.check_tok hb1 hx env allow
          · rcases List.mem_cons.1 hx with rfl | hx
            · exact hp.1
            · exact g1 x hx
        · cases (sv1.check t.isSimple l).1 with
          | none => exact g2
          | some x =>
            refine NoAdjWs.cons g2 (Or.inr ?_)
            intro s l he
            exact hp.2 s l (by simpa using he)
      simp only at h
      split at h
      · simp only [Res.ok.injEq] at h
        subst h
        refine key [] (by simp) ?_
        refine NoAdjWs.cons ?_ (Or.inr (by simp))
        rintro x y s1 l1 s2 l2 he
        cases x <;> simp at he
      · rw [Res.bind_eq_ok] at h
        obtain ⟨ts', h5, h⟩ := h
        simp only [Res.ok.injEq] at h
        subst h
        have hi := ih (by rw [Saver.check_ws]; simp [AllBlank]) h5
        exact key ts' hi.1 (NoAdjWs.cons hi.2 (Or.inl hp.2))
    all_goals simp at h

/-- The tokens of a document are well formed. -/
theorem tokenize_wf {env : Env} {allow : Bool} {s : Str} {ts : List Tok}
    (h : tokenize env allow s = .ok ts) : (∀ t ∈ ts, WfTok env allow t) ∧ NoAdjWs ts := by
  unfold tokenize at h
  rw [Res.bind_eq_ok] at h
  obtain ⟨ts', h1, h⟩ := h
  simp only [Res.ok.injEq] at h
  subst h
  have := tokenLoop_wf (by simp [Saver.init, AllBlank]) h1
  refine ⟨?_, NoAdjWs.cons this.2 (Or.inl (by simp))⟩
  intro t ht
  rcases List.mem_cons.1 ht with rfl | ht
  · trivial
  · exact this.1 t ht

end Tokenizer
end Hocon
