import Verif.Lemmas.LexTrunc

/-!
# The tokenizer with another line number

The line at which an input starts is only recorded in the tokens.
-/

set_option autoImplicit false

namespace Hocon

mutual
/-- The token without line numbers. -/
def Tok.unline : Tok → Tok
  | .value v t _ => .value v t 0
  | .newline _ => .newline 0
  | .unquoted t _ => .unquoted t 0
  | .ws t _ => .ws t 0
  | .comment d t _ => .comment d t 0
  | .subst o e _ => .subst o (Tok.unlineList e) 0
  | .start => .start
  | .end_ => .end_
  | .comma => .comma
  | .equals => .equals
  | .colon => .colon
  | .openCurly => .openCurly
  | .closeCurly => .closeCurly
  | .openSquare => .openSquare
  | .closeSquare => .closeSquare
  | .plusEquals => .plusEquals
/-- The tokens without line numbers. -/
def Tok.unlineList : List Tok → List Tok
  | [] => []
  | t :: ts => Tok.unline t :: Tok.unlineList ts
end

theorem Tok.unlineList_eq (ts : List Tok) : Tok.unlineList ts = ts.map Tok.unline := by
  induction ts with
  | nil => rfl
  | cons t ts ih => simp [Tok.unlineList, ih]

theorem Tok.isSimple_unline (t : Tok) : t.unline.isSimple = t.isSimple := by
  cases t <;> rfl

namespace Tokenizer

/-- Equal up to line numbers. -/
def Sim (t t' : Tok) : Prop := t'.unline = t.unline

theorem Sim.simple {t t' : Tok} (h : Sim t t') : t'.isSimple = t.isSimple := by
  rw [← Tok.isSimple_unline, h, Tok.isSimple_unline]

theorem Sim.ctor {t t' : Tok} (h : Sim t t') : (t = .end_ ↔ t' = .end_) ∧ (t = .closeCurly ↔ t' = .closeCurly) := by
  unfold Sim at h
  cases t <;> cases t' <;> simp_all [Tok.unline]

theorem pullUnquoted_line {allow : Bool} {l : Nat} {acc s : Str} {t : Tok} {r : Str}
    (h : pullUnquoted allow l acc s = (t, r)) (l2 : Nat) :
    ∃ t2, pullUnquoted allow l2 acc s = (t2, r) ∧ Sim t t2 := by
  induction s generalizing acc with
  | nil =>
    simp only [pullUnquoted, Prod.mk.injEq] at h
    obtain ⟨rfl, rfl⟩ := h
    exact ⟨_, rfl, rfl⟩
  | cons c s ih =>
    simp only [pullUnquoted] at h ⊢
    repeat' split at h
    all_goals first
      | (simp only [*, if_true, if_false]
         exact ih h)
      | (simp only [Prod.mk.injEq] at h
         obtain ⟨rfl, rfl⟩ := h
         simp only [*, if_true, if_false]
         exact ⟨_, rfl, rfl⟩)

theorem notANumber_line {text : Str} {l : Nat} {t : Tok} (h : notANumber text l = .ok t) (l2 : Nat) :
    ∃ t2, notANumber text l2 = .ok t2 ∧ Sim t t2 := by
  unfold notANumber at h ⊢
  split at h
  · simp at h
  · rename_i hc
    simp only [Res.ok.injEq] at h
    subst h
    exact ⟨.unquoted text l2, by rw [if_neg hc], rfl⟩

theorem pullNumber_line {env : Env} {c : Char} {s : Str} {l : Nat} {t : Tok} {r : Str}
    (h : pullNumber env c s l = .ok (t, r)) (l2 : Nat) : ∃ t2, pullNumber env c s l2 = .ok (t2, r) ∧ Sim t t2 := by
  unfold pullNumber at h ⊢
  simp only at h ⊢
  split at h
  · rename_i hd
    rw [if_pos hd]
    split at h
    · rename_i d hp
      rw [Res.bind_eq_ok] at h
      obtain ⟨v, hv, h⟩ := h
      simp only [Res.ok.injEq, Prod.mk.injEq] at h
      obtain ⟨rfl, rfl⟩ := h
      simp only [hv, Res.ok_bind]
      exact ⟨_, rfl, rfl⟩
    · rename_i hp
      rw [Res.bind_eq_ok] at h
      obtain ⟨v, hv, h⟩ := h
      simp only [Res.ok.injEq, Prod.mk.injEq] at h
      obtain ⟨rfl, rfl⟩ := h
      obtain ⟨t2, h2, h3⟩ := notANumber_line hv l2
      simp only [h2, Res.ok_bind]
      exact ⟨_, rfl, h3⟩
  · rename_i hd
    rw [if_neg hd]
    split at h
    · rename_i d hp
      simp only [Res.ok.injEq, Prod.mk.injEq] at h
      obtain ⟨rfl, rfl⟩ := h
      exact ⟨_, rfl, rfl⟩
    · rename_i hp
      rw [Res.bind_eq_ok] at h
      obtain ⟨v, hv, h⟩ := h
      simp only [Res.ok.injEq, Prod.mk.injEq] at h
      obtain ⟨rfl, rfl⟩ := h
      obtain ⟨t2, h2, h3⟩ := notANumber_line hv l2
      simp only [h2, Res.ok_bind]
      exact ⟨_, rfl, h3⟩

theorem tripleLoop_line {p o : Str} {q l : Nat} {s p' o' r : Str} {l' : Nat}
    (h : tripleLoop p o q l s = .ok (p', o', r, l')) (l2 : Nat) :
    ∃ l2', tripleLoop p o q l2 s = .ok (p', o', r, l2') := by
  induction s generalizing p o q l l2 with
  | nil =>
    simp only [tripleLoop] at h ⊢
    split at h
    · rename_i hq
      simp only [Res.ok.injEq, Prod.mk.injEq] at h
      obtain ⟨rfl, rfl, rfl, rfl⟩ := h
      exact ⟨_, by rw [if_pos hq]⟩
    · simp at h
  | cons c s ih =>
    rw [tripleLoop] at h ⊢
    split at h
    · rename_i hc
      rw [if_pos hc]
      exact ih h l2
    · rename_i hc
      rw [if_neg hc]
      split at h
      · rename_i hq
        rw [if_pos hq]
        simp only [Res.ok.injEq, Prod.mk.injEq] at h
        obtain ⟨rfl, rfl, rfl, rfl⟩ := h
        exact ⟨_, rfl⟩
      · rename_i hq
        rw [if_neg hq]
        exact ih h _

theorem pullQuoted_line {env : Env} {s : Str} {l : Nat} {t : Tok} {r : Str} {l' : Nat}
    (h : pullQuoted env s l = .ok (t, r, l')) (l2 : Nat) :
    ∃ t2 l2', pullQuoted env s l2 = .ok (t2, r, l2') ∧ Sim t t2 := by
  unfold pullQuoted at h ⊢
  rw [Res.bind_eq_ok] at h
  obtain ⟨⟨res, o, r0⟩, hq, h⟩ := h
  rw [hq]
  simp only [Res.ok_bind] at h ⊢
  split at h
  · rename_i he
    rw [if_pos he]
    split at h
    · rw [Res.bind_eq_ok] at h
      obtain ⟨⟨p, o2, r2, l3⟩, ht, h⟩ := h
      simp only [Res.ok.injEq, Prod.mk.injEq] at h
      obtain ⟨rfl, rfl, rfl⟩ := h
      obtain ⟨l4, h4⟩ := tripleLoop_line ht l2
      simp only [h4, Res.ok_bind]
      exact ⟨_, _, rfl, rfl⟩
    · simp only [Res.ok.injEq, Prod.mk.injEq] at h
      obtain ⟨rfl, rfl, rfl⟩ := h
      exact ⟨_, _, rfl, rfl⟩
  · rename_i he
    rw [if_neg he]
    simp only [Res.ok.injEq, Prod.mk.injEq] at h
    obtain ⟨rfl, rfl, rfl⟩ := h
    exact ⟨_, _, rfl, rfl⟩

theorem pullPlain_line {env : Env} {allow : Bool} {c : Char} {s : Str} {l : Nat} {t : Tok} {r : Str} {l' : Nat}
    (h : pullPlain env allow c s l = .ok (t, r, l')) (l2 : Nat) :
    ∃ t2 l2', pullPlain env allow c s l2 = .ok (t2, r, l2') ∧ Sim t t2 := by
  unfold pullPlain at h ⊢
  split at h
  · rename_i hcm
    rw [if_pos hcm]
    rw [Res.bind_eq_ok] at h
    obtain ⟨⟨t0, r0⟩, hp, h⟩ := h
    simp only [Res.ok.injEq, Prod.mk.injEq] at h
    obtain ⟨rfl, rfl, rfl⟩ := h
    unfold pullComment at hp ⊢
    split at hp
    · rename_i hs
      rw [if_pos hs]
      split at hp
      · simp only [Res.ok.injEq, Prod.mk.injEq] at hp
        obtain ⟨rfl, rfl⟩ := hp
        exact ⟨_, _, rfl, rfl⟩
      · simp at hp
    · rename_i hs
      rw [if_neg hs]
      simp only [Res.ok.injEq, Prod.mk.injEq] at hp
      obtain ⟨rfl, rfl⟩ := hp
      exact ⟨_, _, rfl, rfl⟩
  · rename_i hcm
    rw [if_neg hcm]
    split at h
    · rename_i hq
      rw [if_pos hq]
      exact pullQuoted_line h l2
    · rename_i hq
      rw [if_neg hq]
      split at h
      · simp only [Res.ok.injEq, Prod.mk.injEq] at h
        obtain ⟨rfl, rfl, rfl⟩ := h
        exact ⟨_, _, rfl, rfl⟩
      · split at h
        · rename_i hx
          rw [if_pos hx]
          rw [Res.bind_eq_ok] at h
          obtain ⟨⟨t0, r0⟩, hp, h⟩ := h
          simp only [Res.ok.injEq, Prod.mk.injEq] at h
          obtain ⟨rfl, rfl, rfl⟩ := h
          rw [hp]
          exact ⟨_, _, rfl, rfl⟩
        · rename_i hx
          rw [if_neg hx]
          rw [Res.bind_eq_ok] at h
          obtain ⟨⟨t0, r0⟩, hp, h⟩ := h
          simp only [Res.ok.injEq, Prod.mk.injEq] at h
          obtain ⟨rfl, rfl, rfl⟩ := h
          have : ∃ t2, pullWord env allow c s l2 = .ok (t2, r0) ∧ Sim t0 t2 := by
            unfold pullWord at hp ⊢
            split at hp
            · rename_i hn
              rw [if_pos hn]
              exact pullNumber_line hp l2
            · rename_i hn
              rw [if_neg hn]
              split at hp
              · simp at hp
              · rename_i hni
                rw [if_neg hni]
                simp only [Res.ok.injEq] at hp
                obtain ⟨t2, g1, g2⟩ := pullUnquoted_line hp l2
                exact ⟨t2, by rw [g1], g2⟩
          obtain ⟨t2, g1, g2⟩ := this
          rw [g1]
          exact ⟨_, _, rfl, g2⟩

/-- The whitespace token and the saver. -/
theorem check_line (sv : Saver) (b : Bool) (l l2 : Nat) :
    (sv.check b l2).2 = (sv.check b l).2 ∧
      (sv.check b l2).1.toList.map Tok.unline = (sv.check b l).1.toList.map Tok.unline := by
  unfold Saver.check Saver.create
  cases b <;> by_cases h : sv.ws.length > 0 <;> cases h' : sv.lastSimple <;> simp [h, Tok.unline]

theorem pull_line (env : Env) (allow : Bool) (fuel : Nat) :
    (∀ sv s l t sv' r l', pullNext env allow fuel sv s l = .ok (t, sv', r, l') → ∀ l2,
      ∃ t2 l2', pullNext env allow fuel sv s l2 = .ok (t2, sv', r, l2') ∧ Sim t t2) ∧
    (∀ s l t r l', pullSubst env allow fuel s l = .ok (t, r, l') → ∀ l2,
      ∃ t2 l2', pullSubst env allow fuel s l2 = .ok (t2, r, l2') ∧ Sim t t2) ∧
    (∀ sv e s l e' r l', substLoop env allow fuel sv e s l = .ok (e', r, l') → ∀ l2 e2,
      Tok.unlineList e2 = Tok.unlineList e →
      ∃ e2' l2', substLoop env allow fuel sv e2 s l2 = .ok (e2', r, l2') ∧ Tok.unlineList e2' = Tok.unlineList e') := by
  induction fuel with
  | zero =>
    refine ⟨?_, ?_, ?_⟩
    · intro sv s line t sv' r line' h; simp [pullNext] at h
    · intro s line t r line' h; simp [pullSubst] at h
    · intro sv e s line e' r line' h; simp [substLoop] at h
  | succ fuel ih =>
    obtain ⟨ihN, ihS, ihL⟩ := ih
    refine ⟨?_, ?_, ?_⟩
    · intro sv s l t sv' r l' h l2
      rw [pullNext] at h ⊢
      split at h
      · simp only [Res.ok.injEq, Prod.mk.injEq] at h
        obtain ⟨rfl, rfl, rfl, rfl⟩ := h
        exact ⟨_, _, rfl, rfl⟩
      · rename_i ws c r0 heq
        simp only
        by_cases hc : c = '\n'
        · simp only [if_pos hc] at h ⊢
          simp only [Res.ok.injEq, Prod.mk.injEq] at h
          obtain ⟨rfl, rfl, rfl, rfl⟩ := h
          exact ⟨_, _, rfl, rfl⟩
        · simp only [if_neg hc] at h ⊢
          by_cases hd : c = '$'
          · simp only [if_pos hd] at h ⊢
            rw [Res.bind_eq_ok] at h
            obtain ⟨⟨t0, r1, l1⟩, hp, h⟩ := h
            simp only [Res.ok.injEq, Prod.mk.injEq] at h
            obtain ⟨rfl, rfl, rfl, rfl⟩ := h
            obtain ⟨t2, l3, g1, g2⟩ := ihS _ _ _ _ _ hp l2
            rw [g1]
            exact ⟨_, _, rfl, g2⟩
          · simp only [if_neg hd] at h ⊢
            rw [Res.bind_eq_ok] at h
            obtain ⟨⟨t0, r1, l1⟩, hp, h⟩ := h
            simp only [Res.ok.injEq, Prod.mk.injEq] at h
            obtain ⟨rfl, rfl, rfl, rfl⟩ := h
            obtain ⟨t2, l3, g1, g2⟩ := pullPlain_line hp l2
            rw [g1]
            exact ⟨_, _, rfl, g2⟩
    · intro s l t r l' h l2
      rw [pullSubst] at h ⊢
      split at h
      · rename_i o r0 hso
        rw [Res.bind_eq_ok] at h
        obtain ⟨⟨e', r1, l1⟩, hp, h⟩ := h
        simp only [Res.ok.injEq, Prod.mk.injEq] at h
        obtain ⟨rfl, rfl, rfl⟩ := h
        obtain ⟨e2, l3, g1, g2⟩ := ihL _ _ _ _ _ _ _ hp l2 [] rfl
        simp only [g1, Res.ok_bind]
        refine ⟨_, _, rfl, ?_⟩
        simp [Sim, Tok.unline, g2]
      · simp at h
    · intro sv e s l e' r l' h l2 e2 he
      rw [substLoop] at h
      split at h
      · rename_i sv1 r1 l1 heq
        simp only [Res.ok.injEq, Prod.mk.injEq] at h
        obtain ⟨rfl, rfl, rfl⟩ := h
        obtain ⟨t2, l3, g1, g2⟩ := ihN _ _ _ _ _ _ _ heq l2
        have := g2.ctor.2.1 rfl
        subst this
        rw [substLoop, g1]
        exact ⟨_, _, rfl, he⟩
      · simp at h
      · rename_i t sv1 r1 l1 hne hne2 heq
        obtain ⟨t2, l3, g1, g2⟩ := ihN _ _ _ _ _ _ _ heq l2
        obtain ⟨c1, c2⟩ := check_line sv1 t.isSimple l1 l3
        obtain ⟨e3, l4, g3, g4⟩ := ihL (sv1.check t.isSimple l1).2 (e ++ (sv1.check t.isSimple l1).1.toList ++ [t]) _ _ _ _ _ h l3
          (e2 ++ (sv1.check t.isSimple l3).1.toList ++ [t2]) (by
            rw [Tok.unlineList_eq] at he ⊢
            rw [Tok.unlineList_eq] at he ⊢
            simp only [List.map_append, List.map_cons, List.map_nil]
            rw [he, c2, g2])
        rw [← c1] at g3
        refine ⟨e3, l4, ?_, g4⟩
        rw [substLoop, g1]
        have hs := g2.simple
        rw [← hs] at g3
        cases t2 <;> first
          | exact g3
          | exact absurd (g2.ctor.2.2 rfl) hne
          | exact absurd (g2.ctor.1.2 rfl) hne2
      · simp at h
      · simp at h
      · simp at h

end Tokenizer
end Hocon
