import Verif.Lemmas.LexEnd
import Verif.Lemmas.TokenizerWf
import Verif.Lemmas.ParserSwap
import Verif.Props.TokenizerProps

/-!
# Pieces of a tokenizer run

`Run sv s l T sv' r l'`: starting with the saver `sv` at the text `s` and the line `l`, the tokenizer produces the
tokens `T` and is left with `sv'`, `r` and `l'`. Runs can be cut, moved to another place and put together.
-/

set_option autoImplicit false

namespace Hocon
namespace Tokenizer
open DocParser (isKeyValueSeparator Follow Hard)

/-- All tokens of a text, from a given state. -/
def lexAll (env : Env) (sv : Saver) (s : Str) (l : Nat) : Res (List Tok) := tokenLoop env true (s.length + 1) sv s l

/-- The state after some tokens. -/
inductive Run (env : Env) : Saver → Str → Nat → List Tok → Saver → Str → Nat → Prop
  | nil (sv : Saver) (s : Str) (l : Nat) : Run env sv s l [] sv s l
  | cons {sv sv1 sv' : Saver} {s r r' : Str} {l l1 l' : Nat} {t : Tok} {ts : List Tok}
      (hp : pullNext env true (2 * s.length + 1) sv s l = .ok (t, sv1, r, l1)) (ht : t ≠ .end_)
      (hr : Run env (sv1.check t.isSimple l1).2 r l1 ts sv' r' l') :
      Run env sv s l ((sv1.check t.isSimple l1).1.toList ++ t :: ts) sv' r' l'

theorem check_snd (sv : Saver) (b : Bool) (l : Nat) : (sv.check b l).2 = ⟨[], b⟩ := by
  unfold Saver.check Saver.create
  obtain ⟨ws, f⟩ := sv
  cases b <;> cases ws <;> simp

/-- The whitespace token that precedes a token. -/
theorem check_fst (sv : Saver) (b : Bool) (l : Nat) :
    (sv.check b l).1.toList = [] ∨ (∃ x, (sv.check b l).1.toList = [.ws x l] ∧ x = sv.ws) ∨
      (∃ x, (sv.check b l).1.toList = [.unquoted x l] ∧ b = true ∧ sv.lastSimple = true) := by
  unfold Saver.check Saver.create
  obtain ⟨ws, f⟩ := sv
  cases b <;> cases ws <;> cases f <;> simp

theorem pullNext_canon {env : Env} {F : Nat} {sv : Saver} {s : Str} {l : Nat} {x : Tok × Saver × Str × Nat}
    (h : pullNext env true F sv s l = .ok x) : pullNext env true (2 * s.length + 1) sv s l = .ok x := by
  by_cases hF : F ≤ 2 * s.length + 1
  · rw [pullNext_mono hF (by rw [h]; simp), h]
  · have h1 := (pull_fuel env true (2 * s.length + 1)).1 sv s l (Nat.le_refl _)
    rw [← pullNext_mono (f' := F) (by omega) h1, h]

theorem pullNext_short {env : Env} {F : Nat} {sv sv1 : Saver} {s r : Str} {l l1 : Nat} {t : Tok}
    (h : pullNext env true F sv s l = .ok (t, sv1, r, l1)) (ht : t ≠ .end_) : r.length < s.length := by
  obtain ⟨w, _, _, _, h4⟩ := pullNext_spec h
  rcases h4 with ⟨h4, _⟩ | ⟨u, rfl, h5⟩
  · exact absurd h4 ht
  · have := List.length_pos_iff.2 h5.nonempty
    simp
    omega

theorem lexAll_fuel {env : Env} {sv : Saver} {s : Str} {l F : Nat} (hF : s.length + 1 ≤ F) :
    tokenLoop env true F sv s l = lexAll env sv s l := by
  obtain ⟨k, rfl⟩ := Nat.exists_eq_add_of_le hF
  exact tokenLoop_mono k (tokenLoop_ne_fuel (Nat.le_refl _))

theorem lexAll_step {env : Env} {sv sv1 : Saver} {s r : Str} {l l1 : Nat} {t : Tok}
    (h : pullNext env true (2 * s.length + 1) sv s l = .ok (t, sv1, r, l1)) (ht : t ≠ .end_) :
    lexAll env sv s l = lexAll env (sv1.check t.isSimple l1).2 r l1 >>= fun ts =>
      .ok ((sv1.check t.isSimple l1).1.toList ++ t :: ts) := by
  have hl := pullNext_short h ht
  rw [← lexAll_fuel (F := s.length) (s := r) (by omega)]
  unfold lexAll
  rw [tokenLoop, h]
  cases t <;> first
    | rfl
    | exact absurd rfl ht

theorem lexAll_done {env : Env} {sv sv1 : Saver} {s r : Str} {l l1 : Nat}
    (h : pullNext env true (2 * s.length + 1) sv s l = .ok (.end_, sv1, r, l1)) :
    lexAll env sv s l = .ok ((sv1.check false l1).1.toList ++ [.end_]) := by
  unfold lexAll
  rw [tokenLoop, h]
  rfl

theorem lexAll_inv {env : Env} {sv : Saver} {s : Str} {l : Nat} {ts : List Tok} (h : lexAll env sv s l = .ok ts) :
    ∃ t sv1 r l1, pullNext env true (2 * s.length + 1) sv s l = .ok (t, sv1, r, l1) := by
  unfold lexAll at h
  rw [tokenLoop] at h
  split at h
  · exact ⟨_, _, _, _, ‹_›⟩
  all_goals simp at h

theorem Run.lexAll {env : Env} {sv sv' : Saver} {s r : Str} {l l' : Nat} {T : List Tok}
    (h : Run env sv s l T sv' r l') :
    lexAll env sv s l = Tokenizer.lexAll env sv' r l' >>= fun ts => .ok (T ++ ts) := by
  induction h with
  | nil sv s l =>
    cases Tokenizer.lexAll env sv s l <;> rfl
  | cons hp ht hr ih =>
    rw [lexAll_step hp ht, ih]
    rename_i sv1 sv2 _ _ r' _ _ l2 _ _
    cases Tokenizer.lexAll env sv2 r' l2 <;> simp [bind, Res.bind]

theorem Run.trans {env : Env} {sv sv1 sv2 : Saver} {s r q : Str} {l l1 l2 : Nat} {T U : List Tok}
    (h : Run env sv s l T sv1 r l1) (h2 : Run env sv1 r l1 U sv2 q l2) : Run env sv s l (T ++ U) sv2 q l2 := by
  induction h with
  | nil => exact h2
  | cons hp ht hr ih =>
    have := Run.cons hp ht (ih h2)
    simpa using this

theorem Run.nil_inv {env : Env} {sv sv' : Saver} {s r : Str} {l l' : Nat} (h : Run env sv s l [] sv' r l') :
    sv' = sv ∧ r = s ∧ l' = l := by
  generalize hT : ([] : List Tok) = T at h
  cases h with
  | nil => exact ⟨rfl, rfl, rfl⟩
  | cons => simp at hT

theorem last_of {W ts a : List Tok} {t p : Tok} (h : W ++ t :: ts = a ++ [p]) :
    (ts = [] ∧ t = p) ∨ ∃ b, ts = b ++ [p] := by
  rcases List.eq_nil_or_concat ts with rfl | ⟨b, q, rfl⟩
  · have := congrArg List.getLast? h
    simp at this
    exact Or.inl ⟨rfl, this⟩
  · have : W ++ t :: (b ++ [q]) = a ++ [p] := by simpa using h
    have h2 : (W ++ t :: b) ++ [q] = a ++ [p] := by simpa using this
    have := List.append_inj' h2 rfl
    simp at this
    exact Or.inr ⟨b, by simp [this.2]⟩

/-- What a run reads. -/
theorem Run.rest {env : Env} {sv sv' : Saver} {s r : Str} {l l' : Nat} {T : List Tok}
    (h : Run env sv s l T sv' r l') : ∃ x, s = x ++ r ∧ (Tok.textList T).Sublist (sv.ws ++ x) ∧ (T ≠ [] → x ≠ []) := by
  induction h with
  | nil sv s l => exact ⟨[], rfl, by simp [Tok.textList], by simp⟩
  | @cons sv sv1 sv' s r r' l l1 l' t ts hp ht hr ih =>
    obtain ⟨w, _, h2, _, h4⟩ := pullNext_spec hp
    rcases h4 with ⟨h4, _⟩ | ⟨u, rfl, h5⟩
    · exact absurd h4 ht
    obtain ⟨x, rfl, hx, _⟩ := ih
    refine ⟨w ++ u ++ x, by simp, ?_, fun _ => ?_⟩
    · rw [check_snd] at hx
      rw [Tok.textList_append, Saver.check_text, h2]
      simp only [Tok.textList, List.nil_append] at hx ⊢
      have := (List.Sublist.refl (sv.ws ++ w)).append (h5.sub.append hx)
      simpa using this
    · have := h5.nonempty
      simp [this]

theorem Run.saver {env : Env} {sv sv' : Saver} {s r : Str} {l l' : Nat} {T : List Tok}
    (h : Run env sv s l T sv' r l') {a : List Tok} {p : Tok} (hT : T = a ++ [p]) : sv' = ⟨[], p.isSimple⟩ := by
  induction h generalizing a with
  | nil => simp at hT
  | @cons sv sv1 sv' s r r' l l1 l' t ts hp ht hr ih =>
    rcases last_of hT with ⟨rfl, rfl⟩ | ⟨b, rfl⟩
    · rw [hr.nil_inv.1, check_snd]
    · exact ih (a := b) rfl

/-- Cutting a run. The first part must not end in a whitespace token that belongs to the next token. -/
theorem lexAll_split {env : Env} (n : Nat) {sv : Saver} {s : Str} {l : Nat} {T1 T2 : List Tok} (hn : s.length ≤ n)
    (h : lexAll env sv s l = .ok (T1 ++ T2)) (hT2 : T2 ≠ [])
    (hb : ∀ a p, T1 = a ++ [p] → (∀ x k, p ≠ .ws x k) ∧
      ((∃ x k, p = .unquoted x k) → ∀ t r, T2 = t :: r → t.isSimple = false)) :
    ∃ sv' r l', Run env sv s l T1 sv' r l' ∧ lexAll env sv' r l' = .ok T2 := by
  by_cases hT1 : T1 = []
  · subst hT1
    exact ⟨sv, s, l, .nil _ _ _, h⟩
  induction n generalizing sv s l T1 with
  | zero =>
    obtain ⟨t, sv1, r, l1, hp⟩ := lexAll_inv h
    have ht : t = .end_ := by
      apply Classical.byContradiction
      intro ht
      have := pullNext_short hp ht
      omega
    subst ht
    rw [lexAll_done hp] at h
    simp only [Res.ok.injEq] at h
    exfalso
    rcases check_fst sv1 false l1 with hw | ⟨x, hw, _⟩ | ⟨x, hw, hb2, _⟩
    · rw [hw] at h
      cases T1 with
      | nil => exact hT1 rfl
      | cons a T1 => simp at h; exact hT2 h.2.2
    · rw [hw] at h
      cases T1 with
      | nil => exact hT1 rfl
      | cons a T1 =>
        simp at h
        cases T1 with
        | nil => exact (hb [] a rfl).1 x l1 h.1.symm
        | cons b T1 => simp at h; exact hT2 h.2.2.2
    · simp at hb2
  | succ n ih =>
    obtain ⟨t, sv1, r, l1, hp⟩ := lexAll_inv h
    by_cases ht : t = .end_
    · subst ht
      rw [lexAll_done hp] at h
      simp only [Res.ok.injEq] at h
      exfalso
      rcases check_fst sv1 false l1 with hw | ⟨x, hw, _⟩ | ⟨x, hw, hb2, _⟩
      · rw [hw] at h
        cases T1 with
        | nil => exact hT1 rfl
        | cons a T1 => simp at h; exact hT2 h.2.2
      · rw [hw] at h
        cases T1 with
        | nil => exact hT1 rfl
        | cons a T1 =>
          simp at h
          cases T1 with
          | nil => exact (hb [] a rfl).1 x l1 h.1.symm
          | cons b T1 => simp at h; exact hT2 h.2.2.2
      · simp at hb2
    · have hs := pullNext_short hp ht
      rw [lexAll_step hp ht, Res.bind_eq_ok] at h
      obtain ⟨ts, hts, h⟩ := h
      simp only [Res.ok.injEq] at h
      have key : ∀ T1', T1 = (sv1.check t.isSimple l1).1.toList ++ t :: T1' → ts = T1' ++ T2 →
          ∃ sv' r l', Run env sv s l T1 sv' r l' ∧ lexAll env sv' r l' = .ok T2 := by
        rintro T1' hT rfl
        by_cases hT1' : T1' = []
        · subst hT1' hT
          exact ⟨_, _, _, .cons hp ht (.nil _ _ _), hts⟩
        · obtain ⟨sv', r', l', g1, g2⟩ := ih (by omega) hts (by
            rintro a p rfl
            exact hb ((sv1.check t.isSimple l1).1.toList ++ t :: a) p (by rw [hT]; simp)) hT1'
          subst hT
          exact ⟨_, _, _, .cons hp ht g1, g2⟩
      have none : (sv1.check t.isSimple l1).1.toList = [] → ∃ sv' r l', Run env sv s l T1 sv' r l' ∧
          lexAll env sv' r l' = .ok T2 := by
        intro hw
        rw [hw] at h
        cases T1 with
        | nil => exact absurd rfl hT1
        | cons a T1' =>
          simp at h
          obtain ⟨rfl, h⟩ := h
          exact key T1' (by rw [hw]; simp) h
      have one : ∀ y, (sv1.check t.isSimple l1).1.toList = [y] → T1 ≠ [y] → ∃ sv' r l', Run env sv s l T1 sv' r l' ∧
          lexAll env sv' r l' = .ok T2 := by
        intro y hw hy
        rw [hw] at h
        cases T1 with
        | nil => exact absurd rfl hT1
        | cons a T1' =>
          simp at h
          obtain ⟨rfl, h⟩ := h
          cases T1' with
          | nil => exact absurd rfl hy
          | cons b T1' =>
            simp at h
            obtain ⟨rfl, h⟩ := h
            exact key T1' (by rw [hw]; simp) h
      rcases check_fst sv1 t.isSimple l1 with hw | ⟨x, hw, _⟩ | ⟨x, hw, hb2, _⟩
      · exact none hw
      · refine one _ hw ?_
        rintro rfl
        exact (hb [] _ rfl).1 _ _ rfl
      · refine one _ hw ?_
        rintro rfl
        rw [hw] at h
        simp at h
        have := (hb [] _ rfl).2 ⟨_, _, rfl⟩ t ts h.symm
        rw [this] at hb2
        simp at hb2

theorem Run.append {env : Env} {sv sv' : Saver} {s r : Str} {l l' : Nat} {T : List Tok}
    (h : Run env sv s l T sv' r l') {x y : Str} (hs : s = x ++ y) (hr : r = y) {a : List Tok} {p : Tok}
    (hT : T = a ++ [p]) (hp : isKeyValueSeparator .conf p = true) :
    (∀ y', Run env sv (x ++ y') l T sv' y' l') ∧ (':' ∈ x ∨ '=' ∈ x) := by
  have hpc : closedTok p = true ∧ ((':' ∈ p.text ∨ '=' ∈ p.text) ∧ p ≠ .end_) := by
    cases p <;> simp [isKeyValueSeparator] at hp <;> simp [closedTok, Tok.text]
  induction h generalizing x a with
  | nil => simp at hT
  | @cons sv sv1 sv' s r r' l l1 l' t ts hpull ht hrun ih =>
    subst hs
    rcases last_of hT with ⟨rfl, rfl⟩ | ⟨b, rfl⟩
    · obtain ⟨rfl, rfl, rfl⟩ := hrun.nil_inv
      subst hr
      have htr := (pull_trunc env true _ r').1 sv x l t sv1 [] _ hpull (Or.inr hpc.1)
      constructor
      · intro y'
        have := (pull_local env true _ y').1 _ _ _ _ _ _ _ htr (Or.inr hpc.1)
        exact .cons (pullNext_canon this) ht (.nil _ _ _)
      · obtain ⟨w, _, _, _, h4⟩ := pullNext_spec htr
        rcases h4 with ⟨h4, _⟩ | ⟨u, hx, h5⟩
        · exact absurd h4 ht
        · have := h5.sub.subset
          rw [hx]
          rcases hpc.2.1 with h | h
          · left; simp [this h]
          · right; simp [this h]
    · obtain ⟨x1, hr1, _, _⟩ := hrun.rest
      subst hr
      subst hr1
      obtain ⟨g1, g2⟩ := ih (x := x1) (a := b) rfl rfl rfl
      have hsplit : ∃ u, x ++ r' = u ++ (x1 ++ r') := by
        obtain ⟨w, _, _, _, h4⟩ := pullNext_spec hpull
        rcases h4 with ⟨h4, _⟩ | ⟨u, h4, _⟩
        · exact absurd h4 ht
        · exact ⟨w ++ u, h4⟩
      obtain ⟨u, hu⟩ := hsplit
      have hx : x = u ++ x1 := by
        rw [← List.append_assoc] at hu
        exact List.append_cancel_right hu
      have hne : x1 ≠ [] ∧ x1 ≠ ['/'] := by
        constructor
        · rintro rfl; simp at g2
        · rintro rfl; simp at g2
      have htr := (pull_trunc env true _ r').1 sv x l t sv1 x1 l1 hpull (Or.inl hne)
      constructor
      · intro y'
        have := (pull_local env true _ y').1 _ _ _ _ _ _ _ htr (Or.inl hne.1)
        exact .cons (pullNext_canon this) ht (g1 y')
      · rw [hx]
        rcases g2 with g2 | g2
        · left; simp [g2]
        · right; simp [g2]

theorem pullNext_nil {env : Env} {F : Nat} {sv sv1 : Saver} {r : Str} {l l1 : Nat} {t : Tok}
    (h : pullNext env true F sv [] l = .ok (t, sv1, r, l1)) : t = .end_ := by
  apply Classical.byContradiction
  intro ht
  have := pullNext_short h ht
  simp at this

/-- A text read to its end, before something that ends it. -/
theorem Run.before {env : Env} {sv sv' : Saver} {s r : Str} {l l' : Nat} {T : List Tok}
    (h : Run env sv s l T sv' r l') (hr : r = []) {B : Str} (hB : StopHead B) (hl : s.getLast? ≠ some '/')
    {a : List Tok} {p : Tok} (hT : T = a ++ [p]) (hp : Hard p) : Run env sv (s ++ B) l T sv' B l' := by
  induction h generalizing a with
  | nil => simp at hT
  | @cons sv sv1 sv' s r r' l l1 l' t ts hpull ht hrun ih =>
    subst hr
    rcases last_of hT with ⟨rfl, rfl⟩ | ⟨b, rfl⟩
    · obtain ⟨rfl, rfl, rfl⟩ := hrun.nil_inv
      exact .cons (pullNext_canon (pullNext_end hpull ht hp.2 hl hB)) ht (.nil _ _ _)
    · have hr : r ≠ [] := by
        rintro rfl
        generalize hTs : b ++ [p] = ts at hrun
        generalize hR : ([] : Str) = R at hrun
        cases hrun with
        | nil => simp at hTs
        | cons hp2 ht2 _ =>
          subst hR
          exact ht2 (pullNext_nil hp2)
      have hl' : r.getLast? ≠ some '/' := by
        obtain ⟨w, _, _, _, h4⟩ := pullNext_spec hpull
        rcases h4 with ⟨h4, _⟩ | ⟨u, rfl, _⟩
        · exact absurd h4 ht
        · rw [List.getLast?_append] at hl
          cases hq : r.getLast? with
          | none => simp
          | some z => rw [hq] at hl; simpa using hl
      have := (pull_local env true _ B).1 _ _ _ _ _ _ _ hpull (Or.inl hr)
      exact .cons (pullNext_canon this) ht (ih rfl hl' (a := b) rfl)

theorem Run.line {env : Env} {sv sv' : Saver} {s r : Str} {l l' : Nat} {T : List Tok}
    (h : Run env sv s l T sv' r l') (l2 : Nat) :
    ∃ T2 l2', Run env sv s l2 T2 sv' r l2' ∧ T2.map Tok.unline = T.map Tok.unline := by
  induction h generalizing l2 with
  | nil sv s l => exact ⟨[], l2, .nil _ _ _, rfl⟩
  | @cons sv sv1 sv' s r r' l l1 l' t ts hpull ht hrun ih =>
    obtain ⟨t2, l3, g1, g2⟩ := (pull_line env true _).1 _ _ _ _ _ _ _ hpull l2
    obtain ⟨T2, l4, g3, g4⟩ := ih l3
    obtain ⟨c1, c2⟩ := check_line sv1 t.isSimple l1 l3
    rw [← c1, ← g2.simple] at g3
    refine ⟨_, l4, .cons g1 (fun e => ht (g2.ctor.1.2 e)) g3, ?_⟩
    rw [g2.simple]
    simp only [List.map_append, List.map_cons, g4, c2]
    rw [g2]

theorem lexAll_line {env : Env} (n : Nat) {sv : Saver} {s : Str} {l : Nat} {T : List Tok} (hn : s.length ≤ n)
    (h : lexAll env sv s l = .ok T) (l2 : Nat) :
    ∃ T2, lexAll env sv s l2 = .ok T2 ∧ T2.map Tok.unline = T.map Tok.unline := by
  induction n generalizing sv s l T l2 with
  | zero =>
    obtain ⟨t, sv1, r, l1, hp⟩ := lexAll_inv h
    have hs : s = [] := List.length_eq_zero_iff.1 (by omega)
    subst hs
    have := pullNext_nil hp
    subst this
    obtain ⟨t2, l3, g1, g2⟩ := (pull_line env true _).1 _ _ _ _ _ _ _ hp l2
    have := g2.ctor.1.1 rfl
    subst this
    rw [lexAll_done hp] at h
    simp only [Res.ok.injEq] at h
    subst h
    refine ⟨_, lexAll_done g1, ?_⟩
    simp only [List.map_append, (check_line sv1 false l1 l3).2]
  | succ n ih =>
    obtain ⟨t, sv1, r, l1, hp⟩ := lexAll_inv h
    obtain ⟨t2, l3, g1, g2⟩ := (pull_line env true _).1 _ _ _ _ _ _ _ hp l2
    by_cases ht : t = .end_
    · subst ht
      have := g2.ctor.1.1 rfl
      subst this
      rw [lexAll_done hp] at h
      simp only [Res.ok.injEq] at h
      subst h
      refine ⟨_, lexAll_done g1, ?_⟩
      simp only [List.map_append, (check_line sv1 false l1 l3).2]
    · have hs := pullNext_short hp ht
      rw [lexAll_step hp ht, Res.bind_eq_ok] at h
      obtain ⟨ts, hts, h⟩ := h
      simp only [Res.ok.injEq] at h
      subst h
      obtain ⟨T2, k1, k2⟩ := ih (by omega) hts l3
      obtain ⟨c1, c2⟩ := check_line sv1 t.isSimple l1 l3
      rw [← c1, ← g2.simple] at k1
      refine ⟨_, by rw [lexAll_step g1 (fun e => ht (g2.ctor.1.2 e)), k1]; rfl, ?_⟩
      rw [g2.simple]
      simp only [List.map_append, List.map_cons, k2, c2]
      rw [g2]

theorem nextChar_from (ws : Str) (s : Str) :
    nextCharAfterWhitespace ws s = (ws ++ (nextCharAfterWhitespace [] s).1, (nextCharAfterWhitespace [] s).2) := by
  induction s generalizing ws with
  | nil => simp [nextCharAfterWhitespace]
  | cons c s ih =>
    simp only [nextCharAfterWhitespace]
    split
    · rw [ih, ih ([] ++ [c])]; simp
    · simp

/-- The saver is only passed on. -/
theorem pullNext_saver {env : Env} {F : Nat} {sv sv1 : Saver} {s r : Str} {l l1 : Nat} {t : Tok}
    (h : pullNext env true F sv s l = .ok (t, sv1, r, l1)) :
    ∃ x, sv1 = ⟨sv.ws ++ x, sv.lastSimple⟩ ∧
      ∀ sv2, pullNext env true F sv2 s l = .ok (t, ⟨sv2.ws ++ x, sv2.lastSimple⟩, r, l1) := by
  cases F with
  | zero => simp [pullNext] at h
  | succ F =>
    rw [pullNext, nextChar_from] at h
    refine ⟨(nextCharAfterWhitespace [] s).1, ?_, fun sv2 => ?_⟩
    · cases hn : (nextCharAfterWhitespace [] s).2 with
      | none =>
        rw [hn] at h
        simp only [Res.ok.injEq, Prod.mk.injEq] at h
        exact h.2.1.symm
      | some cr =>
        obtain ⟨c, r0⟩ := cr
        rw [hn] at h
        simp only at h
        split at h
        · simp only [Res.ok.injEq, Prod.mk.injEq] at h
          exact h.2.1.symm
        · split at h
          all_goals
            rw [Res.bind_eq_ok] at h
            obtain ⟨⟨t0, r1, l1⟩, hp, h⟩ := h
            simp only [Res.ok.injEq, Prod.mk.injEq] at h
            exact h.2.1.symm
    · rw [pullNext, nextChar_from]
      cases hn : (nextCharAfterWhitespace [] s).2 with
      | none =>
        rw [hn] at h
        simp only [Res.ok.injEq, Prod.mk.injEq] at h ⊢
        exact ⟨h.1, trivial, h.2.2⟩
      | some cr =>
        obtain ⟨c, r0⟩ := cr
        rw [hn] at h
        simp only at h ⊢
        split at h
        · rename_i hc
          rw [if_pos hc]
          simp only [Res.ok.injEq, Prod.mk.injEq] at h ⊢
          exact ⟨h.1, trivial, h.2.2⟩
        · rename_i hc
          rw [if_neg hc]
          split at h
          all_goals
            rename_i hd
            first | rw [if_pos hd] | rw [if_neg hd]
            rw [Res.bind_eq_ok] at h
            obtain ⟨⟨t0, r1, l1⟩, hp, h⟩ := h
            simp only [Res.ok.injEq, Prod.mk.injEq] at h
            rw [hp]
            simp only [Res.ok_bind, Res.ok.injEq, Prod.mk.injEq]
            exact ⟨h.1, trivial, h.2.2⟩

/-- What stands before the rest does not matter. -/
theorem lexAll_flag {env : Env} {b : Bool} {B : Str} {l : Nat} {TB : List Tok} (h : lexAll env ⟨[], b⟩ B l = .ok TB)
    (hf : Follow TB) (b' : Bool) : lexAll env ⟨[], b'⟩ B l = .ok TB := by
  obtain ⟨t, sv1, r, l1, hp⟩ := lexAll_inv h
  obtain ⟨x, rfl, hx⟩ := pullNext_saver hp
  have hp' := hx ⟨[], b'⟩
  simp only [List.nil_append] at hp hp'
  have hcf : Saver.check ⟨x, b'⟩ false l1 = Saver.check ⟨x, b⟩ false l1 := by
    simp [Saver.check]
  by_cases ht : t = .end_
  · subst ht
    rw [lexAll_done hp] at h
    rw [lexAll_done hp', hcf, h]
  · rw [lexAll_step hp ht] at h
    rw [lexAll_step hp' ht]
    by_cases hs : t.isSimple = true
    · exfalso
      rw [Res.bind_eq_ok] at h
      obtain ⟨ts, hts, h⟩ := h
      simp only [Res.ok.injEq] at h
      obtain ⟨w, t2, r2, hTB, hw, ht2⟩ := hf
      have hns : t2.isSimple = false ∧ ∀ x l, t2 ≠ .ws x l := by
        rcases ht2 with ⟨_, rfl⟩ | ⟨_, _, _, rfl⟩ | rfl | rfl | rfl <;> simp [Tok.isSimple]
      rw [hTB] at h
      rw [hs] at h
      rcases check_fst ⟨x, b⟩ true l1 with hk | ⟨y, hk, _⟩ | ⟨y, hk, _, _⟩ <;> rw [hk] at h <;>
        rcases hw with rfl | ⟨z, k, rfl⟩ <;> simp at h
      · rw [h.1] at hs; simp [hns.1] at hs
      · rw [h.1] at hs; simp [Tok.isSimple] at hs
      · exact hns.2 _ _ h.1.symm
      · rw [h.2.1] at hs; simp [hns.1] at hs
      · rw [← h.1] at hns; simp [Tok.isSimple] at hns
    · have hs' : t.isSimple = false := by simpa using hs
      rw [hs'] at h ⊢
      rw [hcf, h]

/-- Blanks before a text. -/
theorem pullNext_blanks {env : Env} {F : Nat} {sv : Saver} {w s : Str} {l : Nat} (hw : AllBlank w) :
    pullNext env true F sv (w ++ s) l = pullNext env true F ⟨sv.ws ++ w, sv.lastSimple⟩ s l := by
  have : ∀ ws, nextCharAfterWhitespace ws (w ++ s) = nextCharAfterWhitespace (ws ++ w) s := by
    induction w with
    | nil => simp
    | cons c w ih =>
      intro ws
      rw [List.cons_append, nextCharAfterWhitespace, if_pos (hw c (by simp)), ih (fun x hx => hw x (by simp [hx]))]
      simp
  cases F with
  | zero => simp [pullNext]
  | succ F => rw [pullNext, pullNext, this]

/-- A run after blanks. -/
theorem Run.blank {env : Env} {sv' : Saver} {s r : Str} {l l' : Nat} {t : Tok} {T : List Tok}
    (h : Run env ⟨[], false⟩ s l (t :: T) sv' r l') (ht : ∀ x k, t ≠ .ws x k) {w : Str} (hw : AllBlank w) :
    ∃ k, Run env ⟨[], false⟩ (w ++ s) l ((if w = [] then [] else [.ws w k]) ++ t :: T) sv' r l' := by
  generalize hT : t :: T = U at h
  generalize hsv : (⟨[], false⟩ : Saver) = sv at h
  cases h with
  | nil => simp at hT
  | @cons _ sv1 _ _ r0 _ _ l1 _ t0 ts hp hne hr =>
    subst hsv
    obtain ⟨x, rfl, hx⟩ := pullNext_saver hp
    simp only [List.nil_append] at hT hr
    have hxn : x = [] := by
      rcases check_fst ⟨x, false⟩ t0.isSimple l1 with hk | ⟨y, hk, _⟩ | ⟨y, hk, _, hf⟩
      · have := Saver.check_text ⟨x, false⟩ t0.isSimple l1
        rw [hk] at this
        simpa [Tok.textList] using this.symm
      · rw [hk] at hT
        simp at hT
        exact absurd hT.1 (ht _ _)
      · simp at hf
    subst hxn
    have h0 : ∀ b, Saver.check ⟨[], false⟩ b l1 = (none, ⟨[], b⟩) := by intro b; cases b <;> rfl
    rw [h0] at hT hr
    simp only [Option.toList, List.nil_append, List.cons.injEq] at hT
    obtain ⟨rfl, rfl⟩ := hT
    have hp2 := hx ⟨w, false⟩
    simp only [List.append_nil] at hp2
    have hp3 := pullNext_canon (F := 2 * s.length + 1) (sv := ⟨[], false⟩) (s := w ++ s) (l := l)
      (x := (t, ⟨w, false⟩, r0, l1)) (by rw [pullNext_blanks hw]; simpa using hp2)
    refine ⟨l1, ?_⟩
    have hrun := Run.cons hp3 hne (by rw [check_snd]; exact hr)
    have hc : (Saver.check ⟨w, false⟩ t.isSimple l1).1.toList = (if w = [] then [] else [.ws w l1]) := by
      by_cases hwe : w = []
      · subst hwe; rw [h0]; simp
      · have : 0 < w.length := List.length_pos_iff.2 hwe
        unfold Saver.check Saver.create
        cases t.isSimple <;> simp [hwe, this]
    rw [hc] at hrun
    simp only [List.append_nil, h0, Option.toList, List.nil_append]
    exact hrun

end Tokenizer
end Hocon
