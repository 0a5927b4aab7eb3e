import Verif.Lemmas.ParserRemove

/-!
# The text of a document from which a field is taken out
-/

set_option autoImplicit false

namespace Hocon
namespace DocParser
open PathParser (Syntax)
open Node Tokenizer DocEdit

/-- Without a brace the loop reads to the end. -/
theorem open_end (env : Env) (f : Nat) :
    (∀ ac keys T ns R, objectLoop env .conf f false ac keys T = .ok (ns, R) → ∃ r, R = .end_ :: r) ∧
    (∀ keys T ns R, objectSep env .conf f false keys T = .ok (ns, R) → ∃ r, R = .end_ :: r) := by
  induction f with
  | zero => constructor <;> intros <;> simp_all [objectLoop, objectSep]
  | succ f ih =>
    constructor
    · intro ac keys T ns R h
      rw [objectLoop, Res.bind_eq_ok] at h
      obtain ⟨⟨ws, t, ts⟩, _, h⟩ := h
      simp only at h
      split at h
      · simp at h
      · split at h
        · rename_i ht
          simp only [Res.ok.injEq, Prod.mk.injEq] at h
          cases t <;> simp [Tok.isEnd] at ht
          exact ⟨ts, h.2.symm⟩
        · split at h
          · rw [Res.bind_eq_ok] at h
            obtain ⟨⟨_, _⟩, _, h⟩ := h
            rw [Res.bind_eq_ok] at h
            obtain ⟨⟨_, _⟩, h3, h⟩ := h
            simp only [Res.ok.injEq, Prod.mk.injEq] at h
            rw [← h.2]
            exact ih.2 _ _ _ _ h3
          · rw [Res.bind_eq_ok] at h
            obtain ⟨⟨_, _, _⟩, _, h⟩ := h
            rw [Res.bind_eq_ok] at h
            obtain ⟨_, _, h⟩ := h
            rw [Res.bind_eq_ok] at h
            obtain ⟨⟨_, _⟩, h3, h⟩ := h
            simp only [Res.ok.injEq, Prod.mk.injEq] at h
            rw [← h.2]
            exact ih.2 _ _ _ _ h3
    · intro keys T ns R h
      rw [objectSep, Res.bind_eq_ok] at h
      obtain ⟨⟨ws, b, ts⟩, _, h⟩ := h
      simp only at h
      split at h
      · rw [Res.bind_eq_ok] at h
        obtain ⟨⟨_, _⟩, h3, h⟩ := h
        simp only [Res.ok.injEq, Prod.mk.injEq] at h
        rw [← h.2]
        exact ih.1 _ _ _ _ _ h3
      · rw [Res.bind_eq_ok] at h
        obtain ⟨⟨ws2, t, ts2⟩, _, h⟩ := h
        simp only [Bool.false_eq_true, if_false] at h
        split at h
        · simp at h
        · simp only [Res.ok.injEq, Prod.mk.injEq] at h
          exact ⟨ts2, h.2.symm⟩
        · simp at h

/-- The head of a text on which the loop does not fail is no bracket. -/
theorem le_head2 {env : Env} {ho : Bool} {T : List Tok} {x : List Node × List Tok}
    (h : ∀ ac keys g, Le (objectLoop env .conf g ho ac keys T) (.ok x)) :
    ∃ wa ta ra, nextCollect .conf T = .ok (wa, ta, ra) ∧ ta ≠ .openCurly ∧ ta ≠ .openSquare := by
  obtain ⟨wa, ta, ra, hn, _⟩ := le_head h
  have h2 := h false [] 2
  rw [objectLoop, hn] at h2
  refine ⟨wa, ta, ra, hn, ?_, ?_⟩ <;>
  · rintro rfl
    simp only [Res.ok_bind, Tok.isEnd, Bool.false_and, Bool.false_eq_true, if_false] at h2
    simp [parseField, parseKey, keyRun, bind, Res.bind, isIncludeKeyword] at h2
    rcases h2 with h2 | h2 <;> cases h2

/-- The tokens of a document around a field that is taken out. -/
theorem parse_remove {env : Env} {T : List Tok} {root a cs b cs' : List Node}
    (h : parse env .conf (.start :: T) = .ok root) (hg : Good env true T) (hch : Chain false T)
    (hf : findObject root = .ok (a, cs, b)) (hs : Cut cs cs') :
    ∃ TA Td TE, T = TA ++ (Td ++ TE) ∧ (Gap TA ∨ Edge TA) ∧
      (∃ t Tf D, Td = t :: (Tf ++ D) ∧ t.isSimple = true ∧ isUnquotedWs t = false ∧ EndsHard (t :: Tf) ∧ Dropped D TE) ∧
      (renderList cs).length ≤ (renderList cs').length + (Tok.textList Td).length ∧
      Le (parse env .conf (.start :: (TA ++ TE))) (.ok (a ++ .object cs' :: b)) := by
  rw [parse] at h
  simp only [nextToken, Res.ok_bind] at h
  rw [Res.bind_eq_ok] at h
  obtain ⟨⟨ws, t0, T2⟩, h1, h⟩ := h
  obtain ⟨e1, p1, hc1⟩ := nextCollect_spec h1
  have hg1 : Good env true (t0 :: T2) := by rw [e1] at hg; exact hg.suffix
  simp only at h
  generalize hF : fuelFor (.start :: T) = F at h
  split at h
  · -- an object with braces
    rw [Res.bind_eq_ok] at h
    obtain ⟨⟨n, R⟩, h2, h⟩ := h
    obtain ⟨wse, rest, h3, h4⟩ := parseEnd_ok h
    obtain ⟨e3, p3, _⟩ := nextCollect_spec h3
    cases F with
    | zero => simp [fuelFor] at hF
    | succ F =>
      rw [parseValue] at h2
      simp only at h2
      rw [Res.bind_eq_ok] at h2
      obtain ⟨⟨ns, R'⟩, h2, h5⟩ := h2
      simp only [Res.ok.injEq, Prod.mk.injEq] at h5
      obtain ⟨rfl, rfl⟩ := h5
      simp only [Bool.false_eq_true, if_false] at h4
      rw [h4, List.append_assoc, List.singleton_append, findObject_plain p1] at hf
      simp only [findObject, Res.ok_bind, Res.ok.injEq, Prod.mk.injEq, List.append_nil] at hf
      obtain ⟨rfl, rfl, rfl⟩ := hf
      obtain ⟨ns', rfl, hs'⟩ := Cut.plain (ws := [.single .openCurly]) hs (by simp [Plain])
      have hch2 : Chain false T2 := by rw [e1] at hch; exact hch.suffix
      obtain ⟨TA, Td, TE, ⟨k1, _, k3, k4⟩, k5, k6⟩ := (obj_remove env F).1 _ _ _ _ _ _ _ h2 hg1.tail hch2 hs'
      change T2 = _ at k1
      refine ⟨tokensList ws ++ .openCurly :: TA, Td, TE, ?_, Or.inr ?_, k3, ?_, ?_⟩
      · rw [e1, k1]; simp
      · rcases k5 with k5 | k5
        · exact ⟨_, _, _, rfl, k5, Or.inr (Or.inr rfl)⟩
        · have := k5.front (tokensList ws ++ [.openCurly])
          simpa using this
      · simp only [renderList, tokensList_append, tokensList, Tok.textList_append, List.length_append] at k4 ⊢
        omega
      · have e : tokensList ws ++ .openCurly :: TA ++ TE = tokensList ws ++ .openCurly :: (TA ++ TE) := by simp
        rw [e, parse]
        simp only [nextToken, Res.ok_bind]
        rw [nextCollect_swap h1 (by rfl)]
        simp only [Res.ok_bind]
        generalize fuelFor _ = G
        cases G with
        | zero => left; rw [parseValue]; rfl
        | succ G =>
          rw [parseValue]
          simp only
          refine Le.ok_bind (x := (.object (.single .openCurly :: ns'), R')) ((k6 _ _ G).ok_bind (.refl _)) ?_
          simp only [parseEnd, h3, Res.ok_bind, Bool.false_eq_true, if_false]
          right
          simp
  · -- an array
    exfalso
    rw [Res.bind_eq_ok] at h
    obtain ⟨⟨n, R⟩, h2, h⟩ := h
    obtain ⟨wse, rest, h3, h4⟩ := parseEnd_ok h
    cases F with
    | zero => simp [fuelFor] at hF
    | succ F =>
      rw [parseValue] at h2
      obtain ⟨xs, rfl⟩ := parseArray_node h2
      simp only [Bool.false_eq_true, if_false] at h4
      rw [h4, List.append_assoc, List.singleton_append, findObject_plain p1] at hf
      simp [findObject] at hf
  · -- without braces
    rw [Res.bind_eq_ok] at h
    obtain ⟨⟨ns, R⟩, h2, h⟩ := h
    obtain ⟨wse, rest, h3, h4⟩ := parseEnd_ok h
    obtain ⟨r, rfl⟩ := (open_end env F).1 _ _ _ _ _ h2
    have hwse : wse = [] := by
      change nextCollect .conf (.end_ :: r) = _ at h3
      rw [nextCollect] at h3
      simp only [nextToken, Res.ok_bind, collectNode, Res.ok.injEq, Prod.mk.injEq] at h3
      exact h3.1.symm
    subst hwse
    simp only [if_true, List.append_nil] at h4
    rw [h4] at hf
    simp only [findObject, Res.ok.injEq, Prod.mk.injEq] at hf
    obtain ⟨rfl, rfl, rfl⟩ := hf
    have h2' : objectLoop env .conf F false false [] T = .ok (ws ++ ns, .end_ :: r) := by
      rw [e1, objectLoop_front h1, h2]; rfl
    obtain ⟨TA, Td, TE, ⟨k1, _, k3, k4⟩, k5, k6⟩ := (obj_remove env F).1 _ _ _ _ _ _ _ h2' hg hch hs
    refine ⟨TA, Td, TE, k1, k5, k3, k4, ?_⟩
    obtain ⟨wa, ta, ra, y1, y2, y3⟩ := le_head2 k6
    rw [parse]
    simp only [nextToken, Res.ok_bind]
    rw [y1]
    simp only [Res.ok_bind]
    generalize fuelFor _ = G
    have hk := k6 false [] G
    rw [(nextCollect_spec y1).1, objectLoop_front y1] at hk
    cases ta with
    | openCurly => exact absurd rfl y2
    | openSquare => exact absurd rfl y3
    | _ =>
      generalize hO : objectLoop env .conf G false false [] _ = O at hk ⊢
      cases O with
      | ok x =>
        simp only [Res.ok_bind] at hk ⊢
        rcases hk with hk | hk
        · cases hk
        · simp only [Res.ok.injEq, Prod.mk.injEq] at hk
          right
          rw [hk.1, hk.2]
          simp [parseEnd, nextCollect, nextToken, collectNode, bind, Res.bind]
      | fuel => exact .fuel _
      | _ => rcases hk with hk | hk <;> cases hk

end DocParser

namespace Tokenizer
open DocParser

/-- A run that ends with a token of fixed text does not depend on what follows. -/
theorem Run.append_closed {env : Env} {sv sv' : Saver} {s r : Str} {l l' : Nat} {T : List Tok}
    (h : Run env sv s l T sv' r l') {x y : Str} (hs : s = x ++ y) (hr : r = y) {a : List Tok} {p : Tok}
    (hT : T = a ++ [p]) (hp : (∃ k, p = .newline k) ∨ p = .comma ∨ p = .openCurly) :
    (∀ y', Run env sv (x ++ y') l T sv' y' l') ∧ ∃ c ∈ x, c ≠ '/' := by
  have hpc : closedTok p = true ∧ ((∃ c ∈ p.text, c ≠ '/') ∧ p ≠ .end_) := by
    rcases hp with ⟨k, rfl⟩ | rfl | rfl <;> simp [closedTok, Tok.text]
  induction h generalizing x a with
  | nil => simp at hT
  | @cons sv sv1 sv' s r r' l l1 l' t ts hpull ht hrun ih =>
    subst hs
    rcases last_of hT with ⟨rfl, rfl⟩ | ⟨b, rfl⟩
    · obtain ⟨rfl, rfl, rfl⟩ := hrun.nil_inv
      subst hr
      have htr := (pull_trunc env true _ r').1 sv x l t sv1 [] _ hpull (Or.inr hpc.1)
      constructor
      · intro y'
        have := (pull_local env true _ y').1 _ _ _ _ _ _ _ htr (Or.inr hpc.1)
        exact .cons (pullNext_canon this) ht (.nil _ _ _)
      · obtain ⟨w, _, _, _, h4⟩ := pullNext_spec htr
        rcases h4 with ⟨h4, _⟩ | ⟨u, hx, h5⟩
        · exact absurd h4 ht
        · have := h5.sub.subset
          rw [hx]
          obtain ⟨c, hc, hne⟩ := hpc.2.1
          exact ⟨c, by simp [this hc], hne⟩
    · obtain ⟨x1, hr1, _, _⟩ := hrun.rest
      subst hr
      subst hr1
      obtain ⟨g1, g2⟩ := ih (x := x1) (a := b) rfl rfl rfl
      have hsplit : ∃ u, x ++ r' = u ++ (x1 ++ r') := by
        obtain ⟨w, _, _, _, h4⟩ := pullNext_spec hpull
        rcases h4 with ⟨h4, _⟩ | ⟨u, h4, _⟩
        · exact absurd h4 ht
        · exact ⟨w ++ u, h4⟩
      obtain ⟨u, hu⟩ := hsplit
      have hx : x = u ++ x1 := by
        rw [← List.append_assoc] at hu
        exact List.append_cancel_right hu
      obtain ⟨c, hc, hcn⟩ := g2
      have hne : x1 ≠ [] ∧ x1 ≠ ['/'] := by
        constructor
        · rintro rfl; simp at hc
        · rintro rfl; simp at hc; exact hcn hc
      have htr := (pull_trunc env true _ r').1 sv x l t sv1 x1 l1 hpull (Or.inl hne)
      constructor
      · intro y'
        have := (pull_local env true _ y').1 _ _ _ _ _ _ _ htr (Or.inl hne.1)
        exact .cons (pullNext_canon this) ht (g1 y')
      · exact ⟨c, by simp [hx, hc], hcn⟩

theorem check_nil (b f : Bool) (l : Nat) : Saver.check ⟨[], f⟩ b l = (none, ⟨[], b⟩) := by cases b <;> rfl

/-- The text behind a whitespace token. -/
theorem lexAll_strip {env : Env} {b : Bool} {s : Str} {l : Nat} {x : Str} {k : Int} {T : List Tok}
    (h : lexAll env ⟨[], b⟩ s l = .ok (.ws x k :: T)) :
    ∃ r, s = x ++ r ∧ lexAll env ⟨[], b⟩ r l = .ok T := by
  obtain ⟨t, sv1, r, l1, hp⟩ := lexAll_inv h
  have hws := (pullNext_wf hp).2
  obtain ⟨w, hw, hw2, hw3, h4⟩ := pullNext_spec hp
  have hsv : sv1 = ⟨w, b⟩ := by
    cases sv1
    simp_all
  subst hsv
  have hx : w = x ∧ (Saver.check ⟨w, b⟩ t.isSimple l1).1.toList = [.ws x k] := by
    by_cases ht : t = .end_
    · subst ht
      rw [lexAll_done hp] at h
      simp only [Res.ok.injEq] at h
      rcases check_fst ⟨w, b⟩ false l1 with hk | ⟨y, hk, rfl⟩ | ⟨y, hk, h5, _⟩
      · rw [hk] at h; simp at h
      · rw [hk] at h
        simp only [List.cons_append, List.cons.injEq, Tok.ws.injEq] at h
        refine ⟨h.1.1, ?_⟩
        change (Saver.check _ false l1).1.toList = _
        rw [hk, h.1.1, h.1.2]
      · simp at h5
    · rw [lexAll_step hp ht, Res.bind_eq_ok] at h
      obtain ⟨ts, _, h⟩ := h
      simp only [Res.ok.injEq] at h
      rcases check_fst ⟨w, b⟩ t.isSimple l1 with hk | ⟨y, hk, rfl⟩ | ⟨y, hk, h5, _⟩
      · rw [hk] at h
        simp at h
        exact absurd h.1 (hws _ _)
      · rw [hk] at h
        simp only [List.cons_append, List.cons.injEq, Tok.ws.injEq] at h
        refine ⟨h.1.1, ?_⟩
        rw [hk, h.1.1, h.1.2]
      · rw [hk] at h; simp at h
  obtain ⟨hwx, hx⟩ := hx
  subst hwx
  have hs : ∃ q, s = w ++ q := by
    rcases h4 with ⟨_, _, h4, _⟩ | ⟨u, h4, _⟩
    · exact ⟨[], by simp [h4]⟩
    · exact ⟨u ++ r, by simp [h4]⟩
  obtain ⟨q, rfl⟩ := hs
  refine ⟨q, rfl, ?_⟩
  rw [pullNext_blanks hw] at hp
  simp only [List.nil_append] at hp
  obtain ⟨y, hy, hp2⟩ := pullNext_saver hp
  have hyn : y = [] := by
    simp only [Saver.mk.injEq, and_true] at hy
    have := congrArg List.length hy
    simp at this
    exact this
  subst hyn
  have hp3 := pullNext_canon (hp2 ⟨[], b⟩)
  simp only [List.append_nil] at hp3
  by_cases ht : t = .end_
  · subst ht
    have hd := lexAll_done (pullNext_canon (s := w ++ q) (sv := ⟨[], b⟩) (F := 2 * (w ++ q).length + 1) (by
      rw [pullNext_blanks hw]; exact hp))
    rw [hd] at h
    change (Saver.check ⟨w, b⟩ false l1).1.toList = _ at hx
    rw [hx] at h
    simp only [Res.ok.injEq, List.cons_append, List.nil_append, List.cons.injEq, true_and] at h
    rw [lexAll_done hp3, check_nil, ← h]
    rfl
  · have hd := lexAll_step (pullNext_canon (s := w ++ q) (sv := ⟨[], b⟩) (F := 2 * (w ++ q).length + 1) (by
      rw [pullNext_blanks hw]; exact hp)) ht
    rw [hd, hx, check_snd] at h
    rw [lexAll_step hp3 ht, check_nil]
    rw [Res.bind_eq_ok] at h
    obtain ⟨ts, h1, h⟩ := h
    simp only [Res.ok.injEq, List.cons_append, List.nil_append, List.cons.injEq, true_and] at h
    simp only [h1, Res.ok_bind, Option.toList, List.nil_append, h]

/-- Blanks in front of a text. -/
theorem lexAll_front {env : Env} {s : Str} {l : Nat} {T : List Tok} (h : lexAll env ⟨[], false⟩ s l = .ok T)
    (ht : ∃ t r, T = t :: r ∧ ∀ x k, t ≠ .ws x k) {w : Str} (hw : AllBlank w) :
    ∃ k, lexAll env ⟨[], false⟩ (w ++ s) l = .ok ((if w = [] then [] else [.ws w k]) ++ T) := by
  obtain ⟨t0, r0, hT, ht0⟩ := ht
  obtain ⟨t, sv1, r, l1, hp⟩ := lexAll_inv h
  obtain ⟨x, rfl, hx⟩ := pullNext_saver hp
  simp only [List.nil_append] at hp
  have hxn : x = [] := by
    apply Classical.byContradiction
    intro hne
    have hc : (Saver.check ⟨x, false⟩ t.isSimple l1).1.toList = [.ws x l1] := by
      rcases check_fst ⟨x, false⟩ t.isSimple l1 with hk | ⟨y, hk, rfl⟩ | ⟨y, hk, _, hf⟩
      · have := Saver.check_text ⟨x, false⟩ t.isSimple l1
        rw [hk] at this
        exact absurd (by simpa [Tok.textList] using this.symm) hne
      · exact hk
      · simp at hf
    by_cases hte : t = .end_
    · subst hte
      rw [lexAll_done hp] at h
      change (Saver.check ⟨x, false⟩ false l1).1.toList = _ at hc
      rw [hc] at h
      simp only [Res.ok.injEq, hT, List.cons_append, List.cons.injEq] at h
      exact ht0 _ _ h.1.symm
    · rw [lexAll_step hp hte, hc, Res.bind_eq_ok] at h
      obtain ⟨ts, _, h⟩ := h
      simp only [Res.ok.injEq, hT, List.cons_append, List.cons.injEq] at h
      exact ht0 _ _ h.1.symm
  subst hxn
  have hp2 := hx ⟨w, false⟩
  simp only [List.append_nil] at hp2
  have hp3 := pullNext_canon (F := 2 * s.length + 1) (sv := ⟨[], false⟩) (s := w ++ s) (l := l)
    (x := (t, ⟨w, false⟩, r, l1)) (by rw [pullNext_blanks hw]; simpa using hp2)
  have hc : ∀ b, (Saver.check ⟨w, false⟩ b l1).1.toList = if w = [] then [] else [.ws w l1] := by
    intro b
    cases w <;> cases b <;> rfl
  refine ⟨l1, ?_⟩
  by_cases hte : t = .end_
  · subst hte
    rw [lexAll_done hp, check_nil] at h
    rw [lexAll_done hp3, hc]
    simp only [Res.ok.injEq, Option.toList, List.nil_append] at h
    rw [← h]
  · rw [lexAll_step hp hte, check_nil, Res.bind_eq_ok] at h
    obtain ⟨ts, h1, h⟩ := h
    simp only [Res.ok.injEq, Option.toList, List.nil_append] at h
    rw [lexAll_step hp3 hte, hc, check_snd, h1, Res.ok_bind, h]

/-- Whitespace taken off, if there is some. -/
theorem lexAll_gap {env : Env} {b : Bool} {s : Str} {l : Nat} {w T : List Tok} (hw : Gap w)
    (h : lexAll env ⟨[], b⟩ s l = .ok (w ++ T)) :
    ∃ r, s = Tok.textList w ++ r ∧ lexAll env ⟨[], b⟩ r l = .ok T := by
  rcases hw with rfl | ⟨x, k, rfl⟩
  · exact ⟨s, by simp [Tok.textList], h⟩
  · obtain ⟨r, h1, h2⟩ := lexAll_strip h
    exact ⟨r, by simp [Tok.textList, Tok.text, h1], h2⟩

/-- The tokens of a text from which a field is taken out. -/
theorem lex_cut {env : Env} {s : Str} {TA Tf D TE : List Tok} {t : Tok}
    (hs : lexAll env ⟨[], false⟩ s 1 = .ok (TA ++ ((t :: (Tf ++ D)) ++ TE)))
    (ht : Tok.textList (TA ++ ((t :: (Tf ++ D)) ++ TE)) = s)
    (hw : ∀ u ∈ TA ++ ((t :: (Tf ++ D)) ++ TE), WfTok env true u)
    (hA : Gap TA ∨ Edge TA) (hh : EndsHard (t :: Tf)) (hD : Dropped D TE) :
    ∃ s' T', lexAll env ⟨[], false⟩ s' 1 = .ok T' ∧ T'.map Tok.unline = (TA ++ TE).map Tok.unline ∧
      s'.length + (Tok.textList (t :: (Tf ++ D))).length = s.length := by
  -- the front
  obtain ⟨A, w, rfl, hwg, hAp⟩ : ∃ A w, TA = A ++ w ∧ Gap w ∧
      (A = [] ∨ ∃ a p, A = a ++ [p] ∧ ((∃ k, p = .newline k) ∨ p = .comma ∨ p = .openCurly)) := by
    rcases hA with hA | ⟨a, p, w, rfl, hw, hp⟩
    · exact ⟨[], TA, rfl, hA, Or.inl rfl⟩
    · exact ⟨a ++ [p], w, by simp, hw, Or.inr ⟨a, p, rfl, hp⟩⟩
  have hend : ∃ e r, TE = e :: r ∧ ∀ x k, e ≠ .ws x k := by
    rcases hD with ⟨_, _, _, _, _, h⟩ | ⟨_, e, r, h, he⟩
    · exact h
    · refine ⟨e, r, h, ?_⟩
      rcases he with ⟨k, rfl⟩ | ⟨d, c, k, rfl⟩ | rfl | rfl <;> simp
  have front : ∃ x1 r1 l1, s = x1 ++ r1 ∧ (Tok.textList A).length ≤ x1.length ∧
      lexAll env ⟨[], false⟩ r1 l1 = .ok (w ++ ((t :: (Tf ++ D)) ++ TE)) ∧
      ∀ y, Run env ⟨[], false⟩ (x1 ++ y) 1 A ⟨[], false⟩ y l1 := by
    rcases hAp with rfl | ⟨a, p, rfl, hp⟩
    · exact ⟨[], s, 1, rfl, by simp [Tok.textList], by simpa using hs, fun y => .nil _ _ _⟩
    · have hps : p.isSimple = false ∧ (∀ x k, p ≠ .ws x k) ∧ ¬ ∃ x k, p = .unquoted x k := by
        rcases hp with ⟨k, rfl⟩ | rfl | rfl <;> simp [Tok.isSimple]
      rw [List.append_assoc] at hs
      obtain ⟨sv1, r1, l1, run1, lex1⟩ := lexAll_split s.length (Nat.le_refl _) hs (by simp) (by
        intro a' p' hp'
        obtain ⟨_, rfl⟩ : a = a' ∧ p = p' := by
          have := List.append_inj' hp' rfl
          exact ⟨this.1, by simpa using this.2⟩
        exact ⟨hps.2.1, fun h => absurd h hps.2.2⟩)
      obtain rfl := run1.saver rfl
      rw [hps.1] at run1 lex1
      obtain ⟨x1, rfl, sub1, _⟩ := run1.rest
      exact ⟨x1, r1, l1, rfl, by simpa using sub1.length_le, lex1, (run1.append_closed rfl rfl rfl hp).1⟩
  obtain ⟨x1, r1, l1, rfl, len1, lex1, hrun⟩ := front
  -- the field and what is dropped behind it
  have mid : ∃ x2 r2 l2, r1 = x2 ++ r2 ∧ (Tok.textList (w ++ t :: (Tf ++ D))).length ≤ x2.length ∧
      lexAll env ⟨[], false⟩ r2 l2 = .ok TE := by
    rcases hD with ⟨w0, w1, rfl, h0, h1, _⟩ | ⟨hg, hst⟩
    · have e1 : w ++ ((t :: (Tf ++ (w0 ++ .comma :: w1))) ++ TE) = (w ++ t :: (Tf ++ w0) ++ [.comma]) ++ (w1 ++ TE) := by
        simp
      rw [e1] at lex1
      obtain ⟨sv2, r2, l2, run2, lex2⟩ := lexAll_split r1.length (Nat.le_refl _) lex1 (by
          obtain ⟨e, r, rfl, _⟩ := hend; simp) (by
        intro a' p' hp'
        obtain ⟨_, rfl⟩ : w ++ t :: (Tf ++ w0) = a' ∧ Tok.comma = p' := by
          have := List.append_inj' hp' rfl
          exact ⟨this.1, by simpa using this.2⟩
        simp)
      obtain rfl := run2.saver rfl
      obtain ⟨x2, rfl, sub2, _⟩ := run2.rest
      obtain ⟨r3, rfl, lex3⟩ := lexAll_gap h1 lex2
      refine ⟨x2 ++ Tok.textList w1, r3, l2, by simp, ?_, lex3⟩
      have := sub2.length_le
      simp only [Tok.textList_append, Tok.textList, List.length_append, List.nil_append, List.length_nil] at this ⊢
      omega
    · obtain ⟨a, p, hap, hp⟩ := hh
      have e1 : w ++ ((t :: (Tf ++ D)) ++ TE) = (w ++ a ++ [p]) ++ (D ++ TE) := by
        have : w ++ ((t :: (Tf ++ D)) ++ TE) = w ++ ((t :: Tf) ++ (D ++ TE)) := by simp
        rw [this, hap]; simp
      rw [e1] at lex1
      have hfo : Follow (D ++ TE) := by
        obtain ⟨e, r, rfl, he⟩ := hst
        refine ⟨D, e, r, rfl, hg, ?_⟩
        rcases he with h | h | h | h <;> simp [h]
      obtain ⟨sv2, r2, l2, run2, lex2⟩ := lexAll_split r1.length (Nat.le_refl _) lex1 (follow_head hfo).1 (by
        intro a' p' hp'
        obtain ⟨_, rfl⟩ : w ++ a = a' ∧ p = p' := by
          have := List.append_inj' hp' rfl
          exact ⟨this.1, by simpa using this.2⟩
        exact ⟨hp.1, fun _ => (follow_head hfo).2⟩)
      obtain rfl := run2.saver rfl
      obtain ⟨x2, rfl, sub2, _⟩ := run2.rest
      obtain ⟨r3, rfl, lex3⟩ := lexAll_gap hg lex2
      have hfo2 : Follow TE := by
        obtain ⟨e, r, rfl, he⟩ := hst
        refine ⟨[], e, r, rfl, Or.inl rfl, ?_⟩
        rcases he with h | h | h | h <;> simp [h]
      refine ⟨x2 ++ Tok.textList D, r3, l2, by simp, ?_, lexAll_flag lex3 hfo2 false⟩
      have := sub2.length_le
      have e2 : Tok.textList (w ++ t :: (Tf ++ D)) = Tok.textList (w ++ a ++ [p]) ++ Tok.textList D := by
        have : w ++ t :: (Tf ++ D) = w ++ (t :: Tf) ++ D := by simp
        rw [this, hap, Tok.textList_append]; simp
      rw [e2]
      simp only [List.length_append, List.nil_append] at this ⊢
      omega
  obtain ⟨x2, r2, l2, rfl, len2, lex2⟩ := mid
  have len3 := (tokenLoop_lexed lex2).text_sub.length_le
  have hlen := congrArg List.length ht
  obtain ⟨TE2, lex3, hTE2⟩ := lexAll_line r2.length (Nat.le_refl _) lex2 l1
  have hblank : AllBlank (Tok.textList w) ∧ ∀ k, (if Tok.textList w = [] then [] else
      [Tok.ws (Tok.textList w) k]).map Tok.unline = w.map Tok.unline := by
    rcases hwg with rfl | ⟨x, k, rfl⟩
    · exact ⟨by simp [Tok.textList, AllBlank], fun k => by simp [Tok.textList]⟩
    · obtain ⟨h1, h2⟩ := hw (.ws x k) (by simp)
      simp only [Tok.textList, Tok.text, List.append_nil]
      exact ⟨h2, fun k => by rw [if_neg h1]; rfl⟩
  have hend2 : ∃ e r, TE2 = e :: r ∧ ∀ x k, e ≠ .ws x k := by
    obtain ⟨e, r, rfl, he⟩ := hend
    cases TE2 with
    | nil => simp at hTE2
    | cons e2 r2 =>
      refine ⟨e2, r2, rfl, ?_⟩
      rintro x k rfl
      simp only [List.map_cons, List.cons.injEq] at hTE2
      cases e <;> simp [Tok.unline] at hTE2
      exact he _ _ rfl
  obtain ⟨k, lex4⟩ := lexAll_front lex3 hend2 hblank.1
  have hall := (hrun (Tok.textList w ++ r2)).lexAll
  rw [lex4, Res.ok_bind] at hall
  refine ⟨_, _, hall, ?_, ?_⟩
  · simp only [List.map_append, hblank.2, hTE2]
    simp
  · simp only [Tok.textList_append, Tok.textList, List.length_append, List.cons_append, List.nil_append] at hlen len2 len3 ⊢
    omega

end Tokenizer
end Hocon
