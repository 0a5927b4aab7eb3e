import Verif.Lemmas.ParserLine
import Verif.Lemmas.ParserSingle
import Verif.Lemmas.LexRun
import Verif.Lemmas.DocReplace

/-!
# Parsing the text of a document in which one value was exchanged
-/

set_option autoImplicit false

namespace Hocon
namespace DocParser
open PathParser (Syntax)
open Node Tokenizer DocEdit

theorem Swap.behind {v w : Node} {ns ws X : List Node} (h : Swap v w (ns ++ ws) X) (hw : ∀ n ∈ ws, Plain n) :
    ∃ ns', X = ns' ++ ws ∧ Swap v w ns ns' := by
  induction ns generalizing X with
  | nil =>
    obtain ⟨_, _, h'⟩ := Swap.plain (ns := []) (by simpa using h) hw
    exact h'.nil.elim
  | cons n ns ih =>
    rw [List.cons_append] at h
    cases h with
    | skip _ h =>
      obtain ⟨ns', rfl, h'⟩ := ih h
      exact ⟨n :: ns', rfl, h'.skip n⟩
    | here hs hb => exact ⟨_ :: ns, rfl, .here hs hb⟩
    | inside h => exact ⟨_ :: ns, rfl, .inside h⟩

/-- The lengths of the texts. -/
theorem Swap.len {v w : Node} {ns ns' : List Node} (h : Swap v w ns ns') :
    (renderList ns').length + v.render.length = (renderList ns).length + w.render.length := by
  induction h with
  | skip n h ih =>
    simp only [renderList, tokensList, Tok.textList_append, List.length_append] at ih ⊢
    omega
  | here hs hb =>
    simp only [renderList, Node.render, tokensList_append, tokensList, Node.tokens, Tok.textList_append, List.length_append,
      Tok.textList]
    omega
  | inside h ih =>
    simp only [renderList, tokensList_append, tokensList, Node.tokens, Tok.textList_append, List.length_append,
      Tok.textList] at ih ⊢
    omega

theorem findObject_plain {ws : List Node} (hw : ∀ n ∈ ws, Plain n) (n : Node) (b : List Node) :
    findObject (ws ++ n :: b) = (findObject (n :: b)) >>= fun x => .ok (ws ++ x.1, x.2.1, x.2.2) := by
  induction ws with
  | nil =>
    rw [List.nil_append]
    cases findObject (n :: b) <;> rfl
  | cons m ws ih =>
    rw [List.cons_append, findObject.eq_def]
    obtain ⟨t, hm | ⟨hm, _⟩⟩ := hw m (by simp)
    all_goals
      subst hm
      simp only
      rw [ih fun x hx => hw x (by simp [hx])]
      cases findObject (n :: b) <;> simp

theorem findObject_none {ws : List Node} (hw : ∀ n ∈ ws, Plain n) : findObject ws = .err .config := by
  induction ws with
  | nil => rfl
  | cons m ws ih =>
    rw [findObject.eq_def]
    obtain ⟨t, hm | ⟨hm, _⟩⟩ := hw m (by simp)
    all_goals
      subst hm
      simp only
      rw [ih fun x hx => hw x (by simp [hx])]
      simp

theorem parseArray_node {env : Env} {f : Nat} {toks : List Tok} {n : Node} {R : List Tok}
    (h : parseArray env .conf f toks = .ok (n, R)) : ∃ cs, n = .array cs := by
  cases f with
  | zero => simp [parseArray] at h
  | succ f =>
    rw [parseArray, Res.bind_eq_ok] at h
    obtain ⟨⟨ws, v, r⟩, _, h⟩ := h
    cases v with
    | some v =>
      simp only at h
      rw [Res.bind_eq_ok] at h
      obtain ⟨_, _, h⟩ := h
      simp only [Res.ok.injEq, Prod.mk.injEq] at h
      exact ⟨_, h.1.symm⟩
    | none =>
      simp only at h
      rw [Res.bind_eq_ok] at h
      obtain ⟨⟨ws2, t, r2⟩, _, h⟩ := h
      simp only at h
      split at h
      · simp only [Res.ok.injEq, Prod.mk.injEq] at h
        exact ⟨_, h.1.symm⟩
      · split at h
        · rw [Res.bind_eq_ok] at h
          obtain ⟨_, _, h⟩ := h
          rw [Res.bind_eq_ok] at h
          obtain ⟨_, _, h⟩ := h
          simp only [Res.ok.injEq, Prod.mk.injEq] at h
          exact ⟨_, h.1.symm⟩
        · simp at h

/-- The tokens of a document, cut at the exchanged value. -/
theorem parse_swap {env : Env} {T : List Tok} {root a cs b cs' : List Node} {v w : Node}
    (h : parse env .conf (.start :: T) = .ok root) (hg : Good env true T) (hf : findObject root = .ok (a, cs, b))
    (hs : Swap v w cs cs') :
    ∃ TA sep bl To TB, T = TA ++ sep :: (bl ++ (To ++ TB)) ∧ isKeyValueSeparator .conf sep = true ∧
      (bl = [] ∨ ∃ s l, bl = [.ws s l]) ∧ EndsHard To ∧ Follow TB ∧ VTail TB ∧ VLen v To ∧
      ∀ t Tu, collectNode t = none → NewVal env t Tu TB w →
        Le (parse env .conf (.start :: (TA ++ sep :: (bl ++ t :: (Tu ++ TB))))) (.ok (a ++ .object cs' :: b)) := by
  rw [parse] at h
  simp only [nextToken, Res.ok_bind] at h
  rw [Res.bind_eq_ok] at h
  obtain ⟨⟨ws, t0, T2⟩, h1, h⟩ := h
  obtain ⟨e1, p1, hc1⟩ := nextCollect_spec h1
  have hg1 : Good env true (t0 :: T2) := by rw [e1] at hg; exact hg.suffix
  simp only at h
  generalize hF : fuelFor (.start :: T) = F at h
  split at h
  · -- an object with braces
    rw [Res.bind_eq_ok] at h
    obtain ⟨⟨n, R⟩, h2, h⟩ := h
    obtain ⟨wse, rest, h3, h4⟩ := parseEnd_ok h
    obtain ⟨e3, p3, _⟩ := nextCollect_spec h3
    cases F with
    | zero => simp [fuelFor] at hF
    | succ F =>
      rw [parseValue] at h2
      simp only at h2
      rw [Res.bind_eq_ok] at h2
      obtain ⟨⟨ns, R'⟩, h2, h5⟩ := h2
      simp only [Res.ok.injEq, Prod.mk.injEq] at h5
      obtain ⟨rfl, rfl⟩ := h5
      simp only [Bool.false_eq_true, if_false] at h4
      rw [h4, List.append_assoc, List.singleton_append, findObject_plain p1] at hf
      simp only [findObject, Res.ok_bind, Res.ok.injEq, Prod.mk.injEq, List.append_nil] at hf
      obtain ⟨rfl, rfl, rfl⟩ := hf
      obtain ⟨ns', rfl, hs'⟩ := Swap.plain (ws := [.single .openCurly]) hs (by simp [Plain])
      obtain ⟨TA, sep, bl, To, TB, ⟨k1, k2, k3, k4, k5, k6, k7⟩, kl, k8⟩ :=
        (obj_cut env v w F).1 _ _ _ _ _ _ _ h2 hg1.tail hs'
      change T2 = _ at k1
      refine ⟨tokensList ws ++ .openCurly :: TA, sep, bl, To, TB, ?_, k2, k3, k4, k5, k6, kl, ?_⟩
      · rw [e1, k1]; simp
      · intro t Tu g1 g2
        have e : tokensList ws ++ .openCurly :: TA ++ sep :: (bl ++ t :: (Tu ++ TB))
            = tokensList ws ++ .openCurly :: (TA ++ sep :: (bl ++ t :: (Tu ++ TB))) := by simp
        rw [e, parse]
        simp only [nextToken, Res.ok_bind]
        rw [nextCollect_swap h1 (by rfl)]
        simp only [Res.ok_bind]
        generalize fuelFor _ = G
        cases G with
        | zero => left; rw [parseValue]; rfl
        | succ G =>
          rw [parseValue]
          simp only
          refine Le.ok_bind (x := (.object (.single .openCurly :: ns'), R')) ((k8 t Tu g1 g2 G).ok_bind (.refl _)) ?_
          simp only [parseEnd, h3, Res.ok_bind, Bool.false_eq_true, if_false]
          right
          simp
  · -- an array
    exfalso
    rw [Res.bind_eq_ok] at h
    obtain ⟨⟨n, R⟩, h2, h⟩ := h
    obtain ⟨wse, rest, h3, h4⟩ := parseEnd_ok h
    cases F with
    | zero => simp [fuelFor] at hF
    | succ F =>
      rw [parseValue] at h2
      obtain ⟨xs, rfl⟩ := parseArray_node h2
      simp only [Bool.false_eq_true, if_false] at h4
      rw [h4, List.append_assoc, List.singleton_append, findObject_plain p1] at hf
      simp [findObject] at hf
  · -- without braces
    rename_i hn1 hn2
    rw [Res.bind_eq_ok] at h
    obtain ⟨⟨ns, R⟩, h2, h⟩ := h
    obtain ⟨wse, rest, h3, h4⟩ := parseEnd_ok h
    obtain ⟨e3, p3, _⟩ := nextCollect_spec h3
    simp only [if_true] at h4
    rw [h4] at hf
    simp only [findObject, Res.ok.injEq, Prod.mk.injEq] at hf
    obtain ⟨rfl, rfl, rfl⟩ := hf
    rw [List.append_assoc] at hs
    obtain ⟨X, rfl, hs1⟩ := Swap.plain hs p1
    obtain ⟨ns', rfl, hs2⟩ := Swap.behind hs1 p3
    obtain ⟨TA, sep, bl, To, TB, ⟨k1, k2, k3, k4, k5, k6, k7⟩, kl, k8⟩ :=
      (obj_cut env v w F).1 _ _ _ _ _ _ _ h2 hg1 hs2
    refine ⟨tokensList ws ++ TA, sep, bl, To, TB, ?_, k2, k3, k4, k5, k6, kl, ?_⟩
    · rw [e1, k1]; simp
    · intro t Tu g1 g2
      obtain ⟨Y, hY⟩ : ∃ Y, TA ++ sep :: (bl ++ t :: (Tu ++ TB)) = t0 :: Y := by
        cases TA with
        | nil => simp at k1; exact ⟨_, by rw [List.nil_append, k1.1]⟩
        | cons x TA => simp at k1; exact ⟨_, by rw [List.cons_append, k1.1]⟩
      have hk := k8 t Tu g1 g2
      rw [List.append_assoc, hY, parse]
      rw [hY] at hk
      simp only [nextToken, Res.ok_bind]
      rw [nextCollect_swap h1 hc1]
      simp only [Res.ok_bind]
      generalize fuelFor _ = G
      cases t0 with
      | openCurly => exact absurd rfl hn1
      | openSquare => exact absurd rfl hn2
      | _ =>
        refine (hk G).ok_bind ?_
        simp only [parseEnd, h3, Res.ok_bind, if_true]
        right
        simp

end DocParser

namespace Tokenizer
open DocParser

theorem follow_stop {env : Env} {sv : Saver} {B : Str} {l : Nat} {TB : List Tok} (hsv : sv.ws = [])
    (hl : lexAll env sv B l = .ok TB)
    (hf : Follow TB) (hw : ∀ t ∈ TB, WfTok env true t) (ht : Tok.textList TB = B) : StopHead B := by
  obtain ⟨w, t, r, rfl, hw1, ht1⟩ := hf
  rcases hw1 with rfl | ⟨s, k, rfl⟩
  · rcases ht1 with ⟨k, rfl⟩ | ⟨d, c, k, rfl⟩ | rfl | rfl | rfl
    · right; exact ⟨'\n', _, by rw [← ht]; rfl, Or.inl (by decide)⟩
    · cases d
      · right; exact ⟨'#', _, by rw [← ht]; rfl, by simp⟩
      · right; exact ⟨'/', _, by rw [← ht]; rfl, Or.inr (Or.inr (Or.inr (Or.inr ⟨rfl, _, rfl⟩)))⟩
    · right; exact ⟨',', _, by rw [← ht]; rfl, by simp⟩
    · right; exact ⟨'}', _, by rw [← ht]; rfl, by simp⟩
    · left
      have hx := tokenLoop_lexed hl
      obtain ⟨mid, h1, h2⟩ := hx.shape
      have : [] ++ Tok.end_ :: r = [.end_] := by
        cases mid with
        | nil => exact h1
        | cons m mid =>
          simp at h1
          exact absurd h1.1.symm (h2 m (by simp)).2
      have h3 := hx.just_end this
      rw [hsv] at h3
      simpa using h3
  · obtain ⟨h1, h2⟩ := hw (.ws s k) (by simp)
    cases s with
    | nil => exact absurd rfl h1
    | cons c s =>
      right
      refine ⟨c, _, by rw [← ht]; rfl, Or.inl ?_⟩
      have := h2 c (by simp)
      simp only [isWhitespaceNotNewline, Bool.and_eq_true] at this
      exact this.2

theorem follow_unline {TB TB2 : List Tok} (hf : Follow TB) (h : TB2.map Tok.unline = TB.map Tok.unline) :
    Follow TB2 := by
  obtain ⟨w, t, r, rfl, hw1, ht1⟩ := hf
  have key : ∀ t2 : Tok, t2.unline = t.unline →
      ((∃ l, t2 = .newline l) ∨ (∃ d c l, t2 = .comment d c l) ∨ t2 = .comma ∨ t2 = .closeCurly ∨ t2 = .end_) := by
    intro t2 h2
    rcases ht1 with ⟨k, rfl⟩ | ⟨d, c, k, rfl⟩ | rfl | rfl | rfl <;> cases t2 <;> simp_all [Tok.unline]
  rcases hw1 with rfl | ⟨s, k, rfl⟩
  · cases TB2 with
    | nil => simp at h
    | cons t2 r2 =>
      simp only [List.map_cons, List.nil_append, List.cons.injEq] at h
      exact ⟨[], t2, r2, rfl, Or.inl rfl, key t2 h.1⟩
  · cases TB2 with
    | nil => simp at h
    | cons x r2 =>
      simp only [List.map_cons, List.cons_append, List.nil_append, List.cons.injEq] at h
      cases r2 with
      | nil => simp at h
      | cons t2 r2 =>
        simp only [List.map_cons, List.cons.injEq] at h
        cases x <;> simp [Tok.unline] at h
        exact ⟨[_], t2, r2, rfl, Or.inr ⟨_, _, rfl⟩, key t2 h.2.1⟩

theorem follow_head {TB : List Tok} (hf : Follow TB) : TB ≠ [] ∧ ∀ t r, TB = t :: r → t.isSimple = false := by
  obtain ⟨w, t, r, rfl, hw1, ht1⟩ := hf
  refine ⟨by simp, fun t2 r2 h => ?_⟩
  rcases hw1 with rfl | ⟨s, k, rfl⟩
  · simp at h
    rw [← h.1]
    rcases ht1 with ⟨k, rfl⟩ | ⟨d, c, k, rfl⟩ | rfl | rfl | rfl <;> rfl
  · simp at h
    rw [← h.1]
    rfl

/-- The tokens of a text in which the text of a value is exchanged. -/
theorem lex_swap {env : Env} {s u : Str} {TA bl To TB Tu : List Tok} {sep t : Tok}
    (hs : lexAll env ⟨[], false⟩ s 1 = .ok (TA ++ sep :: (bl ++ (To ++ TB))))
    (ht : Tok.textList (TA ++ sep :: (bl ++ (To ++ TB))) = s)
    (hw : ∀ t ∈ TA ++ sep :: (bl ++ (To ++ TB)), WfTok env true t)
    (hsep : isKeyValueSeparator .conf sep = true) (hbl : bl = [] ∨ ∃ s l, bl = [.ws s l]) (hTo : EndsHard To)
    (hTB : Follow TB)
    (hu : lexAll env ⟨[], false⟩ u 1 = .ok (t :: Tu ++ [.end_])) (hl : u.getLast? ≠ some '/')
    (htu : EndsHard (t :: Tu)) (ht0 : ∀ x k, t ≠ .ws x k) :
    ∃ s' T', lexAll env ⟨[], false⟩ s' 1 = .ok T' ∧
      T'.map Tok.unline = (TA ++ sep :: (bl ++ t :: (Tu ++ TB))).map Tok.unline ∧
      s'.length + (Tok.textList To).length = s.length + u.length := by
  have hss : sep.isSimple = false ∧ (∀ x k, sep ≠ .ws x k) ∧ ¬ ∃ x k, sep = .unquoted x k := by
    cases sep <;> simp [isKeyValueSeparator] at hsep <;> simp [Tok.isSimple]
  -- the text in pieces
  have e1 : TA ++ sep :: (bl ++ (To ++ TB)) = (TA ++ [sep]) ++ (bl ++ (To ++ TB)) := by simp
  rw [e1] at hs
  obtain ⟨sv1, r1, l1, run1, lex1⟩ := lexAll_split s.length (Nat.le_refl _) hs (by simp [(follow_head hTB).1]) (by
    intro a p hp
    obtain ⟨_, rfl⟩ : TA = a ∧ sep = p := by
      have := List.append_inj' hp rfl
      exact ⟨this.1, by simpa using this.2⟩
    exact ⟨hss.2.1, fun h => absurd h hss.2.2⟩)
  obtain rfl := run1.saver rfl
  rw [hss.1] at run1 lex1
  obtain ⟨ToA, p, rfl, hp⟩ := hTo
  have e2 : bl ++ (ToA ++ [p] ++ TB) = (bl ++ ToA ++ [p]) ++ TB := by simp
  rw [e2] at lex1
  obtain ⟨sv2, B, l2, run2, lex2⟩ := lexAll_split r1.length (Nat.le_refl _) lex1 (follow_head hTB).1 (by
    intro a q hq
    obtain ⟨_, rfl⟩ : bl ++ ToA = a ∧ p = q := by
      have := List.append_inj' hq rfl
      exact ⟨this.1, by simpa using this.2⟩
    exact ⟨hp.1, fun _ => (follow_head hTB).2⟩)
  obtain rfl := run2.saver rfl
  obtain ⟨x1, rfl, sub1, _⟩ := run1.rest
  obtain ⟨x2, rfl, sub2, _⟩ := run2.rest
  have sub3 := (tokenLoop_lexed lex2).text_sub
  simp only [List.nil_append] at sub1 sub2 sub3
  -- the texts of the pieces
  have hlen : (Tok.textList (TA ++ [sep])).length + (Tok.textList (bl ++ ToA ++ [p])).length + (Tok.textList TB).length
      = x1.length + x2.length + B.length := by
    have := congrArg List.length ht
    simp only [Tok.textList_append, Tok.textList, List.length_append, List.length_nil] at this ⊢
    omega
  have l3 := sub1.length_le
  have l4 := sub2.length_le
  have l5 := sub3.length_le
  have tx2 := sub2.eq_of_length (by omega)
  have tx3 := sub3.eq_of_length (by omega)
  have stop : StopHead B := follow_stop rfl lex2 hTB (fun t ht => hw t (by simp [ht])) tx3
  -- the new value
  obtain ⟨svu, ru, lu, runu, lexu⟩ := lexAll_split u.length (Nat.le_refl _) hu (by simp) (by
    intro a q hq
    obtain ⟨a', q', h1, h2⟩ := htu
    have : q' = q := by
      rw [h1] at hq
      have := List.append_inj' hq rfl
      simpa using this.2
    subst this
    refine ⟨h2.1, fun _ t r h => ?_⟩
    simp at h
    rw [← h.1]; rfl)
  have hru := (tokenLoop_lexed lexu).just_end rfl
  obtain ⟨a', q, htu1, htu2⟩ := htu
  obtain rfl := runu.saver htu1
  simp only [List.nil_append] at hru
  subst hru
  have runu2 := runu.before rfl stop hl htu1 htu2
  obtain ⟨T2, l3', runu3, hT2⟩ := runu2.line l1
  cases T2 with
  | nil => simp at hT2
  | cons t2 Tu2 =>
    simp only [List.map_cons, List.cons.injEq] at hT2
    have ht2 : ∀ x k, t2 ≠ .ws x k := by
      rintro x k rfl
      cases t <;> simp [Tok.unline] at hT2
      exact ht0 _ _ rfl
    have hblank : AllBlank (Tok.textList bl) ∧ ∀ k, (if Tok.textList bl = [] then [] else
        [Tok.ws (Tok.textList bl) k]).map Tok.unline = bl.map Tok.unline := by
      rcases hbl with rfl | ⟨x, k, rfl⟩
      · exact ⟨by simp [Tok.textList, AllBlank], fun k => by simp [Tok.textList]⟩
      · obtain ⟨h1, h2⟩ := hw (.ws x k) (by simp)
        simp only [Tok.textList, Tok.text, List.append_nil]
        exact ⟨h2, fun k => by rw [if_neg h1]; rfl⟩
    obtain ⟨k, runu4⟩ := runu3.blank ht2 hblank.1
    obtain ⟨TB2, lexB, hTB2⟩ := lexAll_line B.length (Nat.le_refl _) lex2 l3'
    have lexB2 := lexAll_flag lexB (follow_unline hTB hTB2) q.isSimple
    have run1' := (run1.append rfl rfl rfl hsep).1 (Tok.textList bl ++ (u ++ B))
    have hall := (run1'.trans runu4).lexAll
    rw [lexB2, Res.ok_bind] at hall
    refine ⟨_, _, hall, ?_, ?_⟩
    · simp only [List.map_append, List.map_cons, hblank.2, hTB2, hT2, List.map_nil]
      simp
    · have := congrArg List.length tx2
      simp only [Tok.textList_append, List.length_append] at this ⊢
      omega

end Tokenizer
end Hocon
