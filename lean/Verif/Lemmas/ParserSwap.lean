import Verif.Lemmas.ParserLocal

/-!
# Parsing a document in which one value is exchanged: the document
-/

set_option autoImplicit false

namespace Hocon
namespace DocParser
open PathParser (Syntax)
open Node Tokenizer

/-- A value `v` that stands behind a separator, on the line of the separator, is exchanged for `w`. -/
inductive Swap (v w : Node) : List Node → List Node → Prop
  | skip {ns ns' : List Node} (n : Node) (h : Swap v w ns ns') : Swap v w (n :: ns) (n :: ns')
  | here {fa b : List Node} {sep : Tok} {bl : List Tok} (hs : isKeyValueSeparator .conf sep = true)
      (hb : bl = [] ∨ ∃ s l, bl = [.ws s l]) :
      Swap v w (.field (fa ++ .single sep :: bl.map .single ++ [v]) :: b)
        (.field (fa ++ .single sep :: bl.map .single ++ [w]) :: b)
  | inside {fa b ocs ocs' : List Node} (h : Swap v w ocs ocs') :
      Swap v w (.field (fa ++ [.object ocs]) :: b) (.field (fa ++ [.object ocs']) :: b)

theorem Swap.plain {v w : Node} {ws ns X : List Node} (h : Swap v w (ws ++ ns) X) (hw : ∀ n ∈ ws, Plain n) :
    ∃ ns', X = ws ++ ns' ∧ Swap v w ns ns' := by
  induction ws generalizing X with
  | nil => exact ⟨X, rfl, h⟩
  | cons n ws ih =>
    obtain ⟨t, hn⟩ := hw n (by simp)
    rw [List.cons_append] at h
    cases h with
    | skip _ h =>
      obtain ⟨ns', rfl, h'⟩ := ih h (fun m hm => hw m (by simp [hm]))
      exact ⟨ns', rfl, h'⟩
    | here _ _ => rcases hn with hn | ⟨hn, _⟩ <;> cases hn
    | inside _ => rcases hn with hn | ⟨hn, _⟩ <;> cases hn

theorem Swap.nil {v w : Node} {X : List Node} (h : Swap v w [] X) : False := by cases h

/-- What follows the value of a field. -/
def Follow (TB : List Tok) : Prop :=
  ∃ w t r, TB = w ++ t :: r ∧ (w = [] ∨ ∃ s l, w = [.ws s l]) ∧
    ((∃ l, t = .newline l) ∨ (∃ d c l, t = .comment d c l) ∨ t = .comma ∨ t = .closeCurly ∨ t = .end_)

theorem follow_of {env : Env} {f : Nat} {ho : Bool} {keys : List Str} {TB : List Tok} {r : List Node × List Tok}
    (hv : VTail TB) (h : objectSep env .conf f ho keys TB = .ok r) : Follow TB := by
  obtain ⟨w, t, rs, rfl, hw, h1, h2⟩ := hv
  refine ⟨w, t, rs, rfl, hw, ?_⟩
  cases f with
  | zero => simp [objectSep] at h
  | succ f =>
    rw [objectSep, Res.bind_eq_ok] at h
    obtain ⟨⟨ns, b, ts⟩, h3, h⟩ := h
    rw [checkSep] at h3
    have h4 : ∃ ns' b' ts', sepLoop false (t :: rs) = .ok (ns', b', ts') ∧ (b' = false → ts = ts' ∧ b = false) := by
      rcases hw with rfl | ⟨s, l, rfl⟩
      · exact ⟨_, _, _, h3, fun hb => ⟨rfl, hb⟩⟩
      · simp only [List.cons_append, List.nil_append] at h3
        rw [sepLoop] at h3
        · simp only [collectNode] at h3
          rw [Res.bind_eq_ok] at h3
          obtain ⟨⟨n1, b1, t1⟩, h3, h4⟩ := h3
          simp only [Res.ok.injEq, Prod.mk.injEq] at h4
          exact ⟨_, _, _, h3, fun hb => ⟨h4.2.2.symm, by rw [← h4.2.1]; exact hb⟩⟩
        all_goals simp
    obtain ⟨ns', b', ts', h4, h5⟩ := h4
    cases t with
    | newline l => exact Or.inl ⟨l, rfl⟩
    | comment d c l => exact Or.inr (Or.inl ⟨d, c, l, rfl⟩)
    | comma => exact Or.inr (Or.inr (Or.inl rfl))
    | closeCurly => exact Or.inr (Or.inr (Or.inr (Or.inl rfl)))
    | end_ => exact Or.inr (Or.inr (Or.inr (Or.inr rfl)))
    | ws s l => exact absurd rfl (h1 s l)
    | _ =>
      first
      | (simp [startsValue] at h2; done)
      | (exfalso
         simp only [sepLoop, collectNode, Res.ok.injEq, Prod.mk.injEq] at h4
         obtain ⟨_, e1, e2⟩ := h4
         obtain ⟨e3, e4⟩ := h5 e1.symm
         subst e4
         rw [e3, ← e2] at h
         simp [nextCollect, nextToken, collectNode] at h)

/-- The tokens of a document around the exchanged value. -/
def CutAt (T R : List Tok) (TA : List Tok) (sep : Tok) (bl To TB : List Tok) : Prop :=
  T = TA ++ sep :: (bl ++ (To ++ TB)) ∧ isKeyValueSeparator .conf sep = true ∧
    (bl = [] ∨ ∃ s l, bl = [.ws s l]) ∧ EndsHard To ∧ Follow TB ∧ VTail TB ∧ ∃ TB1, TB = TB1 ++ R

theorem tokensList_single (bl : List Tok) : tokensList (bl.map .single) = bl := by
  induction bl with
  | nil => rfl
  | cons t bl ih => simp [tokensList, tokens, ih]

theorem compat_cut {env : Env} {f : Nat} {ho : Bool} {keys : List Str} {TA r0 : List Tok} {sep : Tok}
    {r : List Node × List Tok} (h : objectSep env .conf f ho keys (TA ++ sep :: r0) = .ok r)
    (hs : isKeyValueSeparator .conf sep = true) (r1 : List Tok) :
    Compat (TA ++ sep :: r0) (TA ++ sep :: r1) := by
  intro w t r' e hw ht hsv
  have hf : Follow (TA ++ sep :: r0) := follow_of ⟨w, t, r', e, hw, ht, hsv⟩ h
  have hnt : isKeyValueSeparator .conf t = false := by
    obtain ⟨w2, t2, r2, e2, hw2, h2⟩ := hf
    rw [e] at e2
    have : t = t2 := by
      rcases hw with rfl | ⟨s, l, rfl⟩ <;> rcases hw2 with rfl | ⟨s2, l2, rfl⟩
      · simp at e2; exact e2.1
      · simp at e2; exact absurd e2.1 (ht _ _)
      · simp at e2
        rw [← e2.1] at h2
        simp at h2
      · simp at e2; exact e2.2.1
    rw [this]
    rcases h2 with ⟨l, rfl⟩ | ⟨d, c, l, rfl⟩ | rfl | rfl | rfl <;> rfl
  have hne : t ≠ sep := by rintro rfl; rw [hs] at hnt; cases hnt
  have hns : ∀ s l, sep ≠ .ws s l := by rintro s l rfl; simp [isKeyValueSeparator] at hs
  rcases hw with rfl | ⟨s, l, rfl⟩
  · cases TA with
    | nil => simp at e; exact absurd e.1.symm hne
    | cons x TA => simp at e; exact ⟨TA ++ sep :: r1, by simp [e.1]⟩
  · cases TA with
    | nil => simp at e; exact absurd e.1 (hns _ _)
    | cons x TA =>
      simp at e
      cases TA with
      | nil => simp at e; exact absurd e.2.1.symm hne
      | cons y TA => simp at e; exact ⟨TA ++ sep :: r1, by simp [e.1, e.2.1]⟩

theorem parseInclude_node {pre : List Node} {toks : List Tok} {n : Node} {R : List Tok}
    (h : parseInclude pre toks = .ok (n, R)) (cs : List Node) : n ≠ .field cs := by
  rintro rfl
  unfold parseInclude at h
  rw [Res.bind_eq_ok] at h
  obtain ⟨⟨ws, t, ts⟩, h1, h⟩ := h
  simp only at h
  repeat' (split at h <;> try (simp at h; done))
  all_goals
    rw [Res.bind_eq_ok] at h
    obtain ⟨⟨ws, t, ts⟩, h1, h⟩ := h
    simp only at h
    repeat' (split at h <;> try (simp at h; done))
    rw [Res.bind_eq_ok] at h
    obtain ⟨⟨ws, t, ts⟩, h1, h⟩ := h
    simp only at h
    split at h <;> simp at h

theorem obj_cut (env : Env) (v w : Node) (f : Nat) :
    (∀ ho ac keys T ns R ns', objectLoop env .conf f ho ac keys T = .ok (ns, R) → Good env true T →
      Swap v w ns ns' → ∃ TA sep bl To TB, CutAt T R TA sep bl To TB ∧ VLen v To ∧
        ∀ t Tu, collectNode t = none → NewVal env t Tu TB w →
          ∀ g, Le (objectLoop env .conf g ho ac keys (TA ++ sep :: (bl ++ t :: (Tu ++ TB)))) (.ok (ns', R))) ∧
    (∀ ho keys T ns R ns', objectSep env .conf f ho keys T = .ok (ns, R) → Good env true T →
      Swap v w ns ns' → ∃ TA sep bl To TB, CutAt T R TA sep bl To TB ∧ VLen v To ∧
        ∀ t Tu, collectNode t = none → NewVal env t Tu TB w →
          ∀ g, Le (objectSep env .conf g ho keys (TA ++ sep :: (bl ++ t :: (Tu ++ TB)))) (.ok (ns', R))) := by
  induction f using Nat.strongRecOn with
  | ind f ih =>
  cases f with
  | zero => constructor <;> intros <;> simp_all [objectLoop, objectSep]
  | succ f =>
  have sp := spec_all env .conf true f
  constructor
  · intro ho ac keys T ns R ns' h hg hswap
    rw [objectLoop, Res.bind_eq_ok] at h
    obtain ⟨⟨ws, t, ts1⟩, h1, h⟩ := h
    obtain ⟨e1, p1, hc1⟩ := nextCollect_spec h1
    have hg1 : Good env true (t :: ts1) := by rw [e1] at hg; exact hg.suffix
    simp only at h
    split at h
    · exfalso
      rw [if_neg (by simp)] at h
      split at h
      · simp at h
      simp only [Res.ok.injEq, Prod.mk.injEq] at h
      obtain ⟨rfl, _⟩ := h
      obtain ⟨_, _, h'⟩ := Swap.plain hswap p1
      obtain ⟨_, _, h'⟩ := Swap.plain (ws := [.single .closeCurly]) (ns := []) h' (by simp [Plain])
      exact h'.nil
    · rename_i hnc
      split at h
      · exfalso
        simp only [Res.ok.injEq, Prod.mk.injEq] at h
        obtain ⟨rfl, _⟩ := h
        obtain ⟨_, _, h'⟩ := Swap.plain (ns := []) (by simpa using hswap) p1
        exact h'.nil
      · rename_i hend
        split at h
        · rename_i hinc
          rw [Res.bind_eq_ok] at h
          obtain ⟨⟨inc, ts2⟩, h2, h⟩ := h
          rw [Res.bind_eq_ok] at h
          obtain ⟨⟨n2, ts3⟩, h3, h⟩ := h
          simp only [Res.ok.injEq, Prod.mk.injEq] at h
          obtain ⟨rfl, rfl⟩ := h
          obtain ⟨X, rfl, h'⟩ := Swap.plain hswap p1
          have hni := parseInclude_node h2
          obtain ⟨U1, u1, _, u2⟩ := parseInclude_local h2
          have hg2 : Good env true ts2 := by rw [u1] at hg1; exact hg1.tail.suffix
          cases h' with
          | here _ _ => exact absurd rfl (hni _)
          | inside _ => exact absurd rfl (hni _)
          | @skip _ n2' _ h' =>
            obtain ⟨TA, sep, bl, To, TB, ⟨k1, k2, k3, k4, k5, k6, k7⟩, kl, k8⟩ :=
              (ih f (by omega)).2 _ _ _ _ _ _ h3 hg2 h'
            change ts2 = _ at k1
            refine ⟨tokensList ws ++ t :: (U1 ++ TA), sep, bl, To, TB, ⟨?_, k2, k3, k4, k5, k6, k7⟩, kl, ?_⟩
            · rw [e1, u1, k1]; simp
            · intro t' Tu g4 g5 g
              have e : tokensList ws ++ t :: (U1 ++ TA) ++ sep :: (bl ++ t' :: (Tu ++ TB))
                  = tokensList ws ++ t :: (U1 ++ (TA ++ sep :: (bl ++ t' :: (Tu ++ TB)))) := by simp
              rw [e]
              cases g with
              | zero => left; rw [objectLoop]
              | succ g =>
                rw [objectLoop, nextCollect_swap h1 hc1]
                simp only [Res.ok_bind]
                rw [if_neg hend, if_pos hinc, u2]
                simp only [Res.ok_bind]
                exact (k8 t' Tu g4 g5 g).ok_bind (.refl _)
        · rename_i hinc
          rw [Res.bind_eq_ok] at h
          obtain ⟨⟨p, fld, ts2⟩, h2, h⟩ := h
          rw [Res.bind_eq_ok] at h
          obtain ⟨keys', hk, h⟩ := h
          rw [Res.bind_eq_ok] at h
          obtain ⟨⟨n2, ts3⟩, h3, h⟩ := h
          simp only [Res.ok.injEq, Prod.mk.injEq] at h
          obtain ⟨rfl, rfl⟩ := h
          obtain ⟨X, rfl, h'⟩ := Swap.plain hswap p1
          obtain ⟨u2, hu2⟩ := (sp.field _ _ _ _ _ h2 hg1).1.suffix
          have hg2 : Good env true ts2 := by rw [hu2] at hg1; exact hg1.suffix
          obtain ⟨TB1, hTB1⟩ : ∃ u, ts2 = u ++ ts3 := (sp.sep _ _ _ _ _ h3 hg2).suffix
          -- the loop on a text with another field or tail
          have hloop : ∀ toks' ts2' fld' n2', (∀ g, Le (parseField env .conf g t toks') (.ok (p, fld', ts2'))) →
              (∀ g, Le (objectSep env .conf g ho keys' ts2') (.ok (n2', ts3))) →
              ∀ g, Le (objectLoop env .conf g ho ac keys (tokensList ws ++ t :: toks'))
                (.ok (ws ++ fld' :: n2', ts3)) := by
            intro toks' ts2' fld' n2' hf hs g
            cases g with
            | zero => left; rw [objectLoop]
            | succ g =>
              rw [objectLoop, nextCollect_swap h1 hc1]
              simp only [Res.ok_bind]
              rw [if_neg hend, if_neg hinc]
              refine (hf g).ok_bind ?_
              simp only
              rw [hk]
              simp only [Res.ok_bind]
              exact (hs g).ok_bind (.refl _)
          have hsame : ∀ g, Le (objectSep env .conf g ho keys' ts2) (.ok (n2, ts3)) :=
            fun g => ok_of_step (x := fun g => objectSep env .conf g ho keys' ts2)
              (fun f => (mono_all env .conf f).sep _ _ _) h3 g
          obtain ⟨fa, v0, Tf, To, hfld, hv0, htoks, hEH, hsep, hobj⟩ := parseField_cut h2 hg1
          have hfieq : ∀ (fx : List Node) (x : Node), Node.field (fx ++ [x]) = Node.field (fa ++ [v0]) → fa = fx ∧ v0 = x := by
            intro fx x hx
            simp only [Node.field.injEq] at hx
            have := List.append_inj' hx rfl
            exact ⟨this.1.symm, by simpa using this.2.symm⟩
          rw [hfld] at h'
          generalize hF : Node.field (fa ++ [v0]) = F at h'
          cases h' with
          | @skip _ n2' _ h' =>
            subst hF
            obtain ⟨U1, u1, u2⟩ := (local_all env f).field _ _ _ _ _ h2 hg1
            change ts1 = U1 ++ ts2 at u1
            obtain ⟨TA, sep, bl, To', TB, ⟨k1, k2, k3, k4, k5, k6, k7⟩, kl, k8⟩ :=
              (ih f (by omega)).2 _ _ _ _ _ _ h3 hg2 h'
            change ts2 = _ at k1
            refine ⟨tokensList ws ++ t :: (U1 ++ TA), sep, bl, To', TB, ⟨?_, k2, k3, k4, k5, k6, k7⟩, kl, ?_⟩
            · rw [e1, u1, k1]; simp
            · intro t' Tu g4 g5 g
              have e : tokensList ws ++ t :: (U1 ++ TA) ++ sep :: (bl ++ t' :: (Tu ++ TB))
                  = tokensList ws ++ t :: (U1 ++ (TA ++ sep :: (bl ++ t' :: (Tu ++ TB)))) := by simp
              rw [e]
              have hcomp : Compat ts2 (TA ++ sep :: (bl ++ t' :: (Tu ++ TB))) := by
                have h3' : objectSep env .conf f ho keys' ts2 = .ok (n2, ts3) := h3
                rw [k1] at h3' ⊢
                exact compat_cut h3' k2 _
              have hf : ∀ g, Le (parseField env .conf g t (U1 ++ (TA ++ sep :: (bl ++ t' :: (Tu ++ TB)))))
                  (.ok (p, .field (fa ++ [v0]), TA ++ sep :: (bl ++ t' :: (Tu ++ TB)))) := by
                intro g
                rw [← hfld]
                exact ok_of_step (x := fun g => parseField env .conf g t (U1 ++ (TA ++ sep :: (bl ++ t' :: (Tu ++ TB)))))
                  (fun f => (mono_all env .conf f).field _ _) (u2 _ hcomp) g
              exact hloop _ _ _ _ hf (k8 t' Tu g4 g5) g
          | @here fx b sep bl hs hb =>
            obtain ⟨e5, rfl⟩ := hfieq _ _ hF.symm
            obtain ⟨Tf0, g1, g2, gl, g3⟩ := hsep fx sep (bl.map .single) e5 hs
            rw [tokensList_single] at g1
            refine ⟨tokensList ws ++ t :: Tf0, sep, bl, To, ts2, ⟨?_, hs, hb, hEH, follow_of g2 h3, g2, TB1, hTB1⟩, gl, ?_⟩
            · rw [e1, htoks, g1]; simp
            · intro t' Tu g4 g5 g
              have := hloop (Tf ++ t' :: (Tu ++ ts2)) ts2 _ n2 (g3 t' Tu w g4 g5) hsame g
              rw [e5] at this
              rw [g1] at this
              simpa using this
          | @inside fx b ocs ocs' hin =>
            obtain ⟨e5, rfl⟩ := hfieq _ _ hF.symm
            obtain ⟨To', f', os, g1, g2, gf, g3, g4⟩ := hobj ocs rfl
            subst e5 g2
            have hgi : Good env true (To' ++ ts2) := by
              rw [htoks, g1] at hg1
              have e : t :: (Tf ++ (.openCurly :: To' ++ ts2)) = (t :: Tf ++ [.openCurly]) ++ (To' ++ ts2) := by simp
              rw [e] at hg1
              exact hg1.suffix
            cases hin with
            | @skip _ os' _ hin =>
              obtain ⟨TA, sep, bl, Toi, TBi, ⟨k1, k2, k3, k4, k5, k6, TBx, k7⟩, kl, k8⟩ :=
                (ih f' (by omega)).1 _ _ _ _ _ _ _ g3 hgi hin
              refine ⟨tokensList ws ++ t :: (Tf ++ .openCurly :: TA), sep, bl, Toi, TBi,
                ⟨?_, k2, k3, k4, k5, k6, TBx ++ TB1, by rw [k7, hTB1]; simp⟩, kl, ?_⟩
              · rw [e1, htoks, g1, List.cons_append, k1]; simp
              · intro t' Tu g5 g6 g
                have hi : ∀ g, Le (objectLoop env .conf g true false []
                    ((TA ++ sep :: (bl ++ t' :: (Tu ++ TBx))) ++ ts2)) (.ok (os', ts2)) := by
                  intro g
                  have := k8 t' Tu g5 g6 g
                  rw [k7] at this
                  simpa using this
                have := hloop _ ts2 _ n2 (g4 _ os' hi) hsame g
                rw [k7]
                simpa using this
  · intro ho keys T ns R ns' h hg hswap
    rw [objectSep, Res.bind_eq_ok] at h
    obtain ⟨⟨ws, sep0, ts1⟩, h1, h⟩ := h
    rw [checkSep] at h1
    obtain ⟨e1, p1⟩ := sepLoop_spec h1
    have hg1 : Good env true ts1 := by rw [e1] at hg; exact hg.suffix
    simp only at h
    split at h
    · rename_i hb
      rw [Res.bind_eq_ok] at h
      obtain ⟨⟨n2, ts3⟩, h3, h⟩ := h
      simp only [Res.ok.injEq, Prod.mk.injEq] at h
      obtain ⟨rfl, rfl⟩ := h
      obtain ⟨X, rfl, h'⟩ := Swap.plain hswap p1
      obtain ⟨TA, sep, bl, To, TB, ⟨k1, k2, k3, k4, k5, k6, k7⟩, kl, k8⟩ :=
        (ih f (by omega)).1 _ _ _ _ _ _ _ h3 hg1 h'
      change ts1 = _ at k1
      refine ⟨tokensList ws ++ TA, sep, bl, To, TB, ⟨?_, k2, k3, k4, k5, k6, k7⟩, kl, ?_⟩
      · rw [e1, k1]; simp
      · intro t' Tu g4 g5 g
        cases g with
        | zero => left; rw [objectSep]
        | succ g =>
          rw [List.append_assoc, objectSep, checkSep]
          rw [sepLoop_swap h1 (TA ++ sep :: (bl ++ t' :: (Tu ++ TB)))
            (by
              intro x r hx
              rw [k1] at hx
              cases TA with
              | nil => simp at hx; exact ⟨bl ++ t' :: (Tu ++ TB), by simp [hx.1]⟩
              | cons y TA => simp at hx; exact ⟨TA ++ sep :: (bl ++ t' :: (Tu ++ TB)), by simp [hx.1]⟩)]
          simp only [Res.ok_bind]
          rw [if_pos hb]
          exact (k8 t' Tu g4 g5 g).ok_bind (.refl _)
    · rename_i hb
      exfalso
      rw [Res.bind_eq_ok] at h
      obtain ⟨⟨ws2, t, ts2⟩, h2, h⟩ := h
      obtain ⟨e2, p2, c2⟩ := nextCollect_spec h2
      simp only at h
      split at h
      · split at h
        · simp only [Res.ok.injEq, Prod.mk.injEq] at h
          obtain ⟨rfl, _⟩ := h
          rw [List.append_assoc] at hswap
          obtain ⟨_, _, h'⟩ := Swap.plain hswap p1
          obtain ⟨_, _, h'⟩ := Swap.plain h' p2
          obtain ⟨_, _, h'⟩ := Swap.plain (ws := [.single .closeCurly]) (ns := []) h' (by simp [Plain])
          exact h'.nil
        · simp at h
      · split at h
        · simp at h
        · simp only [Res.ok.injEq, Prod.mk.injEq] at h
          obtain ⟨rfl, _⟩ := h
          obtain ⟨_, _, h'⟩ := Swap.plain hswap p1
          obtain ⟨_, _, h'⟩ := Swap.plain (ns := []) (by simpa using h') p2
          exact h'.nil
      · simp at h

end DocParser
end Hocon
