import Verif.Lemmas.ParserSwap

/-!
# A value that parses on its own is read in a document
-/

set_option autoImplicit false

namespace Hocon
namespace DocParser
open PathParser (Syntax)
open Node Tokenizer

/-- `consolidate_values` goes on behind the values it has read. -/
theorem consLoop_more {env : Env} {f : Nat} {t : Tok} {T : List Tok} {vs : List Node} {t' : Tok} {r : List Tok}
    (h : consLoop env .conf f t T = .ok (vs, t', r)) (hg : Good env true (t :: T)) :
    ∃ U, t :: T = U ++ t' :: r ∧ ∀ y Y vs2 t2 r2, (∀ g, Le (consLoop env .conf g y Y) (.ok (vs2, t2, r2))) →
      ∀ x X, U ++ y :: Y = x :: X → ∀ g, Le (consLoop env .conf g x X) (.ok (vs ++ vs2, t2, r2)) := by
  induction f generalizing t T vs with
  | zero => simp [consLoop] at h
  | succ f ih =>
    rw [consLoop.eq_def] at h
    simp only at h
    split at h
    · rename_i s l
      rw [Res.bind_eq_ok] at h
      obtain ⟨⟨t1, ts1⟩, h1, h⟩ := h
      rw [Res.bind_eq_ok] at h
      obtain ⟨⟨vs2, t2, ts2⟩, h2, h⟩ := h
      simp only [Res.ok.injEq, Prod.mk.injEq] at h
      obtain ⟨rfl, rfl, rfl⟩ := h
      have e := nextToken_conf h1
      subst e
      obtain ⟨U, g1, g2⟩ := ih h2 hg.tail
      refine ⟨.ws s l :: U, by rw [List.cons_append, ← g1], ?_⟩
      intro y Y vs3 t3 r3 hy x X hx g
      simp only [List.cons_append, List.cons.injEq] at hx
      obtain ⟨rfl, rfl⟩ := hx
      cases g with
      | zero => left; rw [consLoop]
      | succ g =>
        cases hU : U ++ y :: Y with
        | nil => simp at hU
        | cons z Z =>
          rw [consLoop]
          simp only [nextToken, Res.ok_bind]
          exact (g2 y Y vs3 t3 r3 hy z Z hU g).ok_bind (.refl _)
    · rename_i hnw
      split at h
      · rename_i hsv
        rw [Res.bind_eq_ok] at h
        obtain ⟨⟨v, ts0⟩, h0, h⟩ := h
        rw [Res.bind_eq_ok] at h
        obtain ⟨⟨t1, ts1⟩, h1, h⟩ := h
        rw [Res.bind_eq_ok] at h
        obtain ⟨⟨vs2, t2, ts2⟩, h2, h⟩ := h
        simp only [Res.ok.injEq, Prod.mk.injEq] at h
        obtain ⟨rfl, rfl, rfl⟩ := h
        have e := nextToken_conf h1
        subst e
        obtain ⟨U0, k1, k2, k3⟩ := (local_all env f).value _ _ _ _ h0 hg
        have hg1 : Good env true (t1 :: ts1) := by
          rw [k1] at hg; exact hg.tail.suffix
        obtain ⟨U, g1, g2⟩ := ih h2 hg1
        refine ⟨t :: (U0 ++ U), by rw [k1, g1]; simp, ?_⟩
        intro y Y vs3 t3 r3 hy x X hx g
        simp only [List.cons_append, List.cons.injEq, List.append_assoc] at hx
        obtain ⟨rfl, rfl⟩ := hx
        cases g with
        | zero => left; rw [consLoop]
        | succ g =>
          cases hU : U ++ y :: Y with
          | nil => simp at hU
          | cons z Z =>
            rw [consLoop.eq_def]
            simp only
            rw [if_pos hsv]
            have hv : Le (parseValue env .conf g t (U0 ++ z :: Z)) (.ok (v, z :: Z)) :=
              ok_of_step (x := fun g => parseValue env .conf g t (U0 ++ z :: Z))
                (fun f => (mono_all env .conf f).value _ _) (k3 (z :: Z)) g
            refine hv.ok_bind ?_
            simp only [nextToken, Res.ok_bind]
            exact (g2 y Y vs3 t3 r3 hy z Z hU g).ok_bind (.refl _)
      · rename_i hsv
        simp only [Res.ok.injEq, Prod.mk.injEq] at h
        obtain ⟨rfl, rfl, rfl⟩ := h
        refine ⟨[], rfl, ?_⟩
        intro y Y vs3 t3 r3 hy x X hx g
        simp only [List.nil_append, List.cons.injEq] at hx
        obtain ⟨rfl, rfl⟩ := hx
        simpa using hy g

theorem consLoop_stop (env : Env) {t : Tok} (r : List Tok) (f : Nat) (h1 : ∀ s l, t ≠ .ws s l)
    (h2 : startsValue t = false) : consLoop env .conf (f + 1) t r = .ok ([], t, r) := by
  rw [consLoop.eq_def]
  simp only
  split
  · rename_i h; rw [h2] at h; cases h
  · rfl

theorem ValsH.cons_inv {a c : List Tok} {all vs : List Node} {v : Node} (h : ValsH a all c) (he : all = v :: vs)
    (hv : v.isValue = true) : v.singleToken? = none ∧ ∃ b, ValsH b vs c := by
  cases h with
  | nil => cases he
  | ws hV =>
    simp only [List.cons.injEq] at he
    obtain ⟨rfl, rfl⟩ := he
    simp [Node.isValue] at hv
  | val _ hs _ hV =>
    simp only [List.cons.injEq] at he
    obtain ⟨rfl, rfl⟩ := he
    exact ⟨hs, _, hV⟩

theorem dropTrailing_none {n : Node} {R : List Node} (h : dropTrailing (n :: R) [] = (n :: R, [])) :
    n.singleToken? = none := by
  rw [dropTrailing] at h
  cases hn : n.singleToken? with
  | none => rfl
  | some tk =>
    rw [hn] at h
    simp only at h
    obtain ⟨r2, W2, hs2⟩ := dropTrailing_shape R
    rw [hs2] at h
    simp at h

/-- The tokens of a text that `parse_single_value` accepts are the tokens of a value, in front of anything that can
follow a value. -/
theorem single_new {env : Env} {T : List Tok} {w : Node} (h : parseSingleValue env .conf (.start :: T) = .ok (some w))
    (hg : Good env true T) :
    ∃ t Tu r, T = t :: Tu ++ .end_ :: r ∧ collectNode t = none ∧ startsValue t = true ∧ EndsHard (t :: Tu) ∧
      ∀ R, VTail R → NewVal env t Tu R w := by
  unfold parseSingleValue at h
  simp only [nextToken, Res.ok_bind] at h
  rw [Res.bind_eq_ok] at h
  obtain ⟨⟨t, T1⟩, h1, h⟩ := h
  have e := nextToken_conf h1
  subst e
  simp only at h
  split at h
  · simp at h
  rename_i hcn
  have hcn : collectNode t = none := by
    cases hc : collectNode t with
    | none => rfl
    | some n => rw [hc] at hcn; exact absurd rfl hcn
  split at h
  · simp at h
  rw [Res.bind_eq_ok] at h
  obtain ⟨⟨ns, v, T2⟩, h2, h⟩ := h
  simp only at h
  rw [Res.bind_eq_ok] at h
  obtain ⟨⟨t', T3⟩, h3, h⟩ := h
  have e3 := nextToken_conf h3
  simp only at e3 h
  subst e3
  split at h
  rotate_left
  · simp at h
  simp only [Res.ok.injEq] at h
  subst h
  cases hf : fuelFor (.start :: t :: T1) with
  | zero => rw [hf] at h2; simp [consolidate] at h2
  | succ f =>
  rw [hf, consolidate] at h2
  simp only [nextCollect, nextToken, Res.ok_bind, hcn] at h2
  rw [Res.bind_eq_ok] at h2
  obtain ⟨⟨vs, t4, T4⟩, h4, h2⟩ := h2
  simp only [Res.ok.injEq, Prod.mk.injEq, List.nil_append] at h2
  obtain ⟨e5, e6, e7⟩ := h2
  obtain ⟨k1, k2, k3⟩ := consLoop_hard h4 hg
  obtain ⟨U, u1, u2⟩ := consLoop_more h4 hg
  obtain ⟨x, U1, hx, hx2, hU1, hfin⟩ := consFinish_local k1 hg.adj
    (pre := (consFinish vs t4 T4).1) (v := (consFinish vs t4 T4).2.1) (R := (consFinish vs t4 T4).2.2) rfl
  rw [e7] at hx2 hU1
  have hx0 : x = [] ∧ t4 = .end_ ∧ T4 = T3 := by
    rcases hx with rfl | ⟨s, l, rfl⟩
    · simp at hx2
      exact ⟨rfl, hx2.1.symm, hx2.2.symm⟩
    · simp at hx2
  obtain ⟨rfl, rfl, rfl⟩ := hx0
  have hsv : startsValue t = true := by
    rcases Bool.eq_false_or_eq_true (startsValue t) with hs | hs
    · exact hs
    · exfalso
      cases f with
      | zero => simp [consLoop] at h4
      | succ f =>
        have hl2 : consLoop env .conf (f + 1) t T1 = .ok ([], t, T1) := by
          refine consLoop_stop env T1 f ?_ hs
          rintro s l rfl
          simp [collectNode] at hcn
        rw [hl2] at h4
        simp only [Res.ok.injEq, Prod.mk.injEq] at h4
        obtain ⟨rfl, rfl, rfl⟩ := h4
        simp [consFinish, splitSingle] at e6
  have hvs : ∃ v1 vs1, vs = v1 :: vs1 ∧ v1.isValue = true := by
    cases f with
    | zero => simp [consLoop] at h4
    | succ f =>
      rw [consLoop.eq_def] at h4
      simp only at h4
      split at h4
      · simp [startsValue] at hsv
      rw [if_pos hsv, Res.bind_eq_ok] at h4
      obtain ⟨⟨v1, ts0⟩, m0, h4⟩ := h4
      rw [Res.bind_eq_ok] at h4
      obtain ⟨⟨t1, ts1⟩, m1, h4⟩ := h4
      rw [Res.bind_eq_ok] at h4
      obtain ⟨⟨vs2, t2, ts2⟩, m2, h4⟩ := h4
      simp only [Res.ok.injEq, Prod.mk.injEq] at h4
      exact ⟨v1, vs2, h4.1.symm, (value_hard m0 hg).1⟩
  obtain ⟨v1, vs1, rfl, hv1⟩ := hvs
  cases U with
  | nil =>
    simp at u1
    rw [u1.1] at hsv
    simp [startsValue] at hsv
  | cons y U =>
    simp only [List.cons_append, List.cons.injEq] at u1
    obtain ⟨rfl, rfl⟩ := u1
    obtain ⟨hv1s, bV, hV⟩ := k1.cons_inv rfl hv1
    have hone : (v1 :: vs1).countP Node.isValue < 2 → vs1 = [] := by
      intro hcount
      cases vs1 with
      | nil => rfl
      | cons n vs1 =>
        exfalso
        rw [consFinish, if_pos hcount, splitSingle, if_pos hv1] at e7
        rw [List.countP_cons_of_pos hv1] at hcount
        have hput : putBackFrom (n :: vs1) (.end_ :: T4) = .end_ :: T4 := e7
        obtain ⟨q, _, hq1, hq⟩ := hV.only_ws (by omega)
        have hlen : ∀ (l : List Tok) (X : List Tok), (putBackFrom (l.map .single) X).length = l.length + X.length := by
          intro l
          induction l with
          | nil => intro X; simp [putBackFrom]
          | cons m l ih2 =>
            intro X
            rw [List.map_cons, putBackFrom, ih2]
            simp [Node.tokens]
            omega
        have h9 := congrArg List.length hput
        have h10 := congrArg List.length hq1
        rw [hq1, hlen] at h9
        simp at h9 h10
        rw [h9] at h10
        simp at h10
    have hmany : ¬ (v1 :: vs1).countP Node.isValue < 2 → (∀ X, dropTrailing (v1 :: vs1).reverse X = ((v1 :: vs1).reverse, X)) ∧
        w = .concat (v1 :: vs1) := by
      intro hcount
      rw [consFinish, if_neg hcount] at e6 e7
      simp only [Option.some.injEq] at e6 e7
      obtain ⟨rev', W, hsh⟩ := dropTrailing_shape (v1 :: vs1).reverse
      rw [hsh] at e6 e7
      simp only at e6 e7
      have hW : W = [] := by
        have := congrArg List.length e7
        simp at this
        exact this
      subst hW
      have hrev : rev' = (v1 :: vs1).reverse := by
        have h11 := hsh []
        cases hR : (v1 :: vs1).reverse with
        | nil => rw [hR] at h11; simp [dropTrailing] at h11; exact h11
        | cons n R =>
          rw [hR, dropTrailing] at h11
          cases hn : n.singleToken? with
          | none => rw [hn] at h11; simp at h11; exact h11.symm
          | some tk =>
            exfalso
            rw [hn] at h11
            simp only at h11
            obtain ⟨r2, W2, hs2⟩ := dropTrailing_shape R
            rw [hs2] at h11
            simp at h11
      subst hrev
      refine ⟨fun X => by rw [hsh]; rfl, by rw [← e6]; simp⟩
    have hfin' : ∀ (z : List Tok) (_ : z = [] ∨ ∃ s l, z = [.ws s l]) (t5 : Tok) (r5 : List Tok),
        consFinish (v1 :: vs1 ++ z.map Node.single) t5 r5 = ([], some w, z ++ t5 :: r5) := by
      intro z hz t5 r5
      have hc : (v1 :: vs1 ++ z.map Node.single).countP Node.isValue = (v1 :: vs1).countP Node.isValue := by
        rcases hz with rfl | ⟨s, l, rfl⟩
        · simp
        · simp [List.countP_cons, Node.isValue]
      rw [consFinish, hc]
      by_cases hcount : (v1 :: vs1).countP Node.isValue < 2
      · rw [if_pos hcount, List.cons_append, splitSingle, if_pos hv1]
        rw [consFinish, if_pos hcount, splitSingle, if_pos hv1] at e6
        simp only [Option.some.injEq] at e6
        rw [hone hcount, List.nil_append, putBack_ws hz, e6]
      · rw [if_neg hcount]
        obtain ⟨hdr, rfl⟩ := hmany hcount
        have hd : dropTrailing (v1 :: vs1 ++ z.map Node.single).reverse (t5 :: r5)
            = dropTrailing (v1 :: vs1).reverse (z ++ t5 :: r5) := by
          rcases hz with rfl | ⟨s, l, rfl⟩
          · simp
          · rw [List.reverse_append]
            simp [dropTrailing, singleToken?]
        rw [hd, hdr]
        simp
    refine ⟨t, U, T4, rfl, hcn, hsv, ?_, ?_⟩
    · -- the last token is not whitespace
      have hlast : ∀ n, (v1 :: vs1).reverse.head? = some n → n.singleToken? = none := by
        intro n hn
        by_cases hcount : (v1 :: vs1).countP Node.isValue < 2
        · rw [hone hcount] at hn
          simp at hn
          rw [← hn]; exact hv1s
        · have := (hmany hcount).1 []
          cases hR : (v1 :: vs1).reverse with
          | nil => rw [hR] at hn; simp at hn
          | cons m R =>
            rw [hR] at hn this
            simp at hn
            rw [← hn]
            exact dropTrailing_none this
      obtain ⟨u, hu, hu2⟩ := k1.ends (by simp) hlast
      have : t :: U = u := List.append_cancel_right (by simpa using hu)
      rw [this]; exact hu2
    · intro R hR
      obtain ⟨z, t5, r5, rfl, hz, h51, h52⟩ := hR
      have hend : ∀ g, Le (consLoop env .conf g t5 r5) (.ok ([], t5, r5)) := by
        intro g
        cases g with
        | zero => left; rw [consLoop]
        | succ g =>
          right
          exact consLoop_stop env r5 g h51 h52
      refine ⟨v1 :: vs1 ++ z.map Node.single, t5, r5, ?_, hfin' z hz t5 r5⟩
      rcases hz with rfl | ⟨s, l, rfl⟩
      · exact u2 t5 r5 [] t5 r5 hend _ _ (by simp)
      · refine u2 (.ws s l) (t5 :: r5) [.single (.ws s l)] t5 r5 (fun g => ?_) _ _ (by simp)
        cases g with
        | zero => left; rw [consLoop]
        | succ g =>
          rw [consLoop]
          simp only [nextToken, Res.ok_bind]
          exact (hend g).ok_bind (.refl _)

end DocParser
end Hocon
