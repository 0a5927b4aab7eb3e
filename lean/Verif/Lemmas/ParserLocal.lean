import Verif.Lemmas.ParserCut

/-!
# What the document parser reads does not depend on what comes later
-/

set_option autoImplicit false

namespace Hocon
namespace DocParser
open PathParser (Syntax)
open Node Tokenizer

/-- `R'` starts with the tokens that the parser looks at behind a value followed by `R`. -/
def Compat (R R' : List Tok) : Prop :=
  ∀ w t r, R = w ++ t :: r → (w = [] ∨ ∃ s l, w = [.ws s l]) → (∀ s l, t ≠ .ws s l) → startsValue t = false →
    ∃ r', R' = w ++ t :: r'

theorem Compat.refl (R : List Tok) : Compat R R := fun _ _ r h _ _ _ => ⟨r, h⟩

theorem compat_of {U R : List Tok} (hU : EndsHard U) (R' : List Tok) : Compat (U ++ R) (U ++ R') := by
  intro w t r h hw ht _
  obtain ⟨a, x, rfl, hx⟩ := hU
  rcases hw with rfl | ⟨s, l, rfl⟩
  · cases a with
    | nil =>
      simp at h
      exact ⟨R', by simp [h.1]⟩
    | cons y a =>
      simp at h
      exact ⟨a ++ x :: R', by simp [h.1]⟩
  · cases a with
    | nil =>
      simp at h
      exact absurd h.1 (hx.1 s l)
    | cons y a =>
      simp at h
      obtain ⟨rfl, h⟩ := h
      cases a with
      | nil =>
        simp at h
        exact ⟨R', by simp [h.1]⟩
      | cons z a =>
        simp at h
        exact ⟨a ++ x :: R', by simp [h.1]⟩

theorem parseInclude_local {pre : List Node} {toks : List Tok} {n : Node} {R : List Tok}
    (h : parseInclude pre toks = .ok (n, R)) :
    ∃ U, toks = U ++ R ∧ EndsHard U ∧ ∀ R', parseInclude pre (U ++ R') = .ok (n, R') := by
  unfold parseInclude at h
  rw [Res.bind_eq_ok] at h
  obtain ⟨⟨ws, t, ts⟩, h1, h⟩ := h
  obtain ⟨e1, _, c1⟩ := nextCollect_spec h1
  have hws : ∀ {t : Tok}, collectNode t = none → Hard t := by
    intro t hc
    constructor
    · rintro s l rfl
      simp [collectNode] at hc
    · rintro d c l rfl
      simp [collectNode] at hc
  simp only at h
  split at h
  · rename_i text l
    split at h
    · simp at h
    · rename_i kind hkind
      rw [Res.bind_eq_ok] at h
      obtain ⟨⟨ws2, t2, ts2⟩, h2, h⟩ := h
      obtain ⟨e2, _, c2⟩ := nextCollect_spec h2
      simp only at h
      split at h
      · rename_i hsv
        rw [Res.bind_eq_ok] at h
        obtain ⟨⟨ws3, t3, ts3⟩, h3, h⟩ := h
        obtain ⟨e3, _, c3⟩ := nextCollect_spec h3
        simp only at h
        split at h
        · rename_i htx
          simp only [Res.ok.injEq, Prod.mk.injEq] at h
          obtain ⟨rfl, rfl⟩ := h
          refine ⟨tokensList ws ++ .unquoted text l :: (tokensList ws2 ++ t2 :: (tokensList ws3 ++ [t3])), ?_, ?_, ?_⟩
          · rw [e1, e2, e3]; simp
          · exact (((show EndsHard [t3] from ⟨[], t3, rfl, hws c3⟩).front.cons).front.cons).front
          · intro R'
            unfold parseInclude
            simp only [List.append_assoc, List.cons_append, List.nil_append]
            rw [nextCollect_swap h1 c1]
            simp only [Res.ok_bind, hkind]
            rw [nextCollect_swap h2 c2]
            simp only [Res.ok_bind]
            rw [if_pos hsv, nextCollect_swap h3 c3]
            simp only [Res.ok_bind]
            rw [if_pos htx]
        · simp at h
      · simp at h
  · rename_i hnu
    split at h
    · rename_i hsv
      simp only [Res.ok.injEq, Prod.mk.injEq] at h
      obtain ⟨rfl, rfl⟩ := h
      refine ⟨tokensList ws ++ [t], by rw [e1]; simp, (show EndsHard [t] from ⟨[], t, rfl, hws c1⟩).front, ?_⟩
      intro R'
      unfold parseInclude
      rw [List.append_assoc, List.cons_append, List.nil_append, nextCollect_swap h1 c1]
      cases t <;> simp [isStringValue] at hsv
      simp [isStringValue, hsv]
    · simp at h

/-- What is shown of the parser functions. -/
structure Local (env : Env) (f : Nat) : Prop where
  value : ∀ t T v R, parseValue env .conf f t T = .ok (v, R) → Good env true (t :: T) →
    ∃ U, T = U ++ R ∧ EndsHard (t :: U) ∧ ∀ R', parseValue env .conf f t (U ++ R') = .ok (v, R')
  loop : ∀ t T vs t' R, consLoop env .conf f t T = .ok (vs, t', R) → Good env true (t :: T) →
    ∃ U, t :: T = U ++ t' :: R ∧
      ∀ R' x T', U ++ t' :: R' = x :: T' → consLoop env .conf f x T' = .ok (vs, t', R')
  cons : ∀ T ns v R, consolidate env .conf f T = .ok (ns, v, R) → Good env true T →
    ∃ U, T = U ++ R ∧ VTail R ∧ ∀ R', Compat R R' → consolidate env .conf f (U ++ R') = .ok (ns, v, R')
  fval : ∀ T ns v R, fieldVal env .conf f T = .ok (ns, v, R) → Good env true T →
    ∃ U, T = U ++ R ∧ ∀ R', Compat R R' → fieldVal env .conf f (U ++ R') = .ok (ns, v, R')
  field : ∀ t T p n R, parseField env .conf f t T = .ok (p, n, R) → Good env true (t :: T) →
    ∃ U, T = U ++ R ∧ ∀ R', Compat R R' → parseField env .conf f t (U ++ R') = .ok (p, n, R')
  obj : ∀ ac keys T ns R, objectLoop env .conf f true ac keys T = .ok (ns, R) → Good env true T →
    ∃ U, T = U ++ R ∧ EndsHard U ∧ ∀ R', objectLoop env .conf f true ac keys (U ++ R') = .ok (ns, R')
  sep : ∀ keys T ns R, objectSep env .conf f true keys T = .ok (ns, R) → Good env true T →
    ∃ U, T = U ++ R ∧ EndsHard U ∧ ∀ R', objectSep env .conf f true keys (U ++ R') = .ok (ns, R')
  arr : ∀ T n R, parseArray env .conf f T = .ok (n, R) → Good env true T →
    ∃ U, T = U ++ R ∧ EndsHard U ∧ ∀ R', parseArray env .conf f (U ++ R') = .ok (n, R')
  aloop : ∀ T ns R, arrayLoop env .conf f T = .ok (ns, R) → Good env true T →
    ∃ U, T = U ++ R ∧ EndsHard U ∧ ∀ R', arrayLoop env .conf f (U ++ R') = .ok (ns, R')

theorem sepLoop_swap {saw : Bool} {T : List Tok} {ns : List Node} {b : Bool} {ts : List Tok}
    (h : sepLoop saw T = .ok (ns, b, ts)) (R' : List Tok) (hR : ∀ t r, ts = t :: r → ∃ r', R' = t :: r') :
    sepLoop saw (tokensList ns ++ R') = .ok (ns, b, R') := by
  induction T generalizing saw ns with
  | nil => simp [sepLoop] at h
  | cons x xs ih =>
    rw [sepLoop.eq_def] at h
    simp only at h
    split at h
    · simp only [Res.ok.injEq, Prod.mk.injEq] at h
      obtain ⟨rfl, rfl, rfl⟩ := h
      rfl
    · rename_i hnc
      split at h
      · rename_i n hn
        rw [Res.bind_eq_ok] at h
        obtain ⟨⟨ns1, b1, ts1⟩, h1, h⟩ := h
        simp only [Res.ok.injEq, Prod.mk.injEq] at h
        obtain ⟨rfl, rfl, rfl⟩ := h
        have e : tokens n = [x] := by
          cases x <;> simp only [collectNode, reduceCtorEq, Option.some.injEq] at hn
          all_goals first | (subst hn; rfl) | (split at hn <;> simp at hn; subst hn; rfl)
        rw [tokensList, e]
        simp only [List.cons_append, List.nil_append]
        rw [sepLoop.eq_def]
        simp only [hn]
        rw [ih h1]
        rfl
      · rename_i hn
        simp only [Res.ok.injEq, Prod.mk.injEq] at h
        obtain ⟨rfl, rfl, rfl⟩ := h
        obtain ⟨r', rfl⟩ := hR x xs rfl
        simp only [tokensList, List.nil_append]
        rw [sepLoop.eq_def]
        simp only [hn]

theorem ValsH.suffix {a b : List Tok} {vs : List Node} (h : ValsH a vs b) : ∃ u, a = u ++ b := by
  induction h with
  | nil a => exact ⟨[], rfl⟩
  | @ws s l a b vs h ih =>
    obtain ⟨u, rfl⟩ := ih
    exact ⟨.ws s l :: u, rfl⟩
  | @val u b c v vs hv hs hu h ih =>
    obtain ⟨u', rfl⟩ := ih
    exact ⟨u ++ u', by simp⟩

theorem splitSingle_local {a b : List Tok} {vs : List Node} (h : ValsH a vs b) (hn : NoAdjWs a)
    (hc : vs.countP Node.isValue < 2) :
    ∃ pre v w U, (w = [] ∨ ∃ s l, w = [.ws s l]) ∧ a = U ++ (w ++ b) ∧ ∀ X, splitSingle vs X = (pre, v, w ++ X) := by
  induction h with
  | nil a => exact ⟨[], none, [], [], Or.inl rfl, rfl, fun X => rfl⟩
  | @ws s l a b vs h ih =>
    obtain ⟨pre, v, w, U, h1, rfl, h3⟩ := ih hn.tail (by simpa [Node.isValue] using hc)
    refine ⟨.single (.ws s l) :: pre, v, w, .ws s l :: U, h1, rfl, fun X => ?_⟩
    rw [splitSingle, if_neg (by simp [Node.isValue]), h3]
  | @val u b c v vs hv hs hu h ih =>
    rw [List.countP_cons_of_pos hv] at hc
    obtain ⟨w, rfl, rfl, hw⟩ := h.only_ws (by omega)
    have hws := ws_short hn hw
    refine ⟨[], some v, w, u, hws, rfl, fun X => ?_⟩
    rw [splitSingle, if_pos hv, putBack_ws hws]

theorem dropTrailing_shape (rev : List Node) : ∃ rev' W, ∀ X, dropTrailing rev X = (rev', W ++ X) := by
  induction rev with
  | nil => exact ⟨[], [], fun X => rfl⟩
  | cons n rev ih =>
    cases hn : n.singleToken? with
    | none => exact ⟨n :: rev, [], fun X => by rw [dropTrailing]; simp [hn]⟩
    | some t =>
      obtain ⟨rev', W, h⟩ := ih
      exact ⟨rev', W ++ [t], fun X => by rw [dropTrailing]; simp [hn, h]⟩

theorem consFinish_local {a : List Tok} {vs : List Node} {t : Tok} {r : List Tok} (h : ValsH a vs (t :: r))
    (hn : NoAdjWs a) {pre : List Node} {v : Option Node} {R : List Tok} (hf : consFinish vs t r = (pre, v, R)) :
    ∃ w U, (w = [] ∨ ∃ s l, w = [.ws s l]) ∧ R = w ++ t :: r ∧ a = U ++ R ∧
      ∀ r', consFinish vs t r' = (pre, v, w ++ t :: r') := by
  unfold consFinish at hf ⊢
  by_cases hc : vs.countP Node.isValue < 2
  · obtain ⟨pre', v', w, U, h1, h2, h3⟩ := splitSingle_local h hn hc
    rw [if_pos hc, h3] at hf
    simp only [Prod.mk.injEq] at hf
    obtain ⟨rfl, rfl, rfl⟩ := hf
    exact ⟨w, U, h1, rfl, h2, fun r' => by rw [if_pos hc, h3]⟩
  · obtain ⟨rev', W, h3⟩ := dropTrailing_shape vs.reverse
    rw [if_neg hc, h3] at hf
    simp only [Prod.mk.injEq] at hf
    obtain ⟨rfl, rfl, rfl⟩ := hf
    obtain ⟨g1, ⟨w, g2, g3⟩, _⟩ := dropTrailing_hard (rev := vs.reverse)
      (by rw [List.reverse_reverse]; exact h) (h3 (t :: r))
    have := List.append_cancel_right g2
    subst this
    obtain ⟨U, hU⟩ := g1.suffix
    refine ⟨W, U, ws_short (by rw [← hU]; exact hn) g3, rfl, hU, fun r' => by rw [if_neg hc, h3]⟩

theorem local_all (env : Env) (f : Nat) : Local env f := by
  have one : ∀ t : Tok, Hard t → EndsHard [t] := fun t ht => ⟨[], t, rfl, ht⟩
  have nows : ∀ {t : Tok}, collectNode t = none → ∀ s l, t ≠ .ws s l := by
    rintro t hc s l rfl
    simp [collectNode] at hc
  have headSame : ∀ {U R : List Tok} (R' : List Tok), EndsHard U → ∀ t r, U ++ R = t :: r → ∃ r', U ++ R' = t :: r' := by
    rintro U R R' ⟨a, x, rfl, _⟩ t r h
    cases a with
    | nil => simp at h; exact ⟨R', by simp [h.1]⟩
    | cons y a => simp at h; exact ⟨a ++ x :: R', by simp [h.1]⟩
  induction f with
  | zero =>
    constructor <;> intros <;>
      simp_all [parseValue, consLoop, consolidate, fieldVal, parseField, objectLoop, objectSep, parseArray, arrayLoop]
  | succ f ih =>
    constructor
    · -- parseValue
      intro t T v R h hg
      rw [parseValue.eq_def] at h
      simp only at h
      split at h
      · simp only [Res.ok.injEq, Prod.mk.injEq] at h
        obtain ⟨rfl, rfl⟩ := h
        exact ⟨[], rfl, one _ (by simp [Hard]), fun R' => by rw [parseValue]; rfl⟩
      · simp only [Res.ok.injEq, Prod.mk.injEq] at h
        obtain ⟨rfl, rfl⟩ := h
        exact ⟨[], rfl, one _ (by simp [Hard]), fun R' => by rw [parseValue]; rfl⟩
      · simp only [Res.ok.injEq, Prod.mk.injEq] at h
        obtain ⟨rfl, rfl⟩ := h
        exact ⟨[], rfl, one _ (by simp [Hard]), fun R' => by rw [parseValue]; rfl⟩
      · rw [Res.bind_eq_ok] at h
        obtain ⟨⟨ns, ts⟩, h1, h⟩ := h
        simp only [Res.ok.injEq, Prod.mk.injEq] at h
        obtain ⟨rfl, rfl⟩ := h
        obtain ⟨U, g1, g2, g3⟩ := ih.obj _ _ _ _ _ h1 hg.tail
        exact ⟨U, g1, g2.cons, fun R' => by rw [parseValue, g3]; rfl⟩
      · obtain ⟨U, g1, g2, g3⟩ := ih.arr _ _ _ h hg.tail
        exact ⟨U, g1, g2.cons, fun R' => by rw [parseValue, g3]⟩
      · simp at h
    · -- consLoop
      intro t T vs t' R h hg
      rw [consLoop.eq_def] at h
      simp only at h
      split at h
      · rename_i s l
        rw [Res.bind_eq_ok] at h
        obtain ⟨⟨t1, ts1⟩, h1, h⟩ := h
        rw [Res.bind_eq_ok] at h
        obtain ⟨⟨vs2, t2, ts2⟩, h2, h⟩ := h
        simp only [Res.ok.injEq, Prod.mk.injEq] at h
        obtain ⟨rfl, rfl, rfl⟩ := h
        have e := nextToken_conf h1
        subst e
        obtain ⟨U, g1, g2⟩ := ih.loop _ _ _ _ _ h2 hg.tail
        refine ⟨.ws s l :: U, by rw [List.cons_append, ← g1], ?_⟩
        intro R' x T' hx
        simp only [List.cons_append, List.cons.injEq] at hx
        obtain ⟨rfl, rfl⟩ := hx
        cases hU : U ++ t2 :: R' with
        | nil => simp at hU
        | cons y Y =>
          rw [consLoop]
          simp only [nextToken, Res.ok_bind]
          rw [g2 R' y Y hU]
          rfl
      · rename_i hnw
        split at h
        · rename_i hsv
          rw [Res.bind_eq_ok] at h
          obtain ⟨⟨v, ts0⟩, h0, h⟩ := h
          rw [Res.bind_eq_ok] at h
          obtain ⟨⟨t1, ts1⟩, h1, h⟩ := h
          rw [Res.bind_eq_ok] at h
          obtain ⟨⟨vs2, t2, ts2⟩, h2, h⟩ := h
          simp only [Res.ok.injEq, Prod.mk.injEq] at h
          obtain ⟨rfl, rfl, rfl⟩ := h
          have e := nextToken_conf h1
          subst e
          obtain ⟨U0, k1, k2, k3⟩ := ih.value _ _ _ _ h0 hg
          have hg1 : Good env true (t1 :: ts1) := by
            rw [k1] at hg; exact hg.tail.suffix
          obtain ⟨U, g1, g2⟩ := ih.loop _ _ _ _ _ h2 hg1
          refine ⟨t :: (U0 ++ U), by rw [k1, g1]; simp, ?_⟩
          intro R' x T' hx
          simp only [List.cons_append, List.cons.injEq, List.append_assoc] at hx
          obtain ⟨rfl, rfl⟩ := hx
          cases hU : U ++ t2 :: R' with
          | nil => simp at hU
          | cons y Y =>
            rw [consLoop.eq_def]
            simp only
            rw [if_pos hsv, k3]
            simp only [Res.ok_bind, nextToken]
            rw [g2 R' y Y hU]
            rfl
        · rename_i hsv
          simp only [Res.ok.injEq, Prod.mk.injEq] at h
          obtain ⟨rfl, rfl, rfl⟩ := h
          refine ⟨[], rfl, ?_⟩
          intro R' x T' hx
          simp only [List.nil_append, List.cons.injEq] at hx
          obtain ⟨rfl, rfl⟩ := hx
          rw [consLoop.eq_def]
          simp only
          rw [if_neg hsv]
    · -- consolidate
      intro T ns v R h hg
      rw [consolidate, Res.bind_eq_ok] at h
      obtain ⟨⟨ws, t, ts1⟩, h1, h⟩ := h
      rw [Res.bind_eq_ok] at h
      obtain ⟨⟨vs, t2, ts2⟩, h2, h⟩ := h
      obtain ⟨e1, _, c1⟩ := nextCollect_spec h1
      have hg1 : Good env true (t :: ts1) := by rw [e1] at hg; exact hg.suffix
      obtain ⟨U, g1, g2⟩ := ih.loop _ _ _ _ _ h2 hg1
      obtain ⟨k1, k2, k3⟩ := consLoop_hard h2 hg1
      cases hf : consFinish vs t2 ts2 with
      | mk pre rest =>
      obtain ⟨v1, ts3⟩ := rest
      simp only at h
      rw [hf] at h
      simp only [Res.ok.injEq, Prod.mk.injEq] at h
      obtain ⟨rfl, rfl, rfl⟩ := h
      obtain ⟨w, U1, hw, rfl, hU1, hfin⟩ := consFinish_local k1 hg1.adj hf
      refine ⟨tokensList ws ++ U1, by rw [e1, hU1]; simp, ⟨w, t2, ts2, rfl, hw, k2, k3⟩, ?_⟩
      intro R' hR
      obtain ⟨r', rfl⟩ := hR w t2 ts2 rfl hw k2 k3
      have hUw : U = U1 ++ w := by
        rw [g1] at hU1
        have : U ++ t2 :: ts2 = (U1 ++ w) ++ t2 :: ts2 := by simpa using hU1
        exact List.append_cancel_right this
      cases hU : U ++ t2 :: r' with
      | nil => simp at hU
      | cons y Y =>
        have hy : y = t := by
          cases U with
          | nil => simp at hU g1; rw [← hU.1, g1.1]
          | cons z U => simp at hU g1; rw [← hU.1, g1.1]
        subst hy
        have e : tokensList ws ++ U1 ++ (w ++ t2 :: r') = tokensList ws ++ y :: Y := by
          rw [← hU, hUw]; simp
        rw [e, consolidate, nextCollect_swap h1 c1]
        simp only [Res.ok_bind]
        rw [g2 r' y Y hU]
        simp only [Res.ok_bind]
        rw [hfin r']
    · -- fieldVal
      intro T ns v R h hg
      rw [fieldVal, Res.bind_eq_ok] at h
      obtain ⟨⟨ws, v1, ts1⟩, h1, h⟩ := h
      obtain ⟨U, g1, g2, g3⟩ := ih.cons _ _ _ _ h1 hg
      simp only at h
      cases v1 with
      | some v1 =>
        simp only [Res.ok.injEq, Prod.mk.injEq] at h
        obtain ⟨rfl, rfl, rfl⟩ := h
        exact ⟨U, g1, fun R' hR => by rw [fieldVal, g3 R' hR]; rfl⟩
      | none =>
        simp only at h
        rw [Res.bind_eq_ok] at h
        obtain ⟨⟨ws2, t, ts2⟩, h2, h⟩ := h
        obtain ⟨e2, _, c2⟩ := nextCollect_spec h2
        rw [Res.bind_eq_ok] at h
        obtain ⟨⟨v2, ts3⟩, h3, h⟩ := h
        simp only [Res.ok.injEq, Prod.mk.injEq] at h
        obtain ⟨rfl, rfl, rfl⟩ := h
        have hg2 : Good env true (t :: ts2) := by
          rw [g1] at hg; rw [e2] at hg; exact hg.suffix.suffix
        obtain ⟨U2, k1, k2, k3⟩ := ih.value _ _ _ _ h3 hg2
        change ts2 = U2 ++ ts3 at k1
        refine ⟨U ++ (tokensList ws2 ++ t :: U2), by rw [g1]; rw [e2, k1]; simp, fun R' hR => ?_⟩
        have hc : Compat ts1 ((tokensList ws2 ++ t :: U2) ++ R') := by
          have e : ts1 = (tokensList ws2 ++ t :: U2) ++ ts3 := by rw [e2, k1]; simp
          rw [e]
          exact compat_of k2.front R'
        rw [List.append_assoc, fieldVal, g3 _ hc]
        simp only [Res.ok_bind]
        rw [List.append_assoc, List.cons_append, nextCollect_swap h2 c2]
        simp only [Res.ok_bind]
        rw [k3]
        rfl
    · -- parseField
      intro t T p n R h hg
      rw [parseField, Res.bind_eq_ok] at h
      obtain ⟨⟨p1, pt, ts1⟩, h1, h⟩ := h
      obtain ⟨Tk, x, r, rfl, rfl, hkey⟩ := parseKey_swap h1
      rw [Res.bind_eq_ok] at h
      obtain ⟨⟨ws, ak, ts2⟩, h2, h⟩ := h
      obtain ⟨e2, p2, hak⟩ := nextCollect_spec h2
      have hhead : ∀ r', parseKey env .conf t (Tk ++ (tokensList ws ++ ak :: r'))
          = .ok (p1, pt, tokensList ws ++ ak :: r') := by
        intro r'
        cases hw : tokensList ws with
        | nil =>
          rw [hw] at e2
          simp only [List.nil_append, List.cons.injEq] at e2 ⊢
          rw [← e2.1]
          exact hkey r'
        | cons y ys =>
          rw [hw] at e2
          simp only [List.cons_append, List.cons.injEq] at e2 ⊢
          rw [← e2.1]
          exact hkey _
      have hg2 : Good env true (ak :: ts2) := by
        have e : t :: (Tk ++ x :: r) = (t :: Tk ++ tokensList ws) ++ ak :: ts2 := by simp only [e2]; simp
        rw [e] at hg
        exact hg.suffix
      simp only at h
      split at h
      · rename_i hcurly
        rw [Res.bind_eq_ok] at h
        obtain ⟨⟨v, ts3⟩, h3, h⟩ := h
        simp only [Res.ok.injEq, Prod.mk.injEq] at h
        obtain ⟨rfl, rfl, rfl⟩ := h
        obtain ⟨U, k1, k2, k3⟩ := ih.value _ _ _ _ h3 hg2
        refine ⟨Tk ++ (tokensList ws ++ ak :: U), by rw [e2, k1]; simp, fun R' _ => ?_⟩
        have e : Tk ++ (tokensList ws ++ ak :: U) ++ R' = Tk ++ (tokensList ws ++ ak :: (U ++ R')) := by simp
        rw [e, parseField, hhead]
        simp only [Res.ok_bind]
        rw [nextCollect_swap h2 hak]
        simp only [Res.ok_bind]
        rw [if_pos hcurly, k3]
        rfl
      · rename_i hcurly
        split at h
        · rename_i hsep
          rw [Res.bind_eq_ok] at h
          obtain ⟨⟨ws2, v, ts3⟩, h3, h⟩ := h
          simp only [Res.ok.injEq, Prod.mk.injEq] at h
          obtain ⟨rfl, rfl, rfl⟩ := h
          obtain ⟨U, k1, k2⟩ := ih.fval _ _ _ _ h3 hg2.tail
          refine ⟨Tk ++ (tokensList ws ++ ak :: U), by rw [e2]; simp only [k1]; simp, fun R' hR => ?_⟩
          have e : Tk ++ (tokensList ws ++ ak :: U) ++ R' = Tk ++ (tokensList ws ++ ak :: (U ++ R')) := by simp
          rw [e, parseField, hhead]
          simp only [Res.ok_bind]
          rw [nextCollect_swap h2 hak]
          simp only [Res.ok_bind]
          rw [if_neg hcurly, if_pos hsep, k2 R' hR]
          rfl
        · simp at h
    · -- objectLoop
      intro ac keys T ns R h hg
      rw [objectLoop, Res.bind_eq_ok] at h
      obtain ⟨⟨ws, t, ts1⟩, h1, h⟩ := h
      obtain ⟨e1, p1, hc1⟩ := nextCollect_spec h1
      have hg1 : Good env true (t :: ts1) := by rw [e1] at hg; exact hg.suffix
      simp only at h
      split at h
      · simp at h
        obtain ⟨rfl, rfl⟩ := h
        refine ⟨tokensList ws ++ [.closeCurly], by rw [e1]; simp, (one _ (by simp [Hard])).front, fun R' => ?_⟩
        rw [List.append_assoc, List.cons_append, List.nil_append, objectLoop, nextCollect_swap h1 hc1]
        simp
      · rename_i hnc
        split at h
        · simp_all
        · rename_i hend
          split at h
          · rename_i hinc
            rw [Res.bind_eq_ok] at h
            obtain ⟨⟨inc, ts2⟩, h2, h⟩ := h
            rw [Res.bind_eq_ok] at h
            obtain ⟨⟨n2, ts3⟩, h3, h⟩ := h
            simp only [Res.ok.injEq, Prod.mk.injEq] at h
            obtain ⟨rfl, rfl⟩ := h
            obtain ⟨U1, k1, _, k2⟩ := parseInclude_local h2
            have hg2 : Good env true ts2 := by rw [k1] at hg1; exact hg1.tail.suffix
            obtain ⟨U2, m1, m2, m3⟩ := ih.sep _ _ _ _ h3 hg2
            refine ⟨tokensList ws ++ t :: (U1 ++ U2), by rw [e1, k1]; simp only at m1; rw [m1]; simp,
              (m2.front.cons).front, fun R' => ?_⟩
            have e : tokensList ws ++ t :: (U1 ++ U2) ++ R' = tokensList ws ++ t :: (U1 ++ (U2 ++ R')) := by simp
            rw [e, objectLoop, nextCollect_swap h1 hc1]
            simp only [Res.ok_bind]
            rw [if_neg hend, if_pos hinc, k2]
            simp only [Res.ok_bind]
            rw [m3]
            rfl
          · rename_i hinc
            rw [Res.bind_eq_ok] at h
            obtain ⟨⟨p, fld, ts2⟩, h2, h⟩ := h
            rw [Res.bind_eq_ok] at h
            obtain ⟨keys', hk, h⟩ := h
            rw [Res.bind_eq_ok] at h
            obtain ⟨⟨n2, ts3⟩, h3, h⟩ := h
            simp only [Res.ok.injEq, Prod.mk.injEq] at h
            obtain ⟨rfl, rfl⟩ := h
            obtain ⟨U1, k1, k2⟩ := ih.field _ _ _ _ _ h2 hg1
            have hg2 : Good env true ts2 := by rw [k1] at hg1; exact hg1.tail.suffix
            obtain ⟨U2, m1, m2, m3⟩ := ih.sep _ _ _ _ h3 hg2
            refine ⟨tokensList ws ++ t :: (U1 ++ U2), by rw [e1, k1]; simp only at m1; rw [m1]; simp,
              (m2.front.cons).front, fun R' => ?_⟩
            have e : tokensList ws ++ t :: (U1 ++ U2) ++ R' = tokensList ws ++ t :: (U1 ++ (U2 ++ R')) := by simp
            rw [e, objectLoop, nextCollect_swap h1 hc1]
            simp only [Res.ok_bind]
            rw [if_neg hend, if_neg hinc, k2 _ (by simp only at m1; rw [m1]; exact compat_of m2 R')]
            simp only [Res.ok_bind]
            rw [hk]
            simp only [Res.ok_bind]
            rw [m3]
            rfl
    · -- objectSep
      intro keys T ns R h hg
      rw [objectSep, Res.bind_eq_ok] at h
      obtain ⟨⟨ws, sep, ts1⟩, h1, h⟩ := h
      rw [checkSep] at h1
      obtain ⟨e1, _⟩ := sepLoop_spec h1
      have hg1 : Good env true ts1 := by rw [e1] at hg; exact hg.suffix
      simp only at h
      split at h
      · rename_i hb
        rw [Res.bind_eq_ok] at h
        obtain ⟨⟨n2, ts3⟩, h3, h⟩ := h
        simp only [Res.ok.injEq, Prod.mk.injEq] at h
        obtain ⟨rfl, rfl⟩ := h
        obtain ⟨U, k1, k2, k3⟩ := ih.obj _ _ _ _ _ h3 hg1
        refine ⟨tokensList ws ++ U, by rw [e1]; rw [k1]; simp, k2.front, fun R' => ?_⟩
        rw [List.append_assoc, objectSep, checkSep]
        rw [sepLoop_swap h1 (U ++ R') (by rw [k1]; exact headSame R' k2)]
        simp only [Res.ok_bind]
        rw [if_pos hb, k3]
        rfl
      · rename_i hb
        rw [Res.bind_eq_ok] at h
        obtain ⟨⟨ws2, t, ts2⟩, h2, h⟩ := h
        obtain ⟨e2, _, c2⟩ := nextCollect_spec h2
        simp only at h
        split at h
        · simp at h
          obtain ⟨rfl, rfl⟩ := h
          have hU : EndsHard (tokensList ws2 ++ [Tok.closeCurly]) := (one _ (by simp [Hard])).front
          refine ⟨tokensList ws ++ (tokensList ws2 ++ [.closeCurly]), by rw [e1]; rw [e2]; simp,
            hU.front, fun R' => ?_⟩
          have e : ts1 = (tokensList ws2 ++ [Tok.closeCurly]) ++ ts2 := by rw [e2]; simp
          rw [List.append_assoc, objectSep, checkSep]
          rw [sepLoop_swap h1 (tokensList ws2 ++ [Tok.closeCurly] ++ R') (by rw [e]; exact headSame R' hU)]
          simp only [Res.ok_bind]
          rw [if_neg hb, List.append_assoc, List.cons_append, List.nil_append, nextCollect_swap h2 c2]
          simp
        · simp at h
        · simp at h
    · -- parseArray
      intro T n R h hg
      rw [parseArray, Res.bind_eq_ok] at h
      obtain ⟨⟨ws, v, ts1⟩, h1, h⟩ := h
      obtain ⟨U, g1, _, g3⟩ := ih.cons _ _ _ _ h1 hg
      have hg1 : Good env true ts1 := by rw [g1] at hg; exact hg.suffix
      simp only at h
      cases v with
      | some v =>
        simp only at h
        rw [Res.bind_eq_ok] at h
        obtain ⟨⟨n2, ts3⟩, h3, h⟩ := h
        simp only [Res.ok.injEq, Prod.mk.injEq] at h
        obtain ⟨rfl, rfl⟩ := h
        obtain ⟨U2, k1, k2, k3⟩ := ih.aloop _ _ _ h3 hg1
        refine ⟨U ++ U2, by rw [g1, k1]; simp, k2.front, fun R' => ?_⟩
        rw [List.append_assoc, parseArray, g3 _ (by rw [k1]; exact compat_of k2 R')]
        simp only [Res.ok_bind]
        rw [k3]
        rfl
      | none =>
        simp only at h
        rw [Res.bind_eq_ok] at h
        obtain ⟨⟨ws2, t, ts2⟩, h2, h⟩ := h
        obtain ⟨e2, _, c2⟩ := nextCollect_spec h2
        have hg2 : Good env true (t :: ts2) := by rw [e2] at hg1; exact hg1.suffix
        simp only at h
        split at h
        · simp at h
          obtain ⟨rfl, rfl⟩ := h
          have hU : EndsHard (tokensList ws2 ++ [Tok.closeSquare]) := (one _ (by simp [Hard])).front
          have e : ts1 = (tokensList ws2 ++ [Tok.closeSquare]) ++ ts2 := by rw [e2]; simp
          refine ⟨U ++ (tokensList ws2 ++ [.closeSquare]), by rw [g1, e]; simp, hU.front, fun R' => ?_⟩
          rw [List.append_assoc, parseArray, g3 _ (by rw [e]; exact compat_of hU R')]
          simp only [Res.ok_bind]
          rw [List.append_assoc, List.cons_append, List.nil_append, nextCollect_swap h2 c2]
          simp
        · rename_i hncs
          split at h
          · rename_i hsv
            rw [Res.bind_eq_ok] at h
            obtain ⟨⟨v, ts3⟩, h3, h⟩ := h
            rw [Res.bind_eq_ok] at h
            obtain ⟨⟨n2, ts4⟩, h4, h⟩ := h
            simp only [Res.ok.injEq, Prod.mk.injEq] at h
            obtain ⟨rfl, rfl⟩ := h
            obtain ⟨U3, k1, k2, k3⟩ := ih.value _ _ _ _ h3 hg2
            have hg3 : Good env true ts3 := by rw [k1] at hg2; exact hg2.tail.suffix
            obtain ⟨U4, m1, m2, m3⟩ := ih.aloop _ _ _ h4 hg3
            simp only at m1
            have hU : EndsHard (tokensList ws2 ++ t :: (U3 ++ U4)) := (m2.front.cons).front
            have e : ts1 = (tokensList ws2 ++ t :: (U3 ++ U4)) ++ ts4 := by rw [e2, k1, m1]; simp
            refine ⟨U ++ (tokensList ws2 ++ t :: (U3 ++ U4)), by rw [g1, e]; simp, hU.front, fun R' => ?_⟩
            rw [List.append_assoc, parseArray, g3 _ (by rw [e]; exact compat_of hU R')]
            simp only [Res.ok_bind]
            have e' : tokensList ws2 ++ t :: (U3 ++ U4) ++ R' = tokensList ws2 ++ t :: (U3 ++ (U4 ++ R')) := by simp
            rw [e', nextCollect_swap h2 c2]
            simp only [Res.ok_bind]
            rw [if_pos hsv, k3]
            simp only [Res.ok_bind]
            rw [m3]
            rfl
          · simp at h
    · -- arrayLoop
      intro T ns R h hg
      rw [arrayLoop, Res.bind_eq_ok] at h
      obtain ⟨⟨ws, sep, ts1⟩, h1, h⟩ := h
      rw [checkSep] at h1
      obtain ⟨e1, _⟩ := sepLoop_spec h1
      have hg1 : Good env true ts1 := by rw [e1] at hg; exact hg.suffix
      simp only at h
      split at h
      · rename_i hb
        rw [Res.bind_eq_ok] at h
        obtain ⟨⟨ws2, v, ts2⟩, h2, h⟩ := h
        obtain ⟨U, g1, _, g3⟩ := ih.cons _ _ _ _ h2 hg1
        have hg2 : Good env true ts2 := by rw [g1] at hg1; exact hg1.suffix
        simp only at h
        cases v with
        | some v =>
          simp only at h
          rw [Res.bind_eq_ok] at h
          obtain ⟨⟨n2, ts3⟩, h3, h⟩ := h
          simp only [Res.ok.injEq, Prod.mk.injEq] at h
          obtain ⟨rfl, rfl⟩ := h
          obtain ⟨U2, k1, k2, k3⟩ := ih.aloop _ _ _ h3 hg2
          have hU : EndsHard (U ++ U2) := k2.front
          have e : ts1 = (U ++ U2) ++ ts3 := by rw [g1, k1]; simp
          refine ⟨tokensList ws ++ (U ++ U2), by rw [e1, e]; simp, hU.front, fun R' => ?_⟩
          rw [List.append_assoc, arrayLoop, checkSep]
          rw [sepLoop_swap h1 (U ++ U2 ++ R') (by rw [e]; exact headSame R' hU)]
          simp only [Res.ok_bind]
          rw [if_pos hb, List.append_assoc, g3 _ (by rw [k1]; exact compat_of k2 R')]
          simp only [Res.ok_bind]
          rw [k3]
          rfl
        | none =>
          simp only at h
          rw [Res.bind_eq_ok] at h
          obtain ⟨⟨ws3, t, ts3⟩, h3, h⟩ := h
          obtain ⟨e3, _, c3⟩ := nextCollect_spec h3
          have hg3 : Good env true (t :: ts3) := by rw [e3] at hg2; exact hg2.suffix
          simp only at h
          split at h
          · rename_i hsv
            rw [Res.bind_eq_ok] at h
            obtain ⟨⟨v, ts4⟩, h4, h⟩ := h
            rw [Res.bind_eq_ok] at h
            obtain ⟨⟨n2, ts5⟩, h5, h⟩ := h
            simp only [Res.ok.injEq, Prod.mk.injEq] at h
            obtain ⟨rfl, rfl⟩ := h
            obtain ⟨U3, k1, k2, k3⟩ := ih.value _ _ _ _ h4 hg3
            have hg4 : Good env true ts4 := by rw [k1] at hg3; exact hg3.tail.suffix
            obtain ⟨U4, m1, m2, m3⟩ := ih.aloop _ _ _ h5 hg4
            simp only at m1
            have hU0 : EndsHard (tokensList ws3 ++ t :: (U3 ++ U4)) := (m2.front.cons).front
            have hU : EndsHard (U ++ (tokensList ws3 ++ t :: (U3 ++ U4))) := hU0.front
            have e2 : ts2 = (tokensList ws3 ++ t :: (U3 ++ U4)) ++ ts5 := by rw [e3, k1, m1]; simp
            have e : ts1 = (U ++ (tokensList ws3 ++ t :: (U3 ++ U4))) ++ ts5 := by rw [g1, e2]; simp
            refine ⟨tokensList ws ++ (U ++ (tokensList ws3 ++ t :: (U3 ++ U4))), by rw [e1, e]; simp, hU.front,
              fun R' => ?_⟩
            rw [List.append_assoc, arrayLoop, checkSep]
            rw [sepLoop_swap h1 (U ++ (tokensList ws3 ++ t :: (U3 ++ U4)) ++ R') (by rw [e]; exact headSame R' hU)]
            simp only [Res.ok_bind]
            rw [if_pos hb, List.append_assoc, g3 _ (by rw [e2]; exact compat_of hU0 R')]
            simp only [Res.ok_bind]
            have e' : tokensList ws3 ++ t :: (U3 ++ U4) ++ R' = tokensList ws3 ++ t :: (U3 ++ (U4 ++ R')) := by simp
            rw [e', nextCollect_swap h3 c3]
            simp only [Res.ok_bind]
            rw [if_pos hsv, k3]
            simp only [Res.ok_bind]
            rw [m3]
            rfl
          · rename_i hsv
            split at h
            · rename_i hcs
              rw [Res.bind_eq_ok] at h
              obtain ⟨⟨n2, ts4⟩, h4, h⟩ := h
              simp only [Res.ok.injEq, Prod.mk.injEq] at h
              obtain ⟨rfl, rfl⟩ := h
              obtain ⟨U4, m1, m2, m3⟩ := ih.aloop _ _ _ h4 hg3
              have hU0 : EndsHard (tokensList ws3 ++ U4) := m2.front
              have hU : EndsHard (U ++ (tokensList ws3 ++ U4)) := hU0.front
              have e2 : ts2 = (tokensList ws3 ++ U4) ++ ts4 := by rw [e3, m1]; simp
              have e : ts1 = (U ++ (tokensList ws3 ++ U4)) ++ ts4 := by rw [g1, e2]; simp
              refine ⟨tokensList ws ++ (U ++ (tokensList ws3 ++ U4)), by rw [e1, e]; simp, hU.front,
                fun R' => ?_⟩
              rw [List.append_assoc, arrayLoop, checkSep]
              rw [sepLoop_swap h1 (U ++ (tokensList ws3 ++ U4) ++ R') (by rw [e]; exact headSame R' hU)]
              simp only [Res.ok_bind]
              rw [if_pos hb, List.append_assoc, g3 _ (by rw [e2]; exact compat_of hU0 R')]
              simp only [Res.ok_bind]
              obtain ⟨r', hr'⟩ := headSame (R := ts4) R' m2 t ts3 m1.symm
              have e' : tokensList ws3 ++ U4 ++ R' = tokensList ws3 ++ t :: r' := by rw [← hr']; simp
              rw [e', nextCollect_swap h3 c3]
              simp only [Res.ok_bind]
              rw [if_neg hsv, if_pos hcs, ← hr', m3]
              rfl
            · simp at h
      · rename_i hb
        rw [Res.bind_eq_ok] at h
        obtain ⟨⟨ws2, t, ts2⟩, h2, h⟩ := h
        obtain ⟨e2, _, c2⟩ := nextCollect_spec h2
        simp only at h
        split at h
        · simp at h
          obtain ⟨rfl, rfl⟩ := h
          have hU : EndsHard (tokensList ws2 ++ [Tok.closeSquare]) := (one _ (by simp [Hard])).front
          have e : ts1 = (tokensList ws2 ++ [Tok.closeSquare]) ++ ts2 := by rw [e2]; simp
          refine ⟨tokensList ws ++ (tokensList ws2 ++ [.closeSquare]), by rw [e1, e]; simp, hU.front, fun R' => ?_⟩
          rw [List.append_assoc, arrayLoop, checkSep]
          rw [sepLoop_swap h1 (tokensList ws2 ++ [Tok.closeSquare] ++ R') (by rw [e]; exact headSame R' hU)]
          simp only [Res.ok_bind]
          rw [if_neg hb, List.append_assoc, List.cons_append, List.nil_append, nextCollect_swap h2 c2]
          simp
        · simp at h

end DocParser
end Hocon
