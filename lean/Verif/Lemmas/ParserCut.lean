import Verif.Lemmas.ParserMono

/-!
# Parsing a document in which one value is exchanged
-/

set_option autoImplicit false

namespace Hocon
namespace DocParser
open PathParser (Syntax)
open Node Tokenizer

theorem Le.ok_bind {α β : Type} {a : Res α} {x : α} {k : α → Res β} {r : β} (h : Le a (.ok x))
    (hk : Le (k x) (.ok r)) : Le (a >>= k) (.ok r) := by
  rcases h with rfl | rfl
  · exact .fuel _
  · exact hk

/-- What follows a value: at most one whitespace token and a token that starts no value. -/
def VTail (R : List Tok) : Prop :=
  ∃ w t r, R = w ++ t :: r ∧ (w = [] ∨ ∃ s l, w = [.ws s l]) ∧ (∀ s l, t ≠ .ws s l) ∧ startsValue t = false

/-- Neither whitespace nor a comment. -/
def Hard (t : Tok) : Prop := (∀ s l, t ≠ .ws s l) ∧ ∀ d c l, t ≠ .comment d c l

/-- The last token is neither whitespace nor a comment. -/
def EndsHard (ts : List Tok) : Prop := ∃ a t, ts = a ++ [t] ∧ Hard t

theorem EndsHard.front {a b : List Tok} (h : EndsHard b) : EndsHard (a ++ b) := by
  obtain ⟨x, t, rfl, h⟩ := h
  exact ⟨a ++ x, t, by simp, h⟩

theorem EndsHard.cons {t : Tok} {b : List Tok} (h : EndsHard b) : EndsHard (t :: b) := EndsHard.front (a := [t]) h

/-- The brackets of a value are closed. -/
structure Closes (env : Env) (f : Nat) : Prop where
  obj : ∀ ac keys toks ns R, objectLoop env .conf f true ac keys toks = .ok (ns, R) → Good env true toks →
    ∃ u, toks = u ++ .closeCurly :: R
  sep : ∀ keys toks ns R, objectSep env .conf f true keys toks = .ok (ns, R) → Good env true toks →
    ∃ u, toks = u ++ .closeCurly :: R
  arr : ∀ toks n R, parseArray env .conf f toks = .ok (n, R) → Good env true toks →
    ∃ u, toks = u ++ .closeSquare :: R
  aloop : ∀ toks ns R, arrayLoop env .conf f toks = .ok (ns, R) → Good env true toks →
    ∃ u, toks = u ++ .closeSquare :: R

theorem suffix_of {a b c : List Tok} {x : Tok} {R : List Tok} (h : a = b ++ c) (h' : ∃ u, c = u ++ x :: R) :
    ∃ u, a = u ++ x :: R := by
  obtain ⟨u, rfl⟩ := h'
  exact ⟨b ++ u, by simp [h]⟩

theorem closes_all (env : Env) (f : Nat) : Closes env f := by
  induction f with
  | zero => constructor <;> intros <;> simp_all [objectLoop, objectSep, parseArray, arrayLoop]
  | succ f ih =>
    have sp := spec_all env .conf true f
    constructor
    · intro ac keys toks ns R h hg
      rw [objectLoop, Res.bind_eq_ok] at h
      obtain ⟨⟨ws, t, ts1⟩, h1, h⟩ := h
      obtain ⟨e1, _, _⟩ := nextCollect_spec h1
      have hg1 : Good env true (t :: ts1) := by rw [e1] at hg; exact hg.suffix
      simp only at h
      split at h
      · simp at h
        exact ⟨_, by rw [e1, h.2]⟩
      · split at h
        · simp_all
        · split at h
          · rw [Res.bind_eq_ok] at h
            obtain ⟨⟨inc, ts2⟩, h2, h⟩ := h
            rw [Res.bind_eq_ok] at h
            obtain ⟨⟨n2, ts3⟩, h3, h⟩ := h
            simp only [Res.ok.injEq, Prod.mk.injEq] at h
            obtain ⟨rfl, rfl⟩ := h
            obtain ⟨u, hu⟩ := (parseInclude_spec h2).1.suffix
            have hg2 : Good env true ts2 := by rw [hu] at hg1; exact hg1.suffix
            exact suffix_of e1 (suffix_of hu (ih.sep _ _ _ _ h3 hg2))
          · rw [Res.bind_eq_ok] at h
            obtain ⟨⟨p, fld, ts2⟩, h2, h⟩ := h
            rw [Res.bind_eq_ok] at h
            obtain ⟨keys', _, h⟩ := h
            rw [Res.bind_eq_ok] at h
            obtain ⟨⟨n2, ts3⟩, h3, h⟩ := h
            simp only [Res.ok.injEq, Prod.mk.injEq] at h
            obtain ⟨rfl, rfl⟩ := h
            obtain ⟨u, hu⟩ := (sp.field _ _ _ _ _ h2 hg1).1.suffix
            have hg2 : Good env true ts2 := by rw [hu] at hg1; exact hg1.suffix
            exact suffix_of e1 (suffix_of hu (ih.sep _ _ _ _ h3 hg2))
    · intro keys toks ns R h hg
      rw [objectSep, Res.bind_eq_ok] at h
      obtain ⟨⟨ws, sep, ts1⟩, h1, h⟩ := h
      obtain ⟨e1, _⟩ := sepLoop_spec h1
      have hg1 : Good env true ts1 := by rw [e1] at hg; exact hg.suffix
      simp only at h
      split at h
      · rw [Res.bind_eq_ok] at h
        obtain ⟨⟨n2, ts3⟩, h3, h⟩ := h
        simp only [Res.ok.injEq, Prod.mk.injEq] at h
        obtain ⟨rfl, rfl⟩ := h
        exact suffix_of e1 (ih.obj _ _ _ _ _ h3 hg1)
      · rw [Res.bind_eq_ok] at h
        obtain ⟨⟨ws2, t, ts2⟩, h2, h⟩ := h
        obtain ⟨e2, _, _⟩ := nextCollect_spec h2
        simp only at h
        split at h
        · simp at h
          exact suffix_of e1 ⟨_, by rw [e2, h.2]⟩
        · simp at h
        · simp at h
    · intro toks n R h hg
      rw [parseArray, Res.bind_eq_ok] at h
      obtain ⟨⟨ws, v, ts1⟩, h1, h⟩ := h
      obtain ⟨u, hu⟩ := (sp.cons _ _ _ _ h1 hg).1.suffix
      have hg1 : Good env true ts1 := by rw [hu] at hg; exact hg.suffix
      simp only at h
      split at h
      · rw [Res.bind_eq_ok] at h
        obtain ⟨⟨n2, ts3⟩, h3, h⟩ := h
        simp only [Res.ok.injEq, Prod.mk.injEq] at h
        obtain ⟨rfl, rfl⟩ := h
        exact suffix_of hu (ih.aloop _ _ _ h3 hg1)
      · rw [Res.bind_eq_ok] at h
        obtain ⟨⟨ws2, t, ts2⟩, h2, h⟩ := h
        obtain ⟨e2, _, _⟩ := nextCollect_spec h2
        have hg2 : Good env true (t :: ts2) := by rw [e2] at hg1; exact hg1.suffix
        simp only at h
        split at h
        · simp at h
          exact suffix_of hu ⟨_, by rw [e2, h.2]⟩
        · split at h
          · rw [Res.bind_eq_ok] at h
            obtain ⟨⟨v, ts3⟩, h3, h⟩ := h
            rw [Res.bind_eq_ok] at h
            obtain ⟨⟨n2, ts4⟩, h4, h⟩ := h
            simp only [Res.ok.injEq, Prod.mk.injEq] at h
            obtain ⟨rfl, rfl⟩ := h
            obtain ⟨u3, hu3⟩ := (sp.value _ _ _ _ h3 hg2).1.suffix
            have hg3 : Good env true ts3 := by rw [hu3] at hg2; exact hg2.suffix
            exact suffix_of hu (suffix_of e2 (suffix_of hu3 (ih.aloop _ _ _ h4 hg3)))
          · simp at h
    · intro toks ns R h hg
      rw [arrayLoop, Res.bind_eq_ok] at h
      obtain ⟨⟨ws, sep, ts1⟩, h1, h⟩ := h
      obtain ⟨e1, _⟩ := sepLoop_spec h1
      have hg1 : Good env true ts1 := by rw [e1] at hg; exact hg.suffix
      simp only at h
      split at h
      · rw [Res.bind_eq_ok] at h
        obtain ⟨⟨ws2, v, ts2⟩, h2, h⟩ := h
        obtain ⟨u, hu⟩ := (sp.cons _ _ _ _ h2 hg1).1.suffix
        have hg2 : Good env true ts2 := by rw [hu] at hg1; exact hg1.suffix
        simp only at h
        split at h
        · rw [Res.bind_eq_ok] at h
          obtain ⟨⟨n2, ts3⟩, h3, h⟩ := h
          simp only [Res.ok.injEq, Prod.mk.injEq] at h
          obtain ⟨rfl, rfl⟩ := h
          exact suffix_of e1 (suffix_of hu (ih.aloop _ _ _ h3 hg2))
        · rw [Res.bind_eq_ok] at h
          obtain ⟨⟨ws3, t, ts3⟩, h3, h⟩ := h
          obtain ⟨e3, _, _⟩ := nextCollect_spec h3
          have hg3 : Good env true (t :: ts3) := by rw [e3] at hg2; exact hg2.suffix
          simp only at h
          split at h
          · rw [Res.bind_eq_ok] at h
            obtain ⟨⟨v, ts4⟩, h4, h⟩ := h
            rw [Res.bind_eq_ok] at h
            obtain ⟨⟨n2, ts5⟩, h5, h⟩ := h
            simp only [Res.ok.injEq, Prod.mk.injEq] at h
            obtain ⟨rfl, rfl⟩ := h
            obtain ⟨u4, hu4⟩ := (sp.value _ _ _ _ h4 hg3).1.suffix
            have hg4 : Good env true ts4 := by rw [hu4] at hg3; exact hg3.suffix
            exact suffix_of e1 (suffix_of hu (suffix_of e3 (suffix_of hu4 (ih.aloop _ _ _ h5 hg4))))
          · split at h
            · rw [Res.bind_eq_ok] at h
              obtain ⟨⟨n2, ts4⟩, h4, h⟩ := h
              simp only [Res.ok.injEq, Prod.mk.injEq] at h
              obtain ⟨rfl, rfl⟩ := h
              exact suffix_of e1 (suffix_of hu (suffix_of e3 (ih.aloop _ _ _ h4 hg3)))
            · simp at h
      · rw [Res.bind_eq_ok] at h
        obtain ⟨⟨ws2, t, ts2⟩, h2, h⟩ := h
        obtain ⟨e2, _, _⟩ := nextCollect_spec h2
        simp only at h
        split at h
        · simp at h
          exact suffix_of e1 ⟨_, by rw [e2, h.2]⟩
        · simp at h

theorem parseArray_array {env : Env} {fl : Syntax} {f : Nat} {toks : List Tok} {v : Node} {R : List Tok}
    (h : parseArray env fl f toks = .ok (v, R)) : ∃ cs, v = .array cs := by
  cases f with
  | zero => simp [parseArray] at h
  | succ f =>
    rw [parseArray, Res.bind_eq_ok] at h
    obtain ⟨⟨ws, v', ts1⟩, _, h⟩ := h
    simp only at h
    split at h
    · rw [Res.bind_eq_ok] at h
      obtain ⟨_, _, h⟩ := h
      simp only [Res.ok.injEq, Prod.mk.injEq] at h
      exact ⟨_, h.1.symm⟩
    · rw [Res.bind_eq_ok] at h
      obtain ⟨_, _, h⟩ := h
      split at h
      · simp only [Res.ok.injEq, Prod.mk.injEq] at h
        exact ⟨_, h.1.symm⟩
      · split at h
        · rw [Res.bind_eq_ok] at h
          obtain ⟨_, _, h⟩ := h
          rw [Res.bind_eq_ok] at h
          obtain ⟨_, _, h⟩ := h
          simp only [Res.ok.injEq, Prod.mk.injEq] at h
          exact ⟨_, h.1.symm⟩
        · simp at h

theorem value_hard {env : Env} {f : Nat} {t : Tok} {toks : List Tok} {v : Node} {R : List Tok}
    (h : parseValue env .conf f t toks = .ok (v, R)) (hg : Good env true (t :: toks)) :
    v.isValue = true ∧ v.singleToken? = none ∧ ∃ u, t :: toks = u ++ R ∧ EndsHard u := by
  have hc := closes_all env
  cases f with
  | zero => simp [parseValue] at h
  | succ f =>
    rw [parseValue.eq_def] at h
    simp only at h
    have one : ∀ t : Tok, Hard t → EndsHard [t] := fun t ht => ⟨[], t, rfl, ht⟩
    split at h
    · simp only [Res.ok.injEq, Prod.mk.injEq] at h
      obtain ⟨rfl, rfl⟩ := h
      exact ⟨rfl, rfl, [_], rfl, one _ (by simp [Hard])⟩
    · simp only [Res.ok.injEq, Prod.mk.injEq] at h
      obtain ⟨rfl, rfl⟩ := h
      exact ⟨rfl, rfl, [_], rfl, one _ (by simp [Hard])⟩
    · simp only [Res.ok.injEq, Prod.mk.injEq] at h
      obtain ⟨rfl, rfl⟩ := h
      exact ⟨rfl, rfl, [_], rfl, one _ (by simp [Hard])⟩
    · rw [Res.bind_eq_ok] at h
      obtain ⟨⟨ns, ts⟩, h1, h⟩ := h
      simp only [Res.ok.injEq, Prod.mk.injEq] at h
      obtain ⟨rfl, rfl⟩ := h
      obtain ⟨u, hu⟩ := (hc f).obj _ _ _ _ _ h1 hg.tail
      exact ⟨rfl, rfl, .openCurly :: (u ++ [.closeCurly]), by simp [hu], (EndsHard.front (one _ (by simp [Hard]))).cons⟩
    · obtain ⟨u, hu⟩ := (hc f).arr _ _ _ h hg.tail
      obtain ⟨cs, rfl⟩ := parseArray_array h
      exact ⟨rfl, rfl, .openSquare :: (u ++ [.closeSquare]), by simp [hu],
        (EndsHard.front (one _ (by simp [Hard]))).cons⟩
    · simp at h

/-- The values collected by `consolidate_values`, each of which ends in a token that is no whitespace. -/
inductive ValsH : List Tok → List Node → List Tok → Prop where
  | nil (a : List Tok) : ValsH a [] a
  | ws {s : Str} {l : Int} {a b : List Tok} {vs : List Node} (h : ValsH a vs b) :
      ValsH (.ws s l :: a) (.single (.ws s l) :: vs) b
  | val {u b c : List Tok} {v : Node} {vs : List Node} (hv : v.isValue = true) (hs : v.singleToken? = none)
      (hu : EndsHard u) (h : ValsH b vs c) : ValsH (u ++ b) (v :: vs) c

theorem ValsH.nil_inv {a b : List Tok} (h : ValsH a [] b) : a = b := by cases h; rfl

theorem nextToken_conf {toks : List Tok} {t : Tok} {ts : List Tok} (h : nextToken .conf toks = .ok (t, ts)) :
    toks = t :: ts := nextToken_spec h

theorem consLoop_hard {env : Env} {f : Nat} {t : Tok} {toks : List Tok} {vs : List Node} {t' : Tok}
    {toks' : List Tok} (h : consLoop env .conf f t toks = .ok (vs, t', toks')) (hg : Good env true (t :: toks)) :
    ValsH (t :: toks) vs (t' :: toks') ∧ (∀ s l, t' ≠ .ws s l) ∧ startsValue t' = false := by
  induction f generalizing t toks vs with
  | zero => simp [consLoop] at h
  | succ f ih =>
    rw [consLoop.eq_def] at h
    simp only at h
    split at h
    · rw [Res.bind_eq_ok] at h
      obtain ⟨⟨t1, ts1⟩, h1, h⟩ := h
      rw [Res.bind_eq_ok] at h
      obtain ⟨⟨vs2, t2, ts2⟩, h2, h⟩ := h
      simp only [Res.ok.injEq, Prod.mk.injEq] at h
      obtain ⟨rfl, rfl, rfl⟩ := h
      have e := nextToken_conf h1
      have := ih h2 (by rw [← e]; exact hg.tail)
      rw [e]
      exact ⟨.ws this.1, this.2⟩
    · split at h
      · rw [Res.bind_eq_ok] at h
        obtain ⟨⟨v, ts0⟩, h0, h⟩ := h
        rw [Res.bind_eq_ok] at h
        obtain ⟨⟨t1, ts1⟩, h1, h⟩ := h
        rw [Res.bind_eq_ok] at h
        obtain ⟨⟨vs2, t2, ts2⟩, h2, h⟩ := h
        simp only [Res.ok.injEq, Prod.mk.injEq] at h
        obtain ⟨rfl, rfl, rfl⟩ := h
        obtain ⟨k1, k2, u, k3, k4⟩ := value_hard h0 hg
        have e := nextToken_conf h1
        subst e
        have := ih h2 (by rw [k3] at hg; exact hg.suffix)
        rw [k3]
        exact ⟨.val k1 k2 k4 this.1, this.2⟩
      · rename_i hnw hsv
        simp only [Res.ok.injEq, Prod.mk.injEq] at h
        obtain ⟨rfl, rfl, rfl⟩ := h
        exact ⟨.nil _, hnw, by simpa using hsv⟩

theorem ValsH.drop_ws {a b : List Tok} {vs : List Node} {n : Node} {t : Tok} (ht : n.singleToken? = some t)
    (h : ValsH a (vs ++ [n]) b) : ValsH a vs (t :: b) ∧ ∃ s l, t = .ws s l := by
  induction vs generalizing a with
  | nil =>
    cases h with
    | ws h =>
      cases h
      simp [singleToken?] at ht
      subst ht
      exact ⟨.nil _, _, _, rfl⟩
    | val hv hs _ _ => rw [hs] at ht; cases ht
  | cons v vs ih =>
    cases h with
    | ws h => exact ⟨.ws (ih h).1, (ih h).2⟩
    | val hv hs hu h => exact ⟨.val hv hs hu (ih h).1, (ih h).2⟩

theorem dropTrailing_hard {a : List Tok} {rev : List Node} {toks : List Tok} {rev' : List Node}
    {toks' : List Tok} (h : ValsH a rev.reverse toks) (hd : dropTrailing rev toks = (rev', toks')) :
    ValsH a rev'.reverse toks' ∧ (∃ w, toks' = w ++ toks ∧ ∀ t ∈ w, ∃ s l, t = .ws s l) ∧
      ∀ n, rev'.head? = some n → n.singleToken? = none := by
  induction rev generalizing toks with
  | nil =>
    simp only [dropTrailing, Prod.mk.injEq] at hd
    obtain ⟨rfl, rfl⟩ := hd
    exact ⟨h, ⟨[], rfl, by simp⟩, by simp⟩
  | cons n rev ih =>
    rw [dropTrailing] at hd
    split at hd
    · rename_i t ht
      rw [List.reverse_cons] at h
      obtain ⟨h1, h2⟩ := h.drop_ws ht
      obtain ⟨g1, ⟨w, g2, g3⟩, g4⟩ := ih h1 hd
      refine ⟨g1, ⟨w ++ [t], by simp [g2], ?_⟩, g4⟩
      intro x hx
      rcases List.mem_append.1 hx with hx | hx
      · exact g3 x hx
      · simp at hx; subst hx; exact h2
    · rename_i hn
      simp only [Prod.mk.injEq] at hd
      obtain ⟨rfl, rfl⟩ := hd
      exact ⟨h, ⟨[], rfl, by simp⟩, by simpa using hn⟩

theorem ValsH.ends {a b : List Tok} {vs : List Node} (h : ValsH a vs b) (hne : vs ≠ [])
    (hl : ∀ n, vs.reverse.head? = some n → n.singleToken? = none) : ∃ u, a = u ++ b ∧ EndsHard u := by
  induction h with
  | nil a => exact absurd rfl hne
  | @ws s l a b vs h ih =>
    by_cases hv : vs = []
    · subst hv
      have := hl (.single (.ws s l)) (by simp)
      simp [singleToken?] at this
    · obtain ⟨u, rfl, hu⟩ := ih hv (fun n hn => hl n (by
        rw [List.reverse_cons, List.head?_append, hn]; rfl))
      exact ⟨.ws s l :: u, by simp, hu.cons⟩
  | @val u b c v vs hv hs hu h ih =>
    by_cases hv : vs = []
    · subst hv
      cases h
      exact ⟨u, rfl, hu⟩
    · obtain ⟨u', rfl, hu'⟩ := ih hv (fun n hn => hl n (by
        rw [List.reverse_cons, List.head?_append, hn]; rfl))
      exact ⟨u ++ u', by simp, hu'.front⟩

theorem ValsH.only_ws {a b : List Tok} {vs : List Node} (h : ValsH a vs b)
    (hc : vs.countP Node.isValue = 0) : ∃ w, a = w ++ b ∧ vs = w.map .single ∧ ∀ t ∈ w, ∃ s l, t = .ws s l := by
  induction h with
  | nil a => exact ⟨[], rfl, rfl, by simp⟩
  | @ws s l a b vs h ih =>
    obtain ⟨w, rfl, rfl, h2⟩ := ih (by simpa [Node.isValue] using hc)
    refine ⟨.ws s l :: w, rfl, rfl, ?_⟩
    intro t ht
    rcases List.mem_cons.1 ht with rfl | ht
    · exact ⟨_, _, rfl⟩
    · exact h2 t ht
  | val hv => simp [hv] at hc

/-- Whitespace tokens do not follow each other. -/
theorem ws_short {a w b : List Tok} (hn : NoAdjWs (a ++ (w ++ b))) (hw : ∀ t ∈ w, ∃ s l, t = .ws s l) :
    w = [] ∨ ∃ s l, w = [.ws s l] := by
  cases w with
  | nil => exact Or.inl rfl
  | cons x w =>
    obtain ⟨s, l, rfl⟩ := hw x (by simp)
    cases w with
    | nil => exact Or.inr ⟨s, l, rfl⟩
    | cons y w =>
      obtain ⟨s', l', rfl⟩ := hw y (by simp)
      exact absurd (by simp) (hn a (w ++ b) s l s' l')

theorem putBack_ws {w : List Tok} (hw : w = [] ∨ ∃ s l, w = [.ws s l]) (toks : List Tok) :
    putBackFrom (w.map .single) toks = w ++ toks := by
  rcases hw with rfl | ⟨s, l, rfl⟩ <;> rfl

/-- The tokens `t :: Tu` before `R` are read as the value `w`. -/
def NewVal (env : Env) (t : Tok) (Tu R : List Tok) (w : Node) : Prop :=
  ∃ vs t' r, (∀ g, Le (consLoop env .conf g t (Tu ++ R)) (.ok (vs, t', r))) ∧ consFinish vs t' r = ([], some w, R)

/-- One value that is followed by a `VTail`. -/
theorem cons_new {env : Env} {t : Tok} {Tu R : List Tok} {w : Node} (hs : startsValue t = true)
    (hwv : w.isValue = true) (hp : ∀ g, Le (parseValue env .conf g t (Tu ++ R)) (.ok (w, R))) (hR : VTail R) :
    NewVal env t Tu R w := by
  obtain ⟨x, t', r, rfl, hx, ht1, ht2⟩ := hR
  have hend : ∀ g, Le (consLoop env .conf g t' r) (.ok ([], t', r)) := by
    intro g
    cases g with
    | zero => left; rw [consLoop]
    | succ g =>
      right
      cases t' <;> simp_all [consLoop, startsValue]
  have hstart : ∀ g vs, Le (nextToken .conf (x ++ t' :: r) >>= fun y => consLoop env .conf g y.1 y.2)
      (.ok (vs, t', r)) → Le (consLoop env .conf (g + 1) t (Tu ++ (x ++ t' :: r))) (.ok (w :: vs, t', r)) := by
    intro g vs hb
    rw [consLoop.eq_def]
    simp only
    split
    · simp [startsValue] at hs
    · rw [if_pos hs]
      refine (hp g).ok_bind ?_
      simp only
      rcases hx with rfl | ⟨s, l, rfl⟩
      · simp only [List.nil_append, nextToken, Res.ok_bind] at hb ⊢
        exact hb.ok_bind (.refl _)
      · simp only [List.cons_append, List.nil_append, nextToken, Res.ok_bind] at hb ⊢
        exact hb.ok_bind (.refl _)
  rcases hx with rfl | ⟨s, l, rfl⟩
  · refine ⟨[w], t', r, ?_, ?_⟩
    · intro g
      cases g with
      | zero => left; rw [consLoop]
      | succ g => exact hstart g [] (by simpa [nextToken] using hend g)
    · simp [consFinish, hwv, splitSingle, putBackFrom]
  · refine ⟨[w, .single (.ws s l)], t', r, ?_, ?_⟩
    · intro g
      cases g with
      | zero => left; rw [consLoop]
      | succ g =>
        refine hstart g [.single (.ws s l)] ?_
        simp only [List.cons_append, List.nil_append, nextToken, Res.ok_bind]
        cases g with
        | zero => left; rw [consLoop]
        | succ g =>
          rw [consLoop]
          simp only [nextToken, Res.ok_bind]
          exact (hend g).ok_bind (.refl _)
    · have hc : ([w, .single (.ws s l)] : List Node).countP Node.isValue = 1 := by
        rw [List.countP_cons_of_pos hwv]; rfl
      rw [consFinish, hc, if_pos (by decide), splitSingle, if_pos hwv]
      rfl

theorem nextCollect_swap {toks : List Tok} {ns : List Node} {t : Tok} {ts : List Tok}
    (h : nextCollect .conf toks = .ok (ns, t, ts)) {t' : Tok} (ht : collectNode t' = none) (ts' : List Tok) :
    nextCollect .conf (tokensList ns ++ t' :: ts') = .ok (ns, t', ts') := by
  induction toks generalizing ns with
  | nil => simp [nextCollect] at h
  | cons x xs ih =>
    rw [nextCollect, Res.bind_eq_ok] at h
    obtain ⟨_, _, h⟩ := h
    split at h
    · rename_i n hn
      rw [Res.bind_eq_ok] at h
      obtain ⟨⟨ns1, t1, ts1⟩, h1, h⟩ := h
      simp only [Res.ok.injEq, Prod.mk.injEq] at h
      obtain ⟨rfl, rfl, rfl⟩ := h
      have e : tokens n = [x] := by
        cases x <;> simp only [collectNode, reduceCtorEq, Option.some.injEq] at hn
        all_goals first | (subst hn; rfl) | (split at hn <;> simp at hn; subst hn; rfl)
      rw [tokensList, e]
      simp only [List.cons_append, List.nil_append]
      rw [nextCollect]
      simp only [nextToken, Res.ok_bind, hn]
      rw [ih h1]
      rfl
    · simp only [Res.ok.injEq, Prod.mk.injEq] at h
      obtain ⟨rfl, rfl, rfl⟩ := h
      simp only [tokensList, List.nil_append]
      rw [nextCollect]
      simp only [nextToken, Res.ok_bind, ht]

theorem fieldVal_new {env : Env} {toks0 : List Tok} {ns : List Node} {t0 : Tok} {ts0 : List Tok}
    (hc : nextCollect .conf toks0 = .ok (ns, t0, ts0)) {t : Tok} {Tu R : List Tok} {w : Node}
    (ht : collectNode t = none) (hp : NewVal env t Tu R w) (g : Nat) :
    Le (fieldVal env .conf g (tokensList ns ++ t :: (Tu ++ R))) (.ok (ns, w, R)) := by
  obtain ⟨vs, t', r, h1, h2⟩ := hp
  cases g with
  | zero => left; rw [fieldVal]
  | succ g =>
    rw [fieldVal]
    refine Le.ok_bind (x := (ns, some w, R)) ?_ (.refl _)
    cases g with
    | zero => left; rw [consolidate]
    | succ g =>
      rw [consolidate, nextCollect_swap hc ht]
      simp only [Res.ok_bind]
      refine (h1 g).ok_bind ?_
      simp only [h2, List.append_nil]
      exact .refl _

/-- What `fieldVal` reads, and that another value can stand there. -/
theorem fieldVal_cut {env : Env} {f : Nat} {toks : List Tok} {ns : List Node} {v : Node} {R : List Tok}
    (h : fieldVal env .conf f toks = .ok (ns, v, R)) (hg : Good env true toks) :
    (∃ t0 ts0, nextCollect .conf toks = .ok (ns, t0, ts0)) ∧
    ∃ To, toks = tokensList ns ++ (To ++ R) ∧ EndsHard To ∧ VTail R ∧
      (∀ ocs, v = .object ocs → ∃ To' f' ocs', To = .openCurly :: To' ∧ ocs = .single .openCurly :: ocs' ∧
        f' < f ∧ objectLoop env .conf f' true false [] (To' ++ R) = .ok (ocs', R)) ∧
      ∀ t Tu w, collectNode t = none → NewVal env t Tu R w →
        ∀ g, Le (fieldVal env .conf g (tokensList ns ++ t :: (Tu ++ R))) (.ok (ns, w, R)) := by
  cases f with
  | zero => simp [fieldVal] at h
  | succ f =>
  rw [fieldVal, Res.bind_eq_ok] at h
  obtain ⟨⟨ws, v1, R1⟩, h1, h⟩ := h
  cases f with
  | zero => simp [consolidate] at h1
  | succ f =>
  rw [consolidate, Res.bind_eq_ok] at h1
  obtain ⟨⟨ws0, t, ts⟩, hc, h1⟩ := h1
  rw [Res.bind_eq_ok] at h1
  obtain ⟨⟨vs, t', r⟩, hl, h1⟩ := h1
  simp only [Res.ok.injEq, Prod.mk.injEq] at h1
  obtain ⟨e1, e2, e3⟩ := h1
  obtain ⟨ec, pc, hcn⟩ := nextCollect_spec hc
  have hg1 : Good env true (t :: ts) := by rw [ec] at hg; exact hg.suffix
  cases f with
  | zero => simp [consLoop] at hl
  | succ f =>
  by_cases hsv : startsValue t = true
  · have hl0 := hl
    rw [consLoop.eq_def] at hl
    simp only at hl
    split at hl
    · simp [startsValue] at hsv
    rw [if_pos hsv, Res.bind_eq_ok] at hl
    obtain ⟨⟨v2, R2⟩, hv, hl⟩ := hl
    rw [Res.bind_eq_ok] at hl
    obtain ⟨⟨t2, ts2⟩, hn, hl⟩ := hl
    rw [Res.bind_eq_ok] at hl
    obtain ⟨⟨vs', t3, ts3⟩, hl', hl⟩ := hl
    simp only [Res.ok.injEq, Prod.mk.injEq] at hl
    obtain ⟨rfl, rfl, rfl⟩ := hl
    have en := nextToken_conf hn
    subst en
    obtain ⟨k1, k2, u, k3, k4⟩ := value_hard hv hg1
    have hg2 : Good env true (t2 :: ts2) := by rw [k3] at hg1; exact hg1.suffix
    obtain ⟨hV, hV1, hV2⟩ := consLoop_hard hl' hg2
    by_cases hcount : (v2 :: vs').countP Node.isValue < 2
    · rw [List.countP_cons_of_pos k1] at hcount
      obtain ⟨w, ew, rfl, hw⟩ := hV.only_ws (by omega)
      have hws := ws_short (a := []) (by rw [List.nil_append, ← ew]; exact hg2.adj) hw
      have hfin : consFinish (v2 :: w.map .single) t3 ts3 = ([], some v2, w ++ t3 :: ts3) := by
        rw [consFinish, List.countP_cons_of_pos k1, if_pos hcount, splitSingle, if_pos k1, putBack_ws hws]
      rw [hfin] at e1 e2 e3
      simp only at e1 e2 e3
      subst e1 e2 e3
      simp only [Res.ok.injEq, Prod.mk.injEq, List.append_nil] at h
      obtain ⟨rfl, rfl, rfl⟩ := h
      have hR : VTail (w ++ t3 :: ts3) := ⟨w, t3, ts3, rfl, hws, hV1, hV2⟩
      refine ⟨⟨_, _, hc⟩, u, ?_, k4, hR, ?_, fun t Tu w ht hp g => fieldVal_new hc ht hp g⟩
      · rw [ec, k3, ew]
      · rintro ocs rfl
        cases t <;> simp [startsValue] at hsv
        · cases f with
          | zero => simp [parseValue] at hv
          | succ f =>
            rw [parseValue, Res.bind_eq_ok] at hv
            obtain ⟨⟨os, R3⟩, ho, hv⟩ := hv
            simp only [Res.ok.injEq, Prod.mk.injEq, Node.object.injEq] at hv
            obtain ⟨rfl, rfl⟩ := hv
            cases u with
            | nil => obtain ⟨a, b, h, _⟩ := k4; simp at h
            | cons x u =>
              simp only [List.cons_append, List.cons.injEq] at k3
              obtain ⟨rfl, rfl⟩ := k3
              rw [ew] at ho
              exact ⟨u, f, os, rfl, rfl, by omega, ho⟩
        · cases f with
          | zero => simp [parseValue] at hv
          | succ f =>
            rw [parseValue] at hv
            obtain ⟨cs, h⟩ := parseArray_array hv
            cases h
        all_goals
          cases f with
          | zero => simp [parseValue] at hv
          | succ f => simp [parseValue] at hv
    · obtain ⟨hW, hW1, hW2⟩ := consLoop_hard hl0 hg1
      cases hd : dropTrailing (v2 :: vs').reverse (t3 :: ts3) with
      | mk rev ts4 =>
      obtain ⟨g1, ⟨w, g2, g3⟩, g4⟩ := dropTrailing_hard (rev := (v2 :: vs').reverse)
        (by rw [List.reverse_reverse]; exact hW) hd
      have hfin : consFinish (v2 :: vs') t3 ts3 = ([], some (.concat rev.reverse), ts4) := by
        rw [consFinish, if_neg hcount, hd]
      rw [hfin] at e1 e2 e3
      simp only at e1 e2 e3
      subst e1 e2 e3
      simp only [Res.ok.injEq, Prod.mk.injEq, List.append_nil] at h
      obtain ⟨rfl, rfl, rfl⟩ := h
      have hrev : rev.reverse ≠ [] := by
        intro hr
        rw [hr] at g1
        have g2 := g1.nil_inv.trans g2
        cases w with
        | nil =>
          simp only [List.nil_append, List.cons.injEq] at g2
          rw [← g2.1, hsv] at hW2
          cases hW2
        | cons x w =>
          simp only [List.cons_append, List.cons.injEq] at g2
          obtain ⟨s, l, hx⟩ := g3 x (by simp)
          rw [g2.1, hx] at hsv
          simp [startsValue] at hsv
      obtain ⟨u', k5, k6⟩ := g1.ends hrev (by rw [List.reverse_reverse]; exact g4)
      have hws := ws_short (a := u') (by rw [← g2, ← k5]; exact hg1.adj) g3
      have hR : VTail ts4 := ⟨w, t3, ts3, g2, hws, hW1, hW2⟩
      refine ⟨⟨_, _, hc⟩, u', by rw [ec, k5], k6, hR, by simp, fun t Tu w ht hp g => fieldVal_new hc ht hp g⟩
  · exfalso
    have hl2 : consLoop env .conf (f + 1) t ts = .ok ([], t, ts) := by
      cases t <;> simp_all [consLoop, startsValue, collectNode]
    rw [hl2] at hl
    simp only [Res.ok.injEq, Prod.mk.injEq] at hl
    obtain ⟨rfl, rfl, rfl⟩ := hl
    have hfin : consFinish [] t ts = ([], none, t :: ts) := by simp [consFinish, splitSingle]
    rw [hfin] at e1 e2 e3
    simp only at e1 e2 e3
    subst e1 e2 e3
    simp only [nextCollect, nextToken, Res.ok_bind, hcn] at h
    rw [Res.bind_eq_ok] at h
    obtain ⟨_, h, _⟩ := h
    cases t <;> simp_all [parseValue, startsValue]

theorem keyRun_swap {T e : List Tok} {x : Tok} {r : List Tok} (h : keyRun T = (e, x :: r)) :
    T = e ++ x :: r ∧ ∀ r', keyRun (e ++ x :: r') = (e, x :: r') := by
  induction T generalizing e with
  | nil => simp [keyRun] at h
  | cons t ts ih =>
    cases hk : keyRun ts with
    | mk e1 r1 =>
    have key : (∀ r', keyRun (t :: r') = (t :: (keyRun r').1, (keyRun r').2)) ∨
        (∀ r', keyRun (t :: r') = ([], t :: r')) := by
      cases t <;> simp [keyRun]
    rcases key with key | key
    · rw [key, hk] at h
      simp only [Prod.mk.injEq] at h
      obtain ⟨rfl, rfl⟩ := h
      obtain ⟨g1, g2⟩ := ih hk
      refine ⟨by rw [g1]; rfl, fun r' => ?_⟩
      rw [List.cons_append, key, g2]
    · rw [key] at h
      simp only [Prod.mk.injEq, List.cons.injEq] at h
      obtain ⟨rfl, rfl, rfl⟩ := h
      exact ⟨rfl, fun r' => key r'⟩

theorem parseKey_swap {env : Env} {t : Tok} {toks : List Tok} {p : Path} {pt toks1 : List Tok}
    (h : parseKey env .conf t toks = .ok (p, pt, toks1)) :
    ∃ Tk x r, toks = Tk ++ x :: r ∧ toks1 = x :: r ∧
      ∀ r', parseKey env .conf t (Tk ++ x :: r') = .ok (p, pt, x :: r') := by
  unfold parseKey at h
  simp only at h
  cases hk : keyRun (t :: toks) with
  | mk e rest =>
  rw [hk] at h
  cases e with
  | nil => simp at h
  | cons a e =>
    cases rest with
    | nil => simp at h
    | cons x r =>
      simp only at h
      rw [Res.bind_eq_ok] at h
      obtain ⟨⟨p1, pt1⟩, h1, h⟩ := h
      simp only [Res.ok.injEq, Prod.mk.injEq] at h
      obtain ⟨rfl, rfl, rfl⟩ := h
      obtain ⟨g1, g2⟩ := keyRun_swap hk
      simp only [List.cons_append, List.cons.injEq] at g1 g2
      obtain ⟨rfl, rfl⟩ := g1
      refine ⟨e, x, r, rfl, rfl, fun r' => ?_⟩
      unfold parseKey
      simp only [g2 r', h1, Res.ok_bind]

theorem nextCollect_nosep {fl : Syntax} {toks : List Tok} {ns : List Node} {t : Tok} {ts : List Tok}
    (h : nextCollect fl toks = .ok (ns, t, ts)) : ∀ n ∈ ns, ∀ s, n = .single s → isKeyValueSeparator .conf s = false := by
  induction toks generalizing ns with
  | nil => simp [nextCollect] at h
  | cons x xs ih =>
    rw [nextCollect, Res.bind_eq_ok] at h
    obtain ⟨_, _, h⟩ := h
    split at h
    · rename_i n hn
      rw [Res.bind_eq_ok] at h
      obtain ⟨⟨ns1, t1, ts1⟩, h1, h⟩ := h
      simp only [Res.ok.injEq, Prod.mk.injEq] at h
      obtain ⟨rfl, rfl, rfl⟩ := h
      intro m hm s hs
      rcases List.mem_cons.1 hm with rfl | hm
      · subst hs
        cases x <;> simp only [collectNode, reduceCtorEq, Option.some.injEq] at hn
        all_goals first | (cases hn; rfl) | (split at hn <;> cases hn; rfl)
      · exact ih h1 m hm s hs
    · simp only [Res.ok.injEq, Prod.mk.injEq] at h
      obtain ⟨rfl, rfl, rfl⟩ := h
      simp

/-- A separator node. -/
def IsSep (n : Node) : Prop := ∃ s, n = .single s ∧ isKeyValueSeparator .conf s = true

theorem split_unique {α : Type} {P : α → Prop} {a b a' b' : List α} {x y : α} (h : a ++ x :: b = a' ++ y :: b')
    (hy : P y) (ha : ∀ z ∈ a, ¬ P z) (hb : ∀ z ∈ b, ¬ P z) : a = a' ∧ x = y ∧ b = b' := by
  induction a generalizing a' with
  | nil =>
    cases a' with
    | nil => simpa using h
    | cons z a' =>
      simp only [List.nil_append, List.cons_append, List.cons.injEq] at h
      exact absurd hy (hb y (by rw [h.2]; simp))
  | cons z a ih =>
    cases a' with
    | nil =>
      simp only [List.nil_append, List.cons_append, List.cons.injEq] at h
      exact absurd (h.1 ▸ hy) (ha z (by simp))
    | cons z' a' =>
      simp only [List.cons_append, List.cons.injEq] at h
      obtain ⟨g1, g2, g3⟩ := ih h.2 (fun z hz => ha z (by simp [hz]))
      exact ⟨by rw [h.1, g1], g2, g3⟩

/-- A value is not longer than the tokens it is read from. -/
def VLen (v : Node) (To : List Tok) : Prop := (Tok.textList (tokens v)).length ≤ (Tok.textList To).length

theorem fieldVal_len {env : Env} {f : Nat} {toks : List Tok} {ns : List Node} {v : Node} {To R : List Tok}
    (h : fieldVal env .conf f toks = .ok (ns, v, R)) (hg : Good env true toks) (e : toks = tokensList ns ++ (To ++ R)) :
    VLen v To := by
  obtain ⟨⟨used, h1, h2, _⟩, _⟩ := (spec_all env .conf true f).fval _ _ _ _ h hg
  rw [e, ← List.append_assoc] at h1
  have h3 := List.append_cancel_right h1
  have := h2.length_le
  rw [← h3, Node.tokensList_append] at this
  simp [Tok.textList_append, tokensList] at this
  unfold VLen
  omega

/-- What `parseField` reads, and that another value can stand there. -/
theorem parseField_cut {env : Env} {f : Nat} {t : Tok} {toks : List Tok} {p : Path} {n : Node} {R : List Tok}
    (h : parseField env .conf f t toks = .ok (p, n, R)) (hg : Good env true (t :: toks)) :
    ∃ fa v Tf To, n = .field (fa ++ [v]) ∧ v.isValue = true ∧ toks = Tf ++ (To ++ R) ∧ EndsHard To ∧
      (∀ fa0 sep bl, fa = fa0 ++ .single sep :: bl → isKeyValueSeparator .conf sep = true → ∃ Tf0,
        Tf = Tf0 ++ sep :: tokensList bl ∧ VTail R ∧ VLen v To ∧
        ∀ t' Tu w, collectNode t' = none → NewVal env t' Tu R w →
          ∀ g, Le (parseField env .conf g t (Tf ++ t' :: (Tu ++ R))) (.ok (p, .field (fa ++ [w]), R))) ∧
      (∀ ocs, v = .object ocs → ∃ To' f' ocs', To = .openCurly :: To' ∧ ocs = .single .openCurly :: ocs' ∧
        f' < f ∧ objectLoop env .conf f' true false [] (To' ++ R) = .ok (ocs', R) ∧
        ∀ To2 ocs2, (∀ g, Le (objectLoop env .conf g true false [] (To2 ++ R)) (.ok (ocs2, R))) →
          ∀ g, Le (parseField env .conf g t (Tf ++ .openCurly :: (To2 ++ R)))
            (.ok (p, .field (fa ++ [.object (.single .openCurly :: ocs2)]), R))) := by
  cases f with
  | zero => simp [parseField] at h
  | succ f =>
  rw [parseField, Res.bind_eq_ok] at h
  obtain ⟨⟨p1, pt, ts1⟩, h1, h⟩ := h
  obtain ⟨Tk, x, r, rfl, rfl, hkey⟩ := parseKey_swap h1
  rw [Res.bind_eq_ok] at h
  obtain ⟨⟨ws, ak, ts2⟩, h2, h⟩ := h
  obtain ⟨e2, p2, hak⟩ := nextCollect_spec h2
  have hno := nextCollect_nosep h2
  -- the key and the whitespace behind it, before other tokens
  have hhead : ∀ r', parseKey env .conf t (Tk ++ (tokensList ws ++ ak :: r'))
      = .ok (p1, pt, tokensList ws ++ ak :: r') := by
    intro r'
    cases hw : tokensList ws with
    | nil =>
      rw [hw] at e2
      simp only [List.nil_append, List.cons.injEq] at e2 ⊢
      rw [← e2.1]
      exact hkey r'
    | cons y ys =>
      rw [hw] at e2
      simp only [List.cons_append, List.cons.injEq] at e2 ⊢
      rw [← e2.1]
      exact hkey _
  have hg2 : Good env true (ak :: ts2) := by
    have e : t :: (Tk ++ x :: r) = (t :: Tk ++ tokensList ws) ++ ak :: ts2 := by simp only [e2]; simp
    rw [e] at hg
    exact hg.suffix
  simp only at h
  split at h
  · rename_i hcurly
    rw [Res.bind_eq_ok] at h
    obtain ⟨⟨v, ts3⟩, h3, h⟩ := h
    simp only [Res.ok.injEq, Prod.mk.injEq] at h
    obtain ⟨rfl, rfl, rfl⟩ := h
    obtain ⟨k1, k2, u, k3, k4⟩ := value_hard h3 hg2
    have hakc : ak = .openCurly := by
      cases ak <;> simp [Tok.isOpenCurly] at hcurly <;> rfl
    subst hakc
    refine ⟨.path p1 pt :: ws, v, Tk ++ tokensList ws, u, by simp, k1, by rw [e2, k3]; simp, k4, ?_, ?_⟩
    · intro fa0 sep bl hfa hsep
      exfalso
      have hm : Node.single sep ∈ (.path p1 pt :: ws : List Node) := by rw [hfa]; simp
      rcases List.mem_cons.1 hm with hm | hm
      · cases hm
      · rw [hno _ hm _ rfl] at hsep
        cases hsep
    · rintro ocs rfl
      cases f with
      | zero => simp [parseValue] at h3
      | succ f =>
        rw [parseValue, Res.bind_eq_ok] at h3
        obtain ⟨⟨os, R3⟩, ho, hv⟩ := h3
        simp only [Res.ok.injEq, Prod.mk.injEq, Node.object.injEq] at hv
        obtain ⟨rfl, rfl⟩ := hv
        cases u with
        | nil => obtain ⟨a, b, h, _⟩ := k4; simp at h
        | cons y u =>
          simp only [List.cons_append, List.cons.injEq] at k3
          obtain ⟨rfl, rfl⟩ := k3
          refine ⟨u, f, os, rfl, rfl, by omega, ho, fun To2 ocs2 hnew g => ?_⟩
          cases g with
          | zero => left; rw [parseField]
          | succ g =>
            rw [parseField]
            rw [List.append_assoc, hhead]
            simp only [Res.ok_bind]
            rw [nextCollect_swap h2 hak]
            simp only [Res.ok_bind]
            rw [if_pos (by rfl)]
            cases g with
            | zero => left; rw [parseValue]; rfl
            | succ g =>
              rw [parseValue]
              refine Le.ok_bind ((hnew g).ok_bind (.refl _)) ?_
              simp only [List.cons_append]
              exact .refl _
  · rename_i hcurly
    split at h
    · rename_i hsep
      rw [Res.bind_eq_ok] at h
      obtain ⟨⟨ws2, v, ts3⟩, h3, h⟩ := h
      simp only [Res.ok.injEq, Prod.mk.injEq] at h
      obtain ⟨rfl, rfl, rfl⟩ := h
      obtain ⟨⟨_, _, hn2⟩, To, k1, k2, k3, k4, k5⟩ := fieldVal_cut h3 hg2.tail
      have hval : v.isValue = true := ((spec_all env .conf true f).fval _ _ _ _ h3 hg2.tail).2.1
      have hws2 : ∀ m ∈ ws2, ¬ IsSep m := by
        rintro m hm ⟨s, rfl, hs⟩
        rw [nextCollect_nosep hn2 _ hm _ rfl] at hs
        cases hs
      have hnew : ∀ t' Tu w, collectNode t' = none → NewVal env t' Tu ts3 w →
          ∀ g, Le (parseField env .conf g t (Tk ++ tokensList ws ++ ak :: tokensList ws2 ++ t' :: (Tu ++ ts3)))
            (.ok (p1, .field (.path p1 pt :: ws ++ .single ak :: ws2 ++ [w]), ts3)) := by
        intro t' Tu w g1 g2 g
        cases g with
        | zero => left; rw [parseField]
        | succ g =>
          rw [parseField]
          have e : Tk ++ tokensList ws ++ ak :: tokensList ws2 ++ t' :: (Tu ++ ts3)
            = Tk ++ (tokensList ws ++ ak :: (tokensList ws2 ++ t' :: (Tu ++ ts3))) := by simp
          rw [e, hhead]
          simp only [Res.ok_bind]
          rw [nextCollect_swap h2 hak]
          simp only [Res.ok_bind]
          rw [if_neg hcurly, if_pos hsep]
          exact (k5 t' Tu w g1 g2 g).ok_bind (.refl _)
      refine ⟨.path p1 pt :: ws ++ .single ak :: ws2, v, Tk ++ tokensList ws ++ ak :: tokensList ws2, To,
        by simp, hval, by rw [e2]; simp only [k1]; simp, k2, ?_, ?_⟩
      · intro fa0 sep bl hfa hsp
        obtain ⟨_, e4, e5⟩ := split_unique (P := IsSep) hfa ⟨_, rfl, hsp⟩ (by
          intro z hz
          rcases List.mem_cons.1 hz with rfl | hz
          · rintro ⟨s, hs, _⟩; cases hs
          · rintro ⟨s, rfl, hs⟩
            rw [hno _ hz _ rfl] at hs; cases hs) hws2
        simp only [Node.single.injEq] at e4
        subst e4 e5
        exact ⟨Tk ++ tokensList ws, by simp, k3, fieldVal_len h3 hg2.tail k1, hnew⟩
      · intro ocs ho
        obtain ⟨To', f', ocs', g1, g2, gf, g3⟩ := k4 ocs ho
        refine ⟨To', f', ocs', g1, g2, by omega, g3, fun To2 ocs2 hn => ?_⟩
        refine hnew .openCurly To2 _ rfl (cons_new rfl rfl (fun g => ?_) k3)
        cases g with
        | zero => left; rw [parseValue]
        | succ g =>
          rw [parseValue]
          exact (hn g).ok_bind (.refl _)
    · simp at h

end DocParser
end Hocon
