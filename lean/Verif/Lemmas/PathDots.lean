import Verif.Lemmas.DocEditLemmas
import Verif.Lemmas.DocParserLemmas

/-!
# The periods of a parsed path

The tokens of a path node contain one period less than the path has elements.
-/

set_option autoImplicit false

namespace Hocon
namespace DocEdit
open PathParser
open Tokenizer (WfTok)

theorem splitDots_length (s : Str) : (splitDots s).length = s.count '.' + 1 := by
  induction s with
  | nil => rfl
  | cons c s ih =>
    rw [splitDots]
    by_cases hc : c = '.'
    · rw [if_pos hc, hc]
      simp [ih]
    · rw [if_neg hc]
      cases h : splitDots s with
      | nil => exact absurd h (splitDots_ne_nil s)
      | cons p ps =>
        rw [h] at ih
        simp only [List.length_cons] at ih ⊢
        rw [List.count_cons_of_ne (by simpa using hc)]
        exact ih

theorem splitDots_noDots (s : Str) : ∀ p ∈ splitDots s, '.' ∉ p := by
  induction s with
  | nil => simp [splitDots]
  | cons c s ih =>
    rw [splitDots]
    by_cases hc : c = '.'
    · rw [if_pos hc]
      intro p hp
      rcases List.mem_cons.1 hp with rfl | hp
      · simp
      · exact ih p hp
    · rw [if_neg hc]
      cases h : splitDots s with
      | nil => exact absurd h (splitDots_ne_nil s)
      | cons q ps =>
        rw [h] at ih
        intro p hp
        rcases List.mem_cons.1 hp with rfl | hp
        · have := ih q (by simp)
          simp only [List.mem_cons, not_or]
          exact ⟨fun h => hc h.symm, this⟩
        · exact ih p (by simp [hp])

theorem pieceTokens_dots (fl : Syntax) (l : Int) (ps : List Str) (h : ∀ p ∈ ps, '.' ∉ p) :
    dots (pieceTokens fl l ps) = ps.length := by
  induction ps with
  | nil => rfl
  | cons p ps ih =>
    have hp : p ≠ ['.'] := by
      intro he
      exact h p (by simp) (by rw [he]; simp)
    have ih' := ih fun q hq => h q (by simp [hq])
    simp only [dots] at ih' ⊢
    cases fl <;> simp [pieceTokens, Tok.isDot, ih', hp]

theorem addUnquoted_length (es : Elems) (s : Str) :
    (addUnquoted es s).done.length = es.done.length + s.count '.' := by
  induction s generalizing es with
  | nil => simp [addUnquoted]
  | cons c s ih =>
    have h1 : addUnquoted es (c :: s) = addUnquoted (addUnquotedChar es c) s := rfl
    rw [h1, ih]
    unfold addUnquotedChar
    by_cases hc : c = '.'
    · rw [if_pos hc, hc]
      simp
      omega
    · rw [if_neg hc, List.count_cons_of_ne (by simpa using hc)]

theorem splitToken_dots {fl : Syntax} {t : Tok} {ts : List Tok} (h : splitTokenOnPeriod fl t = .ok ts)
    (ht : t.text = ['.'] → t.isDot = true) :
    dots ts = t.text.count '.' ∨ ∃ a, t.text = a ++ ['.', '.'] := by
  unfold splitTokenOnPeriod at h
  simp only at h
  split at h
  · rename_i hd
    simp only [Res.ok.injEq] at h
    subst h
    left
    rw [hd]
    simp [dots, ht hd]
  · split at h
    · simp at h
    · rename_i c hc
      simp only [Res.ok.injEq] at h
      obtain ⟨k, hk⟩ := DocParser.trimDots_split t.text
      have hlast := DocParser.trimDots_getLast t.text
      generalize htd : trimDots t.text = core at *
      obtain ⟨X, hX⟩ := DocParser.pieceTokens_last fl (PathParser.tokLine t) (splitDots core)
        (PathParser.splitDots_ne_nil core)
      have hcount := pieceTokens_dots fl (PathParser.tokLine t) (splitDots core) (splitDots_noDots core)
      rw [splitDots_length] at hcount
      by_cases hd : c = '.'
      · rw [if_pos hd] at h
        subst h
        rw [hcount]
        cases k with
        | zero =>
          simp only [List.replicate_zero, List.append_nil] at hk
          rw [hk, hd] at hc
          exact absurd hc hlast
        | succ k =>
          cases k with
          | zero => left; rw [hk]; simp
          | succ k =>
            right
            refine ⟨core ++ List.replicate k '.', ?_⟩
            rw [hk, List.append_assoc]
            congr 1
            rw [List.replicate_succ', List.replicate_succ']
            simp
      · rw [if_neg hd] at h
        subst h
        left
        have hk0 : k = 0 := by
          cases k with
          | zero => rfl
          | succ k =>
            rw [hk, List.replicate_succ', ← List.append_assoc, List.getLast?_append] at hc
            simp at hc
            exact absurd hc.symm hd
        subst hk0
        simp only [List.replicate_zero, List.append_nil] at hk
        rw [hX, List.dropLast_concat, hk]
        rw [hX] at hcount
        simp only [dots, List.countP_append, List.countP_cons, List.countP_nil, Tok.isDot] at hcount ⊢
        simp only [decide_true, if_true] at hcount
        omega

theorem exprLoop_done {env : Env} {ho : Bool} {fl : Syntax} {es es' : Elems} {pt pt' ts : List Tok}
    (h1 : exprLoop env fl ho es pt ts = .ok (es', pt')) : ∃ m, es'.done = es.done ++ m := by
  induction ts generalizing es pt with
  | nil =>
    simp only [exprLoop, Res.ok.injEq, Prod.mk.injEq] at h1
    obtain ⟨rfl, rfl⟩ := h1
    exact ⟨[], by simp⟩
  | cons u ts ih2 =>
    rw [exprLoop.eq_def] at h1
    simp only at h1
    split at h1
    · exact ih2 h1
    · obtain ⟨m, hm⟩ := ih2 h1
      exact ⟨m, by rw [hm]; rfl⟩
    · exact ih2 h1
    · rename_i v _ _ _
      rw [Res.bind_eq_ok] at h1
      obtain ⟨sp, hs, h1⟩ := h1
      obtain ⟨m, hm⟩ := ih2 h1
      obtain ⟨m1, hm1⟩ := DocParser.addUnquoted_done es (scalarRender env v)
      exact ⟨m1 ++ m, by rw [hm, hm1]; simp⟩
    · rename_i text _
      rw [Res.bind_eq_ok] at h1
      obtain ⟨sp, hs, h1⟩ := h1
      obtain ⟨m, hm⟩ := ih2 h1
      obtain ⟨m1, hm1⟩ := DocParser.addUnquoted_done es text
      exact ⟨m1 ++ m, by rw [hm, hm1]; simp⟩
    · cases ho <;> simp [PathParser.badPath] at h1

theorem exprLoop_dots {env : Env} {allow ho : Bool} {fl : Syntax} {es es' : Elems} {pt pt' ts : List Tok}
    (h : exprLoop env fl ho es pt ts = .ok (es', pt')) (hw : ∀ t ∈ ts, WfTok env allow t)
    (hd : dots pt = es.done.length) :
    (∃ m, es'.done = es.done ++ m) ∧
    ((∀ e ∈ es'.all, e.bad = false) → dots pt' = es'.done.length) := by
  induction ts generalizing es pt with
  | nil =>
    simp only [exprLoop, Res.ok.injEq, Prod.mk.injEq] at h
    obtain ⟨rfl, rfl⟩ := h
    exact ⟨⟨[], by simp⟩, fun _ => hd⟩
  | cons t ts ih =>
    have hw' : ∀ x ∈ ts, WfTok env allow x := fun x hx => hw x (List.mem_cons_of_mem _ hx)
    have hwt := hw t (by simp)
    have split : ∀ (text : Str), t.text = text → (t.text = ['.'] → t.isDot = true) →
        (splitTokenOnPeriod fl t >>= fun sp =>
          exprLoop env fl ho (addUnquoted es text) (pt ++ sp) ts) = .ok (es', pt') →
        (∃ m, es'.done = es.done ++ m) ∧
        ((∀ e ∈ es'.all, e.bad = false) → dots pt' = es'.done.length) := by
      intro text ht hdt h1
      rw [Res.bind_eq_ok] at h1
      obtain ⟨sp, hs, h1⟩ := h1
      rcases splitToken_dots hs hdt with h3 | ⟨a, h3⟩
      · obtain ⟨⟨m, hm⟩, h2⟩ := ih h1 hw' (by
          rw [addUnquoted_length, ← ht, ← h3, ← hd]
          simp [dots])
        obtain ⟨m1, hm1⟩ := DocParser.addUnquoted_done es text
        exact ⟨⟨m1 ++ m, by rw [hm, hm1]; simp⟩, h2⟩
      · have hdone := exprLoop_done h1
        obtain ⟨m, hm⟩ := hdone
        obtain ⟨m1, hm1⟩ := DocParser.addUnquoted_done es text
        refine ⟨⟨m1 ++ m, by rw [hm, hm1]; simp⟩, fun hg => ?_⟩
        exfalso
        rw [ht] at h3
        have hbad := DocParser.addUnquoted_twoDots es a
        rw [← h3] at hbad
        have := hg ⟨[], false⟩ (by
          simp only [Elems.all, List.mem_append]
          left
          rw [hm]
          simp [hbad])
        exact absurd this (by decide)
    rw [exprLoop.eq_def] at h
    simp only at h
    split at h
    · exact ih h hw' (by simpa [dots, Tok.isDot] using hd)
    · have := ih h hw' (by simpa [dots, Tok.isDot, addQuoted] using hd)
      exact this
    · exact ih h hw' (by simpa [dots, Tok.isDot] using hd)
    · rename_i v text l hns
      have h1 : text = scalarRender env v ∧ text ≠ ['.'] := by
        cases v <;> first | exact absurd rfl (hns _ _) | exact ⟨hwt.1, hwt.2.2⟩
      exact split (scalarRender env v) h1.1 (fun h => absurd h h1.2) h
    · exact split _ rfl (fun h => by simpa [Tok.isDot, Tok.text] using h) h
    · cases ho <;> simp [PathParser.badPath] at h

/-- The path and the tokens of a path node fit together. -/
theorem pathNode_dots {env : Env} {allow ho : Bool} {fl : Syntax} {ts pt : List Tok} {p : Path}
    (h : parsePathNodeExpression env fl ho ts = .ok (p, pt)) (hw : ∀ t ∈ ts, WfTok env allow t) :
    p ≠ [] ∧ dots pt + 1 = p.length := by
  unfold parsePathNodeExpression at h
  split at h
  · cases ho <;> simp [PathParser.badPath] at h
  · rw [Res.bind_eq_ok] at h
    obtain ⟨⟨es, pt1⟩, h1, h⟩ := h
    rw [Res.bind_eq_ok] at h
    obtain ⟨p1, h2, h⟩ := h
    simp only [Res.ok.injEq, Prod.mk.injEq] at h
    obtain ⟨rfl, rfl⟩ := h
    obtain ⟨h3, h4⟩ := PathParser.finish_ok h2
    have h5 := (exprLoop_dots h1 hw rfl).2 h3
    rw [h4]
    refine ⟨by simp [Elems.all], ?_⟩
    rw [h5]
    simp [Elems.all]

theorem parsePathNode_dots {env : Env} {fl : Syntax} {s : Str} {pt : List Tok} {p : Path}
    (h : parsePathNode env fl s = .ok (p, pt)) : p ≠ [] ∧ dots pt + 1 = p.length := by
  unfold parsePathNode at h
  rw [Res.bind_eq_ok] at h
  obtain ⟨toks, h1, h⟩ := h
  exact pathNode_dots h fun t ht => (Tokenizer.tokenize_wf h1).1 t (List.mem_of_mem_tail ht)

end DocEdit
end Hocon
