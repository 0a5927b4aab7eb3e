import Verif.DocParser
import Verif.Lemmas.TokenizerWf
import Verif.Lemmas.PathParserLemmas

/-!
# Lemmas about the document parser: text preservation
-/

namespace Hocon
namespace DocParser
open PathParser (Syntax splitDots trimDots pieceTokens splitTokenOnPeriod addUnquoted addUnquotedChar
  addQuoted Elems Elem exprLoop finish parsePathNodeExpression scalarRender)
open Tokenizer (WfTok NoAdjWs)
open Node (tokensList)

/-! ## Key tokens -/

theorem splitDots_join (s : Str) : (splitDots s).flatMap (· ++ ['.']) = s ++ ['.'] := by
  induction s with
  | nil => rfl
  | cons c s ih =>
    rw [splitDots]
    by_cases hc : c = '.'
    · rw [if_pos hc, List.flatMap_cons, ih, hc]; rfl
    · rw [if_neg hc]
      cases h : splitDots s with
      | nil => exact absurd h (PathParser.splitDots_ne_nil s)
      | cons p ps =>
        rw [h, List.flatMap_cons] at ih
        simp only [List.flatMap_cons, List.cons_append]
        rw [ih]

theorem pieceTokens_text (l : Int) (ps : List Str) :
    Tok.textList (pieceTokens .conf l ps) = ps.flatMap (· ++ ['.']) := by
  induction ps with
  | nil => rfl
  | cons p ps ih => simp [pieceTokens, Tok.textList, Tok.text, ih]

theorem pieceTokens_last (fl : Syntax) (l : Int) (ps : List Str) (h : ps ≠ []) :
    ∃ X, pieceTokens fl l ps = X ++ [.unquoted ['.'] l] := by
  induction ps with
  | nil => exact absurd rfl h
  | cons p ps ih =>
    cases ps with
    | nil => exact ⟨[_], rfl⟩
    | cons q ps =>
      obtain ⟨X, hX⟩ := ih (by simp)
      have h2 : ∃ x, pieceTokens fl l (p :: q :: ps)
          = x :: .unquoted ['.'] l :: pieceTokens fl l (q :: ps) := ⟨_, rfl⟩
      obtain ⟨x, h2⟩ := h2
      exact ⟨x :: .unquoted ['.'] l :: X, by rw [h2, hX]; rfl⟩

theorem trimDots_split (s : Str) : ∃ k, s = trimDots s ++ List.replicate k '.' := by
  obtain ⟨w, h1, h2⟩ := PathParser.dropWhile_split (· == '.') s.reverse
  refine ⟨w.length, ?_⟩
  have h3 : w = List.replicate w.length '.' := by
    rw [List.eq_replicate_iff]
    exact ⟨rfl, fun b hb => by simpa using h2 b hb⟩
  have h4 := congrArg List.reverse h1
  rw [List.reverse_reverse, List.reverse_append] at h4
  unfold trimDots
  have h5 : w.reverse = List.replicate w.length '.' := by
    have := congrArg List.reverse h3
    rwa [List.reverse_replicate] at this
  rw [h5] at h4
  exact h4

theorem trimDots_getLast (s : Str) : (trimDots s).getLast? ≠ some '.' := by
  unfold trimDots
  rw [List.getLast?_reverse]
  intro h
  have := List.head?_dropWhile_not (p := (· == '.')) s.reverse
  rw [h] at this
  simp at this

/-- Splitting a key token at periods keeps its text, unless the text ends in two periods. -/
theorem splitToken_text {t : Tok} {ts : List Tok} (h : splitTokenOnPeriod .conf t = .ok ts) :
    Tok.textList ts = t.text ∨ ∃ a, t.text = a ++ ['.', '.'] := by
  unfold splitTokenOnPeriod at h
  simp only at h
  split at h
  · simp only [Res.ok.injEq] at h
    subst h
    left
    simp [Tok.textList]
  · split at h
    · simp at h
    · rename_i c hc
      simp only [Res.ok.injEq] at h
      obtain ⟨k, hk⟩ := trimDots_split t.text
      have hlast := trimDots_getLast t.text
      generalize htd : trimDots t.text = core at *
      obtain ⟨X, hX⟩ := pieceTokens_last .conf (PathParser.tokLine t) (splitDots core)
        (PathParser.splitDots_ne_nil core)
      have htext := pieceTokens_text (PathParser.tokLine t) (splitDots core)
      rw [splitDots_join] at htext
      by_cases hd : c = '.'
      · rw [if_pos hd] at h
        subst h
        rw [htext]
        cases k with
        | zero =>
          simp only [List.replicate_zero, List.append_nil] at hk
          rw [hk, hd] at hc
          exact absurd hc hlast
        | succ k =>
          cases k with
          | zero => left; rw [hk]; rfl
          | succ k =>
            right
            refine ⟨core ++ List.replicate k '.', ?_⟩
            rw [hk, List.append_assoc]
            congr 1
            rw [List.replicate_succ', List.replicate_succ']
            simp
      · rw [if_neg hd] at h
        subst h
        left
        have hk0 : k = 0 := by
          cases k with
          | zero => rfl
          | succ k =>
            rw [hk, List.replicate_succ', ← List.append_assoc, List.getLast?_append] at hc
            simp at hc
            exact absurd hc.symm hd
        subst hk0
        simp only [List.replicate_zero, List.append_nil] at hk
        rw [hX, Tok.textList_append] at htext
        simp only [Tok.textList, Tok.text, List.append_nil] at htext
        rw [hX, List.dropLast_concat, hk]
        exact List.append_cancel_right htext

theorem addUnquoted_done (es : Elems) (s : Str) : ∃ m, (addUnquoted es s).done = es.done ++ m := by
  induction s generalizing es with
  | nil => exact ⟨[], by simp [addUnquoted]⟩
  | cons c s ih =>
    obtain ⟨m, hm⟩ := ih (addUnquotedChar es c)
    have h1 : addUnquoted es (c :: s) = addUnquoted (addUnquotedChar es c) s := rfl
    rw [h1, hm]
    unfold addUnquotedChar
    split
    · exact ⟨es.cur :: m, by simp⟩
    · exact ⟨m, rfl⟩

theorem addUnquoted_twoDots (es : Elems) (a : Str) :
    (⟨[], false⟩ : Elem) ∈ (addUnquoted es (a ++ ['.', '.'])).done := by
  unfold addUnquoted
  rw [List.foldl_append]
  simp [addUnquotedChar]

theorem exprLoop_text {env : Env} {allow ho : Bool} {es es' : Elems} {pt pt' ts : List Tok}
    (h : exprLoop env .conf ho es pt ts = .ok (es', pt')) (hw : ∀ t ∈ ts, WfTok env allow t) :
    (∃ m, es'.done = es.done ++ m) ∧
    ((∀ e ∈ es'.all, e.bad = false) → Tok.textList pt' = Tok.textList pt ++ Tok.textList ts) := by
  induction ts generalizing es pt with
  | nil =>
    simp only [exprLoop, Res.ok.injEq, Prod.mk.injEq] at h
    obtain ⟨rfl, rfl⟩ := h
    exact ⟨⟨[], by simp⟩, fun _ => by simp [Tok.textList]⟩
  | cons t ts ih =>
    have hw' : ∀ x ∈ ts, WfTok env allow x := fun x hx => hw x (List.mem_cons_of_mem _ hx)
    have hwt := hw t (by simp)
    have plain : ∀ es1 : Elems, (∃ m, es1.done = es.done ++ m) →
        exprLoop env .conf ho es1 (pt ++ [t]) ts = .ok (es', pt') →
        (∃ m, es'.done = es.done ++ m) ∧
        ((∀ e ∈ es'.all, e.bad = false) →
          Tok.textList pt' = Tok.textList pt ++ Tok.textList (t :: ts)) := by
      rintro es1 ⟨m1, hm1⟩ h1
      obtain ⟨⟨m, hm⟩, h2⟩ := ih h1 hw'
      refine ⟨⟨m1 ++ m, by rw [hm, hm1]; simp⟩, fun hg => ?_⟩
      rw [h2 hg, Tok.textList_append]
      simp [Tok.textList]
    have split : ∀ (text : Str), t.text = text →
        (splitTokenOnPeriod .conf t >>= fun sp =>
          exprLoop env .conf ho (addUnquoted es text) (pt ++ sp) ts) = .ok (es', pt') →
        (∃ m, es'.done = es.done ++ m) ∧
        ((∀ e ∈ es'.all, e.bad = false) →
          Tok.textList pt' = Tok.textList pt ++ Tok.textList (t :: ts)) := by
      intro text ht h1
      rw [Res.bind_eq_ok] at h1
      obtain ⟨sp, hs, h1⟩ := h1
      obtain ⟨⟨m, hm⟩, h2⟩ := ih h1 hw'
      obtain ⟨m1, hm1⟩ := addUnquoted_done es text
      refine ⟨⟨m1 ++ m, by rw [hm, hm1]; simp⟩, fun hg => ?_⟩
      rw [h2 hg, Tok.textList_append]
      rcases splitToken_text hs with h3 | ⟨a, h3⟩
      · simp [Tok.textList, h3]
      · exfalso
        rw [ht] at h3
        have hbad := addUnquoted_twoDots es a
        rw [← h3] at hbad
        have := hg ⟨[], false⟩ (by
          simp only [Elems.all, List.mem_append]
          left
          rw [hm]
          simp [hbad])
        exact absurd this (by decide)
    rw [exprLoop.eq_def] at h
    simp only at h
    split at h
    · exact plain es ⟨[], by simp⟩ h
    · exact plain _ ⟨[], by simp [addQuoted]⟩ h
    · exact plain es ⟨[], by simp⟩ h
    · rename_i v text l hns
      refine split (scalarRender env v) ?_ h
      cases v <;> first | exact absurd rfl (hns _ _) | exact hwt.1
    · exact split _ rfl h
    · cases ho <;> simp [PathParser.badPath] at h

/-- The tokens stored in a key node have the text of the key expression. -/
theorem pathNode_text {env : Env} {allow ho : Bool} {ts pt : List Tok} {p : Path}
    (h : parsePathNodeExpression env .conf ho ts = .ok (p, pt)) (hw : ∀ t ∈ ts, WfTok env allow t) :
    Tok.textList pt = Tok.textList ts ∧ p ≠ [] := by
  unfold parsePathNodeExpression at h
  split at h
  · cases ho <;> simp [PathParser.badPath] at h
  · rw [Res.bind_eq_ok] at h
    obtain ⟨⟨es, pt1⟩, h1, h⟩ := h
    rw [Res.bind_eq_ok] at h
    obtain ⟨p1, h2, h⟩ := h
    simp only [Res.ok.injEq, Prod.mk.injEq] at h
    obtain ⟨rfl, rfl⟩ := h
    obtain ⟨h3, h4⟩ := PathParser.finish_ok h2
    refine ⟨by simpa [Tok.textList] using (exprLoop_text h1 hw).2 h3, ?_⟩
    rw [h4]
    simp [Elems.all]

theorem keyRun_append (ts : List Tok) : (keyRun ts).1 ++ (keyRun ts).2 = ts := by
  induction ts with
  | nil => rfl
  | cons t ts ih =>
    rw [keyRun.eq_def]
    simp only
    split <;> simp [ih]

theorem parseKey_spec {env : Env} {allow : Bool} {fl : Syntax} {t : Tok} {toks : List Tok} {p : Path}
    {pt toks' : List Tok} (h : parseKey env fl t toks = .ok (p, pt, toks'))
    (hw : ∀ x ∈ t :: toks, WfTok env allow x) :
    ∃ e, e ≠ [] ∧ t :: toks = e ++ toks' ∧ Tok.textList pt = Tok.textList e ∧ p ≠ [] := by
  unfold parseKey at h
  cases fl with
  | json =>
    simp only at h
    split at h
    · rw [Res.bind_eq_ok] at h
      obtain ⟨⟨p1, pt1⟩, h1, h⟩ := h
      simp only [Res.ok.injEq, Prod.mk.injEq] at h
      obtain ⟨rfl, rfl, rfl⟩ := h
      have := pathNode_text (allow := allow) h1 (fun x hx => hw x (by simp at hx; simp [hx]))
      exact ⟨[_], by simp, rfl, this.1, this.2⟩
    · simp at h
  | conf =>
    simp only at h
    have hk := keyRun_append (t :: toks)
    split at h
    · simp at h
    · simp at h
    · rename_i e rest hne1 hne2 heq
      rw [heq] at hk
      rw [Res.bind_eq_ok] at h
      obtain ⟨⟨p1, pt1⟩, h1, h⟩ := h
      simp only [Res.ok.injEq, Prod.mk.injEq] at h
      obtain ⟨rfl, rfl, rfl⟩ := h
      have := pathNode_text (allow := allow) h1
        (fun x hx => hw x (by rw [← hk]; exact List.mem_append_left _ hx))
      refine ⟨e, ?_, hk.symm, this.1, this.2⟩
      rintro rfl
      exact hne1 rfl

/-! ## Whitespace -/

theorem collectNode_tokens {t : Tok} {n : Node} (h : collectNode t = some n) :
    n = .single t ∨ (n = .comment t ∧ ∃ d c l, t = .comment d c l) := by
  unfold collectNode at h
  split at h
  · simp at h; simp [h]
  · simp at h; simp [h]
  · simp at h; simp [h]
  · split at h <;> simp at h
    simp [h]
  · simp at h

/-- A node that is a single whitespace, newline or comment token (or the comma or separator). -/
def Plain (n : Node) : Prop := ∃ t, n = .single t ∨ (n = .comment t ∧ ∃ d c l, t = .comment d c l)

theorem nextCollect_spec {fl : Syntax} {toks : List Tok} {ns : List Node} {t : Tok} {ts : List Tok}
    (h : nextCollect fl toks = .ok (ns, t, ts)) :
    toks = tokensList ns ++ t :: ts ∧ (∀ n ∈ ns, Plain n) ∧ collectNode t = none := by
  induction toks generalizing ns with
  | nil => simp [nextCollect] at h
  | cons x xs ih =>
    rw [nextCollect, Res.bind_eq_ok] at h
    obtain ⟨_, _, h⟩ := h
    split at h
    · rename_i n hn
      rw [Res.bind_eq_ok] at h
      obtain ⟨⟨ns1, t1, ts1⟩, h1, h⟩ := h
      simp only [Res.ok.injEq, Prod.mk.injEq] at h
      obtain ⟨rfl, rfl, rfl⟩ := h
      obtain ⟨g1, g2, g3⟩ := ih h1
      refine ⟨?_, ?_, g3⟩
      · rcases collectNode_tokens hn with rfl | ⟨rfl, _⟩ <;> simp [tokensList, Node.tokens, g1]
      · intro m hm
        rcases List.mem_cons.1 hm with rfl | hm
        · exact ⟨x, collectNode_tokens hn⟩
        · exact g2 m hm
    · rename_i hn
      simp only [Res.ok.injEq, Prod.mk.injEq] at h
      obtain ⟨rfl, rfl, rfl⟩ := h
      exact ⟨rfl, by simp, hn⟩

theorem sepLoop_spec {saw : Bool} {toks : List Tok} {ns : List Node} {b : Bool} {ts : List Tok}
    (h : sepLoop saw toks = .ok (ns, b, ts)) :
    toks = tokensList ns ++ ts ∧ (∀ n ∈ ns, Plain n) := by
  induction toks generalizing ns saw with
  | nil => simp [sepLoop] at h
  | cons x xs ih =>
    rw [sepLoop.eq_def] at h
    simp only at h
    split at h
    · simp only [Res.ok.injEq, Prod.mk.injEq] at h
      obtain ⟨rfl, rfl, rfl⟩ := h
      exact ⟨rfl, by simp [Plain]⟩
    · split at h
      · rename_i n hn
        rw [Res.bind_eq_ok] at h
        obtain ⟨⟨ns1, t1, ts1⟩, h1, h⟩ := h
        simp only [Res.ok.injEq, Prod.mk.injEq] at h
        obtain ⟨rfl, rfl, rfl⟩ := h
        obtain ⟨g1, g2⟩ := ih h1
        refine ⟨?_, ?_⟩
        · rcases collectNode_tokens hn with rfl | ⟨rfl, _⟩ <;> simp [tokensList, Node.tokens, g1]
        · intro m hm
          rcases List.mem_cons.1 hm with rfl | hm
          · exact ⟨x, collectNode_tokens hn⟩
          · exact g2 m hm
      · simp only [Res.ok.injEq, Prod.mk.injEq] at h
        obtain ⟨rfl, rfl, rfl⟩ := h
        exact ⟨rfl, by simp⟩

theorem checkSep_spec {fl : Syntax} {toks : List Tok} {ns : List Node} {b : Bool} {ts : List Tok}
    (h : checkSep fl toks = .ok (ns, b, ts)) :
    toks = tokensList ns ++ ts ∧ (∀ n ∈ ns, Plain n) := by
  cases fl with
  | conf => exact sepLoop_spec h
  | json =>
    simp only [checkSep] at h
    rw [Res.bind_eq_ok] at h
    obtain ⟨⟨ns1, t1, ts1⟩, h1, h⟩ := h
    obtain ⟨g1, g2, g3⟩ := nextCollect_spec h1
    simp only at h
    split at h
    · simp only [Res.ok.injEq, Prod.mk.injEq] at h
      obtain ⟨rfl, rfl, rfl⟩ := h
      refine ⟨by simp [g1, Node.tokensList_append, tokensList, Node.tokens], ?_⟩
      intro n hn
      rcases List.mem_append.1 hn with hn | hn
      · exact g2 n hn
      · simp at hn; subst hn; exact ⟨_, Or.inl rfl⟩
    · simp only [Res.ok.injEq, Prod.mk.injEq] at h
      obtain ⟨rfl, rfl, rfl⟩ := h
      exact ⟨g1, g2⟩

/-! ## Text preservation -/

mutual
/-- No include of the forms `url(...)`, `file(...)`, `classpath(...)` in the tree. -/
def noParen : Node → Bool
  | .single _ => true
  | .comment _ => true
  | .path .. => true
  | .simple _ => true
  | .field cs => noParenList cs
  | .incl cs kind => kind == .heuristic && noParenList cs
  | .object cs => noParenList cs
  | .array cs => noParenList cs
  | .concat cs => noParenList cs
/-- Same for a list of nodes. -/
def noParenList : List Node → Bool
  | [] => true
  | n :: ns => noParen n && noParenList ns
end

theorem noParenList_append (a b : List Node) :
    noParenList (a ++ b) = (noParenList a && noParenList b) := by
  induction a with
  | nil => rfl
  | cons n ns ih => simp [noParenList, ih, Bool.and_assoc]

theorem noParenList_plain {ns : List Node} (h : ∀ n ∈ ns, Plain n) : noParenList ns = true := by
  induction ns with
  | nil => rfl
  | cons n ns ih =>
    obtain ⟨t, rfl | ⟨rfl, _⟩⟩ := h n (by simp) <;>
      simp [noParenList, noParen, ih (fun m hm => h m (by simp [hm]))]

mutual
/-- The comments and the scalar values of a tree. -/
def leaves : Node → List Node
  | .comment t => [.comment t]
  | .simple t => [.simple t]
  | .field cs => leavesList cs
  | .incl cs _ => leavesList cs
  | .object cs => leavesList cs
  | .array cs => leavesList cs
  | .concat cs => leavesList cs
  | .single _ => []
  | .path .. => []
/-- Same for a list of nodes. -/
def leavesList : List Node → List Node
  | [] => []
  | n :: ns => leaves n ++ leavesList ns
end

theorem leavesList_append (a b : List Node) : leavesList (a ++ b) = leavesList a ++ leavesList b := by
  induction a with
  | nil => rfl
  | cons n ns ih => simp [leavesList, ih]

/-- The node of a scalar value or of a comment. -/
def LeafOf (t : Tok) (n : Node) : Prop := n = .simple t ∨ (n = .comment t ∧ ∃ d c l, t = .comment d c l)

theorem leaves_plain {ns : List Node} (h : ∀ n ∈ ns, Plain n) : ∀ n ∈ leavesList ns, ∃ t ∈ tokensList ns, LeafOf t n := by
  induction ns with
  | nil => simp [leavesList]
  | cons n ns ih =>
    intro m hm
    rw [leavesList, List.mem_append] at hm
    rcases hm with hm | hm
    · obtain ⟨t, rfl | ⟨rfl, ht⟩⟩ := h n (by simp)
      · simp [leaves] at hm
      · simp only [leaves, List.mem_singleton] at hm
        exact ⟨t, by simp [tokensList, Node.tokens], Or.inr ⟨hm, ht⟩⟩
    · obtain ⟨t, h1, h2⟩ := ih (fun x hx => h x (by simp [hx])) m hm
      exact ⟨t, by simp [tokensList, h1], h2⟩

/-- The nodes `ns` were built from the tokens between `a` and its suffix `b`. -/
def Built (a : List Tok) (ns : List Node) (b : List Tok) : Prop :=
  ∃ used, a = used ++ b ∧ (Tok.textList (tokensList ns)).Sublist (Tok.textList used) ∧
    (noParenList ns = true → Tok.textList (tokensList ns) = Tok.textList used) ∧
    (noParenList ns = true ∨ '(' ∈ Tok.textList used) ∧ ∀ n ∈ leavesList ns, ∃ t ∈ used, LeafOf t n

theorem Built.nil (a : List Tok) : Built a [] a :=
  ⟨[], rfl, by simp [tokensList], fun _ => rfl, Or.inl rfl, by simp [leavesList]⟩

theorem Built.trans {a b c : List Tok} {ns ms : List Node} (h1 : Built a ns b) (h2 : Built b ms c) :
    Built a (ns ++ ms) c := by
  obtain ⟨u, rfl, g1, g2, g3, g4⟩ := h1
  obtain ⟨v, rfl, k1, k2, k3, k4⟩ := h2
  refine ⟨u ++ v, by simp, ?_, ?_, ?_, ?_⟩
  · rw [Node.tokensList_append, Tok.textList_append, Tok.textList_append]
    exact g1.append k1
  · intro h
    rw [noParenList_append, Bool.and_eq_true] at h
    rw [Node.tokensList_append, Tok.textList_append, Tok.textList_append, g2 h.1, k2 h.2]
  · rw [noParenList_append, Bool.and_eq_true, Tok.textList_append, List.mem_append]
    rcases g3 with g3 | g3
    · rcases k3 with k3 | k3
      · exact Or.inl ⟨g3, k3⟩
      · exact Or.inr (Or.inr k3)
    · exact Or.inr (Or.inl g3)
  · intro n hn
    rw [leavesList_append, List.mem_append] at hn
    rcases hn with hn | hn
    · obtain ⟨t, h1, h2⟩ := g4 n hn
      exact ⟨t, List.mem_append_left _ h1, h2⟩
    · obtain ⟨t, h1, h2⟩ := k4 n hn
      exact ⟨t, List.mem_append_right _ h1, h2⟩

theorem Built.plain {a b : List Tok} {ns : List Node} (h : a = tokensList ns ++ b)
    (hp : ∀ n ∈ ns, Plain n) : Built a ns b :=
  ⟨_, h, List.Sublist.refl _, fun _ => rfl, Or.inl (noParenList_plain hp), leaves_plain hp⟩

theorem Built.token {t : Tok} {b : List Tok} {n : Node} (h : n = .single t ∨ n = .simple t) :
    Built (t :: b) [n] b := by
  rcases h with rfl | rfl
  · exact Built.plain (by simp [tokensList, Node.tokens]) (by simp [Plain])
  · exact ⟨[t], by simp, by simp [tokensList, Node.tokens], by simp [tokensList, Node.tokens],
      Or.inl (by simp [noParenList, noParen]), by simp [leavesList, leaves, LeafOf]⟩

/-- Wrapping the nodes in a composite node. -/
theorem Built.wrap {a b : List Tok} {ns : List Node} {n : Node} (h : Built a ns b)
    (hn : n = .field ns ∨ n = .object ns ∨ n = .array ns ∨ n = .concat ns ∨ n = .incl ns .heuristic) :
    Built a [n] b := by
  obtain ⟨u, h1, h2, h3, h4, h5⟩ := h
  have hl : leavesList [n] = leavesList ns := by
    rcases hn with rfl | rfl | rfl | rfl | rfl <;> simp [leavesList, leaves]
  have hp : noParenList [n] = noParenList ns := by
    rcases hn with rfl | rfl | rfl | rfl | rfl <;> simp [noParenList, noParen]
  have ht : tokensList [n] = tokensList ns := by
    rcases hn with rfl | rfl | rfl | rfl | rfl <;> simp [tokensList, Node.tokens]
  exact ⟨u, h1, by rw [ht]; exact h2, by rw [hp, ht]; exact h3, by rw [hp]; exact h4,
    by rw [hl]; exact h5⟩

theorem Built.suffix {a b : List Tok} {ns : List Node} (h : Built a ns b) : ∃ u, a = u ++ b := by
  obtain ⟨u, h, _⟩ := h; exact ⟨u, h⟩

/-- The values collected by `consolidate_values`. -/
inductive Vals : List Tok → List Node → List Tok → Prop where
  | nil (a : List Tok) : Vals a [] a
  | ws {s : Str} {l : Int} {a b : List Tok} {vs : List Node} (h : Vals a vs b) :
      Vals (.ws s l :: a) (.single (.ws s l) :: vs) b
  | val {a b c : List Tok} {v : Node} {vs : List Node} (hv : v.isValue = true) (hb : Built a [v] b)
      (hl : b.length < a.length) (h : Vals b vs c) : Vals a (v :: vs) c

theorem Vals.built {a b : List Tok} {vs : List Node} (h : Vals a vs b) : Built a vs b := by
  induction h with
  | nil a => exact Built.nil a
  | @ws s l a b vs _ ih =>
    have := (Built.token (t := .ws s l) (b := a) (n := .single (.ws s l)) (Or.inl rfl)).trans ih
    simpa using this
  | val _ hb _ _ ih => simpa using hb.trans ih

theorem Vals.drop_ws {a b : List Tok} {vs : List Node} {t : Tok} (h : Vals a (vs ++ [.single t]) b) :
    Vals a vs (t :: b) ∧ ∃ s l, t = .ws s l := by
  induction vs generalizing a with
  | nil =>
    cases h with
    | ws h =>
      cases h
      exact ⟨Vals.nil _, _, _, rfl⟩
    | val hv _ _ _ => simp [Node.isValue] at hv
  | cons v vs ih =>
    cases h with
    | ws h => exact ⟨Vals.ws (ih h).1, (ih h).2⟩
    | val hv hb hl h => exact ⟨Vals.val hv hb hl (ih h).1, (ih h).2⟩

theorem dropTrailing_spec {a : List Tok} {rev : List Node} {toks : List Tok} {rev' : List Node}
    {toks' : List Tok} (h : Vals a rev.reverse toks) (hd : dropTrailing rev toks = (rev', toks')) :
    Vals a rev'.reverse toks' := by
  induction rev generalizing toks with
  | nil =>
    simp only [dropTrailing, Prod.mk.injEq] at hd
    obtain ⟨rfl, rfl⟩ := hd
    exact h
  | cons n rev ih =>
    rw [dropTrailing] at hd
    split at hd
    · rename_i t ht
      rw [List.reverse_cons] at h
      have hn : n = .single t ∨ n = .comment t := by
        cases n <;> simp [Node.singleToken?] at ht <;> simp [ht]
      rcases hn with rfl | rfl
      · exact ih h.drop_ws.1 hd
      · exfalso
        revert h
        generalize rev.reverse = vs
        intro h
        clear ih hd
        induction vs generalizing a with
        | nil => cases h with | val hv _ _ _ => simp [Node.isValue] at hv
        | cons v vs ih =>
          cases h with
          | ws h => exact ih h
          | val _ _ _ h => exact ih h
    · simp only [Prod.mk.injEq] at hd
      obtain ⟨rfl, rfl⟩ := hd
      exact h

/-- Whitespace nodes only. -/
theorem Vals.only_ws {a b : List Tok} {vs : List Node} (h : Vals a vs b)
    (hc : vs.countP Node.isValue = 0) : a = tokensList vs ++ b ∧ ∀ n ∈ vs, ∃ s l, n = .single (.ws s l) := by
  induction h with
  | nil a => exact ⟨rfl, by simp⟩
  | ws h ih =>
    obtain ⟨h1, h2⟩ := ih (by simpa [Node.isValue] using hc)
    refine ⟨by simp [tokensList, Node.tokens, h1], ?_⟩
    intro n hn
    rcases List.mem_cons.1 hn with rfl | hn
    · exact ⟨_, _, rfl⟩
    · exact h2 n hn
  | val hv _ _ _ _ => simp [hv] at hc

theorem splitSingle_spec {a b : List Tok} {vs : List Node} (h : Vals a vs b) (hn : NoAdjWs a)
    (hb : ∀ s l, b.head? ≠ some (.ws s l)) (hc : vs.countP Node.isValue < 2)
    {pre : List Node} {v : Option Node} {toks : List Tok} (hs : splitSingle vs b = (pre, v, toks)) :
    Built a (pre ++ v.toList) toks ∧ (∀ w, v = some w → w.isValue = true ∧ toks.length < a.length) ∧
      toks.length ≤ a.length ∧ (∀ n ∈ pre, Plain n) := by
  induction h generalizing pre v toks with
  | nil a =>
    simp only [splitSingle, Prod.mk.injEq] at hs
    obtain ⟨rfl, rfl, rfl⟩ := hs
    exact ⟨Built.nil _, by simp, Nat.le_refl _, by simp⟩
  | @ws s l a b vs h ih =>
    rw [splitSingle, if_neg (by simp [Node.isValue])] at hs
    simp only [Prod.mk.injEq] at hs
    obtain ⟨rfl, rfl, rfl⟩ := hs
    obtain ⟨h1, h2, h3, h4⟩ := ih hn.tail hb (by simpa [Node.isValue] using hc) rfl
    refine ⟨?_, ?_, by simp; omega, ?_⟩
    · have := (Built.token (t := .ws s l) (b := a) (n := .single (.ws s l)) (Or.inl rfl)).trans h1
      simpa using this
    · intro w hw
      have := h2 w hw
      exact ⟨this.1, by simp; omega⟩
    · intro n hn
      rcases List.mem_cons.1 hn with rfl | hn
      · exact ⟨_, Or.inl rfl⟩
      · exact h4 n hn
  | @val a b c v vs hv hbu hl h ih =>
    rw [splitSingle, if_pos hv] at hs
    simp only [Prod.mk.injEq] at hs
    obtain ⟨rfl, rfl, rfl⟩ := hs
    rw [List.countP_cons_of_pos hv] at hc
    obtain ⟨h1, h2⟩ := h.only_ws (by omega)
    obtain ⟨u, rfl⟩ := hbu.suffix
    have hput : putBackFrom vs c = b := by
      cases vs with
      | nil => simpa [putBackFrom, tokensList] using h1.symm
      | cons n vs =>
        obtain ⟨s, l, rfl⟩ := h2 n (by simp)
        cases vs with
        | nil => simpa [putBackFrom, tokensList, Node.tokens] using h1.symm
        | cons m vs =>
          obtain ⟨s', l', rfl⟩ := h2 m (by simp)
          exfalso
          refine hn u (tokensList vs ++ c) s l s' l' ?_
          rw [h1]
          simp [tokensList, Node.tokens]
    rw [hput]
    refine ⟨by simpa using hbu, ?_, by omega, by simp⟩
    intro w hw
    simp only [Option.some.injEq] at hw
    subst hw
    exact ⟨hv, hl⟩

theorem consFinish_spec {a : List Tok} {vs : List Node} {t : Tok} {toks : List Tok}
    (h : Vals a vs (t :: toks)) (hn : NoAdjWs a) (ht : ∀ s l, t ≠ .ws s l)
    {pre : List Node} {v : Option Node} {toks' : List Tok}
    (hs : consFinish vs t toks = (pre, v, toks')) :
    Built a (pre ++ v.toList) toks' ∧ (∀ w, v = some w → w.isValue = true ∧ toks'.length < a.length) ∧
      toks'.length ≤ a.length ∧ (∀ n ∈ pre, Plain n) := by
  unfold consFinish at hs
  split at hs
  · rename_i hc
    exact splitSingle_spec h hn (by simpa using ht) hc hs
  · rename_i hc
    cases hd : dropTrailing vs.reverse (t :: toks) with
    | mk rev ts =>
    rw [hd] at hs
    simp only [Prod.mk.injEq] at hs
    obtain ⟨rfl, rfl, rfl⟩ := hs
    have hv := dropTrailing_spec (rev := vs.reverse) (by rw [List.reverse_reverse]; exact h) hd
    have hb := hv.built
    have hlen : ∀ {a b : List Tok} {vs : List Node}, Vals a vs b →
        b.length ≤ a.length ∧ (vs.countP Node.isValue ≠ 0 → b.length < a.length) := by
      intro a b vs h
      induction h with
      | nil a => simp
      | ws h ih =>
        refine ⟨by simp; omega, fun hc => ?_⟩
        have := ih.2 (by simpa [Node.isValue] using hc)
        simp
        omega
      | val hv hb hl h ih => exact ⟨by omega, fun _ => by omega⟩
    have hcnt : rev.reverse.countP Node.isValue = vs.countP Node.isValue := by
      have : ∀ (rev : List Node) (toks : List Tok),
          (dropTrailing rev toks).1.countP Node.isValue = rev.countP Node.isValue := by
        intro rev
        induction rev with
        | nil => intro _; rfl
        | cons n rev ih =>
          intro toks
          rw [dropTrailing]
          split
          · rename_i t ht
            rw [ih, List.countP_cons_of_neg]
            cases n <;> simp [Node.singleToken?] at ht <;> simp [Node.isValue]
          · rfl
      have h1 := this vs.reverse (t :: toks)
      rw [hd] at h1
      rw [List.countP_reverse, h1, List.countP_reverse]
    have := hlen hv
    have h2 := this.2 (by rw [hcnt]; omega)
    refine ⟨by simpa using hb.wrap (n := .concat rev.reverse) (by simp), ?_, this.1, by simp⟩
    intro w hw
    simp only [Option.some.injEq] at hw
    subst hw
    exact ⟨rfl, h2⟩

/-- The token list satisfies the invariants of tokenizer output. -/
structure Good (env : Env) (allow : Bool) (ts : List Tok) : Prop where
  wf : ∀ t ∈ ts, WfTok env allow t
  adj : NoAdjWs ts

theorem Good.suffix {env : Env} {allow : Bool} {a b : List Tok} (h : Good env allow (a ++ b)) :
    Good env allow b :=
  ⟨fun t ht => h.wf t (List.mem_append_right _ ht), h.adj.suffix⟩

theorem Good.tail {env : Env} {allow : Bool} {t : Tok} {b : List Tok} (h : Good env allow (t :: b)) :
    Good env allow b := Good.suffix (a := [t]) h

theorem Built.good {env : Env} {allow : Bool} {a b : List Tok} {ns : List Node} (h : Built a ns b)
    (hg : Good env allow a) : Good env allow b := by
  obtain ⟨u, rfl⟩ := h.suffix
  exact hg.suffix

theorem Built.le {a b : List Tok} {ns : List Node} (h : Built a ns b) : b.length ≤ a.length := by
  obtain ⟨u, rfl⟩ := h.suffix
  simp

theorem nextToken_spec {fl : Syntax} {toks : List Tok} {t : Tok} {ts : List Tok}
    (h : nextToken fl toks = .ok (t, ts)) : toks = t :: ts := by
  unfold nextToken at h
  split at h
  · simp at h
  · split at h
    · simp only [Res.ok.injEq, Prod.mk.injEq] at h
      obtain ⟨rfl, rfl⟩ := h; rfl
    · split at h
      · split at h
        · simp only [Res.ok.injEq, Prod.mk.injEq] at h
          obtain ⟨rfl, rfl⟩ := h; rfl
        · simp at h
      · simp at h
      · simp only [Res.ok.injEq, Prod.mk.injEq] at h
        obtain ⟨rfl, rfl⟩ := h; rfl

/-- `Built` for `next_token_collecting_whitespace`. -/
theorem nextCollect_built {fl : Syntax} {toks : List Tok} {ns : List Node} {t : Tok} {ts : List Tok}
    (h : nextCollect fl toks = .ok (ns, t, ts)) :
    Built toks ns (t :: ts) ∧ (∀ n ∈ ns, Plain n) ∧ collectNode t = none := by
  obtain ⟨h1, h2, h3⟩ := nextCollect_spec h
  exact ⟨Built.plain h1 h2, h2, h3⟩

theorem parseInclude_spec {t : Tok} {toks : List Tok} {n : Node} {toks' : List Tok}
    (h : parseInclude [.single t] toks = .ok (n, toks')) :
    Built (t :: toks) [n] toks' ∧ toks'.length ≤ toks.length := by
  unfold parseInclude at h
  rw [Res.bind_eq_ok] at h
  obtain ⟨⟨ws, t1, ts1⟩, h1, h⟩ := h
  obtain ⟨b1, hp1, hc1⟩ := nextCollect_built h1
  have b0 : Built (t :: toks) [.single t] toks := Built.token (Or.inl rfl)
  have b01 := b0.trans b1
  simp only at h
  split at h
  · rename_i text l
    split at h
    · simp at h
    · rename_i kind hk
      rw [Res.bind_eq_ok] at h
      obtain ⟨⟨ws2, t2, ts2⟩, h2, h⟩ := h
      obtain ⟨b2, _, _⟩ := nextCollect_built h2
      simp only at h
      split at h
      · rw [Res.bind_eq_ok] at h
        obtain ⟨⟨ws3, t3, ts3⟩, h3, h⟩ := h
        obtain ⟨b3, _, _⟩ := nextCollect_built h3
        simp only at h
        split at h
        · simp only [Res.ok.injEq, Prod.mk.injEq] at h
          obtain ⟨rfl, rfl⟩ := h
          have hb := ((b01.trans (Built.token (n := .single _) (Or.inl rfl))).trans
            b2).trans ((Built.token (n := .simple t2) (by simp)).trans b3)
          have hlen1 := b1.le
          have hlen2 := b2.le
          have hlen3 := b3.le
          simp only [List.length_cons] at hlen1 hlen2 hlen3
          obtain ⟨u, g1, g2, g3, g4, g5⟩ := hb
          refine ⟨⟨u ++ [t3], by rw [g1]; simp, ?_, ?_, ?_, ?_⟩, by omega⟩
          · rw [Tok.textList_append]
            refine List.Sublist.trans ?_ (List.sublist_append_left _ _)
            simpa [tokensList, Node.tokens] using g2
          · intro hp
            have hkind : kind ≠ .heuristic := by
              unfold includeKind at hk
              rintro rfl
              repeat' split at hk
              all_goals simp at hk
            have : (kind == IncludeKind.heuristic) = false := by
              cases kind <;> first | rfl | exact absurd rfl hkind
            simp [noParenList, noParen, this] at hp
          · refine Or.inr ?_
            rw [Tok.textList_append, List.mem_append]
            refine Or.inl (g2.subset ?_)
            have hmem : '(' ∈ Tok.text (.unquoted text l) := by
              unfold includeKind at hk
              repeat' split at hk
              all_goals first | (simp at hk; done) | (simp_all [Tok.text])
            simp [Node.tokensList_append, tokensList, Node.tokens, Tok.textList_append, Tok.textList, hmem]
          · intro x hx
            obtain ⟨y, h1, h2⟩ := g5 x (by simpa [leavesList, leaves] using hx)
            exact ⟨y, List.mem_append_left _ h1, h2⟩
        · simp at h
      · simp at h
  · split at h
    · simp only [Res.ok.injEq, Prod.mk.injEq] at h
      obtain ⟨rfl, rfl⟩ := h
      have hlen1 := b1.le
      simp only [List.length_cons] at hlen1
      have := (b01.trans (Built.token (n := .simple t1) (by simp))).wrap
        (n := .incl ([.single t] ++ ws ++ [.simple t1]) .heuristic) (by simp)
      exact ⟨this, by omega⟩
    · simp at h

/-- The specification of the mutually recursive parser functions at a given fuel. -/
structure ParseSpec (env : Env) (fl : Syntax) (allow : Bool) (f : Nat) : Prop where
  value : ∀ t toks v toks', parseValue env fl f t toks = .ok (v, toks') → Good env allow (t :: toks) →
    Built (t :: toks) [v] toks' ∧ v.isValue = true ∧ toks'.length ≤ toks.length
  loop : ∀ t toks vs t' toks', consLoop env fl f t toks = .ok (vs, t', toks') →
    Good env allow (t :: toks) →
    Vals (t :: toks) vs (t' :: toks') ∧ (∀ s l, t' ≠ .ws s l) ∧ startsValue t' = false
  cons : ∀ toks ns v toks', consolidate env fl f toks = .ok (ns, v, toks') → Good env allow toks →
    Built toks (ns ++ v.toList) toks' ∧
      (∀ w, v = some w → w.isValue = true ∧ toks'.length < toks.length) ∧ (∀ n ∈ ns, Plain n)
  fval : ∀ toks ns v toks', fieldVal env fl f toks = .ok (ns, v, toks') → Good env allow toks →
    Built toks (ns ++ [v]) toks' ∧ v.isValue = true ∧ toks'.length < toks.length ∧
      (∀ n ∈ ns, Plain n)
  field : ∀ t toks p n toks', parseField env fl f t toks = .ok (p, n, toks') →
    Good env allow (t :: toks) → Built (t :: toks) [n] toks' ∧ toks'.length ≤ toks.length ∧ p ≠ []
  obj : ∀ ho ac keys toks ns toks', objectLoop env fl f ho ac keys toks = .ok (ns, toks') →
    Good env allow toks → Built toks ns toks'
  sep : ∀ ho keys toks ns toks', objectSep env fl f ho keys toks = .ok (ns, toks') →
    Good env allow toks → Built toks ns toks'
  arr : ∀ toks n toks', parseArray env fl f toks = .ok (n, toks') →
    Good env allow (.openSquare :: toks) →
    Built (.openSquare :: toks) [n] toks' ∧ n.isValue = true ∧ toks'.length ≤ toks.length
  aloop : ∀ toks ns toks', arrayLoop env fl f toks = .ok (ns, toks') → Good env allow toks →
    Built toks ns toks'

theorem spec_all (env : Env) (fl : Syntax) (allow : Bool) (f : Nat) : ParseSpec env fl allow f := by
  induction f with
  | zero =>
    constructor <;> intros <;>
      simp_all [parseValue, consLoop, consolidate, fieldVal, parseField, objectLoop, objectSep,
        parseArray, arrayLoop]
  | succ f ih =>
    constructor
    · -- parseValue
      intro t toks v toks' h hg
      rw [parseValue.eq_def] at h
      simp only at h
      split at h
      · simp only [Res.ok.injEq, Prod.mk.injEq] at h
        obtain ⟨rfl, rfl⟩ := h
        exact ⟨Built.token (by simp), rfl, Nat.le_refl _⟩
      · simp only [Res.ok.injEq, Prod.mk.injEq] at h
        obtain ⟨rfl, rfl⟩ := h
        exact ⟨Built.token (by simp), rfl, Nat.le_refl _⟩
      · simp only [Res.ok.injEq, Prod.mk.injEq] at h
        obtain ⟨rfl, rfl⟩ := h
        exact ⟨Built.token (by simp), rfl, Nat.le_refl _⟩
      · rw [Res.bind_eq_ok] at h
        obtain ⟨⟨ns, ts1⟩, h1, h⟩ := h
        simp only [Res.ok.injEq, Prod.mk.injEq] at h
        obtain ⟨rfl, rfl⟩ := h
        have hb := ih.obj _ _ _ _ _ _ h1 hg.tail
        refine ⟨?_, rfl, hb.le⟩
        have := (Built.token (t := .openCurly) (b := toks) (n := .single .openCurly) (Or.inl rfl)).trans hb
        exact this.wrap (by simp)
      · exact ih.arr _ _ _ h hg
      · simp at h
    · -- consLoop
      intro t toks vs t' toks' h hg
      rw [consLoop.eq_def] at h
      simp only at h
      split at h
      · rename_i s l
        rw [Res.bind_eq_ok] at h
        obtain ⟨⟨t1, ts1⟩, h1, h⟩ := h
        rw [Res.bind_eq_ok] at h
        obtain ⟨⟨vs1, t2, ts2⟩, h2, h⟩ := h
        simp only [Res.ok.injEq, Prod.mk.injEq] at h
        obtain ⟨rfl, rfl, rfl⟩ := h
        have := nextToken_spec h1
        subst this
        obtain ⟨g1, g2, g3⟩ := ih.loop _ _ _ _ _ h2 hg.tail
        exact ⟨Vals.ws g1, g2, g3⟩
      · rename_i hnws
        split at h
        · rw [Res.bind_eq_ok] at h
          obtain ⟨⟨v, ts0⟩, h0, h⟩ := h
          rw [Res.bind_eq_ok] at h
          obtain ⟨⟨t1, ts1⟩, h1, h⟩ := h
          rw [Res.bind_eq_ok] at h
          obtain ⟨⟨vs1, t2, ts2⟩, h2, h⟩ := h
          simp only [Res.ok.injEq, Prod.mk.injEq] at h
          obtain ⟨rfl, rfl, rfl⟩ := h
          simp only at h1 h2
          have := nextToken_spec h1
          subst this
          obtain ⟨k1, k2, k3⟩ := ih.value _ _ _ _ h0 hg
          obtain ⟨g1, g2, g3⟩ := ih.loop _ _ _ _ _ h2 (k1.good hg)
          refine ⟨Vals.val k2 k1 ?_ g1, g2, g3⟩
          simp only [List.length_cons] at k3 ⊢
          omega
        · rename_i hsv
          simp only [Res.ok.injEq, Prod.mk.injEq] at h
          obtain ⟨rfl, rfl, rfl⟩ := h
          exact ⟨Vals.nil _, hnws, by simpa using hsv⟩
    · -- consolidate
      intro toks ns v toks' h hg
      rw [consolidate.eq_def] at h
      simp only at h
      split at h
      · simp only [Res.ok.injEq, Prod.mk.injEq] at h
        obtain ⟨rfl, rfl, rfl⟩ := h
        exact ⟨Built.nil _, by simp, by simp⟩
      · rw [Res.bind_eq_ok] at h
        obtain ⟨⟨ws, t, ts1⟩, h1, h⟩ := h
        rw [Res.bind_eq_ok] at h
        obtain ⟨⟨vs, t2, ts2⟩, h2, h⟩ := h
        simp only at h2 h
        obtain ⟨b1, p1, _⟩ := nextCollect_built h1
        obtain ⟨g1, g2, g3⟩ := ih.loop _ _ _ _ _ h2 (b1.good hg)
        cases hf : consFinish vs t2 ts2 with
        | mk pre rest =>
        obtain ⟨v1, ts3⟩ := rest
        rw [hf] at h
        simp only [Res.ok.injEq, Prod.mk.injEq] at h
        obtain ⟨rfl, rfl, rfl⟩ := h
        obtain ⟨k1, k2, k3, k4⟩ := consFinish_spec g1 (b1.good hg).adj g2 hf
        have hle := b1.le
        refine ⟨?_, ?_, ?_⟩
        · rw [List.append_assoc]
          exact b1.trans k1
        · intro w hw
          have := k2 w hw
          exact ⟨this.1, by omega⟩
        · intro n hn
          rcases List.mem_append.1 hn with hn | hn
          · exact p1 n hn
          · exact k4 n hn
    · -- fieldVal
      intro toks ns v toks' h hg
      rw [fieldVal, Res.bind_eq_ok] at h
      obtain ⟨⟨ws, v1, ts1⟩, h1, h⟩ := h
      obtain ⟨b1, g1, p1⟩ := ih.cons _ _ _ _ h1 hg
      simp only at h
      split at h
      · simp only [Res.ok.injEq, Prod.mk.injEq] at h
        obtain ⟨rfl, rfl, rfl⟩ := h
        have := g1 _ rfl
        exact ⟨by simpa using b1, this.1, this.2, p1⟩
      · rw [Res.bind_eq_ok] at h
        obtain ⟨⟨ws2, t, ts2⟩, h2, h⟩ := h
        rw [Res.bind_eq_ok] at h
        obtain ⟨⟨v2, ts3⟩, h3, h⟩ := h
        simp only [Res.ok.injEq, Prod.mk.injEq] at h
        obtain ⟨rfl, rfl, rfl⟩ := h
        simp only at h3
        obtain ⟨b2, p2, _⟩ := nextCollect_built h2
        simp only [Option.toList_none, List.append_nil] at b1
        have hg2 := b2.good (b1.good hg)
        obtain ⟨b3, k2, k3⟩ := ih.value _ _ _ _ h3 hg2
        have l1 := b1.le
        have l2 := b2.le
        simp only [List.length_cons] at l2
        refine ⟨(b1.trans b2).trans b3, k2, by omega, ?_⟩
        intro n hn
        rcases List.mem_append.1 hn with hn | hn
        · exact p1 n hn
        · exact p2 n hn
    · -- parseField
      intro t toks p n toks' h hg
      rw [parseField, Res.bind_eq_ok] at h
      obtain ⟨⟨p1, pt, ts1⟩, h1, h⟩ := h
      obtain ⟨e, he, htk, htx, hpne⟩ := parseKey_spec h1 hg.wf
      have bk : Built (t :: toks) [.path p1 pt] ts1 := by
        refine ⟨e, htk, ?_, ?_⟩
        · simp [tokensList, Node.tokens, htx]
        · refine ⟨fun _ => by simp [tokensList, Node.tokens, htx], Or.inl (by simp [noParenList, noParen]),
            by simp [leavesList, leaves]⟩
      have hlk : ts1.length ≤ toks.length := by
        have h3 := congrArg List.length htk
        have h4 := List.length_pos_iff.2 he
        simp only [List.length_cons, List.length_append] at h3
        omega
      rw [Res.bind_eq_ok] at h
      obtain ⟨⟨ws, ak, ts2⟩, h2, h⟩ := h
      obtain ⟨b2, p2, _⟩ := nextCollect_built h2
      have l2 := b2.le
      have hg2 := b2.good (bk.good hg)
      simp only [List.length_cons] at l2
      simp only at h
      split at h
      · rw [Res.bind_eq_ok] at h
        obtain ⟨⟨v, ts3⟩, h3, h⟩ := h
        simp only [Res.ok.injEq, Prod.mk.injEq] at h
        obtain ⟨rfl, rfl, rfl⟩ := h
        obtain ⟨b3, k2, k3⟩ := ih.value _ _ _ _ h3 hg2
        exact ⟨((bk.trans b2).trans b3).wrap (by simp), by omega, hpne⟩
      · split at h
        · rw [Res.bind_eq_ok] at h
          obtain ⟨⟨ws2, v, ts3⟩, h3, h⟩ := h
          simp only [Res.ok.injEq, Prod.mk.injEq] at h
          obtain ⟨rfl, rfl, rfl⟩ := h
          obtain ⟨b3, k2, k3, _⟩ := ih.fval _ _ _ _ h3 hg2.tail
          refine ⟨?_, by omega, hpne⟩
          have := ((bk.trans b2).trans ((Built.token (n := .single ak) (Or.inl rfl)).trans b3))
          exact this.wrap (by simp)
        · simp at h
    · -- objectLoop
      intro ho ac keys toks ns toks' h hg
      rw [objectLoop, Res.bind_eq_ok] at h
      obtain ⟨⟨ws, t, ts1⟩, h1, h⟩ := h
      obtain ⟨b1, _, _⟩ := nextCollect_built h1
      have hg1 := b1.good hg
      simp only at h
      split at h
      · split at h
        · simp at h
        · split at h
          · simp at h
          · simp only [Res.ok.injEq, Prod.mk.injEq] at h
            obtain ⟨rfl, rfl⟩ := h
            exact b1.trans (Built.token (Or.inl rfl))
      · split at h
        · simp only [Res.ok.injEq, Prod.mk.injEq] at h
          obtain ⟨rfl, rfl⟩ := h
          exact b1
        · split at h
          · rw [Res.bind_eq_ok] at h
            obtain ⟨⟨inc, ts2⟩, h2, h⟩ := h
            rw [Res.bind_eq_ok] at h
            obtain ⟨⟨ns1, ts3⟩, h3, h⟩ := h
            simp only [Res.ok.injEq, Prod.mk.injEq] at h
            obtain ⟨rfl, rfl⟩ := h
            have b2 := (parseInclude_spec h2).1
            have b3 := ih.sep _ _ _ _ _ h3 (b2.good hg1)
            simpa using b1.trans (b2.trans b3)
          · rw [Res.bind_eq_ok] at h
            obtain ⟨⟨p, fld, ts2⟩, h2, h⟩ := h
            rw [Res.bind_eq_ok] at h
            obtain ⟨keys', h4, h⟩ := h
            rw [Res.bind_eq_ok] at h
            obtain ⟨⟨ns1, ts3⟩, h3, h⟩ := h
            simp only [Res.ok.injEq, Prod.mk.injEq] at h
            obtain ⟨rfl, rfl⟩ := h
            have b2 := (ih.field _ _ _ _ _ h2 hg1).1
            have b3 := ih.sep _ _ _ _ _ h3 (b2.good hg1)
            simpa using b1.trans (b2.trans b3)
    · -- objectSep
      intro ho keys toks ns toks' h hg
      rw [objectSep, Res.bind_eq_ok] at h
      obtain ⟨⟨ws, sep, ts1⟩, h1, h⟩ := h
      have b1 := Built.plain (checkSep_spec h1).1 (checkSep_spec h1).2
      simp only at h
      split at h
      · rw [Res.bind_eq_ok] at h
        obtain ⟨⟨ns1, ts2⟩, h2, h⟩ := h
        simp only [Res.ok.injEq, Prod.mk.injEq] at h
        obtain ⟨rfl, rfl⟩ := h
        exact b1.trans (ih.obj _ _ _ _ _ _ h2 (b1.good hg))
      · rw [Res.bind_eq_ok] at h
        obtain ⟨⟨ws2, t, ts2⟩, h2, h⟩ := h
        obtain ⟨b2, _, _⟩ := nextCollect_built h2
        simp only at h
        split at h
        · split at h
          · simp only [Res.ok.injEq, Prod.mk.injEq] at h
            obtain ⟨rfl, rfl⟩ := h
            exact (b1.trans b2).trans (Built.token (Or.inl rfl))
          · simp at h
        · split at h
          · simp at h
          · simp only [Res.ok.injEq, Prod.mk.injEq] at h
            obtain ⟨rfl, rfl⟩ := h
            exact b1.trans b2
        · simp at h
    · -- parseArray
      intro toks n toks' h hg
      rw [parseArray, Res.bind_eq_ok] at h
      obtain ⟨⟨ws, v, ts1⟩, h1, h⟩ := h
      obtain ⟨b1, g1, _⟩ := ih.cons _ _ _ _ h1 hg.tail
      have b0 : Built (.openSquare :: toks) [.single .openSquare] toks := Built.token (Or.inl rfl)
      have l1 := b1.le
      simp only at h
      split at h
      · rw [Res.bind_eq_ok] at h
        obtain ⟨⟨ns, ts2⟩, h2, h⟩ := h
        simp only [Res.ok.injEq, Prod.mk.injEq] at h
        obtain ⟨rfl, rfl⟩ := h
        have b2 := ih.aloop _ _ _ h2 (b1.good hg.tail)
        have l2 := b2.le
        refine ⟨?_, rfl, by omega⟩
        have := (b0.trans (b1.trans b2))
        exact this.wrap (by simp)
      · rw [Res.bind_eq_ok] at h
        obtain ⟨⟨ws2, t, ts2⟩, h2, h⟩ := h
        obtain ⟨b2, _, _⟩ := nextCollect_built h2
        have l2 := b2.le
        simp only [List.length_cons] at l2
        simp only [Option.toList_none, List.append_nil] at b1
        have hg2 := b2.good (b1.good hg.tail)
        simp only at h
        split at h
        · simp only [Res.ok.injEq, Prod.mk.injEq] at h
          obtain ⟨rfl, rfl⟩ := h
          refine ⟨?_, rfl, by omega⟩
          have := (b0.trans (b1.trans (b2.trans (Built.token (n := .single .closeSquare) (Or.inl rfl)))))
          exact this.wrap (by simp)
        · split at h
          · rw [Res.bind_eq_ok] at h
            obtain ⟨⟨v1, ts3⟩, h3, h⟩ := h
            rw [Res.bind_eq_ok] at h
            obtain ⟨⟨ns, ts4⟩, h4, h⟩ := h
            simp only [Res.ok.injEq, Prod.mk.injEq] at h
            obtain ⟨rfl, rfl⟩ := h
            obtain ⟨b3, _, l3⟩ := ih.value _ _ _ _ h3 hg2
            have b4 := ih.aloop _ _ _ h4 (b3.good hg2)
            have l4 := b4.le
            simp only at l4 l3
            refine ⟨?_, rfl, by omega⟩
            have := b0.trans (b1.trans (b2.trans (b3.trans b4)))
            exact this.wrap (by simp)
          · simp at h
    · -- arrayLoop
      intro toks ns toks' h hg
      rw [arrayLoop, Res.bind_eq_ok] at h
      obtain ⟨⟨ws, sep, ts1⟩, h1, h⟩ := h
      have b1 := Built.plain (checkSep_spec h1).1 (checkSep_spec h1).2
      have hg1 := b1.good hg
      simp only at h
      split at h
      · rw [Res.bind_eq_ok] at h
        obtain ⟨⟨ws2, v, ts2⟩, h2, h⟩ := h
        obtain ⟨b2, g2, _⟩ := ih.cons _ _ _ _ h2 hg1
        have hg2 := b2.good hg1
        simp only at h
        split at h
        · rw [Res.bind_eq_ok] at h
          obtain ⟨⟨ns1, ts3⟩, h3, h⟩ := h
          simp only [Res.ok.injEq, Prod.mk.injEq] at h
          obtain ⟨rfl, rfl⟩ := h
          have b3 := ih.aloop _ _ _ h3 hg2
          simpa using b1.trans (b2.trans b3)
        · simp only [Option.toList_none, List.append_nil] at b2
          rw [Res.bind_eq_ok] at h
          obtain ⟨⟨ws3, t, ts3⟩, h3, h⟩ := h
          obtain ⟨b3, _, _⟩ := nextCollect_built h3
          have hg3 := b3.good hg2
          simp only at h
          split at h
          · rw [Res.bind_eq_ok] at h
            obtain ⟨⟨v1, ts4⟩, h4, h⟩ := h
            rw [Res.bind_eq_ok] at h
            obtain ⟨⟨ns1, ts5⟩, h5, h⟩ := h
            simp only [Res.ok.injEq, Prod.mk.injEq] at h
            obtain ⟨rfl, rfl⟩ := h
            have b4 := (ih.value _ _ _ _ h4 hg3).1
            have b5 := ih.aloop _ _ _ h5 (b4.good hg3)
            simpa using b1.trans (b2.trans (b3.trans (b4.trans b5)))
          · split at h
            · rw [Res.bind_eq_ok] at h
              obtain ⟨⟨ns1, ts4⟩, h4, h⟩ := h
              simp only [Res.ok.injEq, Prod.mk.injEq] at h
              obtain ⟨rfl, rfl⟩ := h
              have b4 := ih.aloop _ _ _ h4 hg3
              simpa using b1.trans (b2.trans (b3.trans b4))
            · simp at h
      · rw [Res.bind_eq_ok] at h
        obtain ⟨⟨ws2, t, ts2⟩, h2, h⟩ := h
        obtain ⟨b2, _, _⟩ := nextCollect_built h2
        simp only at h
        split at h
        · simp only [Res.ok.injEq, Prod.mk.injEq] at h
          obtain ⟨rfl, rfl⟩ := h
          exact (b1.trans b2).trans (Built.token (Or.inl rfl))
        · simp at h

end DocParser
end Hocon
