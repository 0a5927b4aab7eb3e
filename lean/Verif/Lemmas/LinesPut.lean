import Verif.Lemmas.LinesLex
import Verif.Lemmas.DocPut
import Verif.Lemmas.KeyPath
import Verif.Spec.LinesEdit

/-!
# A new field among the nodes of lines
-/

set_option autoImplicit false

namespace Hocon
namespace Lines

open Spec DocParser HoconParse HoconLex Notes Tokenizer
open DocEdit
open JsonLex (Toks wsPre toks_end)

/-- Whitespace nodes are blanks. -/
def WsBlank (cs : List Node) : Prop := ∀ n ∈ cs, n.hasTok Tok.isWs = true → Blanks n.render

theorem Plain.wsBlank {n : Node} (h : Plain n) (hw : n.hasTok Tok.isWs = true) : Blanks n.render := by
  rw [hasTok_iff] at hw
  obtain ⟨t, h1, h2⟩ := hw
  have hr : n.render = t.text := by
    cases n <;> simp [Node.singleToken?] at h1 <;> subst h1 <;> simp [Node.render, Node.tokens, Tok.textList]
  rw [hr]
  cases t <;> simp [Tok.isWs] at h2
  exact (h _ h1).2.2 _ _ rfl

theorem indentScan_true (cs : List Node) : ∃ o, indentScan true cs = (o, true) ∧
    ∀ n, o = some n → n ∈ cs ∧ n.hasTok Tok.isWs = true := by
  induction cs with
  | nil => exact ⟨none, rfl, by simp⟩
  | cons n cs ih =>
    rw [indentScan]
    simp only [Bool.not_true, Bool.false_eq_true, if_false]
    split
    · rename_i h
      simp only [Bool.and_eq_true] at h
      exact ⟨some n, rfl, by rintro _ ⟨⟩; exact ⟨.head _, h.1⟩⟩
    · obtain ⟨o, h1, h2⟩ := ih
      exact ⟨o, h1, fun m hm => ⟨.tail _ (h2 m hm).1, (h2 m hm).2⟩⟩

theorem indentScan_false {cs : List Node} {l : Int} (hl : Node.single (.newline l) ∈ cs) :
    ∃ o, indentScan false cs = (o, true) ∧ ∀ n, o = some n → n ∈ cs ∧ n.hasTok Tok.isWs = true := by
  induction cs with
  | nil => simp at hl
  | cons n cs ih =>
    rw [indentScan]
    simp only [Bool.not_false, if_true]
    by_cases hn : n.hasTok Tok.isNewline = true
    · rw [hn]
      obtain ⟨o, h1, h2⟩ := indentScan_true cs
      exact ⟨o, h1, fun m hm => ⟨.tail _ (h2 m hm).1, (h2 m hm).2⟩⟩
    · rw [Bool.not_eq_true] at hn
      rw [hn]
      obtain ⟨o, h1, h2⟩ := ih (by
        rcases List.mem_cons.1 hl with rfl | h
        · exact absurd hn (by simp [Node.hasTok, Node.singleToken?, Tok.isNewline])
        · exact h)
      exact ⟨o, h1, fun m hm => ⟨.tail _ (h2 m hm).1, (h2 m hm).2⟩⟩

theorem lastIndent_blanks {cs : List Node} (hb : WsBlank cs) : Blanks (lastIndent cs) := by
  rw [lastIndent]
  split
  · rename_i x y z e
    split
    · rename_i h
      exact hb _ (by rw [← List.mem_reverse, e]; simp) h
    · intro c hc; cases hc
  · intro c hc; cases hc

/-- The indentation of a new setting is a new line with blanks. -/
theorem indentation_line {cs : List Node} (hb : WsBlank cs) {l : Int} (hl : Node.single (.newline l) ∈ cs) :
    ∃ ind w, indentation cs = lineNode :: ind ∧ Node.renderList ind = w ∧ Blanks w := by
  have hne : cs.isEmpty = false := by cases cs with | nil => simp at hl | cons => rfl
  obtain ⟨o, h1, h2⟩ := indentScan_false hl
  rw [indentation, hne, h1]
  cases o with
  | some n =>
    obtain ⟨g1, g2⟩ := h2 n rfl
    exact ⟨[n], n.render, rfl, by simp [Node.renderList, Node.render, Node.tokensList], hb n g1 g2⟩
  | none =>
    simp only [Bool.false_eq_true, if_false]
    split
    · refine ⟨[wsNode (lastIndent cs ++ [' ', ' '])], _, rfl, rfl, ?_⟩
      simp only [Node.renderList, Node.tokensList, Node.tokens, wsNode, Tok.textList, Tok.text, List.append_nil]
      intro c hc
      rcases List.mem_append.1 hc with h | h
      · exact lastIndent_blanks hb c h
      · simp at h
        exact Or.inl h
    · exact ⟨[], [], rfl, rfl, fun c hc => by cases hc⟩

/-- The text of a new setting. -/
theorem newField_text {ind : List Node} {k : Path} {toks : List Tok} {v : Node} :
    (newField (lineNode :: ind) (.path k toks) v).render
      = '\n' :: (Node.renderList ind ++ (Tok.textList toks ++ (ch " : " ++ v.render))) := by
  simp [newField, Node.render, Node.tokens, Node.tokensList, Node.tokensList_append, Node.renderList, lineNode, wsNode,
    Tok.textList, Tok.textList_append, Tok.text]

theorem firstNode_one {k : Str} {toks : List Tok} (hd : dots toks = 0) : firstNode [k] toks = .ok (.path [k] toks) := by
  have : toks.any Tok.isDot = false := by
    rw [dots, List.countP_eq_zero] at hd
    simpa using hd
  rw [firstNode, this]
  rfl

theorem insertLoop_conf {brace : Bool} {new : Node} {todo : List Node}
    (h : ∀ n ∈ todo, n.hasTok Tok.isCloseCurly = false) (done : List Node) :
    insertLoop .conf brace false new done todo = .ok (todo.reverse ++ done) := by
  induction todo generalizing done with
  | nil => rfl
  | cons c rest ih =>
    rw [insertLoop.eq_def]
    simp only
    rw [if_neg (by simp), if_neg (by simp [h c]), ih fun n hn => h n (by simp [hn])]
    simp

theorem plain_notClose {n : Node} (h : Plain n) : n.hasTok Tok.isCloseCurly = false := by
  rw [← Bool.not_eq_true, hasTok_iff]
  rintro ⟨t, h1, h2⟩
  cases t <;> simp [Tok.isCloseCurly] at h2
  exact (h _ h1).2.1 rfl

/-- A new setting at the end of a section. -/
theorem insert_section {new : Node} {m : List Node} {l : Int} {w : List Tok} (hm : ∀ n ∈ m, Plain n) (hw : Ws1 w) :
    insertNew .conf false new (.single .openCurly :: (m ++ .single (.newline l) :: (gn w ++ [.single .closeCurly])))
      = .ok (.single .openCurly :: (m ++ new :: .single (.newline l) :: (gn w ++ [.single .closeCurly]))) := by
  have hn : ∀ n ∈ (Node.single Tok.openCurly :: m).reverse, n.hasTok Tok.isCloseCurly = false := by
    intro n hn
    rw [List.mem_reverse] at hn
    rcases List.mem_cons.1 hn with rfl | hn
    · rfl
    · exact plain_notClose (hm n hn)
  rw [insertNew, insertBase, if_pos (by simp [startsWithBrace])]
  simp only [startsWithBrace, if_true]
  rcases hw with rfl | ⟨a, b, rfl, _⟩
  · rw [show (Node.single Tok.openCurly :: (m ++ .single (.newline l) :: (gn [] ++ [.single .closeCurly]))).reverse
        = .single .closeCurly :: .single (.newline l) :: (Node.single Tok.openCurly :: m).reverse by simp]
    rw [insertLoop.eq_def]
    simp only
    rw [if_neg (by simp), if_pos (by rfl), if_pos (by rfl), insertLoop_conf hn]
    simp
  · rw [show (Node.single Tok.openCurly :: (m ++ .single (.newline l) :: (gn [.ws a b] ++ [.single .closeCurly]))).reverse
        = .single .closeCurly :: .single (.ws a b) :: .single (.newline l) :: (Node.single Tok.openCurly :: m).reverse by
          simp [gn, collectNode]]
    rw [insertLoop.eq_def]
    simp only
    rw [if_neg (by simp), if_pos (by rfl), if_neg (by simp [Node.hasTok, Node.singleToken?, Tok.isNewline]), if_pos (by rfl)]
    rw [if_neg (by simp), if_pos (by rfl), insertLoop_conf hn]
    simp [gn, collectNode]

theorem put_section {m : List Node} {l : Int} {w : List Tok} (hm : ∀ n ∈ m, Plain n) (hw : Ws1 w) {k : Str} {toks : List Tok}
    (hd : dots toks = 0) (v : Node)
    (ho : ¬ Occurs (.single .openCurly :: (m ++ .single (.newline l) :: (gn w ++ [.single .closeCurly]))) [k]) :
    ∃ new w0, Put v (.single .openCurly :: (m ++ .single (.newline l) :: (gn w ++ [.single .closeCurly]))) [k] toks
        (.single .openCurly :: (m ++ new :: .single (.newline l) :: (gn w ++ [.single .closeCurly]))) ∧ Blanks w0 ∧
      new.render = '\n' :: (w0 ++ (Tok.textList toks ++ (ch " : " ++ v.render))) := by
  have hb : WsBlank (.single .openCurly :: (m ++ .single (.newline l) :: (gn w ++ [.single .closeCurly]))) := by
    intro n h hn
    rcases List.mem_cons.1 h with rfl | h
    · cases hn
    rcases List.mem_append.1 h with h | h
    · exact (hm _ h).wsBlank hn
    rcases List.mem_cons.1 h with rfl | h
    · cases hn
    rcases List.mem_append.1 h with h | h
    · rw [gn_bits hw.wts] at h
      exact (plain_map hw.plain _ h).wsBlank hn
    · rw [List.mem_singleton] at h
      subst h
      cases hn
  obtain ⟨ind, w0, h1, h2, h3⟩ := indentation_line hb (l := l) (by simp)
  refine ⟨newField (lineNode :: ind) (.path [k] toks) v, w0, .here ho ?_, h3, by rw [newField_text, h2]⟩
  rw [h1, buildNew, firstNode_one hd]
  · exact insert_section hm hw
  · rintro _ _ _ ⟨⟩

/-- A new setting at the end of a document. -/
theorem put_end {m : List Node} {l : Int} (hm : ∀ n ∈ m, Plain n) {k : Str} {toks : List Tok}
    (hd : dots toks = 0) (v : Node) (ho : ¬ Occurs (m ++ [.single (.newline l)]) [k]) :
    ∃ new w0, Put v (m ++ [.single (.newline l)]) [k] toks (m ++ [new, .single (.newline l)]) ∧ Blanks w0 ∧
      new.render = '\n' :: (w0 ++ (Tok.textList toks ++ (ch " : " ++ v.render))) := by
  have hb : WsBlank (m ++ [.single (.newline l)]) := by
    intro n h hn
    rcases List.mem_append.1 h with h | h
    · exact (hm _ h).wsBlank hn
    · rw [List.mem_singleton] at h
      subst h
      cases hn
  obtain ⟨ind, w0, h1, h2, h3⟩ := indentation_line hb (l := l) (by simp)
  refine ⟨newField (lineNode :: ind) (.path [k] toks) v, w0, .here ho ?_, h3, by rw [newField_text, h2]⟩
  rw [h1, buildNew, firstNode_one hd]
  · have hs : startsWithBrace (m ++ [.single (.newline l)]) = false := by
      cases m with
      | nil => rfl
      | cons n m =>
        rw [List.cons_append, startsWithBrace.eq_def]
        split
        · rename_i e
          cases e
          exact absurd rfl (hm _ (.head _) _ rfl).1
        · rfl
    rw [Res.ok_bind, show sameLineAs (lineNode :: ind) = false from rfl, insertNew, insertBase, hs]
    simp [insertEnd, Node.hasTok, Node.singleToken?, Tok.isNewline]
  · rintro _ _ _ ⟨⟩

/-! ### The tokens of the path -/

/-- `Spell p pt kt`: the tokens `pt` of the path `p`, one element after the other; `kt` is the text of the last. -/
inductive Spell : Path → List Tok → Str → Prop
  | last {k kt : Str} {pt : List Tok} : dots pt = 0 → Tok.textList pt = kt → Spell [k] pt kt
  | cons {k kt : Str} {p : Path} {pt pt' : List Tok} : subTokens 1 0 pt = .ok pt' → Spell p pt' kt → Spell (k :: p) pt kt

theorem spell_pieces (l : Int) (q : Path) (k : Str) (h : ∀ e ∈ q ++ [k], '.' ∉ e) :
    Spell (q ++ [k]) ((PathParser.pieceTokens .conf l (q ++ [k])).dropLast ++ [.end_]) k := by
  have hd : ∀ e : Str, '.' ∉ e → (Tok.unquoted e l).isDot = false := by
    intro e he
    rw [Bool.eq_false_iff]
    intro h
    simp [Tok.isDot] at h
    subst h
    simp at he
  induction q with
  | nil =>
    refine .last ?_ ?_
    · have := hd k (h k (by simp))
      have he : Tok.isDot .end_ = false := rfl
      simp [PathParser.pieceTokens, dots, this, he]
    · simp [PathParser.pieceTokens, Tok.textList, Tok.text]
  | cons e q ih =>
    have he := hd e (h e (by simp))
    refine .cons ?_ (ih fun x hx => h x (by simp at hx ⊢; exact Or.inr hx))
    obtain ⟨a, b, hab⟩ : ∃ a b, q ++ [k] = a :: b := by cases q <;> simp
    rw [List.cons_append, hab, PathParser.pieceTokens, PathParser.pieceTokens]
    have hdot : (Tok.unquoted ['.'] l).isDot = true := rfl
    simp [subTokens, he, hdot]

theorem bare_chars {env : Env} {p : Path} {t : Str} (h : HSegs env p t) (hq : '"' ∉ t) :
    (∀ c ∈ t, WordChar c ∧ c ≠ '/') ∧ t.getLast? ≠ some '.' ∧ t ≠ [] := by
  induction h with
  | bare hne hch =>
    refine ⟨fun c hc => ⟨(hch c hc).1, (hch c hc).2.2⟩, fun h => (hch _ (List.mem_of_getLast? h)).2.1 rfl, hne⟩
  | quoted => simp at hq
  | @bareCons t u p hne hch _ ih =>
    obtain ⟨h1, h2, h3⟩ := ih (by simp at hq; exact hq.2)
    refine ⟨?_, ?_, by simp⟩
    · intro c hc
      rcases List.mem_append.1 hc with hc | hc
      · exact ⟨(hch c hc).1, (hch c hc).2.2⟩
      · rcases List.mem_cons.1 hc with rfl | hc
        · exact ⟨by unfold WordChar; decide, by decide⟩
        · exact h1 c hc
    · obtain ⟨x, hx⟩ : ∃ x, u.getLast? = some x := by
        cases h : u.getLast? with
        | none => simp at h; exact absurd h h3
        | some x => exact ⟨x, rfl⟩
      rw [List.getLast?_append, List.getLast?_cons, hx]
      rw [hx] at h2
      simpa using h2
  | quotedCons => simp at hq

theorem NewPath.spell {env : Env} (hx : HexOk env) {p : Path} {t kt : Str} (h : NewPath env p t kt) {pt : List Tok}
    (hp : PathParser.parsePathNode env .conf t = .ok (p, pt)) : Spell p pt kt := by
  cases h with
  | one hk =>
    refine .last (by simpa using (parsePathNode_dots hp).2) ?_
    unfold PathParser.parsePathNode at hp
    rw [Res.bind_eq_ok] at hp
    obtain ⟨toks, h1, h2⟩ := hp
    have hw := Tokenizer.tokenize_wf h1
    rw [(pathNode_text h2 fun t ht => hw.1 t (List.mem_of_mem_tail ht)).1]
    have g := G.key hx hk (Delim.key Delim.nil) (G.end_ (env := env) (line := 1))
    rw [List.append_nil] at g
    obtain ⟨us, l, hl, _, hp⟩ := g
    obtain ⟨w, hw, hwt, ht⟩ := hp [] Blanks.nil
    have ht := tokenize_of_toks (ht false (fun _ => rfl))
    rw [show (PathParser.Syntax.conf != PathParser.Syntax.json) = true from rfl, ht] at h1
    cases h1
    rw [List.tail_cons, Tok.textList_append, Tok.textList_append, hwt, List.nil_append, hl.2]
    simp [Tok.textList, Tok.text]
  | @bare q _ _ hk hq hkk =>
    obtain ⟨h1, h2, h3⟩ := bare_chars hk.segs hq
    have hnc : HoconLex.NoComment t := by
      refine ⟨?_, ?_⟩
      · rintro ⟨a, b, e⟩
        exact (h1 '/' (by rw [← e]; simp)).2 rfl
      · intro hl
        exact (h1 '/' (List.mem_of_getLast? hl)).2 rfl
    obtain ⟨c, b, e, g1, g2, hpull⟩ := HoconLex.word_pull env h3 (fun c hc => (h1 c hc).1) hnc hk.start
    have hpull := hpull [] 1 (Or.inl rfl)
    have ht := (Step.plain g1 g2 hpull rfl).toks_false (p := []) (toks_end [] true 1)
    rw [List.append_nil, ← e] at ht
    have ht := tokenize_of_toks (ts := [.unquoted t 1]) (by simpa [wsPre] using ht)
    have hsp : PathParser.splitDots t = q ++ [kt] := (KeyPath.segs_split hk.segs hq).symm
    have htr : PathParser.trimDots t = t := by
      obtain ⟨n, hn⟩ := DocParser.trimDots_split t
      cases n with
      | zero => simpa using hn.symm
      | succ n =>
        exfalso
        apply h2
        rw [hn, List.replicate_succ', ← List.append_assoc]
        simp
    have hne : t ≠ ['.'] := by
      rintro rfl
      exact h2 rfl
    have hsplit : PathParser.splitTokenOnPeriod .conf (.unquoted t 1)
        = .ok (PathParser.pieceTokens .conf 1 (q ++ [kt])).dropLast := by
      obtain ⟨x, hx⟩ : ∃ x, t.getLast? = some x := by
        cases h : t.getLast? with
        | none => simp at h; exact absurd h h3
        | some x => exact ⟨x, rfl⟩
      have hxd : x ≠ '.' := fun h => h2 (by rw [hx, h])
      rw [PathParser.splitTokenOnPeriod]
      refine (if_neg hne).trans ?_
      have ht : (Tok.unquoted t 1).text = t := rfl
      simp only [ht, hx, htr, hsp]
      simp [hxd, PathParser.tokLine, Tok.originLine]
    rw [PathParser.parsePathNode, show (PathParser.Syntax.conf != PathParser.Syntax.json) = true from rfl, ht] at hp
    simp only [Res.ok_bind, List.tail_cons, PathParser.parsePathNodeExpression, List.cons_append, List.isEmpty_cons,
      Bool.false_eq_true, if_false, List.nil_append, PathParser.exprLoop] at hp
    rw [hsplit] at hp
    simp only [Res.ok_bind, Res.bind_eq_ok] at hp
    obtain ⟨_, _, hp⟩ := hp
    cases hp
    refine spell_pieces 1 q kt ?_
    intro e he
    rw [← hsp] at he
    exact splitDots_noDots t e he

end Lines
end Hocon
