import Verif.Lemmas.JsonEdit
import Verif.Lemmas.JsonPath
import Verif.Lemmas.DocInsert

/-!
# Adding to a JSON document
-/

set_option autoImplicit false

namespace Hocon
namespace JsonAdd

open Spec DocParser JsonParse JsonEdit JsonPath
open JsonLex (JA JK NumLex)
open Node (renderList tokensList)
open PathParser (Syntax)
open DocEdit
open Lines (renderList_append)

section
variable {env : Env} {N : Str → Scalar → Prop}

/-! ### The place of a new member -/

theorem blank_tok {n : Node} {w : List Node} (hw : Bl w) (hn : n ∈ w) :
    n.isField = false ∧ n.hasTok Tok.isCloseCurly = false ∧ n.hasTok Tok.isComma = false := by
  obtain ⟨t, rfl, ht⟩ := hw n hn
  cases t <;> simp [Wt] at ht <;> exact ⟨rfl, rfl, rfl⟩

theorem skip_rev {sl : Bool} {new : Node} {r : List Node} (hw : Bl r) (done rest : List Node) :
    insertLoop .json true sl new done (r ++ rest) = insertLoop .json true sl new (r.reverse ++ done) rest := by
  induction r generalizing done with
  | nil => rfl
  | cons n r ih =>
    obtain ⟨h1, h2, _⟩ := blank_tok hw (n := n) (by simp)
    rw [List.cons_append, insertLoop.eq_def]
    simp only [h1, h2, Bool.and_false, Bool.false_and, Bool.false_eq_true, if_false]
    rw [ih (fun m hm => hw m (by simp [hm]))]
    simp

theorem skip_blank {sl : Bool} {new : Node} {w : List Node} (hw : Bl w) (done rest : List Node) :
    insertLoop .json true sl new done (w.reverse ++ rest) = insertLoop .json true sl new (w ++ done) rest := by
  have := skip_rev (sl := sl) (new := new) (r := w.reverse) (fun n hn => hw n (by simpa using hn)) done rest
  simpa using this

/-- The closing brace: the new member goes in front of it, and of some of the whitespace before it. -/
theorem close_step {sl : Bool} {new : Node} {w : List Node} (hw : Bl w) {x : Node} (rest : List Node)
    (hx1 : x.hasTok Tok.isNewline = false) (hx2 : x.hasTok Tok.isWs = false) :
    ∃ w1 w2, w = w1 ++ w2 ∧ insertLoop .json true sl new [] (.single .closeCurly :: (w.reverse ++ x :: rest))
      = insertLoop .json true sl new (w1 ++ new :: (w2 ++ [.single .closeCurly])) (x :: rest) := by
  have hc : (Node.single .closeCurly).hasTok Tok.isCloseCurly = true := rfl
  have hf : Node.isField (.single .closeCurly) = false := rfl
  have hsplit : ∀ w1 w2 : List Node, w = w1 ++ w2 →
      insertLoop .json true sl new (new :: (w2 ++ [.single .closeCurly])) (w1.reverse ++ x :: rest)
      = insertLoop .json true sl new (w1 ++ new :: (w2 ++ [.single .closeCurly])) (x :: rest) := by
    intro w1 w2 e
    exact skip_blank (fun n hn => hw n (by rw [e]; simp [hn])) _ _
  rw [insertLoop.eq_def]
  simp only [hf, hc, Bool.and_false, Bool.false_and, Bool.false_eq_true, if_false, Bool.and_true, if_true]
  rcases List.eq_nil_or_concat w with rfl | ⟨w', p, rfl⟩
  · refine ⟨[], [], rfl, ?_⟩
    simp [hx1, hx2]
  · rw [List.concat_eq_append] at *
    rw [List.reverse_append, List.reverse_singleton, List.singleton_append]
    simp only [List.cons_append]
    by_cases hn : p.hasTok Tok.isNewline = true
    · refine ⟨w', [p], rfl, ?_⟩
      rw [if_pos hn]
      exact hsplit w' [p] rfl
    · rw [if_neg hn]
      by_cases hs : p.hasTok Tok.isWs = true
      · rw [if_pos hs]
        rcases List.eq_nil_or_concat w' with rfl | ⟨w'', b, rfl⟩
        · simp only [List.reverse_nil, List.nil_append]
          by_cases h : sl = true
          · refine ⟨[], [p], rfl, ?_⟩
            rw [if_pos h]
            exact hsplit [] [p] rfl
          · refine ⟨[p], [], rfl, ?_⟩
            rw [if_neg h, if_neg (by simp [hx1])]
            exact hsplit [p] [] rfl
        · rw [List.concat_eq_append] at *
          rw [List.reverse_append, List.reverse_singleton, List.singleton_append]
          simp only [List.cons_append]
          by_cases h : sl = true
          · refine ⟨w'' ++ [b], [p], rfl, ?_⟩
            rw [if_pos h]
            simpa using hsplit (w'' ++ [b]) [p] rfl
          · rw [if_neg h]
            by_cases hb : b.hasTok Tok.isNewline = true
            · refine ⟨w'', [b, p], by simp, ?_⟩
              rw [if_pos hb]
              exact hsplit w'' [b, p] (by simp)
            · refine ⟨w'' ++ [b] ++ [p], [], by simp, ?_⟩
              rw [if_neg hb]
              simpa using hsplit (w'' ++ [b] ++ [p]) [] (by simp)
      · refine ⟨w' ++ [p], [], by simp, ?_⟩
        rw [if_neg hs]
        simpa using hsplit (w' ++ [p]) [] (by simp)

/-- A new member of an object without members. -/
theorem insert_first {sl : Bool} {new : Node} {w : List Node} (hw : Bl w) :
    ∃ w1 w2, w = w1 ++ w2 ∧ insertNew .json sl new (.single .openCurly :: (w ++ [.single .closeCurly]))
      = .ok (.single .openCurly :: (w1 ++ new :: (w2 ++ [.single .closeCurly]))) := by
  obtain ⟨w1, w2, e, h⟩ := close_step (sl := sl) (new := new) hw (x := .single .openCurly) [] rfl rfl
  refine ⟨w1, w2, e, ?_⟩
  rw [insertNew, insertBase, if_pos (by simp)]
  rw [show (Node.single Tok.openCurly :: (w ++ [.single .closeCurly])).reverse
    = .single .closeCurly :: (w.reverse ++ [.single .openCurly]) by simp]
  simp only [startsWithBrace, if_true]
  rw [h, insertLoop.eq_def]
  simp only
  rw [if_neg (by simp [Node.isField]), if_neg (by simp [Node.hasTok, Node.singleToken?, Tok.isCloseCurly])]
  rfl

/-- A new member behind the last one. -/
theorem insert_last {sl : Bool} {new : Node} (hnew : new.hasTok Tok.isComma = false) {a w fc : List Node} (hw : Bl w) :
    ∃ w1 w2, w = w1 ++ w2 ∧ insertNew .json sl new (.single .openCurly :: (a ++ .field fc :: (w ++ [.single .closeCurly])))
      = .ok (.single .openCurly :: (a ++ .field fc :: .single .comma :: (w1 ++ new :: (w2 ++ [.single .closeCurly])))) := by
  obtain ⟨w1, w2, e, h⟩ := close_step (sl := sl) (new := new) hw (x := .field fc) (a.reverse ++ [.single .openCurly]) rfl rfl
  refine ⟨w1, w2, e, ?_⟩
  rw [insertNew, insertBase, if_pos (by simp)]
  rw [show (Node.single Tok.openCurly :: (a ++ .field fc :: (w ++ [.single .closeCurly]))).reverse
    = .single .closeCurly :: (w.reverse ++ .field fc :: (a.reverse ++ [.single .openCurly])) by simp]
  simp only [startsWithBrace, if_true]
  rw [h, insertLoop.eq_def]
  have hsc : startsWithComma (w1 ++ new :: (w2 ++ [.single .closeCurly])) = false := by
    cases w1 with
    | nil => exact hnew
    | cons n w1 => exact (blank_tok hw (n := n) (by rw [e]; simp)).2.2
  simp only
  rw [if_pos (by rw [hsc]; rfl)]
  simp

/-! ### The members of an object -/

/-- The last member. -/
theorem Sh.last (fs : List (Str × Value)) : ∀ {f : Str × Value} {ns : List Node}, Sh (JA env N) (JK env) (.obj (f :: fs)) ns →
    ∃ a fc w, ns = a ++ .field fc :: (w ++ [.single .closeCurly]) ∧ Bl w ∧
      ∀ gs t, Txt env N (.objT gs) t → Txt env N (.obj (f :: fs ++ gs)) (renderList (a ++ [.field fc]) ++ t) := by
  induction fs with
  | nil =>
    intro f ns h
    cases h with
    | @objCons w w2 w3 ns n k text q line v _ hw hk h2 h3 hv hns =>
      cases hns with
      | @objTNil w' hw' =>
        refine ⟨w, _, w', rfl, hw', fun gs t ht => ?_⟩
        have hv' : JText env N (.value v) n.render := by simpa [Txt, renderList, tokensList, Node.render] using Sh.text hv
        obtain ⟨rfl, kt, rfl, hkt⟩ := hk
        have := Txt.objCons (bl_text hw) hkt (bl_text h2) (bl_text h3) hv' ht
        rw [renderList_append, render_cons, field_text]
        simpa [renderList, tokensList, Tok.textList] using this
  | cons g fs ih =>
    intro f ns h
    cases h with
    | @objCons w w2 w3 ns n k text q line v _ hw hk h2 h3 hv hns =>
      cases hns with
      | @objTCons w' ns' _ _ hw' hns' =>
        obtain ⟨a, fc, wl, rfl, hwl, ht'⟩ := ih hns'
        refine ⟨w ++ .field (.path [k] [.value (.str k q) text line] :: (w2 ++ .single .colon :: (w3 ++ [n]))) ::
          (w' ++ .single .comma :: a), fc, wl, by simp, hwl, fun gs t ht => ?_⟩
        have hv' : JText env N (.value v) n.render := by simpa [Txt, renderList, tokensList, Node.render] using Sh.text hv
        obtain ⟨rfl, kt, rfl, hkt⟩ := hk
        have := Txt.objCons (bl_text hw) hkt (bl_text h2) (bl_text h3) hv' (Txt.objTCons (bl_text hw') (ht' gs t ht))
        simp only [renderList_append, List.append_assoc, List.cons_append, render_cons, field_text]
        simpa [renderList_append, render_cons, renderList, tokensList, Node.tokensList_append, Node.tokens, Tok.textList,
          Tok.textList_append, Tok.text, Node.render] using this

/-- One member. -/
theorem Sh.member (pre : List (Str × Value)) : ∀ {k : Str} {v : Value} {post : List (Str × Value)} {ns : List Node},
    Sh (JA env N) (JK env) (.obj (pre ++ (k, v) :: post)) ns →
    ∃ a b fa ts n, ns = a ++ .field (fa ++ [n]) :: b ∧ Sh (JA env N) (JK env) (.value v) [n] ∧
      (∀ m ∈ fa, m.isValue = false) ∧ (∀ m, Node.fieldPath (fa ++ [m]) = .ok ([k], ts)) ∧
      (k ∉ keysOf pre → ∀ p, ¬ Occurs a (k :: p)) ∧ (k ∉ keysOf post → ∀ p, ¬ Occurs b (k :: p)) ∧
      ∀ v' t, JText env N (.value v') t → Txt env N (.obj (pre ++ (k, v') :: post))
        (renderList a ++ (renderList fa ++ (t ++ renderList b))) := by
  induction pre with
  | nil =>
    intro k v post ns h
    cases h with
    | @objCons w w2 w3 ns n _ text q line _ _ hw hk h2 h3 hv hns =>
      refine ⟨w, ns, .path [k] [.value (.str k q) text line] :: (w2 ++ .single .colon :: w3), [.value (.str k q) text line], n,
        by simp, hv, ?_, fun m => rfl, fun _ p => Bl.occurs hw _, fun hk p => Sh.occurs hns post (.inr rfl) k p hk, fun v' t ht => ?_⟩
      · intro m hm
        simp only [List.mem_cons, List.mem_append] at hm
        rcases hm with rfl | hm | rfl | hm
        · rfl
        · obtain ⟨t, rfl, _⟩ := h2 m hm; rfl
        · rfl
        · obtain ⟨t, rfl, _⟩ := h3 m hm; rfl
      · obtain ⟨rfl, kt, rfl, hkt⟩ := hk
        have := Txt.objCons (bl_text hw) hkt (bl_text h2) (bl_text h3) ht (Sh.text hns)
        simpa [renderList_append, render_cons, renderList, tokensList, Node.tokensList_append, Node.tokens, Tok.textList,
          Tok.textList_append, Tok.text, Node.render] using this
  | cons f pre ih =>
    intro k v post ns h
    cases h with
    | @objCons w w2 w3 ns n k' text q line v' _ hw hk h2 h3 hv hns =>
      obtain ⟨f2, fs2, hfs⟩ : ∃ f2 fs2, pre ++ (k, v) :: post = f2 :: fs2 := by cases pre <;> exact ⟨_, _, rfl⟩
      change Sh (JA env N) (JK env) (.objT (pre ++ (k, v) :: post)) ns at hns
      rw [hfs] at hns
      cases hns with
      | @objTCons w' ns' _ _ hw' hns' =>
        rw [← hfs] at hns'
        obtain ⟨a, b, fa, ts, n', rfl, g1, g2, g3, g4, g5, g6⟩ := ih hns'
        refine ⟨w ++ .field (.path [k'] [.value (.str k' q) text line] :: (w2 ++ .single .colon :: (w3 ++ [n]))) ::
          (w' ++ .single .comma :: a), b, fa, ts, n', by simp, g1, g2, g3, ?_, g5, fun v1 t ht => ?_⟩
        · intro hk' p ho
          simp only [keysOf, List.map_cons, List.mem_cons, not_or] at hk'
          rcases Occurs.append.1 ho with h | h
          · exact Bl.occurs hw _ h
          rw [← List.singleton_append] at h
          rcases Occurs.append.1 h with h | h
          · exact occurs_field (by simpa using hk'.1) (by simp) h
          rcases Occurs.append.1 h with h | h
          · exact Bl.occurs hw' _ h
          rw [← List.singleton_append] at h
          rcases Occurs.append.1 h with h | h
          · exact occurs_tok _ _ h
          · exact g4 hk'.2 p h
        · have hv' : JText env N (.value v') n.render := by simpa [Txt, renderList, tokensList, Node.render] using Sh.text hv
          obtain ⟨rfl, kt, rfl, hkt⟩ := hk
          have h6 := g6 v1 t ht
          obtain ⟨f3, fs3, hfs3⟩ : ∃ f2 fs2, pre ++ (k, v1) :: post = f2 :: fs2 := by cases pre <;> exact ⟨_, _, rfl⟩
          rw [hfs3] at h6
          have h7 := Txt.objTCons (bl_text hw') h6
          rw [← hfs3] at h7
          have := Txt.objCons (bl_text hw) hkt (bl_text h2) (bl_text h3) hv' h7
          simpa [renderList_append, render_cons, renderList, tokensList, Node.tokensList_append, Node.tokens, Tok.textList,
            Tok.textList_append, Tok.text, Node.render] using this

/-! ### The indentation -/

theorem indentScan_mem {seen : Bool} {cs : List Node} {n : Node} {b : Bool} (h : indentScan seen cs = (some n, b)) :
    n ∈ cs ∧ n.hasTok Tok.isWs = true := by
  induction cs generalizing seen with
  | nil => simp [indentScan] at h
  | cons m cs ih =>
    rw [indentScan] at h
    split at h
    · obtain ⟨h1, h2⟩ := ih h
      exact ⟨.tail _ h1, h2⟩
    · split at h
      · rename_i hc
        simp only [Prod.mk.injEq, Option.some.injEq] at h
        obtain ⟨rfl, _⟩ := h
        simp only [Bool.and_eq_true] at hc
        exact ⟨.head _, hc.1⟩
      · obtain ⟨h1, h2⟩ := ih h
        exact ⟨.tail _ h1, h2⟩

theorem mem_deep_self {n : Node} {cs : List Node} (h : n ∈ cs) : n ∈ deep cs := by
  induction cs with
  | nil => cases h
  | cons m cs ih =>
    rw [DocEdit.deep]
    rcases List.mem_cons.1 h with rfl | h
    · cases n <;> simp [below]
    · exact List.mem_append.2 (.inr (ih h))

theorem Sh.ends {A : Scalar → Str → Prop} {K : Str → Bool → Str → Prop} {kd : Kind} {ns : List Node} (h : Sh A K kd ns) :
    ∀ fs, kd = .obj fs ∨ kd = .objT fs → ∃ a, ns = a ++ [.single .closeCurly] := by
  induction h with
  | scalar | array | object | arrNil | arrCons | arrTNil | arrTCons => rintro _ (h | h) <;> cases h
  | objNil hw | objTNil hw => intro _ _; exact ⟨_, rfl⟩
  | objCons _ _ _ _ _ _ _ ih =>
    intro _ _
    obtain ⟨a, rfl⟩ := ih _ (.inr rfl)
    exact ⟨_, by rw [← List.cons_append, ← List.append_assoc]⟩
  | objTCons _ _ ih =>
    intro _ _
    obtain ⟨a, rfl⟩ := ih _ (.inl rfl)
    exact ⟨_, by rw [← List.cons_append, ← List.append_assoc]⟩

/-- The indentation ends with whitespace. -/
theorem indentation_json {fs : List (Str × Value)} {ns : List Node} (h : Sh (JA env N) (JK env) (.obj fs) ns) :
    ∃ pre s l, indentation (.single .openCurly :: ns) = pre ++ [.single (.ws s l)] ∧ Bl pre ∧ JWs s := by
  have hws : ∀ n ∈ (Node.single Tok.openCurly :: ns), n.hasTok Tok.isWs = true → ∃ s l, n = .single (.ws s l) ∧ JWs s := by
    intro n hn hw
    rcases List.mem_cons.1 hn with rfl | hn
    · cases hw
    · exact Sh.deep h n (mem_deep_self hn) hw
  have hline : Bl [lineNode] := Bl.one (t := .newline (-1)) trivial
  rw [indentation, if_neg (by simp)]
  split
  · rename_i w _ e
    obtain ⟨hm, hw⟩ := indentScan_mem e
    obtain ⟨s, l, rfl, hs⟩ := hws w hm hw
    exact ⟨[lineNode], s, l, rfl, hline, hs⟩
  · exact ⟨[], [' '], -1, rfl, Bl.nil, by simp [JWs, JBlank]⟩
  · obtain ⟨a, rfl⟩ := Sh.ends h fs (.inl rfl)
    have hc : endsWithClose (.single .openCurly :: (a ++ [.single .closeCurly])) = true := by
      rw [endsWithClose, ← List.cons_append, List.getLast?_append]
      rfl
    rw [if_pos hc]
    refine ⟨[lineNode], _, _, rfl, hline, jws_append ?_ (by simp [JWs, JBlank])⟩
    rw [lastIndent]
    split
    · rename_i x y z e
      split
      · rename_i hw
        obtain ⟨s, l, rfl, hs⟩ := hws y (by rw [← List.mem_reverse, e]; simp) hw
        simpa [Node.render, Node.tokens, Tok.textList, Tok.text] using hs
      · intro c hc; cases hc
    · intro c hc; cases hc

theorem prepare_json {fs : List (Str × Value)} {ns : List Node} (h : Sh (JA env N) (JK env) (.obj fs) ns) {v : Value} {n : Node}
    (hv : Sh (JA env N) (JK env) (.value v) [n]) :
    ∃ ind iv sl, prepare (.single .openCurly :: ns) n = .ok (ind, iv, sl) ∧ Bl ind ∧ ind ≠ [] ∧
      Sh (JA env N) (JK env) (.value v) [iv] := by
  obtain ⟨pre, s, l, e, hpre, hs⟩ := indentation_json h
  have hind : Bl (pre ++ [.single (.ws s l)]) := Bl.append hpre (Bl.one (t := .ws s l) hs)
  have hlast : (pre ++ [Node.single (.ws s l)]).getLast? = some (.single (.ws s l)) := by
    rw [List.getLast?_append]; rfl
  obtain ⟨n', hn', hsn⟩ := Sh.indent (l := l) hs hv n rfl
  rw [prepare, e, indentedNew, hlast]
  simp only
  split
  · rw [hn']
    exact ⟨_, _, _, rfl, hind, by simp, hsn⟩
  · exact ⟨_, _, _, rfl, hind, by simp, hv⟩

/-! ### The new member -/

theorem grown_wrap {s s' : Str} (h : Grown env N s s') (X Y : Str) : Grown env N (X ++ (s ++ Y)) (X ++ (s' ++ Y)) := by
  obtain ⟨A, w, m, B, f, rfl, hw, hm, h⟩ := h
  refine ⟨X ++ A, w, m, B ++ Y, f, by simp, hw, hm, ?_⟩
  rcases h with rfl | rfl
  · left; simp
  · right; simp

theorem newField_text {ind : List Node} {k : Str} {toks : List Tok} {v : Node} :
    (newField ind (.path [k] toks) v).render
      = renderList ind ++ Tok.textList toks ++ ch " " ++ ':' :: ch " " ++ v.render := by
  simp [newField, Node.render, Node.tokens, tokensList, Node.tokensList_append, renderList, wsNode,
    Tok.textList, Tok.textList_append, Tok.text]

/-- A new member put into an object. -/
theorem insert_json {sl : Bool} {fs : List (Str × Value)} {ns : List Node} (h : Sh (JA env N) (JK env) (.obj fs) ns)
    {ind : List Node} (hi : Bl ind) {k kt : Str} {toks : List Tok} (hk : JChars env kt k)
    (ht : Tok.textList toks = '"' :: kt ++ ['"']) {n : Node} {x : Value} (hx : JText env N (.value x) n.render) :
    ∃ ns', insertNew .json sl (newField ind (.path [k] toks) n) (.single .openCurly :: ns) = .ok (.single .openCurly :: ns') ∧
      Grown env N (renderList ns) (renderList ns') ∧ Txt env N (.obj (fs ++ [(k, x)])) (renderList ns') := by
  have hb : JWs (ch " ") := by simp [JWs, JBlank]
  have hnt := newField_text (ind := ind) (k := k) (toks := toks) (v := n)
  rw [ht] at hnt
  generalize hnew : newField ind (.path [k] toks) n = new at hnt ⊢
  have hnc : new.hasTok Tok.isComma = false := by subst hnew; rfl
  have hm : JText env N (.members [(k, x)]) new.render := by
    have := JText.member (bl_text hi) hk hb hb hx (w4 := []) (by simp [JWs])
    rw [hnt]
    simpa using this
  have hobj : ∀ w1 w2 : Str, JWs w1 → JWs w2 → Txt env N (.obj [(k, x)]) (w1 ++ (new.render ++ (w2 ++ ['}']))) := by
    intro w1 w2 h1 h2
    have := Txt.objCons (jws_append h1 (bl_text hi)) hk hb hb hx (u := w2 ++ ['}']) (fs := []) ⟨w2, h2, .inl ⟨rfl, rfl⟩⟩
    rw [hnt]
    simpa using this
  have hcl : renderList [Node.single Tok.closeCurly] = ['}'] := rfl
  cases fs with
  | nil =>
    cases h with
    | @objNil w hw =>
      obtain ⟨w1, w2, rfl, e⟩ := insert_first (sl := sl) (new := new) hw
      refine ⟨_, e, ⟨[], renderList w1, new.render, renderList w2 ++ ['}'], _, ?_, bl_text fun m hm => hw m (by simp [hm]), hm, .inl ?_⟩, ?_⟩
      · simp [renderList_append, hcl]
      · simp [renderList_append, render_cons, hcl]
      · have := hobj (renderList w1) (renderList w2) (bl_text fun m hm => hw m (by simp [hm])) (bl_text fun m hm => hw m (by simp [hm]))
        simpa [renderList_append, render_cons, hcl] using this
  | cons f fs =>
    obtain ⟨a, fc, w, rfl, hw, hfill⟩ := Sh.last fs h
    obtain ⟨w1, w2, rfl, e⟩ := insert_last (sl := sl) hnc (a := a) (fc := fc) hw
    refine ⟨_, e, ⟨renderList (a ++ [.field fc]), renderList w1, new.render, renderList w2 ++ ['}'], _, ?_,
      bl_text fun m hm => hw m (by simp [hm]), hm, .inr ?_⟩, ?_⟩
    · simp [renderList_append, render_cons, hcl]
      simp [renderList, tokensList, Tok.textList]
    · simp [renderList_append, render_cons, hcl]
      simp [renderList, tokensList, Tok.textList, Node.render, Node.tokens, Tok.text]
    · have h1 := hobj (renderList w1) (renderList w2) (bl_text fun m hm => hw m (by simp [hm])) (bl_text fun m hm => hw m (by simp [hm]))
      have := hfill _ _ (Txt.objTCons (w := []) (by simp [JWs]) h1)
      simpa [renderList_append, render_cons, renderList, tokensList, Node.tokensList_append, Node.tokens, Tok.textList,
          Tok.textList_append, Tok.text, Node.render] using this

theorem build_json (rest : Path) : ∀ {k : Str} {toks : List Tok} {fs : List (Str × Value)} {ns : List Node} {ind : List Node}
    {sl : Bool} {v : Value} {iv : Node}, Keys env (k :: rest) toks → Sh (JA env N) (JK env) (.obj fs) ns → Bl ind → ind ≠ [] →
    Sh (JA env N) (JK env) (.value v) [iv] →
    ∃ ns', buildNew .json iv ind sl (.single .openCurly :: ns) (k :: rest) toks = .ok (.single .openCurly :: ns') ∧
      Grown env N (renderList ns) (renderList ns') ∧ Txt env N (.obj (fs ++ [(k, nest rest v)])) (renderList ns') := by
  induction rest with
  | nil =>
    intro k toks fs ns ind sl v iv hk h hi _ hv
    obtain ⟨kt, h1, h2, h3⟩ := hk.one
    have hv' : JText env N (.value v) iv.render := by simpa [Txt, renderList, tokensList, Node.render] using Sh.text hv
    obtain ⟨ns', e, g⟩ := insert_json (sl := sl) h hi h1 h2 hv'
    refine ⟨ns', ?_, g⟩
    rw [buildNew, h3]
    · exact e
    · rintro _ _ _ ⟨⟩
  | cons k2 rest ih =>
    intro k toks fs ns ind sl v iv hk h hi hine hv
    obtain ⟨kt, pre, toks', h1, h2, h3, h4, h5⟩ := hk.split
    have hno : newObjectNodes ind = .single .openCurly :: (ind ++ [.single .closeCurly]) := by
      rw [newObjectNodes, if_neg (by simpa using hine)]
      simp
    have hsh : Sh (JA env N) (JK env) (.obj []) (ind ++ [.single .closeCurly]) := .objNil hi
    obtain ⟨ind', iv', sl', e1, hi', hine', hv'⟩ := prepare_json hsh hv
    obtain ⟨ocs, e2, _, ht⟩ := ih (sl := sl') h5 hsh hi' hine' hv'
    have hobj : JText env N (.value (nest (k2 :: rest) v)) (Node.object (.single .openCurly :: ocs)).render := by
      have := ht.object (by simp [keysOf])
      simpa [Node.render, Node.tokens, tokensList, renderList, Tok.textList, Tok.text, nest] using this
    obtain ⟨ns', e, g⟩ := insert_json (sl := sl) h hi h1 h2 hobj
    refine ⟨ns', ?_, g⟩
    rw [buildNew, h3, Res.ok_bind, h4, Res.ok_bind, hno, e1]
    simp only [Res.ok_bind]
    rw [e2]
    exact e

theorem Appended.keys {v : Value} {fs fs' : List (Str × Value)} {p : Path} (h : Appended v fs p fs') (hn : (keysOf fs).Nodup) :
    (keysOf fs').Nodup ∧ p ≠ [] := by
  cases h with
  | here hk =>
    refine ⟨?_, by simp⟩
    rw [keysOf, List.map_append, List.nodup_append]
    refine ⟨hn, by simp, ?_⟩
    intro a ha b hb
    simp at hb
    subst hb
    rintro rfl
    exact hk ha
  | inside => exact ⟨by simpa [keysOf] using hn, by simp⟩

/-- Adding to the nodes of an object. -/
theorem ins_json {v : Value} {fs fs' : List (Str × Value)} {p : Path} (ha : Appended v fs p fs') :
    ∀ {toks : List Tok} {ns : List Node} {vn : Node}, Keys env p toks → Sh (JA env N) (JK env) (.obj fs) ns → (keysOf fs).Nodup →
      Sh (JA env N) (JK env) (.value v) [vn] →
      ∃ ns', Ins .json vn (.single .openCurly :: ns) p toks (.single .openCurly :: ns') ∧
        Grown env N (renderList ns) (renderList ns') ∧ Txt env N (.obj fs') (renderList ns') := by
  induction ha with
  | @here k p fs hk =>
    intro toks ns vn hkeys h hn hv
    obtain ⟨ind, iv, sl, e1, hi, hine, hiv⟩ := prepare_json h hv
    obtain ⟨ns', e2, g⟩ := build_json p (sl := sl) hkeys h hi hine hiv
    refine ⟨ns', .here ?_ e1 e2, g⟩
    intro ho
    rw [← List.singleton_append] at ho
    rcases Occurs.append.1 ho with ho | ho
    · exact occurs_tok _ _ ho
    · exact Sh.occurs h fs (.inl rfl) k [] hk ho
  | @inside k p fs fs1 gs gs' ha ih =>
    intro toks ns vn hkeys h hn hv
    obtain ⟨ind, iv, sl, e1, _⟩ := prepare_json h hv
    obtain ⟨a, b, fa, ts, n, rfl, g1, g2, g3, g4, g5, g6⟩ := Sh.member fs h
    obtain ⟨ocs, rfl, hocs, hgn⟩ : ∃ ocs, n = .object (.single .openCurly :: ocs) ∧ Sh (JA env N) (JK env) (.obj gs) ocs ∧
        (keysOf gs).Nodup := by
      cases g1 with
      | object h1 h2 => exact ⟨_, rfl, h1, h2⟩
    obtain ⟨k2, p, rfl⟩ : ∃ k2 p', p = k2 :: p' := by
      cases p with
      | nil => exact absurd rfl (Appended.keys ha hgn).2
      | cons a b => exact ⟨_, _, rfl⟩
    obtain ⟨toks', hsub, hkeys'⟩ := hkeys.sub
    obtain ⟨ocs', i1, i2, i3⟩ := ih hkeys' hocs hgn hv
    have hn' : k ∉ keysOf fs ∧ k ∉ keysOf fs1 := by
      simp only [keysOf, List.map_append, List.map_cons, List.nodup_append, List.nodup_cons] at hn
      refine ⟨fun h => hn.2.2 k h k (by simp) rfl, hn.2.1.1⟩
    have hobj : JText env N (.value (.obj gs' true false)) (Node.object (.single .openCurly :: ocs')).render := by
      have := i3.object (Appended.keys ha hgn).1
      simpa [Node.render, Node.tokens, tokensList, renderList, Tok.textList, Tok.text] using this
    have hins := Ins.inside (fl := .json) (v := vn) (a := .single .openCurly :: a) (b := b) (fa := fa) (fb := []) (k := k) (rem := k2 :: p)
      (toks := toks) (toks' := toks') (ts := ts) (ocs := .single .openCurly :: ocs) (ocs' := .single .openCurly :: ocs')
      (by simp) (fun ho => by
        rw [← List.singleton_append] at ho
        rcases Occurs.append.1 ho with ho | ho
        · exact occurs_tok _ _ ho
        · exact g4 hn'.1 _ ho) (g5 hn'.2 []) (g3 _) g2 hsub ⟨_, e1⟩ i1
    refine ⟨a ++ .field (fa ++ [.object (.single .openCurly :: ocs')]) :: b, by simpa using hins, ?_, ?_⟩
    · have := grown_wrap i2 (renderList a ++ renderList fa ++ ['{']) (renderList b)
      simpa [renderList_append, render_cons, renderList, tokensList, Node.tokensList_append, Node.tokens, Tok.textList,
          Tok.textList_append, Tok.text, Node.render] using this
    · have := g6 _ _ hobj
      simpa [renderList_append, render_cons, renderList, tokensList, Node.tokensList_append, Node.tokens, Tok.textList,
          Tok.textList_append, Tok.text, Node.render] using this

/-! ### Documents -/

/-- The nodes of a JSON document, with their text. -/
theorem doc_json (hN : NumLex env N) (hx : HexOk env) (fl : Syntax) {fs : List (Str × Value)} {w1 t w2 : Str}
    (h1 : JWs w1) (h : JText env N (.value (.obj fs true false)) t) (h2 : JWs w2) :
    ∃ q1 ns q2, Doc.parse env fl (w1 ++ t ++ w2) = .ok ⟨q1 ++ .object (.single .openCurly :: ns) :: q2, fl⟩ ∧ Bl q1 ∧ Bl q2 ∧
      Sh (JA env N) (JK env) (.obj fs) ns ∧ (keysOf fs).Nodup ∧
      w1 ++ t ++ w2 = renderList q1 ++ ['{'] ++ renderList ns ++ renderList q2 := by
  have hroot : t.head? = some '{' ∨ t.head? = some '[' := by cases h <;> simp
  obtain ⟨q1, node, q2, hdoc, hq1, hq2, _, hs⟩ := JsonAccept.json_nodes env hN hx fl _ w1 t w2 h1 h h2 hroot
  obtain ⟨ns, rfl, hns, hn⟩ : ∃ ns, node = .object (.single .openCurly :: ns) ∧ Sh (JA env N) (JK env) (.obj fs) ns ∧
      (keysOf fs).Nodup := by
    cases hs with
    | object h hg => exact ⟨_, rfl, h, hg⟩
  refine ⟨q1, ns, q2, by rw [Doc.parse, hdoc]; simp, hq1, hq2, hns, hn, ?_⟩
  obtain ⟨toks, g1, _, used, rfl, u, g3, _, g5, _⟩ := DocParser.parseDocument_split hdoc
  obtain ⟨pre, vts, post, htok, _, _, _, _, htx⟩ := JsonLex.tokenize_json hN hx (decide (fl = .conf)) h1 h h2
  rw [htok] at g1
  have e1 : pre ++ vts ++ post = used := by
    have : (pre ++ vts ++ post) ++ [Tok.end_] = used ++ [.end_] := by simpa using g1
    exact (List.append_inj' this rfl).1
  have e2 : used = u := (List.append_inj' g3 rfl).1
  have := g5 (by rw [noParenList_append, noParenList_append, Bl.noParen hq1, Bl.noParen hq2, Sh.noParen hs]; rfl)
  rw [← e2, ← e1, htx] at this
  rw [← this]
  simp [renderList, Node.tokensList_append, tokensList, Node.tokens, Tok.textList_append, Tok.textList, Tok.text]

theorem add_json (hN : NumLex env N) (hx : HexOk env) {fs fs' : List (Str × Value)} {w1 t w2 path text : Str}
    {p : Path} {v : Value} (h1 : JWs w1) (h : JText env N (.value (.obj fs true false)) t) (h2 : JWs w2)
    (hp : PathSpelling env p path) (ha : Appended v fs p fs') (hv : JText env N (.value v) text) :
    ∃ d d', Doc.parse env .json (w1 ++ t ++ w2) = .ok d ∧ d.withValueText env path text = .ok d' ∧
      Grown env N (w1 ++ t ++ w2) d'.render ∧
      ∃ w1' t' w2', d'.render = w1' ++ t' ++ w2' ∧ JWs w1' ∧ JText env N (.value (.obj fs' true false)) t' ∧ JWs w2' := by
  obtain ⟨q1, ns, q2, hparse, hq1, hq2, hns, hn, htext⟩ := doc_json hN hx .json h1 h h2
  obtain ⟨pt, hpt, hkeys⟩ := path_keys hx hp
  obtain ⟨toks, vn, htk, hpv, hvs, _⟩ := value_single hN hx .json hv
  have hne : text ≠ [] := by
    intro e
    subst e
    cases hv with
    | num h => obtain ⟨c, b, e, _⟩ := hN _ _ h; cases e
  obtain ⟨ns', hins, hgrown, htxt⟩ := ins_json ha hkeys hns hn hvs
  have hw := withValue_insert (.parsed hparse) hne (findObject_bl hq1) hpt htk hpv hins
  have hr : renderList (q1 ++ .object (.single .openCurly :: ns') :: q2) = renderList q1 ++ ['{'] ++ renderList ns' ++ renderList q2 := by
    simp [renderList, Node.tokensList_append, tokensList, Node.tokens, Tok.textList_append, Tok.textList, Tok.text]
  refine ⟨_, _, hparse, hw, ?_, renderList q1, '{' :: renderList ns', renderList q2, ?_, bl_text hq1,
    htxt.object (Appended.keys ha hn).1, bl_text hq2⟩
  · show Grown env N _ (renderList (q1 ++ .object (.single .openCurly :: ns') :: q2))
    rw [htext, hr]
    simpa using grown_wrap hgrown (renderList q1 ++ ['{']) (renderList q2)
  · show renderList (q1 ++ .object (.single .openCurly :: ns') :: q2) = _
    rw [hr]
    simp

end
end JsonAdd
end Hocon
