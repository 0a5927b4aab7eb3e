import Verif.Spec.JsonEdit
import Verif.Lemmas.JsonAccept
import Verif.Lemmas.LinesEdit

/-!
# Editing a JSON document
-/

set_option autoImplicit false

namespace Hocon
namespace JsonEdit

open Spec DocParser JsonParse
open JsonLex (JA JK NumLex)
open Node (renderList tokensList)
open PathParser (Syntax)
open DocEdit (Occurs OnceAt Doc Written indentNode indentList indentField deep below deep_append)
open Lines (renderList_append)

section
variable {env : Env} {N : Str → Scalar → Prop}

/-! ### The text of the nodes -/

theorem jws_append {a b : Str} (ha : JWs a) (hb : JWs b) : JWs (a ++ b) := by
  intro c hc
  rcases List.mem_append.1 hc with h | h
  · exact ha c h
  · exact hb c h

theorem wt_text {t : Tok} (h : Wt t) : JWs t.text := by
  cases t with
  | ws => exact h
  | newline => intro c hc; simp [Tok.text] at hc; subst hc; simp [JBlank]
  | _ => cases h

theorem bl_text {w : List Node} (h : Bl w) : JWs (renderList w) := by
  induction w with
  | nil => intro c hc; simp [renderList, tokensList, Tok.textList] at hc
  | cons n w ih =>
    obtain ⟨t, rfl, ht⟩ := h n (.head _)
    have := jws_append (wt_text ht) (ih fun m hm => h m (.tail _ hm))
    simpa [renderList, tokensList, Node.tokens, Tok.textList] using this

/-- Whitespace can be added in front. -/
theorem elems_ws {w t : Str} {vs : List Value} (hw : JWs w) (h : JText env N (.elems vs) t) :
    JText env N (.elems vs) (w ++ t) := by
  cases h with
  | elem h1 hv h2 => simpa using JText.elem (jws_append hw h1) hv h2
  | elemCons h1 hv h2 hu => simpa using JText.elemCons (jws_append hw h1) hv h2 hu

theorem members_ws {w t : Str} {fs : List (Str × Value)} (hw : JWs w) (h : JText env N (.members fs) t) :
    JText env N (.members fs) (w ++ t) := by
  cases h with
  | member h1 hk h2 h3 hv h4 => simpa using JText.member (jws_append hw h1) hk h2 h3 hv h4
  | memberCons h1 hk h2 h3 hv h4 hu => simpa using JText.memberCons (jws_append hw h1) hk h2 h3 hv h4 hu

/-- The texts of the kinds of node lists. -/
def Txt (env : Env) (N : Str → Scalar → Prop) : Kind → Str → Prop
  | .value v, t => JText env N (.value v) t
  | .arr vs, t => ∃ u, t = u ++ [']'] ∧ ((vs = [] ∧ JWs u) ∨ JText env N (.elems vs) u)
  | .arrT vs, t => ∃ w, JWs w ∧ ((vs = [] ∧ t = w ++ [']']) ∨ ∃ u, JText env N (.elems vs) u ∧ t = w ++ ',' :: u ++ [']'])
  | .obj fs, t => ∃ u, t = u ++ ['}'] ∧ ((fs = [] ∧ JWs u) ∨ JText env N (.members fs) u)
  | .objT fs, t => ∃ w, JWs w ∧ ((fs = [] ∧ t = w ++ ['}']) ∨ ∃ u, JText env N (.members fs) u ∧ t = w ++ ',' :: u ++ ['}'])

theorem Txt.object {fs : List (Str × Value)} {t : Str} (h : Txt env N (.obj fs) t) (hn : (keysOf fs).Nodup) :
    JText env N (.value (.obj fs true false)) ('{' :: t) := by
  obtain ⟨u, rfl, ⟨rfl, hu⟩ | hu⟩ := h
  · simpa using JText.emptyObj hu
  · simpa using JText.obj hu hn

theorem Txt.objCons {w kt w2 w3 t u k : Str} {v : Value} {fs : List (Str × Value)} (hw : JWs w) (hk : JChars env kt k)
    (h2 : JWs w2) (h3 : JWs w3) (hv : JText env N (.value v) t) (hu : Txt env N (.objT fs) u) :
    Txt env N (.obj ((k, v) :: fs)) (w ++ ('"' :: kt ++ ['"']) ++ w2 ++ ':' :: w3 ++ t ++ u) := by
  obtain ⟨x, hx, ⟨rfl, rfl⟩ | ⟨y, hy, rfl⟩⟩ := hu
  · exact ⟨_, by simp, .inr (JText.member hw hk h2 h3 hv hx)⟩
  · exact ⟨_, by simp, .inr (JText.memberCons hw hk h2 h3 hv hx hy)⟩

theorem Txt.objTCons {w t : Str} {f : Str × Value} {fs : List (Str × Value)} (hw : JWs w)
    (h : Txt env N (.obj (f :: fs)) t) : Txt env N (.objT (f :: fs)) (w ++ ',' :: t) := by
  obtain ⟨u, rfl, ⟨h, _⟩ | hu⟩ := h
  · cases h
  · exact ⟨w, hw, .inr ⟨u, hu, by simp⟩⟩

theorem render_cons (n : Node) (ns : List Node) : renderList (n :: ns) = n.render ++ renderList ns := by
  simp [renderList, tokensList, Node.render, Tok.textList_append]

/-- The text of a field. -/
theorem field_text {w2 w3 : List Node} {n : Node} {k text : Str} {q : Bool} {line : Int} :
    (Node.field (.path [k] [.value (.str k q) text line] :: (w2 ++ .single .colon :: (w3 ++ [n])))).render
      = text ++ renderList w2 ++ ':' :: renderList w3 ++ n.render := by
  simp [Node.render, Node.tokens, tokensList, renderList, Node.tokensList_append, Tok.textList, Tok.textList_append, Tok.text]

theorem Sh.text {kd : Kind} {ns : List Node} (h : Sh (JA env N) (JK env) kd ns) : Txt env N kd (renderList ns) := by
  induction h with
  | scalar h => simpa [JA, Txt, renderList, tokensList, Node.tokens, Tok.textList, Tok.text] using h
  | array _ ih =>
    obtain ⟨u, hu, ⟨rfl, h⟩ | h⟩ := ih
    · have := JText.emptyArr (env := env) (N := N) h
      simp only [renderList] at hu
      simpa [Txt, renderList, tokensList, Node.tokens, Tok.textList, Tok.text, hu] using this
    · have := JText.arr (env := env) (N := N) h
      simp only [renderList] at hu
      simpa [Txt, renderList, tokensList, Node.tokens, Tok.textList, Tok.text, hu] using this
  | object _ hn ih =>
    have := ih.object hn
    simpa [Txt, renderList, tokensList, Node.tokens, Tok.textList, Tok.text] using this
  | @arrNil w hw => exact ⟨_, by simp [renderList_append, render_cons]; rfl, .inl ⟨rfl, bl_text hw⟩⟩
  | @arrCons w ns n v vs hw hv _ ih1 ih2 =>
    have ih1 : JText env N (.value v) n.render := by simpa [Txt, renderList, tokensList, Node.render] using ih1
    obtain ⟨x, hx, ⟨rfl, e⟩ | ⟨y, hy, e⟩⟩ := ih2
    · exact ⟨_, by rw [renderList_append, render_cons, e]; simp, .inr (JText.elem (bl_text hw) ih1 hx)⟩
    · exact ⟨_, by rw [renderList_append, render_cons, e]; simp, .inr (JText.elemCons (bl_text hw) ih1 hx hy)⟩
  | @arrTNil w hw => exact ⟨_, bl_text hw, .inl ⟨rfl, by rw [renderList_append]; rfl⟩⟩
  | @arrTCons w ns v vs hw _ ih =>
    obtain ⟨u, e, ⟨h, _⟩ | hu⟩ := ih
    · cases h
    · exact ⟨_, bl_text hw, .inr ⟨u, hu, by rw [renderList_append, render_cons, e]; simp [Node.render, Node.tokens, Tok.textList, Tok.text]⟩⟩
  | @objNil w hw => exact ⟨_, by simp [renderList_append, render_cons]; rfl, .inl ⟨rfl, bl_text hw⟩⟩
  | @objCons w w2 w3 ns n k text q line v fs hw hk h2 h3 hv _ ih1 ih2 =>
    have ih1 : JText env N (.value v) n.render := by simpa [Txt, renderList, tokensList, Node.render] using ih1
    obtain ⟨rfl, kt, rfl, hkt⟩ := hk
    have := Txt.objCons (bl_text hw) hkt (bl_text h2) (bl_text h3) ih1 ih2
    rw [renderList_append, render_cons, field_text]
    simpa using this
  | @objTNil w hw => exact ⟨_, bl_text hw, .inl ⟨rfl, by rw [renderList_append]; rfl⟩⟩
  | @objTCons w ns f fs hw _ ih =>
    have := Txt.objTCons (bl_text hw) ih
    rw [renderList_append, render_cons]
    exact this

/-! ### Nothing is lost -/

theorem Bl.noParen {w : List Node} (h : Bl w) : noParenList w = true :=
  noParenList_plain fun n hn => by obtain ⟨t, rfl, _⟩ := h n hn; exact ⟨t, .inl rfl⟩

theorem Sh.noParen {A : Scalar → Str → Prop} {K : Str → Bool → Str → Prop} {kd : Kind} {ns : List Node} (h : Sh A K kd ns) :
    noParenList ns = true := by
  induction h with
  | scalar | array | object => simp_all [noParenList, DocParser.noParen]
  | arrNil hw | arrTNil hw | objNil hw | objTNil hw => simp [noParenList_append, noParenList, DocParser.noParen, Bl.noParen hw]
  | arrCons hw | arrTCons hw | objTCons hw =>
    simp_all [noParenList_append, noParenList, DocParser.noParen, Bl.noParen hw]
  | objCons hw _ h2 h3 =>
    simp_all [noParenList_append, noParenList, DocParser.noParen, Bl.noParen hw, Bl.noParen h2, Bl.noParen h3]

/-! ### Whitespace tokens -/

/-- A whitespace token among the nodes is JSON whitespace. -/
def WsOk (n : Node) : Prop := n.hasTok Tok.isWs = true → ∃ s l, n = .single (.ws s l) ∧ JWs s

theorem wsOk_single {t : Tok} (h : t.isWs = false) : WsOk (.single t) := by
  intro hw; simp [Node.hasTok, Node.singleToken?, h] at hw

theorem Bl.deep {w : List Node} (h : Bl w) : ∀ n ∈ deep w, WsOk n := by
  induction w with
  | nil => intro n hn; simp [DocEdit.deep] at hn
  | cons m w ih =>
    obtain ⟨t, rfl, ht⟩ := h m (.head _)
    intro n hn
    simp only [DocEdit.deep, below, List.cons_append, List.nil_append, List.mem_cons] at hn
    rcases hn with rfl | hn
    · intro hw
      cases t <;> simp [Node.hasTok, Node.singleToken?, Tok.isWs] at hw
      exact ⟨_, _, rfl, ht⟩
    · exact ih (fun m hm => h m (.tail _ hm)) n hn

theorem Sh.deep {A : Scalar → Str → Prop} {K : Str → Bool → Str → Prop} {kd : Kind} {ns : List Node} (h : Sh A K kd ns) :
    ∀ n ∈ deep ns, WsOk n := by
  have hno : ∀ {n : Node}, n.singleToken? = none → WsOk n := by
    intro n hn hw; simp [Node.hasTok, hn] at hw
  induction h with
  | scalar _ =>
    intro n hn
    simp only [DocEdit.deep, below, List.cons_append, List.nil_append, List.mem_singleton] at hn
    subst hn; exact hno rfl
  | array _ ih | object _ _ ih =>
    intro n hn
    simp only [DocEdit.deep, below, List.cons_append, List.nil_append, List.append_nil, List.mem_cons] at hn
    rcases hn with rfl | rfl | hn
    · exact hno rfl
    · exact wsOk_single rfl
    · exact ih n hn
  | arrNil hw | arrTNil hw | objNil hw | objTNil hw =>
    intro n hn
    simp only [deep_append, DocEdit.deep, below, List.cons_append, List.nil_append, List.mem_append, List.mem_singleton] at hn
    rcases hn with hn | rfl
    · exact Bl.deep hw n hn
    · exact wsOk_single rfl
  | arrCons hw _ _ ih1 ih2 =>
    intro n hn
    simp only [deep_append, DocEdit.deep, List.mem_append, List.append_nil] at hn ih1
    rcases hn with hn | hn | hn
    · exact Bl.deep hw n hn
    · exact ih1 n hn
    · exact ih2 n hn
  | arrTCons hw _ ih | objTCons hw _ ih =>
    intro n hn
    simp only [deep_append, DocEdit.deep, below, List.cons_append, List.nil_append, List.mem_append, List.mem_cons] at hn
    rcases hn with hn | rfl | hn
    · exact Bl.deep hw n hn
    · exact wsOk_single rfl
    · exact ih n hn
  | objCons hw _ h2 h3 _ _ ih1 ih2 =>
    intro n hn
    simp only [deep_append, DocEdit.deep, below, List.cons_append, List.nil_append, List.append_nil, List.mem_append,
      List.mem_cons] at hn ih1
    rcases hn with hn | rfl | rfl | (hn | rfl | hn | hn) | hn
    · exact Bl.deep hw n hn
    · exact hno rfl
    · exact hno rfl
    · exact Bl.deep h2 n hn
    · exact wsOk_single rfl
    · exact Bl.deep h3 n hn
    · exact ih1 n hn
    · exact ih2 n hn

/-! ### Indenting -/

theorem indent_bl {s : Str} {l : Int} (hs : JWs s) {w : List Node} (h : Bl w) (rest : List Node) :
    ∃ w', Bl w' ∧ indentList (.single (.ws s l)) (w ++ rest) =
      (indentList (.single (.ws s l)) rest >>= fun x => .ok (w' ++ x)) := by
  induction w with
  | nil => exact ⟨[], Bl.nil, by rw [List.nil_append]; cases indentList (.single (.ws s l)) rest <;> rfl⟩
  | cons n w ih =>
    obtain ⟨w', hw', e⟩ := ih fun m hm => h m (.tail _ hm)
    obtain ⟨t, rfl, ht⟩ := h n (.head _)
    rw [List.cons_append, indentList, indentNode, Res.ok_bind]
    · cases ht2 : Tok.isNewline t with
      | true =>
        refine ⟨([.single t] ++ [.single (.ws s l)]) ++ w', Bl.append (Bl.append (Bl.one ht) (Bl.one (t := .ws s l) hs)) hw', ?_⟩
        rw [if_pos (by simpa [Node.hasTok, Node.singleToken?] using ht2), if_neg (by simp [Node.hasTok, Node.singleToken?, Tok.isNewline]), e]
        cases indentList (.single (.ws s l)) rest <;> rfl
      | false =>
        refine ⟨[.single t] ++ w', Bl.append (Bl.one ht) hw', ?_⟩
        rw [if_neg (by simp [Node.hasTok, Node.singleToken?, ht2]), e]
        cases indentList (.single (.ws s l)) rest <;> rfl
    all_goals simp

theorem indent_other {ind n : Node} {n' : Node} {ns : List Node} (h : indentNode ind n = .ok n')
    (hn : n.hasTok Tok.isNewline = false) : indentList ind (n :: ns) = (indentList ind ns >>= fun x => .ok (n' :: x)) := by
  rw [indentList, h, Res.ok_bind, if_neg (by simp [hn])]

theorem indentField_bl {ind : Node} {w : List Node} (h : Bl w) (rest : List Node) :
    indentField ind (w ++ rest) = (indentField ind rest >>= fun x => .ok (w ++ x)) := by
  induction w with
  | nil => rw [List.nil_append]; cases indentField ind rest <;> rfl
  | cons n w ih =>
    obtain ⟨t, rfl, ht⟩ := h n (.head _)
    rw [List.cons_append, indentField, if_neg (by simp [Node.isComplex]), if_neg (by simp [Node.isValue]),
      ih fun m hm => h m (.tail _ hm)]
    cases indentField ind rest <;> rfl

theorem Sh.noTok {A : Scalar → Str → Prop} {K : Str → Bool → Str → Prop} {v : Value} {n : Node}
    (h : Sh A K (.value v) [n]) (p : Tok → Bool) : n.hasTok p = false := by
  simp [Node.hasTok, h.isValue.2]

/-- What is shown: indenting keeps the shape. -/
def Ind (A : Scalar → Str → Prop) (K : Str → Bool → Str → Prop) (ind : Node) : Kind → List Node → Prop
  | .value v, ns => ∀ n, ns = [n] → ∃ n', indentNode ind n = .ok n' ∧ Sh A K (.value v) [n']
  | kd, ns => ∃ ns', indentList ind ns = .ok ns' ∧ Sh A K kd ns'

theorem Sh.indent {A : Scalar → Str → Prop} {K : Str → Bool → Str → Prop} {s : Str} {l : Int} (hs : JWs s)
    {kd : Kind} {ns : List Node} (h : Sh A K kd ns) : Ind A K (.single (.ws s l)) kd ns := by
  have hsing : ∀ (t : Tok), indentNode (.single (.ws s l)) (.single t) = .ok (.single t) := by
    intro t; rw [indentNode] <;> simp
  have hone : ∀ (t : Tok), t.isNewline = false →
      indentList (.single (.ws s l)) [.single t] = .ok [.single t] := by
    intro t ht
    rw [indent_other (hsing t) (by simpa [Node.hasTok, Node.singleToken?] using ht)]
    rfl
  induction h with
  | @scalar v text line h =>
    rintro n ⟨⟩
    refine ⟨_, ?_, .scalar (line := line) h⟩
    rw [indentNode] <;> simp
  | array _ ih =>
    rintro n ⟨⟩
    obtain ⟨ns', e, h'⟩ := ih
    refine ⟨_, ?_, .array h'⟩
    rw [indentNode, indent_other (hsing _) rfl, e]
    rfl
  | object _ hn ih =>
    rintro n ⟨⟩
    obtain ⟨ns', e, h'⟩ := ih
    refine ⟨_, ?_, .object h' hn⟩
    rw [indentNode, indent_other (hsing _) rfl, e]
    rfl
  | arrNil hw =>
    obtain ⟨w', hw', e⟩ := indent_bl (l := l) hs hw [.single .closeSquare]
    exact ⟨_, by rw [e, hone _ rfl]; rfl, .arrNil hw'⟩
  | arrTNil hw =>
    obtain ⟨w', hw', e⟩ := indent_bl (l := l) hs hw [.single .closeSquare]
    exact ⟨_, by rw [e, hone _ rfl]; rfl, .arrTNil hw'⟩
  | objNil hw =>
    obtain ⟨w', hw', e⟩ := indent_bl (l := l) hs hw [.single .closeCurly]
    exact ⟨_, by rw [e, hone _ rfl]; rfl, .objNil hw'⟩
  | objTNil hw =>
    obtain ⟨w', hw', e⟩ := indent_bl (l := l) hs hw [.single .closeCurly]
    exact ⟨_, by rw [e, hone _ rfl]; rfl, .objTNil hw'⟩
  | @arrCons w ns n v vs hw hv _ ih1 ih2 =>
    obtain ⟨w', hw', e⟩ := indent_bl (l := l) hs hw (n :: ns)
    obtain ⟨n', e1, h1⟩ := ih1 n rfl
    obtain ⟨ns', e2, h2⟩ := ih2
    exact ⟨_, by rw [e, indent_other e1 (Sh.noTok hv _), e2]; rfl, .arrCons hw' h1 h2⟩
  | @arrTCons w ns v vs hw _ ih =>
    obtain ⟨w', hw', e⟩ := indent_bl (l := l) hs hw (.single .comma :: ns)
    obtain ⟨ns', e2, h2⟩ := ih
    exact ⟨_, by rw [e, indent_other (hsing _) rfl, e2]; rfl, .arrTCons hw' h2⟩
  | @objTCons w ns v vs hw _ ih =>
    obtain ⟨w', hw', e⟩ := indent_bl (l := l) hs hw (.single .comma :: ns)
    obtain ⟨ns', e2, h2⟩ := ih
    exact ⟨_, by rw [e, indent_other (hsing _) rfl, e2]; rfl, .objTCons hw' h2⟩
  | @objCons w w2 w3 ns n k text q line v fs hw hk h2 h3 hv _ ih1 ih2 =>
    obtain ⟨w', hw', e⟩ := indent_bl (l := l) hs hw
      (.field (.path [k] [.value (.str k q) text line] :: (w2 ++ .single .colon :: (w3 ++ [n]))) :: ns)
    obtain ⟨n', e1, h1⟩ := ih1 n rfl
    obtain ⟨ns', e2, h2'⟩ := ih2
    have hn : indentField (.single (.ws s l)) [n] = .ok [n'] := by
      rw [indentField]
      split
      · rw [e1]; rfl
      · rename_i hc
        rw [if_pos hv.isValue.1]
        have : indentNode (.single (.ws s l)) n = .ok n := by
          cases hv with
          | scalar => rw [indentNode] <;> simp
          | array => simp [Node.isComplex] at hc
          | object => simp [Node.isComplex] at hc
        rw [this] at e1
        simpa using e1
    have hf : indentNode (.single (.ws s l))
        (.field (.path [k] [.value (.str k q) text line] :: (w2 ++ .single .colon :: (w3 ++ [n])))) =
        .ok (.field (.path [k] [.value (.str k q) text line] :: (w2 ++ .single .colon :: (w3 ++ [n'])))) := by
      rw [indentNode, indentField, if_neg (by simp [Node.isComplex]), if_neg (by simp [Node.isValue]),
        indentField_bl h2, indentField, if_neg (by simp [Node.isComplex]), if_neg (by simp [Node.isValue]),
        indentField_bl h3, hn]
      rfl
    exact ⟨_, by rw [e, indent_other hf rfl, e2]; rfl, .objCons hw' hk h2 h3 h1 h2'⟩

/-! ### The text of an indented node -/

theorem Indented.refl (ind : Str) : ∀ s, Indented ind s s
  | [] => .nil
  | _ :: s => .keep (Indented.refl ind s)

theorem Indented.append {ind s t s' t' : Str} (h : Indented ind s t) (h' : Indented ind s' t') :
    Indented ind (s ++ s') (t ++ t') := by
  induction h with
  | nil => exact h'
  | keep _ ih => exact .keep ih
  | newline _ ih => simpa using Indented.newline ih

mutual
theorem indentNode_text {ind : Node} : (n : Node) → ∀ n', indentNode ind n = .ok n' →
    Indented ind.render n.render n'.render
  | .object cs, n', hi => by
    rw [indentNode, Res.bind_eq_ok] at hi
    obtain ⟨cs', h1, hi⟩ := hi
    cases hi
    exact indentList_text cs cs' h1
  | .array cs, n', hi => by
    rw [indentNode, Res.bind_eq_ok] at hi
    obtain ⟨cs', h1, hi⟩ := hi
    cases hi
    exact indentList_text cs cs' h1
  | .concat cs, n', hi => by
    rw [indentNode, Res.bind_eq_ok] at hi
    obtain ⟨cs', h1, hi⟩ := hi
    cases hi
    exact indentList_text cs cs' h1
  | .field cs, n', hi => by
    rw [indentNode, Res.bind_eq_ok] at hi
    obtain ⟨cs', h1, hi⟩ := hi
    cases hi
    exact indentField_text cs cs' h1
  | .single _, n', hi | .comment _, n', hi | .path _ _, n', hi | .simple _, n', hi
  | .incl _ _, n', hi => by
    rw [indentNode] at hi
    · cases hi; exact Indented.refl _ _
    all_goals simp
theorem indentList_text {ind : Node} : (ns : List Node) → ∀ ns', indentList ind ns = .ok ns' →
    Indented ind.render (renderList ns) (renderList ns')
  | [], ns', hi => by
    simp only [indentList, Res.ok.injEq] at hi
    subst hi
    exact Indented.refl _ _
  | n :: ns, ns', hi => by
    rw [indentList, Res.bind_eq_ok] at hi
    obtain ⟨n', h1, hi⟩ := hi
    split at hi
    · rename_i hn
      split at hi
      · simp at hi
      · rw [Res.bind_eq_ok] at hi
        obtain ⟨ns1, h2, hi⟩ := hi
        cases hi
        have h3 := indentList_text ns ns1 h2
        have hnt : n.render = ['\n'] ∧ n' = n := by
          obtain ⟨t, ht, h⟩ := DocEdit.hasTok_iff.1 hn
          cases n <;> simp [Node.singleToken?] at ht <;> subst ht <;>
            (constructor
             · cases ‹Tok› <;> simp [Tok.isNewline] at h
               simp [Node.render, Node.tokens, Tok.textList, Tok.text]
             · rw [indentNode] at h1
               · cases h1; rfl
               all_goals simp)
        rw [hnt.2, render_cons, render_cons, render_cons, hnt.1]
        simpa using Indented.newline h3
    · rw [Res.bind_eq_ok] at hi
      obtain ⟨ns1, h2, hi⟩ := hi
      cases hi
      rw [render_cons, render_cons]
      exact Indented.append (indentNode_text n n' h1) (indentList_text ns ns1 h2)
theorem indentField_text {ind : Node} : (ns : List Node) → ∀ ns', indentField ind ns = .ok ns' →
    Indented ind.render (renderList ns) (renderList ns')
  | [], ns', hi => by simp [indentField] at hi
  | n :: ns, ns', hi => by
    rw [indentField] at hi
    split at hi
    · rw [Res.bind_eq_ok] at hi
      obtain ⟨n', h1, hi⟩ := hi
      cases hi
      rw [render_cons, render_cons]
      exact Indented.append (indentNode_text n n' h1) (Indented.refl _ _)
    · split at hi
      · cases hi
        exact Indented.refl _ _
      · rw [Res.bind_eq_ok] at hi
        obtain ⟨ns1, h2, hi⟩ := hi
        cases hi
        rw [render_cons, render_cons]
        exact Indented.append (Indented.refl _ _) (indentField_text ns ns1 h2)
end

/-! ### The place of a value -/

theorem Bl.occurs {w : List Node} (h : Bl w) (p : Path) : ¬ Occurs w p := by
  intro ho
  cases ho with
  | here hm => obtain ⟨t, e, _⟩ := h _ hm; cases e
  | inside hm => obtain ⟨t, e, _⟩ := h _ hm; cases e

theorem occurs_tok (t : Tok) (p : Path) : ¬ Occurs [.single t] p := by
  intro ho
  cases ho with
  | here hm => simp at hm
  | inside hm => simp at hm

theorem occurs_field {k : Str} {ts : List Tok} {cs : List Node} {p : Path} (hp : p.head? ≠ some k) (hne : p ≠ []) :
    ¬ Occurs [.field (.path [k] ts :: cs)] p := by
  intro ho
  cases ho with
  | here hm hk hpre =>
    simp only [List.mem_singleton, Node.field.injEq] at hm
    subst hm
    simp only [Node.fieldPath, Res.ok.injEq, Prod.mk.injEq] at hk
    obtain ⟨rfl, rfl⟩ := hk
    cases p with
    | nil => exact hne rfl
    | cons a p =>
      obtain ⟨y, hy⟩ := hpre
      simp at hy
      exact hp (by simp [hy.1])
  | inside hm hk =>
    simp only [List.mem_singleton, Node.field.injEq] at hm
    subst hm
    simp only [Node.fieldPath, Res.ok.injEq, Prod.mk.injEq] at hk
    obtain ⟨rfl, rfl⟩ := hk
    simp at hp

theorem Sh.occurs {A : Scalar → Str → Prop} {K : Str → Bool → Str → Prop} {kd : Kind} {ns : List Node}
    (h : Sh A K kd ns) : ∀ fs, kd = .obj fs ∨ kd = .objT fs → ∀ k p, k ∉ keysOf fs → ¬ Occurs ns (k :: p) := by
  induction h with
  | scalar | array | object | arrNil | arrCons | arrTNil | arrTCons => rintro _ (h | h) <;> cases h
  | objNil hw | objTNil hw =>
    intro fs _ k p _ ho
    rcases Occurs.append.1 ho with h | h
    · exact Bl.occurs hw _ h
    · exact occurs_tok _ _ h
  | @objCons w w2 w3 ns n k text q line v fs hw hk h2 h3 hv _ ih1 ih2 =>
    rintro _ (h | h) k' p hk' ho <;> cases h
    simp [keysOf] at hk'
    rcases Occurs.append.1 ho with h | h
    · exact Bl.occurs hw _ h
    · rw [← List.singleton_append] at h
      rcases Occurs.append.1 h with h | h
      · exact occurs_field (by simpa using hk'.1) (by simp) h
      · exact ih2 fs (.inr rfl) k' p (by simpa [keysOf] using hk'.2) h
  | @objTCons w ns f fs hw _ ih =>
    rintro _ (h | h) k' p hk' ho <;> cases h
    rcases Occurs.append.1 ho with h | h
    · exact Bl.occurs hw _ h
    · rw [← List.singleton_append] at h
      rcases Occurs.append.1 h with h | h
      · exact occurs_tok _ _ h
      · exact ih _ (.inl rfl) k' p hk' h

theorem Replaced.keys {fs fs' : List (Str × Value)} {p : Path} {old new : Value} (h : Replaced fs p old new fs') :
    keysOf fs' = keysOf fs ∧ ∃ k q, p = k :: q ∧ k ∈ keysOf fs := by
  induction h with
  | here => exact ⟨rfl, _, _, rfl, by simp [keysOf]⟩
  | inside _ ih => exact ⟨rfl, _, _, rfl, by simp [keysOf]⟩
  | later _ ih =>
    obtain ⟨h1, k, q, rfl, hk⟩ := ih
    refine ⟨by simpa [keysOf] using h1, k, q, rfl, ?_⟩
    simp only [keysOf, List.map_cons, List.mem_cons] at hk ⊢
    exact .inr hk

/-- What is shown: there is one place for the value, and what is written there takes part in the text. -/
def Place (env : Env) (N : Str → Scalar → Prop) (p : Path) (old new : Value) (kd' : Kind) (cs : List Node) : Prop :=
  ∃ pre node post, OnceAt cs p pre node post ∧ Sh (JA env N) (JK env) (.value old) [node] ∧
    ∀ t, JText env N (.value new) t → Txt env N kd' (pre ++ t ++ post)

def Hole (env : Env) (N : Str → Scalar → Prop) : Kind → List Node → Prop
  | .value (.obj fs true false), ns => ∀ cs, ns = [.object cs] → (keysOf fs).Nodup → ∀ p old new fs',
      Replaced fs p old new fs' → Place env N p old new (.value (.obj fs' true false)) cs
  | .obj fs, ns => (keysOf fs).Nodup → ∀ p old new fs', Replaced fs p old new fs' →
      Place env N p old new (.obj fs') ns
  | .objT fs, ns => (keysOf fs).Nodup → ∀ p old new fs', Replaced fs p old new fs' →
      Place env N p old new (.objT fs') ns
  | _, _ => True

theorem Sh.hole {kd : Kind} {ns : List Node} (h : Sh (JA env N) (JK env) kd ns) : Hole env N kd ns := by
  induction h with
  | scalar | array | arrNil | arrCons | arrTNil | arrTCons => trivial
  | object _ _ ih =>
    rintro cs ⟨⟩ hn p old new fs' hr
    obtain ⟨pre, node, post, ho, hs, ht⟩ := ih hn p old new fs' hr
    refine ⟨_, node, post, Lines.OnceAt.prefix (occurs_tok .openCurly p) ho, hs, fun t h => ?_⟩
    have := (ht t h).object (by rw [(Replaced.keys hr).1]; exact hn)
    simpa [Txt, renderList, tokensList, Node.tokens, Tok.textList, Tok.text] using this
  | objNil | objTNil => rintro _ _ _ _ _ ⟨⟩
  | @objCons w w2 w3 ns n k text q line v fs hw hk h2 h3 hv hns ih1 ih2 =>
    intro hn p old new fs' hr
    simp only [keysOf, List.map_cons, List.nodup_cons] at hn
    obtain ⟨rfl, kt, rfl, hkt⟩ := hk
    have hfa : ∀ m ∈ Node.path [k] [.value (.str k true) ('"' :: kt ++ ['"']) line] :: (w2 ++ .single .colon :: w3),
        m.isValue = false := by
      intro m hm
      simp only [List.mem_cons, List.mem_append] at hm
      rcases hm with rfl | hm | rfl | hm
      · rfl
      · obtain ⟨t, rfl, _⟩ := h2 m hm; rfl
      · rfl
      · obtain ⟨t, rfl, _⟩ := h3 m hm; rfl
    have hne : ∀ p', ¬ Occurs ns (k :: p') := fun p' => Sh.occurs hns fs (.inr rfl) k p' hn.1
    have hrest : Txt env N (.objT fs) (renderList ns) := Sh.text hns
    cases hr with
    | here =>
      have ho := OnceAt.here (fa := .path [k] [.value (.str k true) ('"' :: kt ++ ['"']) line] :: (w2 ++ .single .colon :: w3))
        (fb := []) (v := n) (Bl.occurs hw [k]) (hne []) rfl hfa hv.isValue.1
      refine ⟨_, n, _, by simpa using ho, hv, fun t h => ?_⟩
      have := Txt.objCons (bl_text hw) hkt (bl_text h2) (bl_text h3) h hrest
      simpa [renderList_append, render_cons, renderList, tokensList, Node.tokensList_append, Node.tokens, Tok.textList,
        Tok.textList_append, Tok.text, Node.render] using this
    | @inside _ p old new _ gs gs' hr =>
      obtain ⟨ocs, rfl, hgn⟩ : ∃ ocs, n = .object ocs ∧ (keysOf gs).Nodup := by
        cases hv with
        | object _ hg => exact ⟨_, rfl, hg⟩
      obtain ⟨pre, node, post, ho, hs, ht⟩ := ih1 ocs rfl hgn p old new gs' hr
      have hpne : p ≠ [] := by obtain ⟨_, _, _, rfl, _⟩ := (Replaced.keys hr); simp
      have ho := OnceAt.inside (key := [k]) (fa := .path [k] [.value (.str k true) ('"' :: kt ++ ['"']) line] :: (w2 ++ .single .colon :: w3))
        (fb := []) hpne (Bl.occurs hw (k :: p)) (hne p) rfl hfa ho
      refine ⟨_, node, _, by simpa using ho, hs, fun t h => ?_⟩
      have := Txt.objCons (bl_text hw) hkt (bl_text h2) (bl_text h3) (ht t h) hrest
      simpa [renderList_append, render_cons, renderList, tokensList, Node.tokensList_append, Node.tokens, Tok.textList,
        Tok.textList_append, Tok.text, Node.render] using this
    | @later _ _ _ _ _ fs' hr =>
      obtain ⟨pre, node, post, ho, hs, ht⟩ := ih2 hn.2 p old new fs' hr
      obtain ⟨_, k', q, rfl, hk'⟩ := (Replaced.keys hr)
      have hkk : k' ≠ k := by rintro rfl; exact hn.1 hk'
      have ho := Lines.OnceAt.prefix (a := w ++ [.field (.path [k] [.value (.str k true) ('"' :: kt ++ ['"']) line] ::
          (w2 ++ .single .colon :: (w3 ++ [n])))]) (fun h => (Occurs.append.1 h).elim (Bl.occurs hw _)
            (occurs_field (by simpa using hkk) (by simp))) ho
      refine ⟨_, node, _, by simpa using ho, hs, fun t h => ?_⟩
      have hv' : JText env N (.value v) n.render := by simpa [Txt, renderList, tokensList, Node.render] using Sh.text hv
      have := Txt.objCons (bl_text hw) hkt (bl_text h2) (bl_text h3) hv' (ht t h)
      simpa [renderList_append, render_cons, renderList, tokensList, Node.tokensList_append, Node.tokens, Tok.textList,
        Tok.textList_append, Tok.text, Node.render] using this
  | @objTCons w ns f fs hw _ ih =>
    intro hn p old new fs' hr
    obtain ⟨pre, node, post, ho, hs, ht⟩ := ih hn p old new fs' hr
    have ho := Lines.OnceAt.prefix (a := w ++ [.single .comma]) (fun h => (Occurs.append.1 h).elim (Bl.occurs hw _)
            (occurs_tok _ _)) ho
    refine ⟨_, node, _, by simpa using ho, hs, fun t h => ?_⟩
    obtain ⟨f', fs1, rfl⟩ : ∃ f' fs1, fs' = f' :: fs1 := by cases hr <;> exact ⟨_, _, rfl⟩
    have := Txt.objTCons (bl_text hw) (ht t h)
    simpa [renderList_append, renderList, tokensList, Node.tokensList_append, Node.tokens, Tok.textList,
        Tok.textList_append, Tok.text, Node.render] using this

/-! ### The new value -/

/-- A JSON text as the text of a value. -/
theorem value_single (hN : NumLex env N) (hx : HexOk env) (fl : Syntax) {v : Value} {t : Str}
    (h : JText env N (.value v) t) : ∃ toks node, Tokenizer.tokenize env (fl = .conf) t = .ok toks ∧
      parseSingleValue env fl toks = .ok (some node) ∧ Sh (JA env N) (JK env) (.value v) [node] ∧ node.render = t := by
  obtain ⟨pre, vts, post, htok, hpre, hj, hpost, hz, htx⟩ := JsonLex.tokenize_json hN hx (decide (fl = .conf))
    (w1 := []) (w2 := []) (by simp [JWs]) h (by simp [JWs])
  obtain ⟨rfl, rfl⟩ := hz rfl rfl
  have hpv := jtok_parses env hj
  obtain ⟨_, t0, ts', rfl, hst, hsv, hp⟩ := id hpv
  simp only [List.nil_append, List.append_nil, List.cons_append] at htok
  have hne := DocEdit.singleValue_sat env fl _ _ _ htok
  have hcol : collectNode t0 = none := by cases t0 <;> simp [Stop] at hst <;> rfl
  have hend : t0 ≠ .end_ := by rintro rfl; simp [startsValue] at hsv
  have hsplit : parseSingleValue env fl (.start :: t0 :: (ts' ++ [.end_])) =
      match (generalizing := false) fl with
      | .json => (do
          let (n, toks3) ← parseValue env .json (fuelFor (.start :: t0 :: (ts' ++ [.end_]))) t0 (ts' ++ [.end_])
          let (t', _) ← nextToken .json toks3
          match t' with
          | .end_ => .ok (some n)
          | _ => .err .parse)
      | .conf => (do
          let (_, v, toks3) ← consolidate env .conf (fuelFor (.start :: t0 :: (ts' ++ [.end_]))) (t0 :: (ts' ++ [.end_]))
          let (t', _) ← nextToken .conf toks3
          match t' with
          | .end_ => .ok v
          | _ => .err .parse) := by
    rw [parseSingleValue]
    cases fl <;> cases t0 <;> simp [startsValue] at hsv <;> simp [Stop] at hst <;> rfl
  suffices hh : ∃ node, parseSingleValue env fl (.start :: t0 :: (ts' ++ [.end_])) = .ok (some node) ∧
      Sh (JA env N) (JK env) (.value v) [node] by
    obtain ⟨node, hps, hs⟩ := hh
    refine ⟨_, node, htok, hps, hs, ?_⟩
    obtain ⟨toks1, rest, e, used, hu, _, hr, _, _⟩ := DocEdit.parseSingleValue_built hps (tokenize_good htok)
    have e : toks1 = t0 :: ts' ++ [.end_] := by simpa using e.symm
    have hused : used = t0 :: ts' := by
      obtain ⟨mid, hm, hne⟩ := (Tokenizer.C07_tokenize_total env _ t).2 _ htok
      have hm : t0 :: ts' = mid := by
        have : (t0 :: ts') ++ [Tok.end_] = mid ++ [.end_] := by simpa using hm
        exact (List.append_inj' this rfl).1
      rw [e] at hu
      rcases List.eq_nil_or_concat rest with rfl | ⟨r, x, rfl⟩
      · exact (List.append_inj' hu rfl).1.symm
      · exfalso
        have e1 : (t0 :: ts') ++ [Tok.end_] = (used ++ .end_ :: r) ++ [x] := by rw [hu]; simp
        have e2 := (List.append_inj' e1 rfl).1
        exact (hne .end_ (by rw [← hm, e2]; simp)).2 rfl
    have := hr (Sh.noParen hs)
    rw [hused] at this
    simp only [List.nil_append, List.append_nil] at htx
    rw [htx] at this
    simpa [tokensList, Node.render] using this
  cases fl with
  | json =>
    rcases hp .json (fuelFor (.start :: t0 :: (ts' ++ [.end_]))) [.end_] with hf | ⟨node, hv, _, _, _, hs⟩
    · rw [hsplit, hf] at hne
      exact absurd hne id
    · refine ⟨node, ?_, hs⟩
      rw [hsplit, hv]
      rfl
  | conf =>
    rcases consolidate_value' hpv (fuelFor (.start :: t0 :: (ts' ++ [.end_]))) (w1 := []) (w2 := []) (s := .end_) (rest := [])
      Wts.nil Wts.nil trivial with hf | ⟨ns, node, w2', hc, _, _, _, hs, _, hw2⟩
    · simp only [List.nil_append, List.append_nil, List.cons_append] at hf
      rw [hsplit, hf] at hne
      exact absurd hne id
    · obtain rfl := hw2 rfl
      simp only [List.nil_append, List.append_nil, List.cons_append] at hc
      refine ⟨node, ?_, hs⟩
      rw [hsplit, hc]
      rfl

/-! ### Documents -/

theorem written_sh {ms : List Node} (hws : ∀ n ∈ ms, WsOk n) {v : Value} {n n' : Node}
    (h : Sh (JA env N) (JK env) (.value v) [n]) (hw : Written ms n n') :
    Sh (JA env N) (JK env) (.value v) [n'] ∧ ∃ ind, JWs ind ∧ Indented ind n.render n'.render := by
  rcases hw with rfl | ⟨_, ind, hm, hi, he⟩
  · exact ⟨h, [], by simp [JWs], Indented.refl _ _⟩
  · obtain ⟨s, l, rfl, hs⟩ := hws ind hm hi
    have hind := indentNode_text n n' he
    obtain ⟨n'', e, hn⟩ := (Sh.indent (l := l) hs h) n rfl
    rw [e] at he
    cases he
    refine ⟨hn, s, hs, ?_⟩
    simpa [Node.render, Node.tokens, Tok.textList, Tok.text] using hind

theorem findObject_bl {q cs q2 : List Node} (h : Bl q) : DocEdit.findObject (q ++ .object cs :: q2) = .ok (q, cs, q2) := by
  induction q with
  | nil => rfl
  | cons n q ih =>
    obtain ⟨t, rfl, _⟩ := h n (.head _)
    rw [List.cons_append, DocEdit.findObject]
    · rw [ih fun m hm => h m (.tail _ hm)]
      rfl
    all_goals simp

theorem set_json (hN : NumLex env N) (hx : HexOk env) (fl : Syntax) {fs fs' : List (Str × Value)} {w1 t w2 path text : Str}
    {p : Path} {pt : List Tok} {old v : Value}
    (h1 : JWs w1) (h : JText env N (.value (.obj fs true false)) t) (h2 : JWs w2)
    (hp : PathParser.parsePathNode env fl path = .ok (p, pt)) (hr : Replaced fs p old v fs')
    (hv : JText env N (.value v) text) :
    ∃ d d' A o B ind new, Doc.parse env fl (w1 ++ t ++ w2) = .ok d ∧ d.withValueText env path text = .ok d' ∧
      w1 ++ t ++ w2 = A ++ o ++ B ∧ JText env N (.value old) o ∧ d'.render = A ++ new ++ B ∧
      JWs ind ∧ Indented ind text new ∧
      ∃ w1' t' w2', d'.render = w1' ++ t' ++ w2' ∧ JWs w1' ∧ JText env N (.value (.obj fs' true false)) t' ∧ JWs w2' := by
  have hroot : t.head? = some '{' ∨ t.head? = some '[' := by cases h <;> simp
  obtain ⟨q1, node, q2, hdoc, hq1, hq2, _, hs⟩ := JsonAccept.json_nodes env hN hx fl _ w1 t w2 h1 h h2 hroot
  obtain ⟨cs, rfl, hn⟩ : ∃ cs, node = .object cs ∧ (keysOf fs).Nodup := by
    cases hs with
    | object _ hg => exact ⟨_, rfl, hg⟩
  have htext : renderList q1 ++ renderList cs ++ renderList q2 = w1 ++ t ++ w2 := by
    obtain ⟨toks, g1, _, used, rfl, u, g3, _, g5, _⟩ := DocParser.parseDocument_split hdoc
    obtain ⟨pre, vts, post, htok, _, _, _, _, htx⟩ := JsonLex.tokenize_json hN hx (decide (fl = .conf)) h1 h h2
    rw [htok] at g1
    have e1 : pre ++ vts ++ post = used := by
      have : (pre ++ vts ++ post) ++ [Tok.end_] = used ++ [.end_] := by simpa using g1
      exact (List.append_inj' this rfl).1
    have e2 : used = u := (List.append_inj' g3 rfl).1
    have := g5 (by rw [noParenList_append, noParenList_append, Bl.noParen hq1, Bl.noParen hq2, Sh.noParen hs]; rfl)
    rw [← e2, ← e1, htx] at this
    rw [← this]
    simp [renderList, Node.tokensList_append, tokensList, Node.tokens, Tok.textList_append]
  obtain ⟨pre, onode, post, ho, hos, hfill⟩ := Sh.hole hs cs rfl hn p old v fs' hr
  obtain ⟨toks, vn, htk, hpv, hvs, hvr⟩ := value_single hN hx fl hv
  have hne : text ≠ [] := by
    intro e
    subst e
    cases hv with
    | num h => obtain ⟨c, b, e, _⟩ := hN _ _ h; cases e
  have hparse : Doc.parse env fl (w1 ++ t ++ w2) = .ok ⟨q1 ++ .object cs :: q2, fl⟩ := by
    rw [Doc.parse, hdoc]
    simp
  obtain ⟨d', wn, hd', hwr, hrend⟩ := Lines.withValue_written (.parsed hparse) hne (findObject_bl hq1) hp ho htk hpv
  obtain ⟨hws, ind, hind, hin⟩ := written_sh (fun n hm => (Sh.deep hs) n (by simp [DocEdit.deep, below, hm])) hvs hwr
  have hwt : JText env N (.value v) wn.render := by
    simpa [Txt, renderList, tokensList, Node.render] using Sh.text hws
  have hot : JText env N (.value old) onode.render := by
    simpa [Txt, renderList, tokensList, Node.render] using Sh.text hos
  refine ⟨_, d', renderList q1 ++ pre, onode.render, post ++ renderList q2, ind, wn.render, hparse, hd', ?_, hot, ?_,
    hind, hvr ▸ hin, renderList q1, pre ++ wn.render ++ post, renderList q2, ?_, bl_text hq1, hfill _ hwt, bl_text hq2⟩
  · rw [← htext, ho.render]
    simp
  · rw [hrend]
    simp
  · rw [hrend]
    simp

end
end JsonEdit
end Hocon
