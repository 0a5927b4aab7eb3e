import Verif.Lemmas.JsonAdd
import Verif.Lemmas.DocCut

/-!
# Removing from a JSON document
-/

set_option autoImplicit false

namespace Hocon
namespace JsonRemove

open Spec DocParser JsonParse JsonEdit JsonAdd
open JsonLex (JA JK NumLex)
open Node (renderList tokensList)
open PathParser (Syntax)
open DocEdit
open Lines (renderList_append)

section
variable {env : Env} {N : Str → Scalar → Prop}

/-! ### The loop -/

/-- Removing `p` turns the nodes `ns` into `r`; `s` says whether a field is left. -/
def Loop (p : Path) (ns r : List Node) (s : Bool) : Prop :=
  ∀ i prev, changeLoop .json p none i prev ns = .ok (r, s, none)

theorem Loop.bl {p : Path} {w ns r : List Node} {s : Bool} (hw : Bl w) (h : Loop p ns r s) : Loop p (w ++ ns) (w ++ r) s := by
  induction w with
  | nil => exact h
  | cons n w ih =>
    intro i prev
    have hc := (blank_tok hw (.head _)).2.2
    obtain ⟨t, rfl, ht⟩ := hw n (.head _)
    rw [List.cons_append, changeLoop, ih (fun m hm => hw m (.tail _ hm))]
    simp only [Res.ok_bind]
    rw [changeNode, hc]
    · simp
    · rintro _ ⟨⟩

theorem Loop.tok {p : Path} {t : Tok} {ns r : List Node} {s : Bool} (ht : t.isComma = false) (h : Loop p ns r s) :
    Loop p (.single t :: ns) (.single t :: r) s := by
  intro i prev
  rw [changeLoop, h]
  simp only [Res.ok_bind]
  rw [changeNode, show (Node.single t).hasTok Tok.isComma = false from ht]
  · simp
  · rintro _ ⟨⟩

theorem Loop.nil {p : Path} : Loop p [] [] false := fun i prev => by rw [changeLoop]

theorem Loop.close {p : Path} : Loop p [.single .closeCurly] [.single .closeCurly] false := Loop.nil.tok rfl

theorem Loop.comma {p : Path} {ns r : List Node} {s : Bool} (h : Loop p ns r s) :
    Loop p (.single .comma :: ns) (if s then .single .comma :: r else r) s := by
  intro i prev
  rw [changeLoop, h]
  simp only [Res.ok_bind]
  rw [changeNode, show (Node.single Tok.comma).hasTok Tok.isComma = true from rfl]
  · cases s <;> rfl
  · rintro _ ⟨⟩

theorem Loop.other {p : Path} {k k' : Str} {ts : List Tok} {cs ns r : List Node} {s : Bool} (hk : k ≠ k') (h : Loop (k :: p) ns r s) :
    Loop (k :: p) (.field (.path [k'] ts :: cs) :: ns) (.field (.path [k'] ts :: cs) :: r) true := by
  intro i prev
  rw [changeLoop, h]
  simp only [Res.ok_bind]
  rw [changeNode]
  have hkey : Node.fieldPath (.path [k'] ts :: cs) = .ok ([k'], ts) := rfl
  have hbeq : PathM.beq [k'] (k :: p) = false := by
    rw [← Bool.not_eq_true, PathM.C03_beq]
    intro e
    cases e
    exact hk rfl
  have h1 : ¬ (k :: p <+: [k']) := by
    rintro ⟨y, hy⟩
    simp at hy
    exact hk hy.1
  have h2 : ¬ ([k'] <+: k :: p) := by
    rintro ⟨y, hy⟩
    simp at hy
    exact hk hy.1.symm
  rw [hkey, Res.ok_bind]
  simp only [hbeq, Bool.and_false, Bool.false_eq_true, if_false, Bool.not_false, Bool.and_true]
  rw [PathM.C03_startsWith _ _ (by simp), PathM.C03_startsWith _ _ (by simp)]
  simp [h1, h2]

theorem Loop.drop {k : Str} {ts : List Tok} {cs ns r : List Node} {s : Bool} (h : Loop [k] ns r s) :
    Loop [k] (.field (.path [k] ts :: cs) :: ns) (dropSep r) s := by
  intro i prev
  rw [changeLoop, h]
  simp only [Res.ok_bind]
  rw [changeNode]
  have hkey : Node.fieldPath (.path [k] ts :: cs) = .ok ([k], ts) := rfl
  have hbeq : PathM.beq [k] [k] = true := (PathM.C03_beq _ _).2 rfl
  rw [hkey, Res.ok_bind]
  simp [hbeq]

theorem Loop.inside {k : Str} {rem : Path} (hr : rem ≠ []) {ts : List Tok} {fa ocs ocs' ns r : List Node} {s s' : Bool}
    (hf : ∀ n ∈ fa, n.isValue = false) (ho : Loop rem ocs ocs' s') (h : Loop (k :: rem) ns r s) :
    Loop (k :: rem) (.field (.path [k] ts :: (fa ++ [.object ocs])) :: ns) (.field (.path [k] ts :: (fa ++ [.object ocs'])) :: r) true := by
  intro i prev
  rw [changeLoop, h]
  simp only [Res.ok_bind]
  rw [changeNode]
  have hkey : Node.fieldPath (.path [k] ts :: (fa ++ [.object ocs])) = .ok ([k], ts) := rfl
  have hne : [k] ≠ k :: rem := by
    intro e
    cases e
    exact hr rfl
  have hbeq : PathM.beq [k] (k :: rem) = false := by rw [← Bool.not_eq_true, PathM.C03_beq]; exact hne
  have h1 : ¬ (k :: rem <+: [k]) := by
    rintro ⟨y, hy⟩
    simp at hy
    exact hr hy.1
  have hpre : [k] <+: k :: rem := ⟨rem, rfl⟩
  obtain ⟨rem', _, hpe, hsub⟩ := length_drop_facts (by simp) hpre hne
  have hrem : rem' = rem := by simpa using hpe.symm
  subst hrem
  rw [hkey, Res.ok_bind]
  simp only [hbeq, Bool.and_false, Bool.false_eq_true, if_false, Bool.not_false, Bool.and_true]
  rw [PathM.C03_startsWith _ _ (by simp), PathM.C03_startsWith _ _ (by simp)]
  simp only [h1, hpre, decide_false, decide_true, Res.ok_bind, if_true, Bool.false_eq_true, if_false]
  have hfa : ∀ n ∈ Node.path [k] ts :: fa, n.isValue = false := by
    intro n hn
    rcases List.mem_cons.1 hn with rfl | hn
    · rfl
    · exact hf n hn
  have := changeField_split (fl := .json) (rem := rem') (value := none) (fb := []) (w := .object ocs') hfa
    (v := .object ocs) rfl (by rw [changeInObject, ho]; rfl)
  rw [hsub, show Node.path [k] ts :: (fa ++ [Node.object ocs]) = (Node.path [k] ts :: fa) ++ [Node.object ocs] from rfl, this]
  rfl

/-- An object without the key is left as it is. -/
theorem Loop.absent {A : Scalar → Str → Prop} {K : Str → Bool → Str → Prop} {kd : Kind} {ns : List Node} (h : Sh A K kd ns) :
    ∀ fs, kd = .obj fs ∨ kd = .objT fs → ∀ k p, k ∉ keysOf fs → Loop (k :: p) ns ns (!fs.isEmpty) := by
  induction h with
  | scalar | array | object | arrNil | arrCons | arrTNil | arrTCons => rintro _ (h | h) <;> cases h
  | objNil hw | objTNil hw =>
    rintro fs (h | h) k p _ <;> cases h
    exact Loop.close.bl hw
  | @objCons w w2 w3 ns n k text q line v fs hw hk h2 h3 hv _ ih1 ih2 =>
    rintro _ (h | h) k' p hk' <;> cases h
    simp [keysOf] at hk'
    exact (Loop.other hk'.1 (ih2 fs (.inr rfl) k' p (by simpa [keysOf] using hk'.2))).bl hw
  | @objTCons w ns f fs hw _ ih =>
    rintro _ (h | h) k' p hk' <;> cases h
    exact (ih _ (.inl rfl) k' p hk').comma.bl hw

/-! ### What is left -/

/-- What `dropSep` takes from whitespace. -/
theorem dropSep_bl {w : List Node} (hw : Bl w) {n : Node} (hn : isSep n = false) (rest : List Node) :
    ∃ w1 w2, w = w1 ++ w2 ∧ dropSep (w ++ n :: rest) = w2 ++ n :: rest := by
  induction w with
  | nil => exact ⟨[], [], rfl, by simpa using dropSep_append (g := []) (by simp) (.inr ⟨n, rest, rfl, hn⟩)⟩
  | cons m w ih =>
    by_cases hm : isSep m = true
    · obtain ⟨w1, w2, rfl, h⟩ := ih fun x hx => hw x (.tail _ hx)
      refine ⟨m :: w1, w2, rfl, ?_⟩
      rw [List.cons_append, dropSep]
      rw [isSep] at hm
      rw [if_pos hm]
      exact h
    · rw [Bool.not_eq_true] at hm
      exact ⟨[], m :: w, rfl, by simpa using dropSep_append (g := []) (by simp) (.inr ⟨m, w ++ n :: rest, rfl, hm⟩)⟩

/-- Whitespace without newlines before a comma is dropped. -/
theorem dropSep_comma {w : List Node} (hw : Bl w) (hl : ∀ l, Node.single (.newline l) ∉ w) (rest : List Node) :
    dropSep (w ++ .single .comma :: rest) = dropSep rest := by
  induction w with
  | nil => rfl
  | cons m w ih =>
    have hm : (m.hasTok Tok.isWs || m.hasTok Tok.isComma) = true := by
      obtain ⟨t, rfl, ht⟩ := hw m (.head _)
      cases t with
      | ws => rfl
      | newline l => exact absurd (.head _) (hl l)
      | _ => cases ht
    rw [List.cons_append, dropSep, if_pos hm]
    exact ih (fun x hx => hw x (.tail _ hx)) fun l hx => hl l (.tail _ hx)

theorem isSep_field (cs : List Node) : isSep (.field cs) = false := rfl

/-- Dropping whitespace at the beginning of an object leaves an object. -/
theorem Sh.dropSep {A : Scalar → Str → Prop} {K : Str → Bool → Str → Prop} {fs : List (Str × Value)} {ns : List Node}
    (h : Sh A K (.obj fs) ns) : ∃ u ns', ns = u ++ ns' ∧ Bl u ∧ DocEdit.dropSep ns = ns' ∧ Sh A K (.obj fs) ns' := by
  cases h with
  | objNil hw =>
    obtain ⟨w1, w2, rfl, e⟩ := dropSep_bl hw (n := .single .closeCurly) rfl []
    exact ⟨w1, _, by simp, fun m hm => hw m (by simp [hm]), e, .objNil fun m hm => hw m (by simp [hm])⟩
  | objCons hw hk h2 h3 hv hns =>
    obtain ⟨w1, w2, rfl, e⟩ := dropSep_bl hw (isSep_field _) _
    exact ⟨w1, _, by rw [List.append_assoc], fun m hm => hw m (by simp [hm]), e, .objCons (fun m hm => hw m (by simp [hm])) hk h2 h3 hv hns⟩

/-- Whitespace at the beginning of an object. -/
theorem Sh.front {A : Scalar → Str → Prop} {K : Str → Bool → Str → Prop} {fs : List (Str × Value)} {w ns : List Node}
    (hw : Bl w) (h : Sh A K (.obj fs) ns) : Sh A K (.obj fs) (w ++ ns) := by
  cases h with
  | objNil hw' => rw [← List.append_assoc]; exact .objNil (Bl.append hw hw')
  | objCons hw' hk h2 h3 hv hns => rw [← List.append_assoc]; exact .objCons (Bl.append hw hw') hk h2 h3 hv hns

theorem inLine_infix {s t : Str} (h : CommasInLine t) (hs : s <:+: t) : CommasInLine s :=
  fun w hw hi => h w hw (hi.trans hs)

/-- In such a text no newline stands before the comma. -/
theorem noNewline {w : List Node} {rest : List Node} (hw : Bl w) (h : CommasInLine (renderList (w ++ .single .comma :: rest))) :
    ∀ l, Node.single (.newline l) ∉ w := by
  intro l hl
  obtain ⟨a, b, rfl⟩ := List.append_of_mem hl
  refine h (renderList b) (bl_text fun m hm => hw m (by simp [hm])) ⟨renderList a, renderList rest, ?_⟩
  simp [renderList_append, render_cons, Node.render, Node.tokens, Tok.textList, Tok.text]

theorem shrunk_wrap {s s' : Str} (h : Shrunk env N s s') (X Y : Str) : Shrunk env N (X ++ (s ++ Y)) (X ++ (s' ++ Y)) := by
  obtain ⟨A, m, w, B, f, hm, hw, h⟩ := h
  refine ⟨X ++ A, m, w, B ++ Y, f, hm, hw, ?_⟩
  rcases h with ⟨rfl, rfl⟩ | ⟨rfl, rfl⟩ | ⟨rfl, rfl⟩
  · left; simp
  · right; left; simp
  · right; right; simp

/-- The first member. -/
theorem drop_first {k : Str} {v : Value} {post : List (Str × Value)} {ns : List Node}
    (h : Sh (JA env N) (JK env) (.obj ((k, v) :: post)) ns) (hk : k ∉ keysOf post) (hc : CommasInLine (renderList ns)) :
    ∃ r w m B f, Loop [k] ns r (!post.isEmpty) ∧ Sh (JA env N) (JK env) (.obj post) r ∧ JWs w ∧ JText env N (.members [f]) m ∧
      renderList r = w ++ B ∧ ((post = [] ∧ renderList ns = w ++ (m ++ B)) ∨ (post ≠ [] ∧ ∃ w', JWs w' ∧ renderList ns = w ++ (m ++ ',' :: (w' ++ B)))) := by
  cases h with
  | @objCons w w2 w3 ns n k text q line v _ hw hkt h2 h3 hv hns =>
    obtain ⟨rfl, kt, rfl, hkt⟩ := hkt
    have hvt : JText env N (.value v) n.render := by simpa [Txt, renderList, tokensList, Node.render] using Sh.text hv
    have habs := Loop.absent hns post (.inr rfl) k [] hk
    have hmem : ∀ u, JWs u → JText env N (.members [(k, v)]) (('"' :: kt ++ ['"']) ++ renderList w2 ++ ':' :: renderList w3 ++ n.render ++ u) := by
      intro u hu
      simpa using JText.member (w1 := []) (by simp [JWs]) hkt (bl_text h2) (bl_text h3) hvt hu
    have hloop := (Loop.drop (ts := [.value (.str k true) ('"' :: kt ++ ['"']) line]) (cs := w2 ++ .single .colon :: (w3 ++ [n])) habs).bl hw
    cases hns with
    | @objTNil w' hw' =>
      obtain ⟨u1, u2, rfl, e⟩ := dropSep_bl hw' (n := .single .closeCurly) rfl []
      rw [e] at hloop
      have hu1 : Bl u1 := fun m hm => hw' m (by simp [hm])
      have hu2 : Bl u2 := fun m hm => hw' m (by simp [hm])
      refine ⟨_, renderList w, _, renderList (u2 ++ [.single .closeCurly]), _, hloop, ?_, bl_text hw, hmem _ (bl_text hu1), ?_, .inl ⟨rfl, ?_⟩⟩
      · exact Sh.front hw (.objNil hu2)
      · simp [renderList_append]
      · simp only [renderList_append, render_cons, field_text]
        simp [renderList, tokensList]
    | @objTCons w' ns' f fs hw' hns' =>
      have hnl := noNewline (rest := ns') hw' (inLine_infix hc (by
        refine ⟨renderList w ++ ('"' :: kt ++ ['"'] ++ renderList w2 ++ ':' :: renderList w3 ++ n.render), [], ?_⟩
        simp only [renderList_append, render_cons, field_text]
        simp))
      rw [dropSep_comma hw' hnl] at hloop
      obtain ⟨u, ns'', rfl, hu, e, hs⟩ := Sh.dropSep hns'
      rw [e] at hloop
      refine ⟨_, renderList w, _, renderList ns'', _, hloop, Sh.front hw hs, bl_text hw, hmem _ (bl_text hw'), renderList_append _ _, .inr
        ⟨by simp, renderList u, bl_text hu, ?_⟩⟩
      simp only [renderList_append, render_cons, field_text]
      simp [Node.render, Node.tokens, Tok.textList, Tok.text]

/-- One member. -/
theorem drop_here (pre : List (Str × Value)) : ∀ {k : Str} {v : Value} {post : List (Str × Value)} {ns : List Node},
    Sh (JA env N) (JK env) (.obj (pre ++ (k, v) :: post)) ns → k ∉ keysOf pre → k ∉ keysOf post → CommasInLine (renderList ns) →
    ∃ r, Loop [k] ns r (!(pre ++ post).isEmpty) ∧ Sh (JA env N) (JK env) (.obj (pre ++ post)) r ∧
      Shrunk env N (renderList ns) (renderList r) := by
  induction pre with
  | nil =>
    intro k v post ns h _ hk hc
    obtain ⟨r, w, m, B, f, h1, h2, h3, h4, h5, h6⟩ := drop_first h hk hc
    refine ⟨r, h1, h2, ?_⟩
    rw [h5]
    rcases h6 with ⟨_, h6⟩ | ⟨_, w', hw', h6⟩
    · exact ⟨w, m, [], B, f, h4, by simp [JWs], .inr (.inr ⟨h6, rfl⟩)⟩
    · exact ⟨w, m, w', B, f, h4, hw', .inl ⟨h6, rfl⟩⟩
  | cons g pre ih =>
    intro k v post ns h hpre hpost hc
    simp only [keysOf, List.map_cons, List.mem_cons, not_or] at hpre
    cases h with
    | @objCons w w2 w3 ns n k' text q line v' _ hw hkt h2 h3 hv hns =>
      cases hns' : pre ++ (k, v) :: post with
      | nil => simp at hns'
      | cons f fs =>
      have hns2 : Sh (JA env N) (JK env) (.objT (pre ++ (k, v) :: post)) ns := hns
      rw [hns'] at hns2
      cases hns2 with
      | @objTCons w' ns' f fs hw' hs =>
        rw [← hns'] at hs
        have hc' : CommasInLine (renderList ns') := inLine_infix hc ⟨renderList w ++ (Node.field (.path [k'] [.value (.str k' q) text line] ::
            (w2 ++ .single .colon :: (w3 ++ [n])))).render ++ renderList w' ++ [','], [], by
          simp [renderList_append, render_cons, Node.render, Node.tokens, Tok.textList, Tok.text]⟩
        by_cases he : pre ++ post = []
        · obtain ⟨rfl, rfl⟩ := List.append_eq_nil_iff.1 he
          obtain ⟨r, u, m, B, f', g1, g2, g3, g4, g5, g6⟩ := drop_first hs hpost hc'
          have hloop := (Loop.other (ts := [.value (.str k' q) text line]) (cs := w2 ++ .single .colon :: (w3 ++ [n])) hpre.1
            (g1.comma.bl hw')).bl hw
          obtain ⟨x, rfl, hx⟩ : ∃ x, r = x ++ [.single .closeCurly] ∧ Bl x := by
            cases g2 with
            | objNil hx => exact ⟨_, rfl, hx⟩
          refine ⟨_, hloop, ?_, ?_⟩
          · have := Sh.objCons (line := line) hw hkt h2 h3 hv (.objTNil (Bl.append hw' hx))
            simpa using this
          · rcases g6 with ⟨_, g6⟩ | ⟨g6, _⟩
            · refine ⟨renderList w ++ (Node.field (.path [k'] [.value (.str k' q) text line] ::
                (w2 ++ .single .colon :: (w3 ++ [n])))).render ++ renderList w', m, u, B, f', g4, g3, .inr (.inl ⟨?_, ?_⟩)⟩
              · simp [renderList_append, render_cons, g6]
                simp [Node.render, Node.tokens, Tok.textList, Tok.text]
              · simp [renderList_append, render_cons] at g5 ⊢
                simp [g5]
            · exact absurd rfl g6
        · obtain ⟨r, g1, g2, g3⟩ := ih hs hpre.2 hpost hc'
          have hne : (pre ++ post).isEmpty = false := by simpa using he
          rw [hne] at g1
          have hloop := (Loop.other (ts := [.value (.str k' q) text line]) (cs := w2 ++ .single .colon :: (w3 ++ [n])) hpre.1
            (g1.comma.bl hw')).bl hw
          refine ⟨_, hloop, ?_, ?_⟩
          · cases hpp : pre ++ post with
            | nil => exact absurd hpp he
            | cons f fs =>
              rw [hpp] at g2
              have := Sh.objCons (line := line) hw hkt h2 h3 hv (.objTCons hw' g2)
              simpa [hpp] using this
          · have := shrunk_wrap g3 (renderList w ++ (Node.field (.path [k'] [.value (.str k' q) text line] ::
                (w2 ++ .single .colon :: (w3 ++ [n])))).render ++ renderList w' ++ [',']) []
            simpa [renderList_append, render_cons, Node.render, Node.tokens, Tok.textList, Tok.text] using this

/-- In the object of one member. -/
theorem drop_inside (pre : List (Str × Value)) : ∀ {k : Str} {p : Path} {gs gs' : List (Str × Value)} {post : List (Str × Value)} {ns : List Node},
    Sh (JA env N) (JK env) (.obj (pre ++ (k, .obj gs true false) :: post)) ns → k ∉ keysOf pre → k ∉ keysOf post → p ≠ [] →
    CommasInLine (renderList ns) → (keysOf gs').Nodup →
    (∀ os, Sh (JA env N) (JK env) (.obj gs) os → CommasInLine (renderList os) →
      ∃ r s, Loop p os r s ∧ Sh (JA env N) (JK env) (.obj gs') r ∧ Shrunk env N (renderList os) (renderList r)) →
    ∃ r, Loop (k :: p) ns r true ∧ Sh (JA env N) (JK env) (.obj (pre ++ (k, .obj gs' true false) :: post)) r ∧
      Shrunk env N (renderList ns) (renderList r) := by
  induction pre with
  | nil =>
    intro k p gs gs' post ns h _ hk hp hc hn hin
    cases h with
    | @objCons w w2 w3 ns n k text q line v _ hw hkt h2 h3 hv hns =>
      cases hv with
      | @object _ os hos _ =>
        have hc' : CommasInLine (renderList os) := inLine_infix hc
          ⟨renderList w ++ (text ++ renderList w2 ++ ':' :: renderList w3) ++ ['{'], renderList ns, by
            simp only [renderList_append, render_cons, field_text]
            simp [Node.render, Node.tokens, tokensList, renderList, Tok.textList, Tok.text]⟩
        obtain ⟨r, s, g1, g2, g3⟩ := hin os hos hc'
        have habs := Loop.absent hns post (.inr rfl) k p hk
        have hf : ∀ m ∈ w2 ++ .single .colon :: w3, m.isValue = false := by
          intro m hm
          simp only [List.mem_append, List.mem_cons] at hm
          rcases hm with hm | rfl | hm
          · obtain ⟨t, rfl, _⟩ := h2 m hm; rfl
          · rfl
          · obtain ⟨t, rfl, _⟩ := h3 m hm; rfl
        have hloop := (Loop.inside (ts := [.value (.str k q) text line]) hp hf (g1.tok (t := .openCurly) rfl) habs).bl hw
        refine ⟨_, by simpa using hloop, ?_, ?_⟩
        · have := Sh.objCons (line := line) hw hkt h2 h3 (.object g2 hn) hns
          simpa using this
        · have := shrunk_wrap g3 (renderList w ++ (text ++ renderList w2 ++ ':' :: renderList w3) ++ ['{']) (renderList ns)
          have e : ∀ x, renderList (w ++ .field (.path [k] [.value (.str k q) text line] :: (w2 ++ .single .colon ::
              (w3 ++ [.object (.single .openCurly :: x)]))) :: ns)
              = (renderList w ++ (text ++ renderList w2 ++ ':' :: renderList w3) ++ ['{']) ++ (renderList x ++ renderList ns) := by
            intro x
            simp only [renderList_append, render_cons, field_text]
            simp [Node.render, Node.tokens, tokensList, renderList, Tok.textList, Tok.text]
          rw [e]
          have e' := e r
          simp only [List.append_assoc, List.cons_append] at e' ⊢
          rw [e']
          simpa using this
  | cons g pre ih =>
    intro k p gs gs' post ns h hpre hpost hp hc hn hin
    simp only [keysOf, List.map_cons, List.mem_cons, not_or] at hpre
    cases h with
    | @objCons w w2 w3 ns n k' text q line v' _ hw hkt h2 h3 hv hns =>
      cases hns' : pre ++ (k, .obj gs true false) :: post with
      | nil => simp at hns'
      | cons f fs =>
      have hns2 : Sh (JA env N) (JK env) (.objT (pre ++ (k, .obj gs true false) :: post)) ns := hns
      rw [hns'] at hns2
      cases hns2 with
      | @objTCons w' ns' f fs hw' hs =>
        rw [← hns'] at hs
        have hc' : CommasInLine (renderList ns') := inLine_infix hc ⟨renderList w ++ (Node.field (.path [k'] [.value (.str k' q) text line] ::
            (w2 ++ .single .colon :: (w3 ++ [n])))).render ++ renderList w' ++ [','], [], by
          simp [renderList_append, render_cons, Node.render, Node.tokens, Tok.textList, Tok.text]⟩
        obtain ⟨r, g1, g2, g3⟩ := ih hs hpre.2 hpost hp hc' hn hin
        have hloop := (Loop.other (ts := [.value (.str k' q) text line]) (cs := w2 ++ .single .colon :: (w3 ++ [n])) hpre.1
          (g1.comma.bl hw')).bl hw
        refine ⟨_, hloop, ?_, ?_⟩
        · cases hpp : pre ++ (k, .obj gs' true false) :: post with
          | nil => simp at hpp
          | cons f fs =>
            rw [hpp] at g2
            have := Sh.objCons (line := line) hw hkt h2 h3 hv (.objTCons hw' g2)
            simpa [hpp] using this
        · have := shrunk_wrap g3 (renderList w ++ (Node.field (.path [k'] [.value (.str k' q) text line] ::
              (w2 ++ .single .colon :: (w3 ++ [n])))).render ++ renderList w' ++ [',']) []
          simpa [renderList_append, render_cons, Node.render, Node.tokens, Tok.textList, Tok.text] using this

theorem split_nodup {k : Str} {v : Value} {fs fs' : List (Str × Value)} (hn : (keysOf (fs ++ (k, v) :: fs')).Nodup) :
    k ∉ keysOf fs ∧ k ∉ keysOf fs' ∧ (keysOf (fs ++ fs')).Nodup := by
  simp only [keysOf, List.map_append, List.map_cons, List.nodup_append, List.nodup_cons] at hn ⊢
  exact ⟨fun h => hn.2.2 k h k (by simp) rfl, hn.2.1.1, hn.1, hn.2.1.2, fun a ha b hb => hn.2.2 a ha b (by simp [hb])⟩

theorem Dropped.keys {fs fs' : List (Str × Value)} {p : Path} (h : Dropped fs p fs') (hn : (keysOf fs).Nodup) :
    (keysOf fs').Nodup ∧ p ≠ [] := by
  cases h with
  | here => exact ⟨(split_nodup hn).2.2, by simp⟩
  | inside => exact ⟨by simpa [keysOf] using hn, by simp⟩

theorem drop_json {fs fs' : List (Str × Value)} {p : Path} (h : Dropped fs p fs') :
    ∀ {ns : List Node}, Sh (JA env N) (JK env) (.obj fs) ns → (keysOf fs).Nodup → CommasInLine (renderList ns) →
      ∃ r s, Loop p ns r s ∧ Sh (JA env N) (JK env) (.obj fs') r ∧ Shrunk env N (renderList ns) (renderList r) := by
  induction h with
  | @here k v fs fs' =>
    intro ns hs hn hc
    obtain ⟨h1, h2, _⟩ := split_nodup hn
    obtain ⟨r, g⟩ := drop_here fs hs h1 h2 hc
    exact ⟨r, _, g⟩
  | @inside k p fs fs' gs gs' hd ih =>
    intro ns hs hn hc
    obtain ⟨h1, h2, _⟩ := split_nodup hn
    have hgn : (keysOf gs).Nodup := by
      obtain ⟨a, b, fa, ts, n, _, g1, _⟩ := Sh.member fs hs
      cases g1 with
      | object _ h => exact h
    obtain ⟨r, g⟩ := drop_inside fs hs h1 h2 (Dropped.keys hd hgn).2 hc (Dropped.keys hd hgn).1
      (fun os ho hco => ih ho hgn hco)
    exact ⟨r, _, g⟩

theorem remove_json (hN : NumLex env N) (hx : HexOk env) {fs fs' : List (Str × Value)} {w1 t w2 path : Str}
    {p : Path} {pt : List Tok} (h1 : JWs w1) (h : JText env N (.value (.obj fs true false)) t) (h2 : JWs w2)
    (hc : CommasInLine (w1 ++ t ++ w2))
    (hp : PathParser.parsePathNode env .json path = .ok (p, pt)) (hd : Dropped fs p fs') :
    ∃ d d', Doc.parse env .json (w1 ++ t ++ w2) = .ok d ∧ d.withoutPath env path = .ok d' ∧
      Shrunk env N (w1 ++ t ++ w2) d'.render ∧
      ∃ w1' t' w2', d'.render = w1' ++ t' ++ w2' ∧ JWs w1' ∧ JText env N (.value (.obj fs' true false)) t' ∧ JWs w2' := by
  obtain ⟨q1, ns, q2, hparse, hq1, hq2, hns, hn, htext⟩ := doc_json hN hx .json h1 h h2
  rw [htext] at hc ⊢
  obtain ⟨r, s, g1, g2, g3⟩ := drop_json hd hns hn (inLine_infix hc ⟨renderList q1 ++ ['{'], renderList q2, by simp⟩)
  have hr : renderList (q1 ++ .object (.single .openCurly :: r) :: q2) = renderList q1 ++ ['{'] ++ renderList r ++ renderList q2 := by
    simp [renderList, Node.tokensList_append, tokensList, Node.tokens, Tok.textList_append, Tok.textList, Tok.text]
  refine ⟨_, ⟨q1 ++ .object (.single .openCurly :: r) :: q2, .json⟩, htext ▸ hparse, ?_, ?_, ?_⟩
  · unfold Doc.withoutPath rootSet
    simp only [findObject_bl hq1, Res.ok_bind, hp, objectSet, changeValue]
    rw [g1.tok (t := .openCurly) rfl]
    rfl
  · unfold Doc.render
    rw [hr]
    have := shrunk_wrap g3 (renderList q1 ++ ['{']) (renderList q2)
    simpa using this
  · refine ⟨renderList q1, '{' :: renderList r, renderList q2, ?_, bl_text hq1,
      (Sh.text g2).object (Dropped.keys hd hn).1, bl_text hq2⟩
    unfold Doc.render
    rw [hr]
    simp

end
end JsonRemove
end Hocon
