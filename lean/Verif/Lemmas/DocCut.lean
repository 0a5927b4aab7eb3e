import Verif.Lemmas.DocReplace

/-!
# Removing a path that is set once
-/

set_option autoImplicit false

namespace Hocon
namespace DocEdit
open PathParser (Syntax)
open DocParser
open Node Tokenizer

/-- Whitespace or a comma, which are removed behind a field. -/
def isSep (n : Node) : Bool := n.hasTok Tok.isWs || n.hasTok Tok.isComma

theorem dropSep_append {g b : List Node} (hg : ∀ n ∈ g, isSep n = true)
    (hb : b = [] ∨ ∃ n r, b = n :: r ∧ isSep n = false) : dropSep (g ++ b) = b := by
  induction g with
  | nil =>
    rcases hb with rfl | ⟨n, r, rfl, hn⟩
    · rfl
    · rw [List.nil_append, dropSep, if_neg]
      unfold isSep at hn
      rw [hn]
      simp
  | cons n g ih =>
    rw [List.cons_append, dropSep, if_pos]
    · exact ih fun m hm => hg m (.tail _ hm)
    · exact hg n (.head _)

/-- `Cut z cs p cs'`: in the children `cs` of an object the path `p` is set by exactly one field; without it and
the separators behind it the children are `cs'`. Without `z` something else follows. -/
inductive Cut : Bool → List Node → Path → List Node → Prop where
  | here {z : Bool} {a f g b : List Node} {p : Path} {ts : List Tok} (ha : ¬ Occurs a p) (hb : ¬ Occurs (g ++ b) p)
      (hk : fieldPath f = .ok (p, ts)) (hg : ∀ n ∈ g, isSep n = true)
      (hs : (z = true ∧ b = []) ∨ ∃ n r, b = n :: r ∧ isSep n = false) :
      Cut z (a ++ .field f :: (g ++ b)) p (a ++ b)
  | inside {z z' : Bool} {a b fa fb ocs ocs' : List Node} {key rem : Path} {ts : List Tok}
      (hr : rem ≠ []) (ha : ¬ Occurs a (key ++ rem)) (hb : ¬ Occurs b (key ++ rem))
      (hk : fieldPath (fa ++ .object ocs :: fb) = .ok (key, ts)) (hf : ∀ n ∈ fa, n.isValue = false)
      (ho : Cut z' ocs rem ocs') :
      Cut z (a ++ .field (fa ++ .object ocs :: fb) :: b) (key ++ rem) (a ++ .field (fa ++ .object ocs' :: fb) :: b)

theorem Cut.prefix {z : Bool} {a cs cs' : List Node} {p : Path} (ha : ¬ Occurs a p) (h : Cut z cs p cs') :
    Cut z (a ++ cs) p (a ++ cs') := by
  cases h with
  | @here _ a' f g b p ts ha' hb hk hg hs =>
    have := Cut.here (z := z) (a := a ++ a') (fun h => (Occurs.append.1 h).elim ha ha') hb hk hg hs
    simpa using this
  | @inside _ z' a' b fa fb ocs ocs' key rem ts hr ha' hb hk hf ho =>
    have := Cut.inside (z := z) (a := a ++ a') hr (fun h => (Occurs.append.1 h).elim ha ha') hb hk hf ho
    simpa using this

theorem Cut.suffix {z : Bool} {b cs cs' : List Node} {p : Path} (hb : ¬ Occurs b p) (h : Cut false cs p cs') :
    Cut z (cs ++ b) p (cs' ++ b) := by
  cases h with
  | @here _ a f g b' p ts ha hb' hk hg hs =>
    rcases hs with ⟨h, _⟩ | ⟨n, r, rfl, hn⟩
    · cases h
    have := Cut.here (z := z) (a := a) (b := n :: r ++ b) ha
      (fun h => (Occurs.append.1 (by simpa using h : Occurs ((g ++ n :: r) ++ b) p)).elim hb' hb) hk hg
      (Or.inr ⟨n, r ++ b, rfl, hn⟩)
    simpa using this
  | @inside _ z' a b' fa fb ocs ocs' key rem ts hr ha hb' hk hf ho =>
    have := Cut.inside (z := z) (b := b' ++ b) hr ha (fun h => (Occurs.append.1 h).elim hb' hb) hk hf ho
    simpa using this

/-- The children in front of the field are not touched. -/
theorem changeLoop_frontConf {p : Path} (hp : p ≠ []) {value : Option Node}
    {a rest : List Node} (hw : WfList .conf a) (ha : ¬ Occurs a p) (i : Nat) (prev : Option Node) :
    ∃ i' prev', ∀ r seen vc, changeLoop .conf p value i' prev' rest = .ok (r, seen, vc) →
      ∃ seen', changeLoop .conf p value i prev (a ++ rest) = .ok (a ++ r, seen', vc) := by
  induction a generalizing i prev with
  | nil => exact ⟨i, prev, fun r seen vc h => ⟨seen, h⟩⟩
  | cons n a ih =>
    rw [Occurs.cons, not_or] at ha
    obtain ⟨i', prev', h1⟩ := ih hw.2 ha.2 (i + 1) (some n)
    refine ⟨i', prev', fun r seen vc hr => ?_⟩
    obtain ⟨seen1, h2⟩ := h1 r seen vc hr
    rw [List.cons_append, changeLoop, h2]
    simp only [Res.ok_bind]
    obtain ⟨seen', h3, h4, _⟩ := changeNode_absent hp (value := vc) i prev (r := a ++ r) (seen := seen1)
      n (fun h => by cases h) hw.1 ha.1
    exact ⟨seen', h3⟩

theorem cut_conf {z : Bool} {cs cs' : List Node} {p : Path} (h : Cut z cs p cs') (hp : p ≠ [])
    (hcs : WfList .conf cs) :
    ∀ (i : Nat) (prev : Option Node), ∃ seen, changeLoop .conf p none i prev cs = .ok (cs', seen, none) := by
  induction h with
  | @here z a f g b p ts ha hb hk hg hs =>
    intro i prev
    rw [WfList.iff] at hcs
    have hwa : WfList .conf a := WfList.iff.2 fun n hn => hcs n (by simp [hn])
    have hwb : WfList .conf (g ++ b) := WfList.iff.2 fun n hn => hcs n (by
      rcases List.mem_append.1 hn with h | h <;> simp [h])
    obtain ⟨i', prev', hfront⟩ := changeLoop_frontConf hp (value := none)
      (rest := .field f :: (g ++ b)) hwa ha i prev
    obtain ⟨seen, k1, _⟩ := changeLoop_absent hp (value := none) (g ++ b) hwb (fun h => by cases h) hb (i' + 1)
      (some (.field f))
    refine hfront b seen none ?_
    rw [changeLoop, k1]
    simp only [Res.ok_bind]
    rw [changeNode, hk]
    simp only [Res.ok_bind]
    have hbeq : PathM.beq p p = true := (PathM.C03_beq p p).2 rfl
    rw [hbeq, dropSep_append hg (hs.imp And.right id)]
    rfl
  | @inside z z' a b fa fb ocs ocs' key rem ts hr ha hb hk hf ho ih =>
    intro i prev
    rw [WfList.iff] at hcs
    have hwa : WfList .conf a := WfList.iff.2 fun n hn => hcs n (by simp [hn])
    have hwb : WfList .conf b := WfList.iff.2 fun n hn => hcs n (by simp [hn])
    obtain ⟨⟨k, ks, ts', hkey⟩, _, hfw⟩ := hcs (.field (fa ++ .object ocs :: fb)) (by simp)
    rw [hk] at hkey
    simp only [Res.ok.injEq, Prod.mk.injEq] at hkey
    obtain ⟨rfl, rfl⟩ := hkey
    have hwo : WfNode .conf (.object ocs) := (WfList.iff.1 hfw) _ (by simp)
    obtain ⟨i', prev', hfront⟩ := changeLoop_frontConf hp (value := none)
      (rest := .field (fa ++ .object ocs :: fb) :: b) hwa ha i prev
    obtain ⟨seen', k1⟩ := ih hr hwo.2.2 0 none
    refine hfront _ true none ?_
    obtain ⟨seen, k4, _⟩ := changeLoop_absent hp (value := none) b hwb (fun h => by cases h) hb (i' + 1)
      (some (.field (fa ++ .object ocs :: fb)))
    rw [changeLoop, k4]
    simp only [Res.ok_bind]
    rw [changeNode, hk]
    simp only [Res.ok_bind]
    have hne : k :: ks ≠ k :: ks ++ rem := by
      intro h
      exact hr (List.self_eq_append_right.1 h)
    have hnp : ¬ (k :: ks ++ rem <+: k :: ks) := by
      intro h
      have := h.length_le
      have := List.length_pos_iff.2 hr
      simp at *
      omega
    have hbeq : PathM.beq (k :: ks) (k :: ks ++ rem) = false := by
      rw [← Bool.not_eq_true, PathM.C03_beq]; exact hne
    rw [hbeq, PathM.C03_startsWith _ _ (by simp : k :: ks ≠ [])]
    simp only [Bool.and_false, Bool.false_and, Bool.false_eq_true, if_false, Res.ok_bind, hnp, decide_false]
    rw [PathM.C03_startsWith _ _ hp]
    have hpre : k :: ks <+: k :: ks ++ rem := List.prefix_append _ _
    obtain ⟨rem', hrem', hpe, hsub⟩ := length_drop_facts (by simp) hpre hne
    have : rem' = rem := (List.append_cancel_left hpe).symm
    subst this
    simp only [hpre, decide_true, Res.ok_bind, if_true]
    rw [hsub, changeField_split (w := .object ocs') hf rfl (by rw [changeInObject, k1]; rfl)]
    rfl

/-- Removing a path that is set once in a HOCON document. -/
theorem withoutPath_once {env : Env} {d : Doc} {path : Str} (hd : Reachable env d) (hfl : d.fl = .conf)
    {a cs b : List Node} (hf : DocEdit.findObject d.root = .ok (a, cs, b))
    {p : Path} {pt : List Tok} (hp : PathParser.parsePathNode env d.fl path = .ok (p, pt))
    {z : Bool} {cs' : List Node} (h : Cut z cs p cs') :
    ∃ d', d.withoutPath env path = .ok d' ∧ d'.root = a ++ .object cs' :: b := by
  have hwn : DocEdit.WfNode .conf (.object cs) := by
    have := hd.wf
    unfold DocEdit.DocWf at this
    rw [(DocEdit.findObject_spec hf).1, DocEdit.WfList.iff, hfl] at this
    exact this _ (by simp)
  obtain ⟨hpne, _⟩ := DocEdit.parsePathNode_dots hp
  obtain ⟨seen, k⟩ := cut_conf h hpne hwn.2.2 0 none
  refine ⟨⟨a ++ .object cs' :: b, d.fl⟩, ?_, rfl⟩
  unfold Doc.withoutPath rootSet
  rw [hf, Res.ok_bind]
  simp only
  rw [hp, Res.ok_bind]
  simp only [objectSet, changeValue, hfl]
  rw [k]
  rfl

end DocEdit
end Hocon
