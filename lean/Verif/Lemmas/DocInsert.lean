import Verif.Lemmas.DocPut

/-!
# Adding a path that is not set: any value, missing sections, both syntaxes
-/

set_option autoImplicit false

namespace Hocon
namespace DocEdit
open PathParser (Syntax)
open DocParser
open Node Tokenizer
open PathM (subPath)

/-- `Ins fl v cs p toks cs'`: the path `p`, with the tokens `toks`, is not set by the children `cs` of an object;
with the value `v` and the missing sections at the end of the object in which it belongs they are `cs'`. -/
inductive Ins (fl : Syntax) (v : Node) : List Node → Path → List Tok → List Node → Prop where
  | here {cs cs' ind : List Node} {k : Str} {rest : Path} {toks : List Tok} {iv : Node} {sl : Bool} (ho : ¬ Occurs cs [k])
      (hq : prepare cs v = .ok (ind, iv, sl)) (hb : buildNew fl iv ind sl cs (k :: rest) toks = .ok cs') :
      Ins fl v cs (k :: rest) toks cs'
  | inside {a b fa fb ocs ocs' : List Node} {k : Str} {rem : Path} {toks toks' ts : List Tok}
      (hr : rem ≠ []) (ha : ¬ Occurs a (k :: rem)) (hb : ¬ Occurs b [k])
      (hk : fieldPath (fa ++ .object ocs :: fb) = .ok ([k], ts)) (hf : ∀ n ∈ fa, n.isValue = false)
      (ht : subTokens 1 0 toks = .ok toks') (hq : ∃ x, prepare (a ++ .field (fa ++ .object ocs :: fb) :: b) v = .ok x)
      (ho : Ins fl v ocs rem toks' ocs') :
      Ins fl v (a ++ .field (fa ++ .object ocs :: fb) :: b) (k :: rem) toks
        (a ++ .field (fa ++ .object ocs' :: fb) :: b)

theorem Ins.absent {fl : Syntax} {v : Node} {cs cs' : List Node} {p : Path} {toks : List Tok} (h : Ins fl v cs p toks cs')
    (hw : WfList fl cs) : ¬ Occurs cs p := by
  induction h with
  | here ho => exact fun h => ho (h.first hw)
  | @inside a b fa fb ocs ocs' k rem toks toks' ts hr ha hb hk hf ht _ ho ih =>
    rw [WfList.iff] at hw
    have hwb : WfList fl b := WfList.iff.2 fun n hn => hw n (by simp [hn])
    obtain ⟨_, _, hfw⟩ := hw (.field (fa ++ .object ocs :: fb)) (by simp)
    have hwo : WfNode fl (.object ocs) := (WfList.iff.1 hfw) _ (by simp)
    intro h
    rcases Occurs.append.1 h with h | h
    · exact ha h
    rcases Occurs.cons.1 h with h | h
    · rw [Occurs.field hk] at h
      rcases h with h1 | ⟨rem', ocs1, _, e, hv, h1⟩
      · have := h1.length_le
        have := List.length_pos_iff.2 hr
        simp only [List.length_cons, List.length_nil] at *
        omega
      · rw [fieldValue_split hf rfl] at hv
        cases hv
        cases e
        exact ih hwo.2.2 h1
    · exact hb (h.first hwb)

theorem ins_add {fl : Syntax} {v : Node} {cs cs' : List Node} {p : Path} {toks : List Tok}
    (h : Ins fl v cs p toks cs') (hw : WfList fl cs) : addValue fl p toks v cs = .ok cs' := by
  induction h with
  | here ho hq hb =>
    rw [addValue, addFinish, hq]
    simp only [Res.ok_bind, searchFields]
    rw [addIn_none _ hw ho]
    split <;> (simp only [Res.ok_bind]; exact hb)
  | @inside a b fa fb ocs ocs' k rem toks toks' ts hr ha hb hk hf ht hq ho ih =>
    rw [WfList.iff] at hw
    have hwb : WfList fl b := WfList.iff.2 fun n hn => hw n (by simp [hn])
    obtain ⟨_, _, hfw⟩ := hw (.field (fa ++ .object ocs :: fb)) (by simp)
    have hwo : WfNode fl (.object ocs) := (WfList.iff.1 hfw) _ (by simp)
    have ih := ih hwo.2.2
    have hlen := List.length_pos_iff.2 hr
    have hsub : subPath 1 (k :: rem) = rem := by
      rw [PathM.C03_subPath _ _ (by simp; omega)]; rfl
    have hin : addIn fl v (k :: rem) toks (a ++ .field (fa ++ .object ocs :: fb) :: b)
        = .ok (some (a ++ .field (fa ++ .object ocs' :: fb) :: b)) := by
      refine addIn_front a ?_
      rw [addIn, addIn_none b hwb hb]
      simp only [Res.ok_bind]
      rw [addNode, hk]
      simp only [Res.ok_bind]
      rw [PathM.C03_startsWith _ _ (by simp), PathM.C03_length _ (by simp)]
      have : [k] <+: k :: rem := ⟨rem, rfl⟩
      simp only [this, decide_true, Res.ok_bind, if_true]
      rw [addField_split (n' := .object ocs') hf rfl (by
        rw [addInObject, List.length_singleton, ht]
        simp only [Res.ok_bind, hsub]
        rw [← addValue, ih]
        rfl)]
      rfl
    obtain ⟨⟨ind, iv, sl⟩, hq⟩ := hq
    rw [addValue, addFinish, hq]
    simp only [Res.ok_bind, searchFields]
    rw [if_pos (by rw [PathM.C03_length _ (by simp)]; simp; omega), hin]
    rfl

/-- Adding a value to a document. -/
theorem withValue_insert {env : Env} {d : Doc} {path text : Str} (hd : Reachable env d) (hne : text ≠ [])
    {a cs b : List Node} (hf : DocEdit.findObject d.root = .ok (a, cs, b))
    {p : Path} {pt : List Tok} (hp : PathParser.parsePathNode env d.fl path = .ok (p, pt))
    {cs' : List Node} {toks : List Tok} {v : Node} (ht : Tokenizer.tokenize env (d.fl = .conf) text = .ok toks)
    (hpv : parseSingleValue env d.fl toks = .ok (some v)) (h : Ins d.fl v cs p pt cs') :
    d.withValueText env path text = .ok ⟨a ++ .object cs' :: b, d.fl⟩ := by
  have hwn : DocEdit.WfNode d.fl (.object cs) := by
    have := hd.wf
    unfold DocEdit.DocWf at this
    rw [(DocEdit.findObject_spec hf).1, DocEdit.WfList.iff] at this
    exact this _ (by simp)
  obtain ⟨hpne, _⟩ := DocEdit.parsePathNode_dots hp
  have habs := h.absent hwn.2.2
  obtain ⟨seen, k1, _⟩ := changeLoop_absent hpne (value := some v) cs hwn.2.2 hwn.2.1 habs 0 none
  obtain ⟨bb, k2, k3⟩ := DocEdit.hasValue_spec hpne cs hwn.2.2
  have hbb : bb = false := by
    cases bb with
    | false => rfl
    | true => exact absurd (k3.1 rfl) habs
  subst hbb
  unfold Doc.withValueText
  rw [if_neg (by simpa using hne), ht]
  simp only [Res.ok_bind]
  rw [hpv]
  simp only [Res.ok_bind]
  unfold rootSet
  rw [hf, Res.ok_bind]
  simp only
  rw [hp, Res.ok_bind]
  simp only [objectSet, setValue, changeValue]
  rw [k1]
  simp only [Res.ok_bind]
  rw [k2]
  simp only [Res.ok_bind, Bool.false_eq_true, if_false]
  rw [ins_add h hwn.2.2]
  rfl

end DocEdit
end Hocon
