import Verif.Lemmas.DocCut

/-!
# Adding a path that is not set
-/

set_option autoImplicit false

namespace Hocon
namespace DocEdit
open PathParser (Syntax)
open DocParser
open Node Tokenizer
open PathM (subPath)

/-- A simple value is not indented. -/
theorem prepare_simple {cs : List Node} {v : Node} (hv : v.isComplex = false) :
    prepare cs v = .ok (indentation cs, v, sameLineAs (indentation cs)) := by
  have : indentedNew (indentation cs) v = .ok v := by
    unfold indentedNew
    split
    · rw [hv]; rfl
    · rfl
  rw [prepare, this]
  rfl

/-- `Put v cs p toks cs'`: the path `p`, with the tokens `toks`, is not set by the children `cs` of an object;
with the value `v` at the end of the object in which it belongs they are `cs'`. -/
inductive Put (v : Node) : List Node → Path → List Tok → List Node → Prop where
  | here {cs cs' : List Node} {k : Str} {toks : List Tok} (ho : ¬ Occurs cs [k])
      (hb : buildNew .conf v (indentation cs) (sameLineAs (indentation cs)) cs [k] toks = .ok cs') :
      Put v cs [k] toks cs'
  | inside {a b fa fb ocs ocs' : List Node} {k : Str} {rem : Path} {toks toks' ts : List Tok}
      (hr : rem ≠ []) (ha : ¬ Occurs a (k :: rem)) (hb : ¬ Occurs b [k])
      (hk : fieldPath (fa ++ .object ocs :: fb) = .ok ([k], ts)) (hf : ∀ n ∈ fa, n.isValue = false)
      (ht : subTokens 1 0 toks = .ok toks') (ho : Put v ocs rem toks' ocs') :
      Put v (a ++ .field (fa ++ .object ocs :: fb) :: b) (k :: rem) toks
        (a ++ .field (fa ++ .object ocs' :: fb) :: b)

theorem Put.prefix {v : Node} {a cs cs' : List Node} {k : Str} {rem : Path} {toks : List Tok}
    (ha : ¬ Occurs a (k :: rem)) (hr : rem ≠ []) (h : Put v cs (k :: rem) toks cs') :
    Put v (a ++ cs) (k :: rem) toks (a ++ cs') := by
  cases h with
  | here => exact absurd rfl hr
  | @inside a' b fa fb ocs ocs' _ _ _ toks' ts hr ha' hb hk hf ht ho =>
    have := Put.inside (a := a ++ a') hr (fun h => (Occurs.append.1 h).elim ha ha') hb hk hf ht ho
    simpa using this

theorem Put.suffix {v : Node} {b cs cs' : List Node} {k : Str} {rem : Path} {toks : List Tok}
    (hb : ¬ Occurs b [k]) (hr : rem ≠ []) (h : Put v cs (k :: rem) toks cs') :
    Put v (cs ++ b) (k :: rem) toks (cs' ++ b) := by
  cases h with
  | here => exact absurd rfl hr
  | @inside a' b' fa fb ocs ocs' _ _ _ toks' ts hr ha' hb' hk hf ht ho =>
    have := Put.inside (b := b' ++ b) hr ha' (fun h => (Occurs.append.1 h).elim hb' hb) hk hf ht ho
    simpa using this

theorem Occurs.first {fl : Syntax} {ns : List Node} {k : Str} {rem : Path} (h : Occurs ns (k :: rem)) (hw : WfList fl ns) :
    Occurs ns [k] := by
  generalize hq : k :: rem = q at h
  cases h with
  | here hm hk hp =>
    subst hq
    refine .here hm hk ?_
    obtain ⟨r, rfl⟩ := hp
    exact ⟨rem ++ r, by simp⟩
  | @inside _ _ _ key _ _ hm hk hr hv ho =>
    obtain ⟨⟨k1, ks, ts, hkey⟩, _⟩ := WfList.iff.1 hw _ hm
    rw [hk] at hkey
    cases hkey
    cases hq
    exact .here hm hk ⟨ks, rfl⟩

theorem Put.absent {v : Node} {cs cs' : List Node} {p : Path} {toks : List Tok} (h : Put v cs p toks cs')
    (hw : WfList .conf cs) : ¬ Occurs cs p := by
  induction h with
  | here ho => exact ho
  | @inside a b fa fb ocs ocs' k rem toks toks' ts hr ha hb hk hf ht ho ih =>
    rw [WfList.iff] at hw
    have hwb : WfList .conf b := WfList.iff.2 fun n hn => hw n (by simp [hn])
    obtain ⟨_, _, hfw⟩ := hw (.field (fa ++ .object ocs :: fb)) (by simp)
    have hwo : WfNode .conf (.object ocs) := (WfList.iff.1 hfw) _ (by simp)
    intro h
    rcases Occurs.append.1 h with h | h
    · exact ha h
    rcases Occurs.cons.1 h with h | h
    · rw [Occurs.field hk] at h
      rcases h with h1 | ⟨rem', ocs1, _, e, hv, h1⟩
      · have := h1.length_le
        have := List.length_pos_iff.2 hr
        simp only [List.length_cons, List.length_nil] at *
        omega
      · rw [fieldValue_split hf rfl] at hv
        cases hv
        cases e
        exact ih hwo.2.2 h1
    · exact hb (h.first hwb)

theorem addIn_front {fl : Syntax} {v : Node} {p : Path} {toks : List Tok} (a : List Node) {rest r : List Node}
    (h : addIn fl v p toks rest = .ok (some r)) : addIn fl v p toks (a ++ rest) = .ok (some (a ++ r)) := by
  induction a with
  | nil => exact h
  | cons n a ih => rw [List.cons_append, addIn, ih]; rfl

theorem addIn_none {fl : Syntax} {v : Node} {k : Str} {rem : Path} {toks : List Tok} :
    (b : List Node) → WfList fl b → ¬ Occurs b [k] → addIn fl v (k :: rem) toks b = .ok none
  | [], _, _ => by rw [addIn]
  | n :: b, hw, ho => by
    rw [Occurs.cons, not_or] at ho
    rw [addIn, addIn_none b hw.2 ho.2]
    simp only [Res.ok_bind]
    suffices addNode fl v (k :: rem) toks n = .ok none by rw [this]; rfl
    cases n with
    | field cs =>
      obtain ⟨⟨k1, ks, ts, hkey⟩, _⟩ := hw.1
      rw [addNode, hkey]
      simp only [Res.ok_bind]
      rw [PathM.C03_startsWith _ _ (by simp)]
      have : ¬ (k1 :: ks) <+: (k :: rem) := by
        intro h
        obtain ⟨rfl, _⟩ := List.cons_prefix_cons.1 h
        exact ho.1 (.here (.head _) hkey ⟨ks, rfl⟩)
      simp [this]
    | _ => rw [addNode]; intro _ h; cases h

theorem addField_split {fl : Syntax} {v : Node} {fa fb : List Node} {n n' : Node} {klen : Nat} {p : Path} {toks : List Tok}
    (hf : ∀ m ∈ fa, m.isValue = false) (hn : n.isValue = true)
    (hc : addInObject fl v klen p toks n = .ok (some n')) :
    addField fl v klen p toks (fa ++ n :: fb) = .ok (some (fa ++ n' :: fb)) := by
  induction fa with
  | nil => rw [List.nil_append, addField, if_pos hn, hc]; rfl
  | cons m fa ih =>
    rw [List.cons_append, addField, if_neg (by simp [hf m]), ih fun x hx => hf x (by simp [hx])]
    rfl

theorem put_conf {v : Node} (hv : v.isComplex = false) {cs cs' : List Node} {p : Path} {toks : List Tok}
    (h : Put v cs p toks cs') (hw : WfList .conf cs) : addValue .conf p toks v cs = .ok cs' := by
  induction h with
  | here ho hb =>
    rw [addValue, addFinish, prepare_simple hv]
    simp only [Res.ok_bind, searchFields]
    rw [if_neg (by rw [PathM.C03_length _ (by simp)]; simp)]
    exact hb
  | @inside a b fa fb ocs ocs' k rem toks toks' ts hr ha hb hk hf ht ho ih =>
    rw [WfList.iff] at hw
    have hwb : WfList .conf b := WfList.iff.2 fun n hn => hw n (by simp [hn])
    obtain ⟨_, _, hfw⟩ := hw (.field (fa ++ .object ocs :: fb)) (by simp)
    have hwo : WfNode .conf (.object ocs) := (WfList.iff.1 hfw) _ (by simp)
    have ih := ih hwo.2.2
    have hlen := List.length_pos_iff.2 hr
    have hsub : subPath 1 (k :: rem) = rem := by
      rw [PathM.C03_subPath _ _ (by simp; omega)]; rfl
    have hin : addIn .conf v (k :: rem) toks (a ++ .field (fa ++ .object ocs :: fb) :: b)
        = .ok (some (a ++ .field (fa ++ .object ocs' :: fb) :: b)) := by
      refine addIn_front a ?_
      rw [addIn, addIn_none b hwb hb]
      simp only [Res.ok_bind]
      rw [addNode, hk]
      simp only [Res.ok_bind]
      rw [PathM.C03_startsWith _ _ (by simp), PathM.C03_length _ (by simp)]
      have : [k] <+: k :: rem := ⟨rem, rfl⟩
      simp only [this, decide_true, Res.ok_bind, if_true]
      rw [addField_split (n' := .object ocs') hf rfl (by
        rw [addInObject, List.length_singleton, ht]
        simp only [Res.ok_bind, hsub]
        rw [← addValue, ih]
        rfl)]
      rfl
    rw [addValue, addFinish, prepare_simple hv]
    simp only [Res.ok_bind, searchFields]
    rw [if_pos (by rw [PathM.C03_length _ (by simp)]; simp; omega), hin]
    rfl

/-- Adding a simple value to a HOCON document. -/
theorem withValue_absent {env : Env} {d : Doc} {path text : Str} (hd : Reachable env d) (hfl : d.fl = .conf) (hne : text ≠ [])
    {a cs b : List Node} (hf : DocEdit.findObject d.root = .ok (a, cs, b))
    {p : Path} {pt : List Tok} (hp : PathParser.parsePathNode env d.fl path = .ok (p, pt))
    {cs' : List Node} {toks : List Tok} {v : Node} (ht : Tokenizer.tokenize env (d.fl = .conf) text = .ok toks)
    (hpv : parseSingleValue env d.fl toks = .ok (some v)) (hv : v.isComplex = false) (h : Put v cs p pt cs') :
    ∃ d', d.withValueText env path text = .ok d' ∧ d'.root = a ++ .object cs' :: b := by
  have hwn : DocEdit.WfNode .conf (.object cs) := by
    have := hd.wf
    unfold DocEdit.DocWf at this
    rw [(DocEdit.findObject_spec hf).1, DocEdit.WfList.iff, hfl] at this
    exact this _ (by simp)
  obtain ⟨hpne, _⟩ := DocEdit.parsePathNode_dots hp
  have habs := h.absent hwn.2.2
  obtain ⟨seen, k1, _⟩ := changeLoop_absent hpne (value := some v) cs hwn.2.2 (fun h => by cases h) habs 0 none
  obtain ⟨bb, k2, k3⟩ := DocEdit.hasValue_spec hpne cs hwn.2.2
  have hbb : bb = false := by
    cases bb with
    | false => rfl
    | true => exact absurd (k3.1 rfl) habs
  subst hbb
  refine ⟨⟨a ++ .object cs' :: b, d.fl⟩, ?_, rfl⟩
  unfold Doc.withValueText
  rw [if_neg (by simpa using hne), ht]
  simp only [Res.ok_bind]
  rw [hpv]
  simp only [Res.ok_bind]
  unfold rootSet
  rw [hf, Res.ok_bind]
  simp only
  rw [hp, Res.ok_bind]
  simp only [objectSet, setValue, changeValue, hfl]
  rw [k1]
  simp only [Res.ok_bind]
  rw [k2]
  simp only [Res.ok_bind, Bool.false_eq_true, if_false]
  rw [put_conf hv h hwn.2.2]
  rfl

end DocEdit
end Hocon
