import Verif.Lemmas.DocApi
import Verif.Props.DocParserProps

/-!
# Replacing the value of a path that is set once
-/

set_option autoImplicit false

namespace Hocon
namespace DocEdit
open PathParser (Syntax)
open DocParser
open Node Tokenizer

/-- In the children `cs` of an object the path `p` is set by exactly one field, whose value is the
node `v`; `pre` and `post` are the texts before and behind the value. -/
inductive OnceAt : List Node → Path → Str → Node → Str → Prop where
  | here {a b fa fb : List Node} {v : Node} {p : Path} {ts : List Tok} (ha : ¬ Occurs a p)
      (hb : ¬ Occurs b p) (hk : fieldPath (fa ++ v :: fb) = .ok (p, ts))
      (hf : ∀ n ∈ fa, n.isValue = false) (hv : v.isValue = true) :
      OnceAt (a ++ .field (fa ++ v :: fb) :: b) p (renderList a ++ renderList fa) v
        (renderList fb ++ renderList b)
  | inside {a b fa fb ocs : List Node} {key rem : Path} {ts : List Tok} {pre post : Str} {v : Node}
      (hr : rem ≠ []) (ha : ¬ Occurs a (key ++ rem)) (hb : ¬ Occurs b (key ++ rem))
      (hk : fieldPath (fa ++ .object ocs :: fb) = .ok (key, ts)) (hf : ∀ n ∈ fa, n.isValue = false)
      (ho : OnceAt ocs rem pre v post) :
      OnceAt (a ++ .field (fa ++ .object ocs :: fb) :: b) (key ++ rem)
        (renderList a ++ renderList fa ++ pre) v (post ++ renderList fb ++ renderList b)

theorem OnceAt.render {cs : List Node} {p : Path} {pre post : Str} {v : Node}
    (h : OnceAt cs p pre v post) : renderList cs = pre ++ v.render ++ post := by
  induction h with
  | here => simp [renderList, tokensList_append, tokensList, tokens, Tok.textList_append, Node.render]
  | inside hr ha hb hk hf ho ih => simp_all [renderList, tokensList_append, tokensList, tokens, Tok.textList_append, Node.render]

theorem fieldValue_split {fa fb : List Node} {v : Node} (hf : ∀ n ∈ fa, n.isValue = false)
    (hv : v.isValue = true) : fieldValue (fa ++ v :: fb) = .ok v := by
  induction fa with
  | nil => rw [List.nil_append, fieldValue, if_pos hv]
  | cons n fa ih =>
    rw [List.cons_append, fieldValue, if_neg (by simp [hf n])]
    exact ih fun m hm => hf m (by simp [hm])

theorem replaceValue_split {fa fb : List Node} {v w : Node} (hf : ∀ n ∈ fa, n.isValue = false)
    (hv : v.isValue = true) : replaceValue w (fa ++ v :: fb) = .ok (fa ++ w :: fb) := by
  induction fa with
  | nil => rw [List.nil_append, replaceValue, if_pos hv, List.nil_append]
  | cons n fa ih =>
    rw [List.cons_append, replaceValue, if_neg (by simp [hf n]), ih fun m hm => hf m (by simp [hm])]
    rfl

theorem fieldPath_split {fa fb : List Node} {v w : Node} (hv : v.isValue = true)
    (hw : w.isValue = true) : fieldPath (fa ++ w :: fb) = fieldPath (fa ++ v :: fb) := by
  induction fa with
  | nil => cases v <;> cases w <;> simp_all [isValue, fieldPath]
  | cons n fa ih => cases n <;> simp_all [fieldPath]

theorem changeField_split {fl : Syntax} {rem : Path} {value : Option Node} {fa fb : List Node}
    {v w : Node} (hf : ∀ n ∈ fa, n.isValue = false) (hv : v.isValue = true)
    (hc : changeInObject fl rem value v = .ok w) :
    changeField fl rem value (fa ++ v :: fb) = .ok (fa ++ w :: fb) := by
  induction fa with
  | nil => rw [List.nil_append, changeField, if_pos hv, hc]; rfl
  | cons n fa ih =>
    rw [List.cons_append, changeField, if_neg (by simp [hf n]), ih fun m hm => hf m (by simp [hm])]
    rfl

theorem OnceAt.occurs {cs : List Node} {p : Path} {pre post : Str} {v : Node}
    (h : OnceAt cs p pre v post) : Occurs cs p := by
  induction h with
  | here ha hb hk hf hv => exact .here (by simp) hk (List.prefix_refl _)
  | inside hr ha hb hk hf ho ih =>
    exact .inside (by simp) hk hr (fieldValue_split hf rfl) ih

/-- The children in front of the field are not touched. -/
theorem changeLoop_front {fl : Syntax} {p : Path} (hp : p ≠ []) {value : Option Node}
    {a rest : List Node} (hw : WfList fl a) (ha : ¬ Occurs a p) (i : Nat) (prev : Option Node) :
    ∃ i' prev', (prev' = prev ∨ ∃ n ∈ a, prev' = some n) ∧
      ∀ r vc, changeLoop fl p value i' prev' rest = .ok (r, true, vc) →
      changeLoop fl p value i prev (a ++ rest) = .ok (a ++ r, true, vc) := by
  induction a generalizing i prev with
  | nil => exact ⟨i, prev, Or.inl rfl, fun r vc h => h⟩
  | cons n a ih =>
    rw [Occurs.cons, not_or] at ha
    obtain ⟨i', prev', h0, h1⟩ := ih hw.2 ha.2 (i + 1) (some n)
    refine ⟨i', prev', Or.inr ?_, fun r vc hr => ?_⟩
    · rcases h0 with rfl | ⟨m, hm, rfl⟩
      · exact ⟨n, by simp, rfl⟩
      · exact ⟨m, by simp [hm], rfl⟩
    rw [List.cons_append, changeLoop, h1 r vc hr]
    simp only [Res.ok_bind]
    obtain ⟨seen', h3, h4, _⟩ := changeNode_absent hp (value := vc) i prev (r := a ++ r) (seen := true)
      n (fun _ _ => rfl) hw.1 ha.1
    rw [h3, h4 rfl]
    rfl

theorem NoTrail.right {a b : List Node} (h : NoTrail (a ++ b)) : NoTrail b := by
  induction a with
  | nil => exact h
  | cons n a ih => exact ih (NoTrail.cons.1 h).1

mutual
/-- The nodes below a node. -/
def below : Node → List Node
  | .field cs => deep cs
  | .object cs => deep cs
  | .array cs => deep cs
  | .concat cs => deep cs
  | _ => []
/-- The nodes of a list and those below them. -/
def deep : List Node → List Node
  | [] => []
  | n :: ns => n :: below n ++ deep ns
end

theorem deep_append (a b : List Node) : deep (a ++ b) = deep a ++ deep b := by
  induction a with
  | nil => rfl
  | cons n a ih => simp [deep, ih]

theorem mem_deep {ns : List Node} {n : Node} (hn : n ∈ ns) : n ∈ deep ns := by
  induction ns with
  | nil => cases hn
  | cons m ns ih =>
    rw [deep]
    rcases List.mem_cons.1 hn with rfl | hn
    · simp
    · simp [ih hn]

/-- The new value is the given one, or a copy of it re-indented with one of the nodes `ms`. -/
def Written (ms : List Node) (w w' : Node) : Prop :=
  w' = w ∨ (w.isComplex = true ∧ ∃ ind ∈ ms, ind.hasTok Tok.isWs = true ∧ indentNode ind w = .ok w')

theorem indentedValue_written {fl : Syntax} (i : Nat) (prev : Option Node) {w : Node} (hw : VOk fl w)
    {ms : List Node} (hprev : ∀ n, prev = some n → n ∈ ms) :
    ∃ w', indentedValue i prev w = .ok w' ∧ Written ms w w' ∧ w'.isValue = true := by
  obtain ⟨w', h1, h2⟩ := indentedValue_spec i prev hw
  refine ⟨w', h1, ?_, h2.isValue⟩
  unfold indentedValue at h1
  split at h1
  · rename_i b
    split at h1
    · rename_i hc
      simp only [Bool.and_eq_true] at hc
      exact Or.inr ⟨hc.1.2, b, hprev b rfl, hc.2, h1⟩
    · simp only [Res.ok.injEq] at h1; exact Or.inl h1.symm
  · simp only [Res.ok.injEq] at h1; exact Or.inl h1.symm

theorem change_once {fl : Syntax} {w : Node} (hw : VOk fl w) {cs : List Node} {p : Path}
    {pre post : Str} {v : Node} (h : OnceAt cs p pre v post) (hp : p ≠ []) (hcs : WfList fl cs)
    (hj : fl = .json → NoTrail cs) {ms : List Node} (hcs0 : ∀ n ∈ deep cs, n ∈ ms) :
    ∀ (i : Nat) (prev : Option Node), (∀ n, prev = some n → n ∈ ms) → ∃ r w' vc,
      changeLoop fl p (some w) i prev cs = .ok (r, true, vc) ∧ OnceAt r p pre w' post ∧ Written ms w w' := by
  induction h with
  | @here a b fa fb v p ts ha hb hk hf hv =>
    intro i prev hprev
    rw [WfList.iff] at hcs
    have hwa : WfList fl a := WfList.iff.2 fun n hn => hcs n (by simp [hn])
    have hwb : WfList fl b := WfList.iff.2 fun n hn => hcs n (by simp [hn])
    have hjb : fl = .json → NoTrail b := fun h => (NoTrail.cons.1 (hj h).right).1
    obtain ⟨i', prev', hpf, hfront⟩ := changeLoop_front hp (value := some w)
      (rest := .field (fa ++ v :: fb) :: b) hwa ha i prev
    obtain ⟨w', h1, h2, h3⟩ := indentedValue_written i' prev' hw (ms := ms) (by
      rcases hpf with rfl | ⟨n, hn, rfl⟩
      · exact hprev
      · rintro m hm
        cases hm
        exact hcs0 n (mem_deep (by simp [hn])))
    have hstep : changeLoop fl p (some w) i' prev'
        (.field (fa ++ v :: fb) :: b) = .ok (.field (fa ++ w' :: fb) :: b, true, none) := by
      obtain ⟨seen, k1, _⟩ := changeLoop_absent hp (value := some w) b hwb hjb hb (i' + 1)
        (some (.field (fa ++ v :: fb)))
      rw [changeLoop, k1]
      simp only [Res.ok_bind]
      rw [changeNode, hk]
      simp only [Res.ok_bind]
      have hbeq : PathM.beq p p = true := (PathM.C03_beq p p).2 rfl
      rw [hbeq, PathM.C03_startsWith _ _ hp]
      simp only [Option.isNone_some, Bool.false_and, Bool.false_eq_true, if_false, Res.ok_bind,
        Bool.not_true, Bool.and_false, if_true, setField]
      rw [h1, Res.ok_bind, replaceValue_split hf hv, Res.ok_bind]
    refine ⟨_, w', none, hfront _ _ hstep, ?_, h2⟩
    exact .here ha hb (by rw [fieldPath_split hv h3]; exact hk) hf h3
  | @inside a b fa fb ocs key rem ts pre post v hr ha hb hk hf ho ih =>
    intro i prev hprev
    rw [WfList.iff] at hcs
    have hwa : WfList fl a := WfList.iff.2 fun n hn => hcs n (by simp [hn])
    have hwb : WfList fl b := WfList.iff.2 fun n hn => hcs n (by simp [hn])
    have hjb : fl = .json → NoTrail b := fun h => (NoTrail.cons.1 (hj h).right).1
    obtain ⟨⟨k, ks, ts', hkey⟩, _, hfw⟩ := hcs (.field (fa ++ .object ocs :: fb)) (by simp)
    rw [hk] at hkey
    simp only [Res.ok.injEq, Prod.mk.injEq] at hkey
    obtain ⟨rfl, rfl⟩ := hkey
    have hwo : WfNode fl (.object ocs) := (WfList.iff.1 hfw) _ (by simp)
    obtain ⟨i', prev', hpf, hfront⟩ := changeLoop_front hp (value := some w)
      (rest := .field (fa ++ .object ocs :: fb) :: b) hwa ha i prev
    obtain ⟨r, w', vc, k1, k2, k3⟩ := ih hr hwo.2.2 hwo.2.1
      (fun n hn => hcs0 n (by simp [deep_append, deep, below, hn])) 0 none (by rintro n hn; cases hn)
    have hstep : changeLoop fl (k :: ks ++ rem) (some w) i' prev'
        (.field (fa ++ .object ocs :: fb) :: b) =
        .ok (.field (fa ++ .object r :: fb) :: b, true, some w) := by
      obtain ⟨seen, k4, _⟩ := changeLoop_absent hp (value := some w) b hwb hjb hb (i' + 1)
        (some (.field (fa ++ .object ocs :: fb)))
      rw [changeLoop, k4]
      simp only [Res.ok_bind]
      rw [changeNode, hk]
      simp only [Res.ok_bind]
      have hne : k :: ks ≠ k :: ks ++ rem := by
        intro h
        exact hr (List.self_eq_append_right.1 h)
      have hnp : ¬ (k :: ks ++ rem <+: k :: ks) := by
        intro h
        have := h.length_le
        have := List.length_pos_iff.2 hr
        simp at *
        omega
      have hbeq : PathM.beq (k :: ks) (k :: ks ++ rem) = false := by
        rw [← Bool.not_eq_true, PathM.C03_beq]; exact hne
      rw [hbeq, PathM.C03_startsWith _ _ (by simp : k :: ks ≠ [])]
      simp only [Option.isNone_some, Bool.false_and, Bool.false_eq_true, if_false, Res.ok_bind,
        hnp, decide_false]
      rw [PathM.C03_startsWith _ _ hp]
      have hpre : k :: ks <+: k :: ks ++ rem := List.prefix_append _ _
      obtain ⟨rem', hrem', hpe, hsub⟩ := length_drop_facts (by simp) hpre hne
      have : rem' = rem := (List.append_cancel_left hpe).symm
      subst this
      simp only [hpre, decide_true, Res.ok_bind, if_true]
      rw [hsub, changeField_split (w := .object r) hf rfl (by rw [changeInObject, k1]; rfl)]
      rfl
    refine ⟨_, w', _, hfront _ _ hstep, ?_, k3⟩
    exact .inside hr ha hb (by rw [fieldPath_split (v := .object ocs) rfl rfl]; exact hk) hf k2

/-! ## Re-indentation does not touch one-line values -/

theorem newline_text {n : Node} (h : n.hasTok Tok.isNewline = true) : '\n' ∈ Tok.textList n.tokens := by
  obtain ⟨t, ht, h1⟩ := hasTok_iff.1 h
  cases n with
  | single u =>
    simp only [singleToken?, Option.some.injEq] at ht
    subst ht
    cases u <;> simp_all [Tok.isNewline, Tok.text, Node.tokens, Tok.textList]
  | comment u =>
    simp only [singleToken?, Option.some.injEq] at ht
    subst ht
    cases u <;> simp_all [Tok.isNewline, Tok.text, Node.tokens, Tok.textList]
  | _ => simp [singleToken?] at ht

mutual
theorem indentNode_oneLine {ind : Node} : (n : Node) → '\n' ∉ Tok.textList n.tokens →
    ∀ n', indentNode ind n = .ok n' → n' = n
  | .object cs, h, n', hi => by
    rw [indentNode, Res.bind_eq_ok] at hi
    obtain ⟨cs', h1, hi⟩ := hi
    rw [indentList_oneLine cs (by simpa [tokens] using h) cs' h1] at hi
    simpa using hi.symm
  | .array cs, h, n', hi => by
    rw [indentNode, Res.bind_eq_ok] at hi
    obtain ⟨cs', h1, hi⟩ := hi
    rw [indentList_oneLine cs (by simpa [tokens] using h) cs' h1] at hi
    simpa using hi.symm
  | .concat cs, h, n', hi => by
    rw [indentNode, Res.bind_eq_ok] at hi
    obtain ⟨cs', h1, hi⟩ := hi
    rw [indentList_oneLine cs (by simpa [tokens] using h) cs' h1] at hi
    simpa using hi.symm
  | .field cs, h, n', hi => by
    rw [indentNode, Res.bind_eq_ok] at hi
    obtain ⟨cs', h1, hi⟩ := hi
    rw [indentField_oneLine cs (by simpa [tokens] using h) cs' h1] at hi
    simpa using hi.symm
  | .single _, _, n', hi | .comment _, _, n', hi | .path _ _, _, n', hi | .simple _, _, n', hi
  | .incl _ _, _, n', hi => by
    rw [indentNode] at hi <;> simp_all
theorem indentList_oneLine {ind : Node} : (ns : List Node) → '\n' ∉ Tok.textList (tokensList ns) →
    ∀ ns', indentList ind ns = .ok ns' → ns' = ns
  | [], _, ns', hi => by simpa [indentList] using hi.symm
  | n :: ns, h, ns', hi => by
    simp only [tokensList, Tok.textList_append, List.mem_append, not_or] at h
    rw [indentList, Res.bind_eq_ok] at hi
    obtain ⟨n', h1, hi⟩ := hi
    rw [if_neg (fun hn => h.1 (newline_text hn)), Res.bind_eq_ok] at hi
    obtain ⟨ns1, h2, hi⟩ := hi
    rw [indentNode_oneLine n h.1 n' h1, indentList_oneLine ns h.2 ns1 h2] at hi
    simpa using hi.symm
theorem indentField_oneLine {ind : Node} : (ns : List Node) → '\n' ∉ Tok.textList (tokensList ns) →
    ∀ ns', indentField ind ns = .ok ns' → ns' = ns
  | [], _, ns', hi => by simp [indentField] at hi
  | n :: ns, h, ns', hi => by
    simp only [tokensList, Tok.textList_append, List.mem_append, not_or] at h
    rw [indentField] at hi
    split at hi
    · rw [Res.bind_eq_ok] at hi
      obtain ⟨n', h1, hi⟩ := hi
      rw [indentNode_oneLine n h.1 n' h1] at hi
      simpa using hi.symm
    · split at hi
      · simpa using hi.symm
      · rw [Res.bind_eq_ok] at hi
        obtain ⟨ns1, h2, hi⟩ := hi
        rw [indentField_oneLine ns h.2 ns1 h2] at hi
        simpa using hi.symm
end

theorem Written.oneLine {ms : List Node} {w w' : Node} (h : Written ms w w') (hn : '\n' ∉ w.render) : w' = w := by
  rcases h with h | ⟨_, ind, _, _, h⟩
  · exact h
  · exact indentNode_oneLine w hn w' h

/-! ## The text of the new value -/

theorem consolidate_first {env : Env} {f : Nat} {t : Tok} {toks : List Tok}
    {ns : List Node} {v : Node} {toks' : List Tok} (hcol : collectNode t = none)
    (h : consolidate env .conf f (t :: toks) = .ok (ns, some v, toks')) : ns = [] := by
  cases f with
  | zero => simp [consolidate] at h
  | succ f =>
    rw [consolidate] at h
    simp only at h
    rw [Res.bind_eq_ok] at h
    obtain ⟨⟨ws, t1, ts1⟩, h4, h⟩ := h
    rw [nextCollect, Res.bind_eq_ok] at h4
    obtain ⟨_, _, h4⟩ := h4
    rw [hcol] at h4
    simp only [Res.ok.injEq, Prod.mk.injEq] at h4
    obtain ⟨rfl, rfl, rfl⟩ := h4
    rw [Res.bind_eq_ok] at h
    obtain ⟨⟨vs, t2, ts2⟩, h5, h⟩ := h
    simp only at h5 h
    cases hf : consFinish vs t2 ts2 with
    | mk pre rest =>
    obtain ⟨v1, ts3⟩ := rest
    rw [hf] at h
    simp only [Res.ok.injEq, Prod.mk.injEq, List.nil_append] at h
    obtain ⟨rfl, rfl, rfl⟩ := h
    unfold consFinish at hf
    split at hf
    · cases f with
      | zero => simp [consLoop] at h5
      | succ f =>
        rw [consLoop.eq_def] at h5
        simp only at h5
        split at h5
        · simp [collectNode] at hcol
        · split at h5
          · rw [Res.bind_eq_ok] at h5
            obtain ⟨⟨v, ts0⟩, h0, h5⟩ := h5
            rw [Res.bind_eq_ok] at h5
            obtain ⟨⟨t1, ts1⟩, h1, h5⟩ := h5
            rw [Res.bind_eq_ok] at h5
            obtain ⟨⟨vs1, t2, ts2⟩, h6, h5⟩ := h5
            simp only [Res.ok.injEq, Prod.mk.injEq] at h5
            obtain ⟨rfl, rfl, rfl⟩ := h5
            have := ((parseWf_all env _ _).value _ _ _ _ h0).isValue
            rw [splitSingle, if_pos this] at hf
            simp only [Prod.mk.injEq] at hf
            exact hf.1.symm
          · simp only [Res.ok.injEq, Prod.mk.injEq] at h5
            obtain ⟨rfl, rfl, rfl⟩ := h5
            simp [splitSingle] at hf
    · simp only [Prod.mk.injEq] at hf
      exact hf.1.symm

theorem parseSingleValue_built {env : Env} {fl : Syntax} {allow : Bool} {toks : List Tok} {v : Node}
    (h : parseSingleValue env fl toks = .ok (some v)) (hg : Good env allow toks) :
    ∃ toks1 rest, toks = .start :: toks1 ∧ Built toks1 [v] (.end_ :: rest) := by
  unfold parseSingleValue at h
  rw [Res.bind_eq_ok] at h
  obtain ⟨⟨t, toks1⟩, h1, h⟩ := h
  have := nextToken_spec h1
  subst this
  simp only at h
  split at h
  · refine ⟨toks1, ?_⟩
    have hg1 := hg.tail
    rw [Res.bind_eq_ok] at h
    obtain ⟨⟨t, toks2⟩, h2, h⟩ := h
    have := nextToken_spec h2
    subst this
    simp only at h
    split at h
    · simp at h
    · rename_i hcol
      simp only [Bool.not_eq_true, Option.isSome_eq_false_iff, Option.isNone_iff_eq_none] at hcol
      split at h
      · simp at h
      · split at h
        · rw [Res.bind_eq_ok] at h
          obtain ⟨⟨n, toks3⟩, h3, h⟩ := h
          rw [Res.bind_eq_ok] at h
          obtain ⟨⟨t', toks4⟩, h4, h⟩ := h
          have := nextToken_spec h4
          subst this
          simp only at h
          split at h
          · simp only [Res.ok.injEq, Option.some.injEq] at h
            subst h
            exact ⟨toks4, rfl, ((spec_all env _ allow _).value _ _ _ _ h3 hg1).1⟩
          · simp at h
        · rw [Res.bind_eq_ok] at h
          obtain ⟨⟨ns, v1, toks3⟩, h3, h⟩ := h
          rw [Res.bind_eq_ok] at h
          obtain ⟨⟨t', toks4⟩, h4, h⟩ := h
          have := nextToken_spec h4
          subst this
          simp only at h
          split at h
          · simp only [Res.ok.injEq] at h
            subst h
            have hns := consolidate_first hcol h3
            subst hns
            have := ((spec_all env _ allow _).cons _ _ _ _ h3 hg1).1
            exact ⟨toks4, rfl, by simpa using this⟩
          · simp at h
  · simp at h

/-- The text of the parsed value is the given text (same conditions as C10). -/
theorem singleValue_text {env : Env} {fl : Syntax} {text : Str} {toks : List Tok} {v : Node}
    (hnul : '\x00' ∉ text)
    (hblank : '$' ∉ text ∨ ∀ a x b, text = a ++ x :: '}' :: b → isWhitespaceNotNewline x = false)
    (hparen : '(' ∉ text)
    (h1 : tokenize env (fl = .conf) text = .ok toks)
    (h : parseSingleValue env fl toks = .ok (some v)) : v.render = text := by
  obtain ⟨toks1, rest, rfl, used, hu, _, h4, h5⟩ := parseSingleValue_built h (tokenize_good h1)
  obtain ⟨mid, hm, hne⟩ := (C07_tokenize_total env _ text).2 _ h1
  have hm' : toks1 = mid ++ [.end_] := by simpa using hm
  have hmid : used = mid := by
    rw [hm'] at hu
    rcases List.eq_nil_or_concat rest with rfl | ⟨r, x, rfl⟩
    · exact (List.append_inj' hu rfl).1.symm
    · exfalso
      have e1 : mid ++ [Tok.end_] = (used ++ .end_ :: r) ++ [x] := by rw [hu]; simp
      have e2 := (List.append_inj' e1 rfl).1
      exact (hne .end_ (by rw [e2]; simp)).2 rfl
  have ht := C06_tokens_cover_input_partial env _ text _ hnul hblank h1
  have ht : Tok.textList mid = text := by
    rw [hm'] at ht
    simpa [Tok.textList_append, Tok.textList, Tok.text] using ht
  rw [hmid, ht] at h4 h5
  have hp : noParenList [v] = true := by
    rcases h5 with h5 | h5
    · exact h5
    · exact absurd h5 hparen
  have := h4 hp
  simpa [tokensList, Node.render] using this

/-! ## One-line values never make the code diverge -/

mutual
theorem indentNode_ne_fuel {ind : Node} : (n : Node) → '\n' ∉ Tok.textList n.tokens →
    indentNode ind n ≠ .fuel
  | .object cs, h | .array cs, h | .concat cs, h => by
    rw [indentNode]
    exact Res.bind_ne_fuel (indentList_ne_fuel cs (by simpa [tokens] using h)) (by simp)
  | .field cs, h => by
    rw [indentNode]
    exact Res.bind_ne_fuel (indentField_ne_fuel cs (by simpa [tokens] using h)) (by simp)
  | .single _, _ | .comment _, _ | .path _ _, _ | .simple _, _ | .incl _ _, _ => by
    rw [indentNode] <;> simp
theorem indentList_ne_fuel {ind : Node} : (ns : List Node) → '\n' ∉ Tok.textList (tokensList ns) →
    indentList ind ns ≠ .fuel
  | [], _ => by simp [indentList]
  | n :: ns, h => by
    simp only [tokensList, Tok.textList_append, List.mem_append, not_or] at h
    rw [indentList]
    refine Res.bind_ne_fuel (indentNode_ne_fuel n h.1) fun n' _ => ?_
    rw [if_neg (fun hn => h.1 (newline_text hn))]
    exact Res.bind_ne_fuel (indentList_ne_fuel ns h.2) (by simp)
theorem indentField_ne_fuel {ind : Node} : (ns : List Node) → '\n' ∉ Tok.textList (tokensList ns) →
    indentField ind ns ≠ .fuel
  | [], _ => by simp [indentField]
  | n :: ns, h => by
    simp only [tokensList, Tok.textList_append, List.mem_append, not_or] at h
    rw [indentField]
    split
    · exact Res.bind_ne_fuel (indentNode_ne_fuel n h.1) (by simp)
    · split
      · simp
      · exact Res.bind_ne_fuel (indentField_ne_fuel ns h.2) (by simp)
end

theorem prepare_oneLine {cs : List Node} {value : Node} (h : '\n' ∉ value.render) :
    prepare cs value ≠ .fuel ∧ ∀ i iv sl, prepare cs value = .ok (i, iv, sl) → iv = value := by
  have key : indentedNew (indentation cs) value ≠ .fuel ∧
      ∀ iv, indentedNew (indentation cs) value = .ok iv → iv = value := by
    unfold indentedNew
    split
    · split
      · exact ⟨indentNode_ne_fuel value h, fun iv hi => indentNode_oneLine value h iv hi⟩
      · exact ⟨by simp, fun iv hi => by simpa using hi.symm⟩
    · exact ⟨by simp, fun iv hi => by simpa using hi.symm⟩
  constructor
  · exact Res.bind_ne_fuel key.1 (by simp)
  · intro i iv sl hp
    unfold prepare at hp
    rw [Res.bind_eq_ok] at hp
    obtain ⟨w, h1, hp⟩ := hp
    simp only [Res.ok.injEq, Prod.mk.injEq] at hp
    rw [← hp.2.1]
    exact key.2 w h1

theorem subTokens_ne_fuel (k c : Nat) (toks : List Tok) : subTokens k c toks ≠ .fuel := by
  induction toks generalizing c with
  | nil => simp [subTokens]
  | cons t ts ih =>
    rw [subTokens.eq_def]
    simp only
    repeat' split
    all_goals first | simp; done | exact ih _

theorem fieldPath_ne_fuel (cs : List Node) : fieldPath cs ≠ .fuel := by
  induction cs with
  | nil => simp [fieldPath]
  | cons n ns ih => cases n <;> simp_all [fieldPath]

theorem startsWith_ne_fuel (p q : Path) : PathM.startsWith p q ≠ .fuel := by
  have : ∀ p, PathM.startsWithLoop p q ≠ .fuel := by
    induction q with
    | nil => simp [PathM.startsWithLoop]
    | cons o os ih =>
      intro p
      rw [PathM.startsWithLoop]
      split
      · simp
      · split
        · exact ih _
        · simp
  unfold PathM.startsWith
  split
  · exact this p
  · simp

theorem firstNode_ne_fuel (p : Path) (toks : List Tok) : firstNode p toks ≠ .fuel := by
  have : ∀ n p b, PathM.subPathRangeLoop n p b ≠ .fuel := by
    intro n
    induction n with
    | zero => intro p b; simp [PathM.subPathRangeLoop]
    | succ n ih =>
      intro p b
      rw [PathM.subPathRangeLoop]
      split
      · simp
      · simp only
        split
        · simp
        · exact ih _ _
  unfold firstNode
  split
  · refine Res.bind_ne_fuel ?_ (by simp)
    unfold PathM.subPathRange
    split
    · simp
    · exact this _ _ _
  · simp

theorem insertLoop_ne_fuel (fl : Syntax) (b s : Bool) (new : Node) (done todo : List Node) :
    insertLoop fl b s new done todo ≠ .fuel := by
  fun_induction insertLoop fl b s new done todo <;> simp_all

theorem insertNew_ne_fuel (fl : Syntax) (s : Bool) (new : Node) (cs : List Node) :
    insertNew fl s new cs ≠ .fuel := by
  refine Res.bind_ne_fuel ?_ (by simp)
  unfold insertBase
  split
  · exact insertLoop_ne_fuel _ _ _ _ _ _
  · simp

theorem buildNew_ne_fuel (fl : Syntax) {iv : Node} (hv : '\n' ∉ iv.render) (indent : List Node)
    (s : Bool) (cs : List Node) (p : Path) (toks : List Tok) :
    buildNew fl iv indent s cs p toks ≠ .fuel := by
  induction p generalizing indent s cs toks with
  | nil =>
    rw [buildNew]
    · exact Res.bind_ne_fuel (firstNode_ne_fuel _ _) fun _ _ => insertNew_ne_fuel _ _ _ _
    · simp
  | cons k p ih =>
    cases p with
    | nil =>
      rw [buildNew]
      · exact Res.bind_ne_fuel (firstNode_ne_fuel _ _) fun _ _ => insertNew_ne_fuel _ _ _ _
      · simp
    | cons k2 rest =>
      rw [buildNew]
      refine Res.bind_ne_fuel (firstNode_ne_fuel _ _) fun f _ => ?_
      refine Res.bind_ne_fuel (subTokens_ne_fuel _ _ _) fun toks' _ => ?_
      refine Res.bind_ne_fuel (prepare_oneLine hv).1 ?_
      rintro ⟨i', iv', s'⟩ hp
      have := (prepare_oneLine hv).2 _ _ _ hp
      subst this
      exact Res.bind_ne_fuel (ih _ _ _ _) fun _ _ => insertNew_ne_fuel _ _ _ _

theorem addFinish_ne_fuel {fl : Syntax} {value : Node} (hv : '\n' ∉ value.render) {p : Path}
    {toks : List Tok} {cs : List Node} {inner : Res (Option (List Node))} (hi : inner ≠ .fuel) :
    addFinish fl value p toks cs inner ≠ .fuel := by
  unfold addFinish
  refine Res.bind_ne_fuel (prepare_oneLine hv).1 ?_
  rintro ⟨i', iv', s'⟩ hp
  have := (prepare_oneLine hv).2 _ _ _ hp
  subst this
  refine Res.bind_ne_fuel ?_ ?_
  · unfold searchFields
    split
    · exact hi
    · simp
  · intro r _
    split
    · simp
    · exact buildNew_ne_fuel _ hv _ _ _ _ _

mutual
theorem addIn_ne_fuel {fl : Syntax} {value : Node} (hv : '\n' ∉ value.render) :
    (ns : List Node) → (p : Path) → (toks : List Tok) → addIn fl value p toks ns ≠ .fuel
  | [], p, toks => by simp [addIn]
  | n :: ns, p, toks => by
    rw [addIn]
    refine Res.bind_ne_fuel (addIn_ne_fuel hv ns p toks) fun r _ => ?_
    split
    · simp
    · exact Res.bind_ne_fuel (addNode_ne_fuel hv n p toks) (by simp)
theorem addNode_ne_fuel {fl : Syntax} {value : Node} (hv : '\n' ∉ value.render) :
    (n : Node) → (p : Path) → (toks : List Tok) → addNode fl value p toks n ≠ .fuel
  | .field cs, p, toks => by
    rw [addNode]
    refine Res.bind_ne_fuel (fieldPath_ne_fuel cs) ?_
    rintro ⟨key, _⟩ _
    refine Res.bind_ne_fuel (startsWith_ne_fuel _ _) fun b _ => ?_
    split
    · exact Res.bind_ne_fuel (addField_ne_fuel hv cs _ _ _) (by simp)
    · simp
  | .single _, _, _ | .comment _, _, _ | .path _ _, _, _ | .simple _, _, _ | .incl _ _, _, _
  | .object _, _, _ | .array _, _, _ | .concat _, _, _ => by rw [addNode] <;> simp
theorem addField_ne_fuel {fl : Syntax} {value : Node} (hv : '\n' ∉ value.render) :
    (cs : List Node) → (k : Nat) → (p : Path) → (toks : List Tok) →
      addField fl value k p toks cs ≠ .fuel
  | [], _, _, _ => by simp [addField]
  | n :: ns, k, p, toks => by
    rw [addField]
    split
    · exact Res.bind_ne_fuel (addInObject_ne_fuel hv n k p toks) (by simp)
    · exact Res.bind_ne_fuel (addField_ne_fuel hv ns k p toks) (by simp)
theorem addInObject_ne_fuel {fl : Syntax} {value : Node} (hv : '\n' ∉ value.render) :
    (n : Node) → (k : Nat) → (p : Path) → (toks : List Tok) →
      addInObject fl value k p toks n ≠ .fuel
  | .object ocs, k, p, toks => by
    rw [addInObject]
    refine Res.bind_ne_fuel (subTokens_ne_fuel _ _ _) fun toks' _ => ?_
    exact Res.bind_ne_fuel (addFinish_ne_fuel hv (addIn_ne_fuel hv ocs _ _)) (by simp)
  | .single _, _, _, _ | .comment _, _, _, _ | .path _ _, _, _, _ | .simple _, _, _, _
  | .incl _ _, _, _, _ | .field _, _, _, _ | .array _, _, _, _ | .concat _, _, _, _ => by
    rw [addInObject] <;> simp
end

theorem setValue_ne_fuel {fl : Syntax} {value : Node} (hv : '\n' ∉ value.render) (hw : VOk fl value)
    {p : Path} (hp : p ≠ []) {toks : List Tok} {cs : List Node} (hn : WfNode fl (.object cs)) :
    setValue fl p toks value cs ≠ .fuel := by
  unfold setValue changeValue
  obtain ⟨r, seen, vc, g1, g2, _, _⟩ := changeLoop_spec hp (value := some value)
    (by intro w h; cases h; exact hw) cs hn.2.2 0 none
  rw [g1]
  simp only [Res.ok_bind]
  obtain ⟨b, g5, _⟩ := hasValue_spec hp r g2.wf
  rw [g5, Res.ok_bind]
  split
  · simp
  · exact addFinish_ne_fuel hv (addIn_ne_fuel hv _ _ _)

/-- `parse_single_value` terminates. -/
theorem singleValue_sat (env : Env) (fl : Syntax) (allow : Bool) (s : Str) (toks : List Tok)
    (h : tokenize env allow s = .ok toks) :
    (parseSingleValue env fl toks).Sat (fl = .conf ∧ BadKey env toks) (fun _ => True) := by
  have hg := tokenize_good h
  obtain ⟨mid, rfl, hne⟩ := (C07_tokenize_total env _ s).2 _ h
  have hinv : Inv env allow (.start :: mid ++ [.end_]) (mid ++ [.end_]) :=
    ⟨hg.tail, ⟨mid, rfl, fun hm => (hne _ hm).2 rfl⟩, [.start], rfl⟩
  have htot := total_all env fl allow (.start :: mid ++ [.end_]) (fuelFor (.start :: mid ++ [.end_]))
  rw [parseSingleValue]
  have h0 : nextToken fl (.start :: mid ++ [.end_]) = .ok (.start, mid ++ [.end_]) := by
    cases fl <;> rfl
  rw [h0]
  simp only [Res.ok_bind]
  refine Res.Sat.bind (nextToken_sat hinv _) ?_
  rintro ⟨t, toks2⟩ _ he
  simp only at he ⊢
  have h2 : Inv env allow (.start :: mid ++ [.end_]) (t :: toks2) := by rw [← he]; exact hinv
  have l2 : toks2.length = mid.length := by
    have := congrArg List.length he
    simpa using this.symm
  split
  · trivial
  · split
    · trivial
    · split
      · refine Res.Sat.bind (htot.value _ _ h2 (by
          simp only [fuelFor, List.length_append, List.length_cons, List.length_nil]; omega)) ?_
        rintro ⟨v, toks3⟩ _ ⟨h3, _⟩
        refine Res.Sat.bind (nextToken_sat h3 _) ?_
        rintro ⟨t', toks4⟩ _ _
        simp only
        split <;> trivial
      · refine Res.Sat.bind (htot.cons _ h2 (by
          simp only [fuelFor, List.length_append, List.length_cons, List.length_nil]; omega)) ?_
        rintro ⟨ns, v, toks3⟩ _ ⟨h3, _⟩
        refine Res.Sat.bind (nextToken_sat h3 _) ?_
        rintro ⟨t', toks4⟩ _ _
        simp only
        split <;> trivial

theorem exprLoop_ne_fuel (env : Env) (fl : Syntax) (ho : Bool) (es : PathParser.Elems)
    (pt ts : List Tok) : PathParser.exprLoop env fl ho es pt ts ≠ .fuel := by
  have hsp : ∀ t, PathParser.splitTokenOnPeriod fl t ≠ .fuel := by
    intro t
    unfold PathParser.splitTokenOnPeriod
    simp only
    repeat' split
    all_goals simp
  induction ts generalizing es pt with
  | nil => simp [PathParser.exprLoop]
  | cons t ts ih =>
    rw [PathParser.exprLoop.eq_def]
    simp only
    split
    · exact ih _ _
    · exact ih _ _
    · exact ih _ _
    · exact Res.bind_ne_fuel (hsp _) fun _ _ => ih _ _
    · exact Res.bind_ne_fuel (hsp _) fun _ _ => ih _ _
    · unfold PathParser.badPath
      split <;> simp

theorem parsePathNode_ne_fuel (env : Env) (fl : Syntax) (s : Str) :
    PathParser.parsePathNode env fl s ≠ .fuel := by
  unfold PathParser.parsePathNode
  refine Res.bind_ne_fuel (C07_tokenize_total env _ s).1 fun toks _ => ?_
  unfold PathParser.parsePathNodeExpression
  split
  · simp [PathParser.badPath]
  · refine Res.bind_ne_fuel (exprLoop_ne_fuel _ _ _ _ _ _) ?_
    rintro ⟨es, pt⟩ _
    refine Res.bind_ne_fuel ?_ (by simp)
    unfold PathParser.finish PathParser.badPath
    repeat' split
    all_goals simp

theorem findObject_ne_fuel (ns : List Node) : findObject ns ≠ .fuel := by
  induction ns with
  | nil => simp [findObject]
  | cons n ns ih =>
    rw [findObject.eq_def]
    simp only
    split
    · simp
    · simp
    · exact Res.bind_ne_fuel ih (by simp)

end DocEdit
end Hocon
