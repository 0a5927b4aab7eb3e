import Verif.Lemmas.Reparse

/-!
# Setting a path whose value stands behind a separator
-/

set_option autoImplicit false

namespace Hocon
namespace DocEdit
open PathParser (Syntax)
open DocParser
open Node Tokenizer

/-- The nodes end with a separator (`:`, `=` or `+=`) and blanks behind it. -/
def EndsInSep (fa : List Node) : Prop :=
  ∃ f0 sep bl, isKeyValueSeparator .conf sep = true ∧ (bl = [] ∨ ∃ s l, bl = [Tok.ws s l]) ∧
    fa = f0 ++ .single sep :: bl.map .single

/-- In the children `cs` of an object the path `p` is set by exactly one field, which has a separator and its value `v`
on the line of the separator. -/
inductive OnceOn : List Node → Path → Node → Prop where
  | here {a b fa : List Node} {v : Node} {p : Path} {ts : List Tok} (ha : ¬ Occurs a p)
      (hb : ¬ Occurs b p) (hk : fieldPath (fa ++ [v]) = .ok (p, ts))
      (hf : ∀ n ∈ fa, n.isValue = false) (hv : v.isValue = true) (hs : EndsInSep fa) :
      OnceOn (a ++ .field (fa ++ [v]) :: b) p v
  | inside {a b fa ocs : List Node} {key rem : Path} {ts : List Tok} {v : Node}
      (hr : rem ≠ []) (ha : ¬ Occurs a (key ++ rem)) (hb : ¬ Occurs b (key ++ rem))
      (hk : fieldPath (fa ++ [.object ocs]) = .ok (key, ts)) (hf : ∀ n ∈ fa, n.isValue = false)
      (ho : OnceOn ocs rem v) :
      OnceOn (a ++ .field (fa ++ [.object ocs]) :: b) (key ++ rem) v

theorem Swap.front {v w : Node} {ns ns' : List Node} (a : List Node) (h : Swap v w ns ns') :
    Swap v w (a ++ ns) (a ++ ns') := by
  induction a with
  | nil => exact h
  | cons n a ih => exact ih.skip n

theorem Swap.occurs_here {fa b : List Node} {w : Node} {p : Path} {ts : List Tok} {a : List Node}
    (hk : fieldPath (fa ++ [w]) = .ok (p, ts)) : Occurs (a ++ .field (fa ++ [w]) :: b) p :=
  .here (by simp) hk (List.prefix_refl _)

theorem change_swap {fl : Syntax} {w : Node} (hw : VOk fl w) {cs : List Node} {p : Path}
    {v : Node} (h : OnceOn cs p v) (hp : p ≠ []) (hcs : WfList fl cs)
    (hj : fl = .json → NoTrail cs) {ms : List Node} (hcs0 : ∀ n ∈ deep cs, n ∈ ms) :
    ∀ (i : Nat) (prev : Option Node), (∀ n, prev = some n → n ∈ ms) → ∃ r w' vc,
      changeLoop fl p (some w) i prev cs = .ok (r, true, vc) ∧ Swap v w' cs r ∧ Occurs r p ∧ Written ms w w' := by
  induction h with
  | @here a b fa v p ts ha hb hk hf hv hs =>
    intro i prev hprev
    rw [WfList.iff] at hcs
    have hwa : WfList fl a := WfList.iff.2 fun n hn => hcs n (by simp [hn])
    have hwb : WfList fl b := WfList.iff.2 fun n hn => hcs n (by simp [hn])
    have hjb : fl = .json → NoTrail b := fun h => (NoTrail.cons.1 (hj h).right).1
    obtain ⟨i', prev', hpf, hfront⟩ := changeLoop_front hp (value := some w)
      (rest := .field (fa ++ [v]) :: b) hwa ha i prev
    obtain ⟨w', h1, h2, h3⟩ := indentedValue_written i' prev' hw (ms := ms) (by
      rcases hpf with rfl | ⟨n, hn, rfl⟩
      · exact hprev
      · rintro m hm
        cases hm
        exact hcs0 n (mem_deep (by simp [hn])))
    have hstep : changeLoop fl p (some w) i' prev'
        (.field (fa ++ [v]) :: b) = .ok (.field (fa ++ [w']) :: b, true, none) := by
      obtain ⟨seen, k1, _⟩ := changeLoop_absent hp (value := some w) b hwb hjb hb (i' + 1)
        (some (.field (fa ++ [v])))
      rw [changeLoop, k1]
      simp only [Res.ok_bind]
      rw [changeNode, hk]
      simp only [Res.ok_bind]
      have hbeq : PathM.beq p p = true := (PathM.C03_beq p p).2 rfl
      rw [hbeq, PathM.C03_startsWith _ _ hp]
      simp only [Option.isNone_some, Bool.false_and, Bool.false_eq_true, if_false, Res.ok_bind,
        Bool.not_true, Bool.and_false, if_true, setField]
      rw [h1, Res.ok_bind, replaceValue_split hf hv, Res.ok_bind]
    refine ⟨_, w', none, hfront _ _ hstep, ?_, Swap.occurs_here (by rw [fieldPath_split hv h3]; exact hk), h2⟩
    obtain ⟨f0, sep, bl, g1, g2, rfl⟩ := hs
    exact Swap.front a (.here g1 g2)
  | @inside a b fa ocs key rem ts v hr ha hb hk hf ho ih =>
    intro i prev hprev
    rw [WfList.iff] at hcs
    have hwa : WfList fl a := WfList.iff.2 fun n hn => hcs n (by simp [hn])
    have hwb : WfList fl b := WfList.iff.2 fun n hn => hcs n (by simp [hn])
    have hjb : fl = .json → NoTrail b := fun h => (NoTrail.cons.1 (hj h).right).1
    obtain ⟨⟨k, ks, ts', hkey⟩, _, hfw⟩ := hcs (.field (fa ++ [.object ocs])) (by simp)
    rw [hk] at hkey
    simp only [Res.ok.injEq, Prod.mk.injEq] at hkey
    obtain ⟨rfl, rfl⟩ := hkey
    have hwo : WfNode fl (.object ocs) := (WfList.iff.1 hfw) _ (by simp)
    obtain ⟨i', prev', hpf, hfront⟩ := changeLoop_front hp (value := some w)
      (rest := .field (fa ++ [.object ocs]) :: b) hwa ha i prev
    obtain ⟨r, w', vc, k1, k2, k2', k3⟩ := ih hr hwo.2.2 hwo.2.1
      (fun n hn => hcs0 n (by simp [deep_append, deep, below, hn])) 0 none (by rintro n hn; cases hn)
    have hstep : changeLoop fl (k :: ks ++ rem) (some w) i' prev'
        (.field (fa ++ [.object ocs]) :: b) =
        .ok (.field (fa ++ [.object r]) :: b, true, some w) := by
      obtain ⟨seen, k4, _⟩ := changeLoop_absent hp (value := some w) b hwb hjb hb (i' + 1)
        (some (.field (fa ++ [.object ocs])))
      rw [changeLoop, k4]
      simp only [Res.ok_bind]
      rw [changeNode, hk]
      simp only [Res.ok_bind]
      have hne : k :: ks ≠ k :: ks ++ rem := by
        intro h
        exact hr (List.self_eq_append_right.1 h)
      have hnp : ¬ (k :: ks ++ rem <+: k :: ks) := by
        intro h
        have := h.length_le
        have := List.length_pos_iff.2 hr
        simp at *
        omega
      have hbeq : PathM.beq (k :: ks) (k :: ks ++ rem) = false := by
        rw [← Bool.not_eq_true, PathM.C03_beq]; exact hne
      rw [hbeq, PathM.C03_startsWith _ _ (by simp : k :: ks ≠ [])]
      simp only [Option.isNone_some, Bool.false_and, Bool.false_eq_true, if_false, Res.ok_bind,
        hnp, decide_false]
      rw [PathM.C03_startsWith _ _ hp]
      have hpre : k :: ks <+: k :: ks ++ rem := List.prefix_append _ _
      obtain ⟨rem', hrem', hpe, hsub⟩ := length_drop_facts (by simp) hpre hne
      have : rem' = rem := (List.append_cancel_left hpe).symm
      subst this
      simp only [hpre, decide_true, Res.ok_bind, if_true]
      rw [hsub, changeField_split (w := .object r) hf rfl (by rw [changeInObject, k1]; rfl)]
      rfl
    refine ⟨_, w', _, hfront _ _ hstep, Swap.front a (.inside k2), ?_, k3⟩
    exact .inside (cs := fa ++ [.object r]) (by simp) (by rw [fieldPath_split (v := .object ocs) rfl rfl]; exact hk) hr
      (fieldValue_split hf rfl) k2'

/-! ## Nodes that differ in their lines -/

theorem unlineList_split {x a b : List Node} (h : unlineList x = unlineList (a ++ b)) :
    ∃ a' b', x = a' ++ b' ∧ unlineList a' = unlineList a ∧ unlineList b' = unlineList b := by
  rw [unlineList_append] at h
  simp only [unlineList_eq] at h ⊢
  obtain ⟨a', b', rfl, h1, h2⟩ := List.map_eq_append_iff.1 h
  exact ⟨a', b', rfl, h1, h2⟩

theorem unlineList_cons {x b : List Node} {n : Node} (h : unlineList x = unlineList (n :: b)) :
    ∃ n' b', x = n' :: b' ∧ n'.unline = n.unline ∧ unlineList b' = unlineList b := by
  cases x with
  | nil => simp [unlineList] at h
  | cons n' b' =>
    simp only [unlineList, List.cons.injEq] at h
    exact ⟨n', b', rfl, h.1, h.2⟩

theorem unlineList_nil {x : List Node} (h : unlineList x = unlineList []) : x = [] := by
  cases x with
  | nil => rfl
  | cons _ _ => simp [unlineList] at h

theorem unline_field {n : Node} {cs : List Node} (h : n.unline = (Node.field cs).unline) :
    ∃ cs', n = .field cs' ∧ unlineList cs' = unlineList cs := by
  cases n <;> simp [Node.unline] at h
  exact ⟨_, rfl, h⟩

theorem unline_object {n : Node} {cs : List Node} (h : n.unline = (Node.object cs).unline) :
    ∃ cs', n = .object cs' ∧ unlineList cs' = unlineList cs := by
  cases n <;> simp [Node.unline] at h
  exact ⟨_, rfl, h⟩

theorem unline_single {n : Node} {t : Tok} (h : n.unline = (Node.single t).unline) :
    ∃ t', n = .single t' ∧ t'.unline = t.unline := by
  cases n <;> simp [Node.unline] at h
  exact ⟨_, rfl, h⟩

/-- Exchanging a value in nodes that differ in their lines only. -/
theorem Swap.unline {v w : Node} {ns ns' : List Node} (h : Swap v w ns ns') :
    ∀ {ms : List Node}, unlineList ms = unlineList ns →
      ∃ v0 ms', Swap v0 w ms ms' ∧ unlineList ms' = unlineList ns' := by
  induction h with
  | skip n h ih =>
    intro ms hm
    obtain ⟨n', b', rfl, h1, h2⟩ := unlineList_cons hm
    obtain ⟨v0, ms', h3, h4⟩ := ih h2
    exact ⟨v0, n' :: ms', h3.skip n', by simp [unlineList, h1, h4]⟩
  | @here fa b sep bl hs hb =>
    intro ms hm
    obtain ⟨n', b', rfl, h1, h2⟩ := unlineList_cons hm
    obtain ⟨cs, rfl, h3⟩ := unline_field h1
    obtain ⟨x, y, rfl, h4, h5⟩ := unlineList_split h3
    obtain ⟨v0, y', rfl, h6, h7⟩ := unlineList_cons h5
    obtain rfl := unlineList_nil h7
    obtain ⟨fa', z, rfl, h8, h9⟩ := unlineList_split h4
    obtain ⟨n1, z', rfl, h10, h11⟩ := unlineList_cons h9
    obtain ⟨sep', rfl, h12⟩ := unline_single h10
    obtain ⟨bl', rfl, hb'⟩ : ∃ bl' : List Tok, z' = bl'.map .single ∧ (bl' = [] ∨ ∃ s l, bl' = [.ws s l]) := by
      rcases hb with rfl | ⟨s, l, rfl⟩
      · exact ⟨[], unlineList_nil h11, Or.inl rfl⟩
      · obtain ⟨m, q, rfl, g1, g2⟩ := unlineList_cons h11
        obtain rfl := unlineList_nil g2
        obtain ⟨t', rfl, g3⟩ := unline_single g1
        cases t' <;> simp [Tok.unline] at g3
        exact ⟨[_], rfl, Or.inr ⟨_, _, rfl⟩⟩
    refine ⟨v0, _, .here (by rw [← isKVS_unline, h12, isKVS_unline]; exact hs) hb', ?_⟩
    simp only [unlineList, Node.unline, unlineList_append, h8, h11, h12, h2]
  | inside h ih =>
    intro ms hm
    obtain ⟨n', b', rfl, h1, h2⟩ := unlineList_cons hm
    obtain ⟨cs, rfl, h3⟩ := unline_field h1
    obtain ⟨x, y, rfl, h4, h5⟩ := unlineList_split h3
    obtain ⟨v0, y', rfl, h6, h7⟩ := unlineList_cons h5
    obtain rfl := unlineList_nil h7
    obtain ⟨os, rfl, h8⟩ := unline_object h6
    obtain ⟨v0, ms', h9, h10⟩ := ih h8
    refine ⟨v0, _, .inside h9, ?_⟩
    simp only [unlineList, Node.unline, unlineList_append, h4, h10, h2]

theorem findObject_unline {root root0 a cs b : List Node} (h : findObject root = .ok (a, cs, b))
    (hu : unlineList root0 = unlineList root) :
    ∃ a0 cs0 b0, findObject root0 = .ok (a0, cs0, b0) ∧ unlineList a0 = unlineList a ∧ unlineList cs0 = unlineList cs ∧
      unlineList b0 = unlineList b := by
  induction root generalizing root0 a with
  | nil => simp [findObject] at h
  | cons n ns ih =>
    obtain ⟨m, ms, rfl, h1, h2⟩ := unlineList_cons hu
    have other : ∀ x : List Node × List Node × List Node, findObject ns = .ok x → (a, cs, b) = (n :: x.1, x.2.1, x.2.2) →
        findObject (m :: ms) = (findObject ms >>= fun z => .ok (m :: z.1, z.2.1, z.2.2)) →
        ∃ a0 cs0 b0, findObject (m :: ms) = .ok (a0, cs0, b0) ∧ unlineList a0 = unlineList a ∧
          unlineList cs0 = unlineList cs ∧ unlineList b0 = unlineList b := by
      intro x hx e e2
      simp only [Prod.mk.injEq] at e
      obtain ⟨rfl, rfl, rfl⟩ := e
      obtain ⟨a0, cs0, b0, g1, g2, g3, g4⟩ := ih hx h2
      refine ⟨m :: a0, cs0, b0, by rw [e2, g1]; rfl, by simp [unlineList, h1, g2], g3, g4⟩
    cases n with
    | array xs => simp [findObject] at h
    | object xs =>
      obtain ⟨ys, rfl, h3⟩ := unline_object h1
      simp only [findObject, Res.ok.injEq, Prod.mk.injEq] at h
      obtain ⟨rfl, rfl, rfl⟩ := h
      exact ⟨[], ys, ms, rfl, rfl, h3, h2⟩
    | _ =>
      rw [findObject] at h
      · rw [Res.bind_eq_ok] at h
        obtain ⟨x, hx, h⟩ := h
        simp only [Res.ok.injEq] at h
        have e : findObject (m :: ms) = (findObject ms >>= fun z => .ok (m :: z.1, z.2.1, z.2.2)) := by
          cases m <;> first | rfl | simp [Node.unline] at h1
        exact other x hx h.symm e
      all_goals simp

end DocEdit
end Hocon
