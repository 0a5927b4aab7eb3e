import Verif.Lemmas.RemoveText
import Verif.Lemmas.ReparseEdit

/-!
# Removal from a document, step by step
-/

set_option autoImplicit false

namespace Hocon
namespace DocEdit
open PathParser (Syntax)
open Node Tokenizer DocParser

/-- The only value among the children of a field is the last of them. -/
def Shape (cs : List Node) : Prop := ∃ fa v, cs = fa ++ [v] ∧ (∀ n ∈ fa, n.isValue = false) ∧ v.isValue = true

theorem Shape.at {a b : List Node} {v : Node} (h : Shape (a ++ v :: b)) (hv : v.isValue = true) :
    b = [] ∧ ∀ n ∈ a, n.isValue = false := by
  obtain ⟨fa, w, e, hf, _⟩ := h
  rcases List.append_eq_append_iff.1 e with ⟨x, h1, h2⟩ | ⟨x, h1, h2⟩
  · cases x with
    | nil =>
      simp only [List.nil_append, List.cons.injEq] at h2
      rw [List.append_nil] at h1
      subst h1
      exact ⟨h2.2, hf⟩
    | cons y x =>
      simp only [List.cons_append, List.cons.injEq] at h2
      have := hf v (by rw [h1, h2.1]; simp)
      rw [hv] at this
      cases this
  · cases x with
    | nil =>
      simp only [List.nil_append, List.cons.injEq] at h2
      rw [List.append_nil] at h1
      subst h1
      exact ⟨h2.2.symm, hf⟩
    | cons y x =>
      simp at h2

theorem Shape.put {a b : List Node} {v w : Node} (h : Shape (a ++ v :: b)) (hv : v.isValue = true) (hw : w.isValue = true) :
    Shape (a ++ w :: b) := by
  obtain ⟨rfl, h2⟩ := h.at hv
  exact ⟨a, w, rfl, h2, hw⟩

/-- Behind every field, in all objects that are reached through fields, the comma (if there is one) is on the line of the
field: no newline and no comment stands between them. -/
inductive InLine : List Node → Prop
  | nil : InLine []
  | plain {n : Node} {b : List Node} (hn : Plain n) (h : InLine b) : InLine (n :: b)
  | incl {cs b : List Node} {k : IncludeKind} (h : InLine b) : InLine (.incl cs k :: b)
  | field {cs b : List Node} (hs : Shape cs) (hc : CommaOk b) (ho : ∀ ocs, Node.object ocs ∈ cs → InLine ocs) (h : InLine b) :
      InLine (.field cs :: b)

/-- Fields taken out one after the other. -/
inductive Cuts : List Node → List Node → Prop
  | refl (ns : List Node) : Cuts ns ns
  | step {ns ns1 ns' : List Node} (h : Cuts ns ns1) (h1 : DocParser.Cut ns1 ns') : Cuts ns ns'

theorem Cuts.trans {a b c : List Node} (h : Cuts a b) (h2 : Cuts b c) : Cuts a c := by
  induction h2 with
  | refl => exact h
  | step _ h1 ih => exact .step ih h1

theorem Cuts.skip {a b : List Node} (n : Node) (h : Cuts a b) : Cuts (n :: a) (n :: b) := by
  induction h with
  | refl => exact .refl _
  | step _ h1 ih => exact .step ih (.skip n h1)

theorem Cuts.inside {fa fb b ocs ocs' : List Node} (h : Cuts ocs ocs') :
    Cuts (.field (fa ++ .object ocs :: fb) :: b) (.field (fa ++ .object ocs' :: fb) :: b) := by
  induction h with
  | refl => exact .refl _
  | step _ h1 ih => exact .step ih (.inside h1)

theorem plain_not_field {n : Node} (h : Plain n) (cs : List Node) : n ≠ .field cs := by
  obtain ⟨t, rfl | ⟨rfl, _⟩⟩ := h <;> simp

theorem dropSep_split {b : List Node} (hb : InLine b) : ∃ g, b = g ++ dropSep b ∧ (∀ n ∈ g, Plain n) ∧
    ∀ n r, dropSep b = n :: r → n.hasTok Tok.isWs = false ∧ n.hasTok Tok.isComma = false := by
  induction b with
  | nil => exact ⟨[], rfl, by simp, by simp [dropSep]⟩
  | cons n b ih =>
    rw [dropSep]
    split
    · rename_i hc
      have hb' : InLine b := by cases hb <;> assumption
      obtain ⟨g, h1, h2, h3⟩ := ih hb'
      refine ⟨n :: g, by rw [List.cons_append, ← h1], ?_, h3⟩
      intro m hm
      rcases List.mem_cons.1 hm with rfl | hm
      · cases hb with
        | plain hn _ => exact hn
        | incl _ => simp [hasTok, singleToken?] at hc
        | field _ _ _ _ => simp [hasTok, singleToken?] at hc
      · exact h2 m hm
    · rename_i hc
      refine ⟨[], rfl, by simp, ?_⟩
      intro m r e
      simp only [List.cons.injEq] at e
      rw [← e.1]
      simpa using hc

/-- What stands in front of the first comma behind a field is not changed. -/
def SameFront (ns r : List Node) : Prop :=
  ∀ a c, r = a ++ .single .comma :: c → (∀ n ∈ a, Plain n) → ∃ c', ns = a ++ .single .comma :: c'

theorem SameFront.comma {ns r : List Node} (h : SameFront ns r) (hc : CommaOk ns) : CommaOk r := by
  intro a c e ha
  obtain ⟨c', e'⟩ := h a c e ha
  exact hc a c' e' ha

/-- After a removal there is no comma in front. -/
theorem dropSep_front {b : List Node} (hb : InLine b) (hc : CommaOk b) {a c : List Node} (e : dropSep b = a ++ .single .comma :: c)
    (ha : ∀ n ∈ a, Plain n) : False := by
  obtain ⟨g, h1, h2, h3⟩ := dropSep_split hb
  rw [e] at h1
  have h4 := hc (g ++ a) c (by rw [h1]; simp) (by
    intro n hn
    rcases List.mem_append.1 hn with hn | hn
    · exact h2 n hn
    · exact ha n hn)
  cases a with
  | nil =>
    have := h3 _ _ e
    simp [hasTok, singleToken?, Tok.isComma] at this
  | cons n a =>
    have := h3 _ _ e
    rcases h4 n (by simp) with ⟨s, l, rfl⟩ | rfl <;> simp [hasTok, singleToken?, Tok.isWs, Tok.isComma] at this

theorem InLine.dropSep {b : List Node} (h : InLine b) : InLine (dropSep b) := by
  induction b with
  | nil => exact h
  | cons n b ih =>
    rw [DocEdit.dropSep]
    split
    · rename_i hc
      have hb' : InLine b := by cases h <;> assumption
      exact ih hb'
    · exact h

structure Removal (ns r : List Node) : Prop where
  cuts : Cuts ns r
  front : SameFront ns r
  line : InLine r

theorem SameFront.field {cs cs' b b' : List Node} : SameFront (.field cs :: b) (.field cs' :: b') := by
  intro a c e ha
  exfalso
  cases a with
  | nil => simp at e
  | cons n a =>
    simp only [List.cons_append, List.cons.injEq] at e
    exact plain_not_field (ha n (by simp)) _ e.1.symm

theorem changeOther_cuts {p : Path} {n : Node} {ns rest : List Node} {i : Nat} {prev : Option Node} {seen1 : Bool}
    {r : List Node} {seen : Bool} {vc : Option Node} (hw : InLine (n :: ns))
    (hd : changeNode .conf p i prev rest seen1 none n = if (decide (Syntax.conf = Syntax.json) && !seen1 &&
        n.hasTok Tok.isComma) = true then .ok (rest, seen1, none) else .ok (n :: rest, seen1, none))
    (hf : ∀ cs, n ≠ .field cs) (hr : Removal ns rest)
    (h : changeNode .conf p i prev rest seen1 none n = .ok (r, seen, vc)) : vc = none ∧ Removal (n :: ns) r := by
  rw [hd, if_neg (by simp)] at h
  simp only [Res.ok.injEq, Prod.mk.injEq] at h
  obtain ⟨rfl, _, rfl⟩ := h
  refine ⟨rfl, hr.cuts.skip _, ?_, ?_⟩
  · intro a c e ha
    cases a with
    | nil =>
      simp only [List.nil_append, List.cons.injEq] at e
      exact ⟨ns, by rw [e.1]; rfl⟩
    | cons m a =>
      simp only [List.cons_append, List.cons.injEq] at e
      obtain ⟨c', e'⟩ := hr.front a c e.2 (fun n hn => ha n (by simp [hn]))
      exact ⟨c', by rw [e', e.1]; rfl⟩
  · cases hw with
    | plain hn _ => exact .plain hn hr.line
    | incl _ => exact .incl hr.line
    | field _ _ _ _ => exact absurd rfl (hf _)

mutual
theorem changeLoop_cuts {p : Path} : (ns : List Node) → InLine ns → (i : Nat) → (prev : Option Node) →
    ∀ r seen vc, changeLoop .conf p none i prev ns = .ok (r, seen, vc) → vc = none ∧ Removal ns r
  | [], _, i, prev => by
    intro r seen vc h
    rw [changeLoop] at h
    simp only [Res.ok.injEq, Prod.mk.injEq] at h
    obtain ⟨rfl, _, rfl⟩ := h
    exact ⟨rfl, .refl _, by intro a c e _; exact ⟨c, e⟩, .nil⟩
  | n :: ns, hw, i, prev => by
    intro r seen vc h
    rw [changeLoop, Res.bind_eq_ok] at h
    obtain ⟨⟨rest, seen1, vc1⟩, h1, h⟩ := h
    have hw2 : InLine ns := by cases hw <;> assumption
    obtain ⟨rfl, hr⟩ := changeLoop_cuts ns hw2 _ _ _ _ _ h1
    exact changeNode_cuts n hw i prev hr _ _ _ h
theorem changeNode_cuts {p : Path} : (n : Node) → {ns rest : List Node} → {seen1 : Bool} → InLine (n :: ns) →
    (i : Nat) → (prev : Option Node) → Removal ns rest →
    ∀ r seen vc, changeNode .conf p i prev rest seen1 none n = .ok (r, seen, vc) → vc = none ∧ Removal (n :: ns) r
  | .field cs, ns, rest, seen1, hw, i, prev, hr => by
    intro r seen vc h
    have hcr : CommaOk rest ∧ (∀ ocs, Node.object ocs ∈ cs → InLine ocs) ∧ Shape cs := by
      cases hw with
      | plain hn _ => exact absurd rfl (plain_not_field hn cs)
      | field hs hc ho _ => exact ⟨hr.front.comma hc, ho, hs⟩
    rw [changeNode, Res.bind_eq_ok] at h
    obtain ⟨⟨key, kt⟩, hk, h⟩ := h
    simp only at h
    have kill : Removal (.field cs :: ns) (DocEdit.dropSep rest) := by
      refine ⟨.step (hr.cuts.skip _) (.here hcr.1), ?_, hr.line.dropSep⟩
      intro a c e ha
      exact (dropSep_front hr.line hcr.1 e ha).elim
    split at h
    · simp only [Res.ok_bind, if_true, Res.ok.injEq, Prod.mk.injEq] at h
      obtain ⟨rfl, _, rfl⟩ := h
      exact ⟨rfl, kill⟩
    · rename_i he
      have he' : PathM.beq key p = false := by simpa using he
      rw [Res.bind_eq_ok] at h
      obtain ⟨sw, hsw, h⟩ := h
      simp only [he', Bool.not_false, Bool.and_true, Res.ok_bind, Bool.false_eq_true, if_false] at h
      split at h
      · simp only [Res.ok.injEq, Prod.mk.injEq] at h
        obtain ⟨rfl, _, rfl⟩ := h
        exact ⟨rfl, kill⟩
      · rw [Res.bind_eq_ok] at h
        obtain ⟨below, hb, h⟩ := h
        split at h
        · rw [Res.bind_eq_ok] at h
          obtain ⟨cs', hcs, h⟩ := h
          simp only [Res.ok.injEq, Prod.mk.injEq] at h
          obtain ⟨rfl, _, rfl⟩ := h
          obtain ⟨a, b, ocs, ocs', k1, k2, k3, k4⟩ | rfl := changeField_cuts cs hcr.2.1 _ hcs
          · subst k1 k2
            refine ⟨rfl, (hr.cuts.skip _).trans (.inside k3), .field, .field (hcr.2.2.put rfl rfl) hcr.1 ?_ hr.line⟩
            intro x hx
            simp only [List.mem_append, List.mem_cons, Node.object.injEq] at hx
            rcases hx with hx | rfl | hx
            · exact hcr.2.1 x (by simp [hx])
            · exact k4
            · exact hcr.2.1 x (by simp [hx])
          · exact ⟨rfl, hr.cuts.skip _, .field, .field hcr.2.2 hcr.1 hcr.2.1 hr.line⟩
        · simp only [Res.ok.injEq, Prod.mk.injEq] at h
          obtain ⟨rfl, _, rfl⟩ := h
          exact ⟨rfl, hr.cuts.skip _, .field, .field hcr.2.2 hcr.1 hcr.2.1 hr.line⟩
  | .single t, ns, rest, seen1, hw, i, prev, hr => by
    intro r seen vc h
    exact changeOther_cuts hw (by rw [changeNode]; intro cs; simp) (by intro cs; simp) hr h
  | .comment t, ns, rest, seen1, hw, i, prev, hr => by
    intro r seen vc h
    exact changeOther_cuts hw (by rw [changeNode]; intro cs; simp) (by intro cs; simp) hr h
  | .simple t, ns, rest, seen1, hw, i, prev, hr => by
    intro r seen vc h
    exact changeOther_cuts hw (by rw [changeNode]; intro cs; simp) (by intro cs; simp) hr h
  | .path q ts, ns, rest, seen1, hw, i, prev, hr => by
    intro r seen vc h
    exact changeOther_cuts hw (by rw [changeNode]; intro cs; simp) (by intro cs; simp) hr h
  | .object cs, ns, rest, seen1, hw, i, prev, hr => by
    intro r seen vc h
    exact changeOther_cuts hw (by rw [changeNode]; intro cs; simp) (by intro cs; simp) hr h
  | .array cs, ns, rest, seen1, hw, i, prev, hr => by
    intro r seen vc h
    exact changeOther_cuts hw (by rw [changeNode]; intro cs; simp) (by intro cs; simp) hr h
  | .concat cs, ns, rest, seen1, hw, i, prev, hr => by
    intro r seen vc h
    exact changeOther_cuts hw (by rw [changeNode]; intro cs; simp) (by intro cs; simp) hr h
  | .incl cs k, ns, rest, seen1, hw, i, prev, hr => by
    intro r seen vc h
    exact changeOther_cuts hw (by rw [changeNode]; intro cs; simp) (by intro cs; simp) hr h
theorem changeField_cuts {p : Path} : (cs : List Node) → (∀ ocs, Node.object ocs ∈ cs → InLine ocs) →
    ∀ cs', changeField .conf p none cs = .ok cs' →
      (∃ a b ocs ocs', cs = a ++ .object ocs :: b ∧ cs' = a ++ .object ocs' :: b ∧ Cuts ocs ocs' ∧ InLine ocs') ∨ cs' = cs
  | [], _ => by intro cs' h; simp [changeField] at h
  | n :: ns, ho => by
    intro cs' h
    rw [changeField] at h
    split at h
    · rw [Res.bind_eq_ok] at h
      obtain ⟨n', h1, h⟩ := h
      simp only [Res.ok.injEq] at h
      subst h
      rcases changeInObject_cuts n (fun ocs e => ho ocs (by simp [e])) _ h1 with ⟨ocs, ocs', rfl, rfl, k1, k2⟩ | rfl
      · exact Or.inl ⟨[], ns, ocs, ocs', rfl, rfl, k1, k2⟩
      · exact Or.inr rfl
    · rw [Res.bind_eq_ok] at h
      obtain ⟨ns', h1, h⟩ := h
      simp only [Res.ok.injEq] at h
      subst h
      rcases changeField_cuts ns (fun ocs e => ho ocs (by simp [e])) _ h1 with ⟨a, b, ocs, ocs', rfl, rfl, k1, k2⟩ | rfl
      · exact Or.inl ⟨n :: a, b, ocs, ocs', rfl, rfl, k1, k2⟩
      · exact Or.inr rfl
theorem changeInObject_cuts {p : Path} : (n : Node) → (∀ ocs, n = .object ocs → InLine ocs) →
    ∀ n', changeInObject .conf p none n = .ok n' →
      (∃ ocs ocs', n = .object ocs ∧ n' = .object ocs' ∧ Cuts ocs ocs' ∧ InLine ocs') ∨ n' = n
  | .object ocs, ho => by
    intro n' h
    rw [changeInObject, Res.bind_eq_ok] at h
    obtain ⟨⟨r, s, vc⟩, h1, h⟩ := h
    simp only [Res.ok.injEq] at h
    subst h
    obtain ⟨_, k⟩ := changeLoop_cuts ocs (ho ocs rfl) _ _ _ _ _ h1
    exact Or.inl ⟨ocs, r, rfl, rfl, k.cuts, k.line⟩
  | .single t, _ => by intro n' h; simp [changeInObject] at h; exact Or.inr h.symm
  | .comment t, _ => by intro n' h; simp [changeInObject] at h; exact Or.inr h.symm
  | .simple t, _ => by intro n' h; simp [changeInObject] at h; exact Or.inr h.symm
  | .path q ts, _ => by intro n' h; simp [changeInObject] at h; exact Or.inr h.symm
  | .field cs, _ => by intro n' h; simp [changeInObject] at h; exact Or.inr h.symm
  | .array cs, _ => by intro n' h; simp [changeInObject] at h; exact Or.inr h.symm
  | .concat cs, _ => by intro n' h; simp [changeInObject] at h; exact Or.inr h.symm
  | .incl cs k, _ => by intro n' h; simp [changeInObject] at h; exact Or.inr h.symm
end

theorem plain_unline {n m : Node} (h : m.unline = n.unline) (hn : Plain n) : Plain m := by
  obtain ⟨t, rfl | ⟨rfl, d, c, l, rfl⟩⟩ := hn
  · obtain ⟨t', rfl, _⟩ := unline_single h
    exact ⟨t', Or.inl rfl⟩
  · cases m <;> simp [Node.unline] at h
    rename_i t
    cases t <;> simp [Tok.unline] at h
    exact ⟨_, Or.inr ⟨rfl, _, _, _, rfl⟩⟩

theorem commaOk_unline {b b0 : List Node} (h : unlineList b0 = unlineList b) (hc : CommaOk b) : CommaOk b0 := by
  rintro a c rfl ha n hn
  obtain ⟨a', c1, rfl, h1, h2⟩ := unlineList_split h.symm
  obtain ⟨n', c', rfl, h3, h4⟩ := unlineList_cons h2
  obtain ⟨t', rfl, h5⟩ := unline_single h3
  have : t' = .comma := by cases t' <;> simp [Tok.unline] at h5; rfl
  subst this
  have hex : ∀ {a a' : List Node}, unlineList a' = unlineList a → ∀ n ∈ a, ∃ m ∈ a', m.unline = n.unline := by
    intro a a' e n hn
    rw [unlineList_eq, unlineList_eq] at e
    have : n.unline ∈ a'.map Node.unline := by rw [e]; exact List.mem_map_of_mem hn
    obtain ⟨m, hm, hm2⟩ := List.mem_map.1 this
    exact ⟨m, hm, hm2⟩
  have hpl : ∀ m ∈ a', Plain m := by
    intro m hm
    obtain ⟨n, hn, e⟩ := hex h1.symm m hm
    exact plain_unline e.symm (ha n hn)
  obtain ⟨m, hm, e⟩ := hex h1 n hn
  rcases hc a' c' rfl hpl m hm with ⟨s, l, rfl⟩ | rfl
  · obtain ⟨t', rfl, h5⟩ := unline_single e.symm
    cases t' <;> simp [Tok.unline] at h5
    exact Or.inl ⟨_, _, rfl⟩
  · obtain ⟨t', rfl, h5⟩ := unline_single e.symm
    cases t' <;> simp [Tok.unline] at h5
    exact Or.inr rfl

theorem hasTok_unline {n m : Node} (h : m.unline = n.unline) :
    m.hasTok Tok.isWs = n.hasTok Tok.isWs ∧ m.hasTok Tok.isComma = n.hasTok Tok.isComma := by
  cases n <;> cases m <;> simp [Node.unline] at h <;> simp [hasTok, singleToken?] <;>
  · rename_i t t'
    cases t <;> cases t' <;> simp [Tok.unline] at h <;> simp [Tok.isWs, Tok.isComma]

theorem dropSep_unline {b b0 : List Node} (h : unlineList b0 = unlineList b) :
    unlineList (dropSep b0) = unlineList (dropSep b) := by
  induction b generalizing b0 with
  | nil => rw [unlineList_nil h]
  | cons n b ih =>
    obtain ⟨m, b1, rfl, h1, h2⟩ := unlineList_cons h
    obtain ⟨k1, k2⟩ := hasTok_unline h1
    rw [DocEdit.dropSep, DocEdit.dropSep, k1, k2]
    split
    · exact ih h2
    · exact h

theorem cut_unline {ns ns' : List Node} (h : DocParser.Cut ns ns') :
    ∀ {ms : List Node}, unlineList ms = unlineList ns → ∃ ms', DocParser.Cut ms ms' ∧ unlineList ms' = unlineList ns' := by
  induction h with
  | skip n h ih =>
    intro ms hm
    obtain ⟨n', b', rfl, h1, h2⟩ := unlineList_cons hm
    obtain ⟨ms', h3, h4⟩ := ih h2
    exact ⟨n' :: ms', h3.skip n', by simp [unlineList, h1, h4]⟩
  | here hc =>
    intro ms hm
    obtain ⟨n', b', rfl, h1, h2⟩ := unlineList_cons hm
    obtain ⟨cs, rfl, h3⟩ := unline_field h1
    exact ⟨_, .here (commaOk_unline h2 hc), dropSep_unline h2⟩
  | inside h ih =>
    intro ms hm
    obtain ⟨n', b', rfl, h1, h2⟩ := unlineList_cons hm
    obtain ⟨cs, rfl, h3⟩ := unline_field h1
    obtain ⟨x, y, rfl, h4, h5⟩ := unlineList_split h3
    obtain ⟨v0, y', rfl, h6, h7⟩ := unlineList_cons h5
    obtain ⟨os, rfl, h8⟩ := unline_object h6
    obtain ⟨ms', h9, h10⟩ := ih h8
    refine ⟨_, .inside h9, ?_⟩
    simp only [unlineList, Node.unline, unlineList_append, h4, h10, h2, h7]

theorem inLine_unline {ns : List Node} (h : InLine ns) : ∀ {ms : List Node}, unlineList ms = unlineList ns → InLine ms := by
  induction h with
  | nil => intro ms hm; rw [unlineList_nil hm]; exact .nil
  | plain hn _ ih =>
    intro ms hm
    obtain ⟨n', b', rfl, h1, h2⟩ := unlineList_cons hm
    exact .plain (plain_unline h1 hn) (ih h2)
  | incl _ ih =>
    intro ms hm
    obtain ⟨n', b', rfl, h1, h2⟩ := unlineList_cons hm
    cases n' <;> simp [Node.unline] at h1
    exact .incl (ih h2)
  | field hs hc ho _ iho ih =>
    intro ms hm
    obtain ⟨n', b', rfl, h1, h2⟩ := unlineList_cons hm
    obtain ⟨cs', rfl, h3⟩ := unline_field h1
    refine .field ?_ (commaOk_unline h2 hc) ?_ (ih h2)
    · obtain ⟨fa, v, rfl, hf, hv⟩ := hs
      obtain ⟨x, y, rfl, h4, h5⟩ := unlineList_split h3
      obtain ⟨v0, y', rfl, h6, h7⟩ := unlineList_cons h5
      obtain rfl := unlineList_nil h7
      refine ⟨x, v0, rfl, ?_, by rw [← isValue_unline, h6, isValue_unline]; exact hv⟩
      intro n hn
      have : n.unline ∈ unlineList fa := by rw [← h4, unlineList_eq]; exact List.mem_map_of_mem hn
      rw [unlineList_eq] at this
      obtain ⟨m, hm1, hm2⟩ := List.mem_map.1 this
      rw [← isValue_unline, ← hm2, isValue_unline]
      exact hf m hm1
    intro ocs hm
    have : (Node.object ocs).unline ∈ unlineList cs' := by rw [unlineList_eq]; exact List.mem_map_of_mem hm
    rw [h3, unlineList_eq] at this
    obtain ⟨m, hm1, hm2⟩ := List.mem_map.1 this
    obtain ⟨os, rfl, h8⟩ := unline_object hm2
    exact iho os hm1 h8.symm

theorem fieldPath_unline (cs : List Node) :
    fieldPath (unlineList cs) = fieldPath cs >>= fun x => .ok (x.1, x.2.map Tok.unline) := by
  induction cs with
  | nil => rfl
  | cons n cs ih => cases n <;> simp only [unlineList, Node.unline, fieldPath, ih] <;> first | rfl | simp [bind, Res.bind, Tok.unlineList]

mutual
theorem hasValue_unline (p : Path) : (ns : List Node) → hasValue p (unlineList ns) = hasValue p ns
  | [] => rfl
  | n :: ns => by
    rw [unlineList, hasValue, hasValue, hasField_unline p n]
    congr 1
    funext b
    rw [hasValue_unline p ns]
theorem hasField_unline (p : Path) : (n : Node) → hasField p n.unline = hasField p n
  | .field cs => by
    rw [Node.unline, hasField, hasField, fieldPath_unline]
    cases fieldPath cs with
    | ok x =>
      obtain ⟨key, ts⟩ := x
      simp only [Res.ok_bind, hasValueIn_unline _ cs]
    | _ => rfl
  | .single t => rfl
  | .comment t => rfl
  | .simple t => rfl
  | .path q ts => rfl
  | .object cs => rfl
  | .array cs => rfl
  | .concat cs => rfl
  | .incl cs k => rfl
theorem hasValueIn_unline (p : Path) : (ns : List Node) → hasValueIn p (unlineList ns) = hasValueIn p ns
  | [] => rfl
  | n :: ns => by
    rw [unlineList, hasValueIn, hasValueIn, isValue_unline, hasInObject_unline p n, hasValueIn_unline p ns]
theorem hasInObject_unline (p : Path) : (n : Node) → hasInObject p n.unline = hasInObject p n
  | .object cs => by
    rw [Node.unline, hasInObject, hasInObject, hasValue_unline p cs]
  | .single t => rfl
  | .comment t => rfl
  | .simple t => rfl
  | .path q ts => rfl
  | .field cs => rfl
  | .array cs => rfl
  | .concat cs => rfl
  | .incl cs k => rfl
end

theorem findObject_err {root root0 : List Node} (hu : unlineList root0 = unlineList root) {q : Path} :
    (findObject root0 >>= fun x => hasValue q x.2.1) = (findObject root >>= fun x => hasValue q x.2.1) := by
  induction root generalizing root0 with
  | nil => rw [unlineList_nil hu]
  | cons n ns ih =>
    obtain ⟨m, ms, rfl, h1, h2⟩ := unlineList_cons hu
    have ih := ih h2
    cases n <;> cases m <;> simp [Node.unline] at h1 <;> simp only [findObject] <;> try rfl
    case object.object =>
      simp only [Res.ok_bind]
      rw [← hasValue_unline, h1, hasValue_unline]
    all_goals
      cases hx : findObject ns <;> cases hy : findObject ms <;> rw [hx, hy] at ih <;> simp [bind, Res.bind] at ih ⊢ <;> exact ih

end DocEdit
end Hocon
