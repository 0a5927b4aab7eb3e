import Verif.Lemmas.RemoveInline

/-!
# Setting a path that is already set, step by step
-/

set_option autoImplicit false

namespace Hocon
namespace DocEdit
open PathParser (Syntax)
open Node Tokenizer DocParser

/-- The path is set by a field of its own: the key of a field (with the keys of the sections around it) is the path. -/
inductive Exact : List Node → Path → Prop where
  | here {ns cs : List Node} {p : Path} {ts : List Tok} (hm : Node.field cs ∈ ns) (hk : fieldPath cs = .ok (p, ts)) : Exact ns p
  | inside {ns cs ocs : List Node} {key rem : Path} {ts : List Tok} (hm : Node.field cs ∈ ns)
      (hk : fieldPath cs = .ok (key, ts)) (hr : rem ≠ []) (hv : fieldValue cs = .ok (.object ocs)) (ho : Exact ocs rem) :
      Exact ns (key ++ rem)

/-- The path is set by a field whose value does not follow a separator on the line of the separator: a section without
separator, or a value that begins on a later line. -/
inductive Bare : List Node → Path → Prop where
  | here {ns cs : List Node} {p : Path} {ts : List Tok} (hm : Node.field cs ∈ ns) (hk : fieldPath cs = .ok (p, ts))
      (hb : ¬ ∃ fa v, cs = fa ++ [v] ∧ EndsInSep fa) : Bare ns p
  | inside {ns cs ocs : List Node} {key rem : Path} {ts : List Tok} (hm : Node.field cs ∈ ns)
      (hk : fieldPath cs = .ok (key, ts)) (hr : rem ≠ []) (hv : Node.object ocs ∈ cs) (ho : Bare ocs rem) :
      Bare ns (key ++ rem)

theorem Bare.mono {ns ms : List Node} {p : Path} (h : Bare ns p) (hm : ∀ n ∈ ns, n.isField = true → n ∈ ms) : Bare ms p := by
  cases h with
  | here h1 hk hp => exact .here (hm _ h1 rfl) hk hp
  | inside h1 hk hr hv ho => exact .inside (hm _ h1 rfl) hk hr hv ho

theorem Exact.mono {ns ms : List Node} {p : Path} (h : Exact ns p) (hm : ∀ n ∈ ns, n.isField = true → n ∈ ms) :
    Exact ms p := by
  cases h with
  | here h1 hk => exact .here (hm _ h1 rfl) hk
  | inside h1 hk hr hv ho => exact .inside (hm _ h1 rfl) hk hr hv ho

/-- Fields taken out and values exchanged for `w`, one after the other. -/
inductive Steps (w : Node) : List Node → List Node → Prop
  | refl (ns : List Node) : Steps w ns ns
  | cut {ns ns1 ns' : List Node} (h : Steps w ns ns1) (h1 : DocParser.Cut ns1 ns') : Steps w ns ns'
  | swap {ns ns1 ns' : List Node} {v : Node} (h : Steps w ns ns1) (hv : v.isValue = true) (h1 : Swap v w ns1 ns') :
      Steps w ns ns'

theorem Steps.trans {w : Node} {a b c : List Node} (h : Steps w a b) (h2 : Steps w b c) : Steps w a c := by
  induction h2 with
  | refl => exact h
  | cut _ h1 ih => exact .cut ih h1
  | swap _ hv h1 ih => exact .swap ih hv h1

theorem Steps.skip {w : Node} {a b : List Node} (n : Node) (h : Steps w a b) : Steps w (n :: a) (n :: b) := by
  induction h with
  | refl => exact .refl _
  | cut _ h1 ih => exact .cut ih (.skip n h1)
  | swap _ hv h1 ih => exact .swap ih hv (.skip n h1)

theorem Steps.inside {w : Node} {fa b ocs ocs' : List Node} (h : Steps w ocs ocs') :
    Steps w (.field (fa ++ [.object ocs]) :: b) (.field (fa ++ [.object ocs']) :: b) := by
  induction h with
  | refl => exact .refl _
  | cut _ h1 ih => exact .cut ih (.inside (fb := []) h1)
  | swap _ hv h1 ih => exact .swap ih hv (.inside h1)

theorem Cuts.steps {w : Node} {a b : List Node} (h : Cuts a b) : Steps w a b := by
  induction h with
  | refl => exact .refl _
  | step _ h1 ih => exact .cut ih h1

structure Setting (w : Node) (p : Path) (ns r : List Node) (vc : Option Node) : Prop where
  steps : Steps w ns r
  front : SameFront ns r
  line : InLine r
  copy : vc = some w ∨ vc = none ∧ Occurs r p
  here : Exact ns p → Occurs r p

theorem dropSep_field {b : List Node} : ∀ n ∈ b, n.isField = true → n ∈ dropSep b := by
  induction b with
  | nil => simp
  | cons m b ih =>
    intro n hn hf
    rw [DocEdit.dropSep]
    split
    · rename_i hc
      rcases List.mem_cons.1 hn with rfl | hn
      · cases n <;> simp [Node.isField] at hf
        simp [hasTok, singleToken?] at hc
      · exact ih n hn hf
    · exact hn

theorem Exact.uncons {n : Node} {ns : List Node} {p : Path} (h : Exact (n :: ns) p) : Exact [n] p ∨ Exact ns p := by
  cases h with
  | here h1 hk =>
    rcases List.mem_cons.1 h1 with rfl | h1
    · exact Or.inl (.here (by simp) hk)
    · exact Or.inr (.here h1 hk)
  | inside h1 hk hr hv ho =>
    rcases List.mem_cons.1 h1 with rfl | h1
    · exact Or.inl (.inside (by simp) hk hr hv ho)
    · exact Or.inr (.inside h1 hk hr hv ho)

theorem exact_field {n : Node} {p : Path} (h : Exact [n] p) : ∃ cs, n = .field cs := by
  cases h with
  | here h1 hk => exact ⟨_, (List.mem_singleton.1 h1).symm⟩
  | inside h1 hk hr hv ho => exact ⟨_, (List.mem_singleton.1 h1).symm⟩

theorem changeOther_set {w : Node} {p : Path} {n : Node} {ns rest : List Node} {i : Nat} {prev : Option Node} {seen1 : Bool}
    {r : List Node} {seen : Bool} {vc1 vc : Option Node} (hw : InLine (n :: ns))
    (hd : changeNode .conf p i prev rest seen1 vc1 n = if (decide (Syntax.conf = Syntax.json) && !seen1 &&
        n.hasTok Tok.isComma) = true then .ok (rest, seen1, vc1) else .ok (n :: rest, seen1, vc1))
    (hf : ∀ cs, n ≠ .field cs) (hr : Setting w p ns rest vc1)
    (h : changeNode .conf p i prev rest seen1 vc1 n = .ok (r, seen, vc)) : Setting w p (n :: ns) r vc := by
  rw [hd, if_neg (by simp)] at h
  simp only [Res.ok.injEq, Prod.mk.injEq] at h
  obtain ⟨rfl, _, rfl⟩ := h
  have hoc : Occurs rest p → Occurs (n :: rest) p := fun h => h.mono (by simp +contextual)
  refine ⟨hr.steps.skip _, ?_, ?_, hr.copy.imp_right fun h => ⟨h.1, hoc h.2⟩, ?_⟩
  · intro a c e ha
    cases a with
    | nil =>
      simp only [List.nil_append, List.cons.injEq] at e
      exact ⟨ns, by rw [e.1]; rfl⟩
    | cons m a =>
      simp only [List.cons_append, List.cons.injEq] at e
      obtain ⟨c', e'⟩ := hr.front a c e.2 (fun n hn => ha n (by simp [hn]))
      exact ⟨c', by rw [e', e.1]; rfl⟩
  · cases hw with
    | plain hn _ => exact .plain hn hr.line
    | incl _ => exact .incl hr.line
    | field _ _ _ _ => exact absurd rfl (hf _)
  · intro he
    rcases he.uncons with he | he
    · obtain ⟨cs, rfl⟩ := exact_field he
      exact absurd rfl (hf cs)
    · exact hoc (hr.here he)

mutual
theorem changeLoop_set {w : Node} (hw1 : '\n' ∉ w.render) (hw2 : w.isValue = true) (hw3 : ∀ ocs, w = .object ocs → InLine ocs)
    {p : Path} (hp : p ≠ []) : (ns : List Node) → WfList .conf ns → InLine ns → ¬ Bare ns p → (i : Nat) → (prev : Option Node) →
    ∀ r seen vc, changeLoop .conf p (some w) i prev ns = .ok (r, seen, vc) → Setting w p ns r vc
  | [], _, _, _, i, prev => by
    intro r seen vc h
    rw [changeLoop] at h
    simp only [Res.ok.injEq, Prod.mk.injEq] at h
    obtain ⟨rfl, _, rfl⟩ := h
    exact ⟨.refl _, by intro a c e _; exact ⟨c, e⟩, .nil, Or.inl rfl, by intro h; cases h <;> simp_all⟩
  | n :: ns, hwf, hw, hb, i, prev => by
    intro r seen vc h
    rw [changeLoop, Res.bind_eq_ok] at h
    obtain ⟨⟨rest, seen1, vc1⟩, h1, h⟩ := h
    have hl2 : InLine ns := by cases hw <;> assumption
    have hr := changeLoop_set hw1 hw2 hw3 hp ns hwf.2 hl2 (fun h => hb (h.mono (by simp +contextual))) _ _ _ _ _ h1
    exact changeNode_set hw1 hw2 hw3 hp n hwf hw hb i prev hr _ _ _ h
theorem changeNode_set {w : Node} (hw1 : '\n' ∉ w.render) (hw2 : w.isValue = true) (hw3 : ∀ ocs, w = .object ocs → InLine ocs)
    {p : Path} (hp : p ≠ []) : (n : Node) → {ns rest : List Node} → {seen1 : Bool} → {vc1 : Option Node} →
    WfList .conf (n :: ns) → InLine (n :: ns) → ¬ Bare (n :: ns) p →
    (i : Nat) → (prev : Option Node) → Setting w p ns rest vc1 →
    ∀ r seen vc, changeNode .conf p i prev rest seen1 vc1 n = .ok (r, seen, vc) → Setting w p (n :: ns) r vc
  | .field cs, ns, rest, seen1, vc1, hwf, hw, hb, i, prev, hr => by
    intro r seen vc h
    have hcr : CommaOk rest ∧ (∀ ocs, Node.object ocs ∈ cs → InLine ocs) ∧ Shape cs := by
      cases hw with
      | plain hn _ => exact absurd rfl (plain_not_field hn cs)
      | field hs hc ho _ => exact ⟨hr.front.comma hc, ho, hs⟩
    have hst := hr.steps.skip (.field cs)
    have hoc : ∀ cs', Occurs rest p → Occurs (.field cs' :: rest) p := fun cs' h => h.mono (by simp +contextual)
    rw [changeNode, Res.bind_eq_ok] at h
    obtain ⟨⟨key, kt⟩, hk, h⟩ := h
    simp only at h
    have kill : (Exact [.field cs] p → Occurs rest p) → Setting w p (.field cs :: ns) (DocEdit.dropSep rest) vc1 := by
      intro hex
      have hocd : Occurs rest p → Occurs (DocEdit.dropSep rest) p := fun h => h.mono dropSep_field
      refine ⟨.cut hst (.here hcr.1), ?_, hr.line.dropSep, hr.copy.imp_right fun h => ⟨h.1, hocd h.2⟩, ?_⟩
      · intro a c e ha
        exact (dropSep_front hr.line hcr.1 e ha).elim
      · intro he
        rcases he.uncons with he | he
        · exact hocd (hex he)
        · exact hocd (hr.here he)
    have hkne : key ≠ [] := by
      obtain ⟨⟨k, ks, ts, hkk⟩, _⟩ := hwf.1
      rw [hk] at hkk
      simp only [Res.ok.injEq, Prod.mk.injEq] at hkk
      rw [hkk.1]
      simp
    have hsw : ∀ s, PathM.startsWith key p = .ok s → (s = true ↔ p <+: key) := by
      intro s hs
      rw [PathM.C03_startsWith _ _ hkne] at hs
      simp only [Res.ok.injEq] at hs
      rw [← hs]
      simp
    split at h
    · rename_i hc
      simp only [Res.ok_bind, if_true, Res.ok.injEq, Prod.mk.injEq] at h
      obtain ⟨rfl, _, rfl⟩ := h
      rcases hr.copy with h | ⟨h, ho⟩
      · rw [h] at hc; simp at hc
      · exact kill fun _ => ho
    · rename_i hc
      rw [Res.bind_eq_ok] at h
      obtain ⟨s, hs, h⟩ := h
      simp only [Res.ok_bind] at h
      split at h
      · rename_i hd
        simp only [Bool.and_eq_true, Bool.not_eq_true'] at hd
        simp only [Res.ok.injEq, Prod.mk.injEq] at h
        obtain ⟨rfl, _, rfl⟩ := h
        have hpk := (hsw s hs).1 hd.1
        refine kill fun he => ?_
        exfalso
        have hne : key ≠ p := by
          intro e
          have := (PathM.C03_beq key p).2 e
          rw [hd.2] at this
          cases this
        cases he with
        | here h1 hk1 =>
          simp only [List.mem_singleton, Node.field.injEq] at h1
          subst h1
          rw [hk1] at hk
          simp only [Res.ok.injEq, Prod.mk.injEq] at hk
          exact hne hk.1.symm
        | @inside _ _ _ key1 rem _ h1 hk1 hrm _ _ =>
          simp only [List.mem_singleton, Node.field.injEq] at h1
          subst h1
          rw [hk1] at hk
          simp only [Res.ok.injEq, Prod.mk.injEq] at hk
          rw [← hk.1] at hpk
          have := hpk.length_le
          have := List.length_pos_iff.2 hrm
          simp only [List.length_append] at *
          omega
      · split at h
        · rename_i hd heq
          have hkp : key = p := (PathM.C03_beq key p).1 heq
          subst hkp
          rcases hr.copy with rfl | ⟨rfl, ho⟩
          rotate_left
          · simp [heq] at hc
          rw [Res.bind_eq_ok] at h
          obtain ⟨cs', hcs, h⟩ := h
          simp only [Res.ok.injEq, Prod.mk.injEq] at h
          obtain ⟨rfl, _, rfl⟩ := h
          simp only [setField, Res.bind_eq_ok] at hcs
          obtain ⟨w', hw', hcs⟩ := hcs
          have e : w' = w := by
            unfold indentedValue at hw'
            split at hw'
            · split at hw'
              · exact indentNode_oneLine w hw1 w' hw'
              · simp only [Res.ok.injEq] at hw'; exact hw'.symm
            · simp only [Res.ok.injEq] at hw'; exact hw'.symm
          subst e
          have hsep : ∃ fa v, cs = fa ++ [v] ∧ EndsInSep fa := by
            by_cases hx : ∃ fa v, cs = fa ++ [v] ∧ EndsInSep fa
            · exact hx
            · exact absurd (.here (by simp) hk hx) hb
          obtain ⟨fa, v, hcs1, hsf⟩ := hsep
          obtain ⟨fa', v', hcs2, hfa, hv⟩ := hcr.2.2
          have e := List.append_inj' (hcs1.symm.trans hcs2) rfl
          obtain ⟨rfl, e⟩ := e
          simp only [List.cons.injEq, and_true] at e
          subst e hcs1
          rw [replaceValue_split hfa hv] at hcs
          simp only [Res.ok.injEq] at hcs
          subst hcs
          have ho : Occurs (.field (fa ++ [w']) :: rest) key :=
            .here (cs := fa ++ [w']) (by simp) (by rw [fieldPath_split hv hw2]; exact hk) (List.prefix_refl _)
          refine ⟨.swap hst hv ?_, .field, .field ⟨fa, w', rfl, hfa, hw2⟩ hcr.1 ?_ hr.line, Or.inr ⟨rfl, ho⟩, fun _ => ho⟩
          · obtain ⟨f0, sep, bl, g1, g2, rfl⟩ := hsf
            simpa using Swap.here (v := v) (w := w') (fa := f0) (b := rest) g1 g2
          · intro ocs hm
            rcases List.mem_append.1 hm with hm | hm
            · have := hfa _ hm
              simp [Node.isValue] at this
            · exact hw3 ocs (List.mem_singleton.1 hm).symm
        · rename_i hd heq
          have hne : key ≠ p := fun e => heq ((PathM.C03_beq key p).2 e)
          rw [Res.bind_eq_ok] at h
          obtain ⟨below, hbel, h⟩ := h
          rw [PathM.C03_startsWith _ _ hp] at hbel
          simp only [Res.ok.injEq] at hbel
          have keep : (¬ key <+: p ∨ Occurs rest p ∨ ∀ ocs, fieldValue cs ≠ .ok (.object ocs)) →
              Setting w p (.field cs :: ns) (.field cs :: rest) vc1 := by
            intro hnot
            refine ⟨hst, .field, .field hcr.2.2 hcr.1 hcr.2.1 hr.line, hr.copy.imp_right fun h => ⟨h.1, hoc _ h.2⟩, ?_⟩
            intro he
            rcases he.uncons with he | he
            · cases he with
              | here h1 hk1 =>
                simp only [List.mem_singleton, Node.field.injEq] at h1
                subst h1
                rw [hk1] at hk
                simp only [Res.ok.injEq, Prod.mk.injEq] at hk
                exact absurd hk.1.symm hne
              | @inside _ _ _ key1 rem _ h1 hk1 hrm hv1 _ =>
                simp only [List.mem_singleton, Node.field.injEq] at h1
                subst h1
                rw [hk1] at hk
                simp only [Res.ok.injEq, Prod.mk.injEq] at hk
                rcases hnot with hnot | hnot | hnot
                · exact absurd (by rw [← hk.1]; exact List.prefix_append _ _) hnot
                · exact hoc _ hnot
                · exact absurd hv1 (hnot _)
            · exact hoc _ (hr.here he)
          split at h
          · rename_i hbt
            subst hbt
            have hpre : key <+: p := by simpa using hbel
            obtain ⟨rem, hrem, hpe, hsub⟩ := length_drop_facts hkne hpre hne
            rw [hsub] at h
            rw [Res.bind_eq_ok] at h
            obtain ⟨cs', hcs, h⟩ := h
            simp only [Res.ok.injEq, Prod.mk.injEq] at h
            obtain ⟨rfl, _, rfl⟩ := h
            obtain ⟨fa, v, rfl, hfa, hv⟩ := hcr.2.2
            have hbin : ∀ ocs, v = .object ocs → ¬ Bare ocs rem := by
              rintro ocs rfl hbo
              apply hb
              rw [hpe]
              exact .inside (by simp) hk hrem (by simp) hbo
            rcases hr.copy with rfl | ⟨rfl, ho⟩
            · obtain ⟨ocs, ocs', k1, k2, k3, k4, k5⟩ | ⟨k1, rfl⟩ := changeField_set hw1 hw2 hw3 hrem (fa ++ [v]) hwf.1.2.2
                ⟨fa, v, rfl, hfa, hv⟩ hcr.2.1 (fun ocs hm => hbin ocs (by
                  rcases List.mem_append.1 hm with hm | hm
                  · have := hfa _ hm
                    simp [Node.isValue] at this
                  · exact (List.mem_singleton.1 hm).symm)) _ hcs
              · rw [List.dropLast_concat] at k2
                obtain ⟨e1, e2⟩ := List.append_inj' k2.1 rfl
                simp only [List.cons.injEq, and_true] at e2
                subst e2
                rw [k2.2]
                have hk' : fieldPath (fa ++ [.object ocs']) = .ok (key, kt) := by
                  rw [fieldPath_split (v := .object ocs) rfl rfl]; exact hk
                refine ⟨hst.trans (.inside k3), .field, .field ⟨fa, _, rfl, hfa, rfl⟩ hcr.1 ?_ hr.line, Or.inl rfl, ?_⟩
                · intro x hx
                  rcases List.mem_append.1 hx with hx | hx
                  · have := hfa _ hx
                    simp [Node.isValue] at this
                  · simp only [List.mem_singleton, Node.object.injEq] at hx
                    subst hx
                    exact k4
                · intro he
                  rcases he.uncons with he | he
                  · cases he with
                    | here h1 hk1 =>
                      simp only [List.mem_singleton, Node.field.injEq] at h1
                      subst h1
                      rw [hk1] at hk
                      simp only [Res.ok.injEq, Prod.mk.injEq] at hk
                      exact absurd hk.1.symm hne
                    | @inside _ _ _ key1 rem1 _ h1 hk1 hrm hv1 ho1 =>
                      simp only [List.mem_singleton, Node.field.injEq] at h1
                      subst h1
                      rw [hk1] at hk
                      simp only [Res.ok.injEq, Prod.mk.injEq] at hk
                      obtain ⟨rfl, _⟩ := hk
                      obtain rfl := List.append_cancel_left hpe
                      rw [fieldValue_split hfa rfl] at hv1
                      simp only [Res.ok.injEq, Node.object.injEq] at hv1
                      subst hv1
                      exact .inside (by simp) hk' hrem (fieldValue_split hfa rfl) (k5 ho1)
                  · exact hoc _ (hr.here he)
              · refine keep (Or.inr (Or.inr ?_))
                exact k1
            · obtain ⟨a, b, ocs, ocs', k1, k2, k3, k4⟩ | rfl := changeField_cuts (fa ++ [v]) hcr.2.1 _ hcs
              · have hsh : Shape (a ++ .object ocs :: b) := by rw [← k1]; exact ⟨fa, v, rfl, hfa, hv⟩
                obtain ⟨rfl, hna⟩ := hsh.at rfl
                obtain ⟨rfl, e2⟩ := List.append_inj' k1 rfl
                simp only [List.cons.injEq, and_true] at e2
                subst e2 k2
                refine ⟨hst.trans (.inside k3.steps), .field, .field ⟨fa, _, rfl, hfa, rfl⟩ hcr.1 ?_ hr.line,
                  Or.inr ⟨rfl, hoc _ ho⟩, fun _ => hoc _ ho⟩
                intro x hx
                rcases List.mem_append.1 hx with hx | hx
                · have := hfa _ hx
                  simp [Node.isValue] at this
                · simp only [List.mem_singleton, Node.object.injEq] at hx
                  subst hx
                  exact k4
              · exact keep (Or.inr (Or.inl ho))
          · rename_i hbt
            simp only [Res.ok.injEq, Prod.mk.injEq] at h
            obtain ⟨rfl, _, rfl⟩ := h
            refine keep (Or.inl ?_)
            intro hpre
            rw [decide_eq_true hpre] at hbel
            exact hbt hbel.symm
  | .single t, ns, rest, seen1, vc1, _, hw, _, i, prev, hr => by
    intro r seen vc h
    exact changeOther_set hw (by rw [changeNode]; intro cs; simp) (by intro cs; simp) hr h
  | .comment t, ns, rest, seen1, vc1, _, hw, _, i, prev, hr => by
    intro r seen vc h
    exact changeOther_set hw (by rw [changeNode]; intro cs; simp) (by intro cs; simp) hr h
  | .simple t, ns, rest, seen1, vc1, _, hw, _, i, prev, hr => by
    intro r seen vc h
    exact changeOther_set hw (by rw [changeNode]; intro cs; simp) (by intro cs; simp) hr h
  | .path q ts, ns, rest, seen1, vc1, _, hw, _, i, prev, hr => by
    intro r seen vc h
    exact changeOther_set hw (by rw [changeNode]; intro cs; simp) (by intro cs; simp) hr h
  | .object cs, ns, rest, seen1, vc1, _, hw, _, i, prev, hr => by
    intro r seen vc h
    exact changeOther_set hw (by rw [changeNode]; intro cs; simp) (by intro cs; simp) hr h
  | .array cs, ns, rest, seen1, vc1, _, hw, _, i, prev, hr => by
    intro r seen vc h
    exact changeOther_set hw (by rw [changeNode]; intro cs; simp) (by intro cs; simp) hr h
  | .concat cs, ns, rest, seen1, vc1, _, hw, _, i, prev, hr => by
    intro r seen vc h
    exact changeOther_set hw (by rw [changeNode]; intro cs; simp) (by intro cs; simp) hr h
  | .incl cs k, ns, rest, seen1, vc1, _, hw, _, i, prev, hr => by
    intro r seen vc h
    exact changeOther_set hw (by rw [changeNode]; intro cs; simp) (by intro cs; simp) hr h
theorem changeField_set {w : Node} (hw1 : '\n' ∉ w.render) (hw2 : w.isValue = true) (hw3 : ∀ ocs, w = .object ocs → InLine ocs)
    {p : Path} (hp : p ≠ []) : (cs : List Node) → WfList .conf cs → Shape cs → (∀ ocs, Node.object ocs ∈ cs → InLine ocs) →
    (∀ ocs, Node.object ocs ∈ cs → ¬ Bare ocs p) →
    ∀ cs', changeField .conf p (some w) cs = .ok cs' →
      (∃ ocs ocs', (∃ fa, cs = fa ++ [.object ocs]) ∧
        (cs = cs.dropLast ++ [.object ocs] ∧ cs' = cs.dropLast ++ [.object ocs']) ∧ Steps w ocs ocs' ∧ InLine ocs' ∧
        (Exact ocs p → Occurs ocs' p)) ∨ ((∀ ocs, fieldValue cs ≠ .ok (.object ocs)) ∧ cs' = cs)
  | [], _, hs, _, _ => by obtain ⟨fa, v, h, _⟩ := hs; simp at h
  | n :: ns, hwf, hs, ho, hb => by
    intro cs' h
    rw [changeField] at h
    split at h
    · rename_i hnv
      rw [Res.bind_eq_ok] at h
      obtain ⟨n', h1, h⟩ := h
      simp only [Res.ok.injEq] at h
      subst h
      obtain ⟨rfl, _⟩ := Shape.at (a := []) hs hnv
      rcases changeInObject_set hw1 hw2 hw3 hp n hwf.1 (fun ocs e => ho ocs (by simp [e])) (fun ocs e => hb ocs (by simp [e])) _ h1
        with ⟨ocs, ocs', rfl, rfl, k1, k2, k3⟩ | ⟨k1, rfl⟩
      · exact Or.inl ⟨ocs, ocs', ⟨[], rfl⟩, ⟨rfl, rfl⟩, k1, k2, k3⟩
      · refine Or.inr ⟨fun ocs e => ?_, rfl⟩
        rw [fieldValue, if_pos hnv] at e
        simp only [Res.ok.injEq] at e
        exact k1 ocs e
    · rename_i hnv
      rw [Res.bind_eq_ok] at h
      obtain ⟨ns', h1, h⟩ := h
      simp only [Res.ok.injEq] at h
      subst h
      have hs' : Shape ns := by
        obtain ⟨fa, v, e, hfa, hv⟩ := hs
        cases fa with
        | nil =>
          simp only [List.nil_append, List.cons.injEq] at e
          rw [e.1] at hnv
          exact absurd hv hnv
        | cons m fa =>
          simp only [List.cons_append, List.cons.injEq] at e
          exact ⟨fa, v, e.2, fun x hx => hfa x (by simp [hx]), hv⟩
      have hne : ns ≠ [] := by
        obtain ⟨fa, v, rfl, _⟩ := hs'
        simp
      rcases changeField_set hw1 hw2 hw3 hp ns hwf.2 hs' (fun ocs e => ho ocs (by simp [e])) (fun ocs e => hb ocs (by simp [e])) _ h1
        with ⟨ocs, ocs', ⟨fa, e⟩, ⟨k1, k2⟩, k3, k4, k5⟩ | ⟨k1, rfl⟩
      · refine Or.inl ⟨ocs, ocs', ⟨n :: fa, by rw [e]; rfl⟩, ?_, k3, k4, k5⟩
        rw [List.dropLast_cons_of_ne_nil hne, List.cons_append, List.cons_append, ← k1, ← k2]
        exact ⟨rfl, rfl⟩
      · refine Or.inr ⟨fun ocs e => ?_, rfl⟩
        rw [fieldValue, if_neg hnv] at e
        exact k1 ocs e
theorem changeInObject_set {w : Node} (hw1 : '\n' ∉ w.render) (hw2 : w.isValue = true)
    (hw3 : ∀ ocs, w = .object ocs → InLine ocs) {p : Path} (hp : p ≠ []) : (n : Node) →
    WfNode .conf n → (∀ ocs, n = .object ocs → InLine ocs) → (∀ ocs, n = .object ocs → ¬ Bare ocs p) →
    ∀ n', changeInObject .conf p (some w) n = .ok n' →
      (∃ ocs ocs', n = .object ocs ∧ n' = .object ocs' ∧ Steps w ocs ocs' ∧ InLine ocs' ∧ (Exact ocs p → Occurs ocs' p)) ∨
        ((∀ ocs, n ≠ .object ocs) ∧ n' = n)
  | .object ocs, hwf, ho, hb => by
    intro n' h
    rw [changeInObject, Res.bind_eq_ok] at h
    obtain ⟨⟨r, s, vc⟩, h1, h⟩ := h
    simp only [Res.ok.injEq] at h
    subst h
    have k := changeLoop_set hw1 hw2 hw3 hp ocs hwf.2.2 (ho ocs rfl) (hb ocs rfl) _ _ _ _ _ h1
    exact Or.inl ⟨ocs, r, rfl, rfl, k.steps, k.line, k.here⟩
  | .single t, _, _, _ => by intro n' h; simp [changeInObject] at h; exact Or.inr ⟨by simp, h.symm⟩
  | .comment t, _, _, _ => by intro n' h; simp [changeInObject] at h; exact Or.inr ⟨by simp, h.symm⟩
  | .simple t, _, _, _ => by intro n' h; simp [changeInObject] at h; exact Or.inr ⟨by simp, h.symm⟩
  | .path q ts, _, _, _ => by intro n' h; simp [changeInObject] at h; exact Or.inr ⟨by simp, h.symm⟩
  | .field cs, _, _, _ => by intro n' h; simp [changeInObject] at h; exact Or.inr ⟨by simp, h.symm⟩
  | .array cs, _, _, _ => by intro n' h; simp [changeInObject] at h; exact Or.inr ⟨by simp, h.symm⟩
  | .concat cs, _, _, _ => by intro n' h; simp [changeInObject] at h; exact Or.inr ⟨by simp, h.symm⟩
  | .incl cs k, _, _, _ => by intro n' h; simp [changeInObject] at h; exact Or.inr ⟨by simp, h.symm⟩
end

/-! ## No new sections -/

theorem Bare.uncons {n : Node} {ns : List Node} {p : Path} (h : Bare (n :: ns) p) : Bare [n] p ∨ Bare ns p := by
  cases h with
  | here h1 hk hb =>
    rcases List.mem_cons.1 h1 with rfl | h1
    · exact Or.inl (.here (by simp) hk hb)
    · exact Or.inr (.here h1 hk hb)
  | inside h1 hk hr hv ho =>
    rcases List.mem_cons.1 h1 with rfl | h1
    · exact Or.inl (.inside (by simp) hk hr hv ho)
    · exact Or.inr (.inside h1 hk hr hv ho)

theorem Bare.head {n : Node} {ns : List Node} {p : Path} (h : Bare [n] p) : Bare (n :: ns) p := h.mono (by simp +contextual)

theorem Bare.tail {n : Node} {ns : List Node} {p : Path} (h : Bare ns p) : Bare (n :: ns) p := h.mono (by simp +contextual)

theorem sep_put {a b : List Node} {x y : Node} (hx : ∀ t, x ≠ .single t)
    (h : ∃ fa v, a ++ x :: b = fa ++ [v] ∧ EndsInSep fa) : ∃ fa v, a ++ y :: b = fa ++ [v] ∧ EndsInSep fa := by
  obtain ⟨fa, v, e, f0, sep, bl, h1, h2, rfl⟩ := h
  rcases List.eq_nil_or_concat b with rfl | ⟨g, v', rfl⟩
  · obtain ⟨rfl, _⟩ := List.append_inj' e rfl
    exact ⟨_, y, rfl, f0, sep, bl, h1, h2, rfl⟩
  · have e' : (a ++ x :: g) ++ [v'] = (f0 ++ .single sep :: bl.map .single) ++ [v] := by rw [← e]; simp
    obtain ⟨e2, _⟩ := List.append_inj' e' rfl
    have hm : x ∉ (Node.single sep :: bl.map Node.single) := by
      intro hm
      rcases List.mem_cons.1 hm with h | h
      · exact hx _ h
      · obtain ⟨t, _, h⟩ := List.mem_map.1 h
        exact hx t h.symm
    rcases List.append_eq_append_iff.1 e2 with ⟨z, k1, k2⟩ | ⟨z, k1, k2⟩
    · cases z with
      | nil => exact absurd (by rw [List.nil_append] at k2; rw [← k2]; simp) hm
      | cons z0 z =>
        simp only [List.cons_append, List.cons.injEq] at k2
        refine ⟨a ++ y :: z ++ .single sep :: bl.map .single, v', by rw [k2.2]; simp, _, sep, bl, h1, h2, rfl⟩
    · exact absurd (by rw [k2]; simp) hm

theorem object_bare {fa fb ocs ocs' : List Node} {q : Path} (ih : ∀ r, Bare ocs' r → Bare ocs r)
    (h : Bare [.field (fa ++ .object ocs' :: fb)] q) : Bare [.field (fa ++ .object ocs :: fb)] q := by
  have hp : fieldPath (fa ++ .object ocs' :: fb) = fieldPath (fa ++ .object ocs :: fb) := fieldPath_split rfl rfl
  cases h with
  | here h1 hk hb =>
    simp only [List.mem_singleton, Node.field.injEq] at h1
    subst h1
    rw [hp] at hk
    exact .here (by simp) hk (fun h => hb (sep_put (by simp) h))
  | inside h1 hk hr hv ho =>
    simp only [List.mem_singleton, Node.field.injEq] at h1
    subst h1
    rw [hp] at hk
    simp only [List.mem_append, List.mem_cons, Node.object.injEq] at hv
    rcases hv with hv | rfl | hv
    · exact .inside (List.mem_singleton.2 rfl) hk hr (by simp [hv]) ho
    · exact .inside (List.mem_singleton.2 rfl) hk hr (List.mem_append_right _ (List.mem_cons_self ..)) (ih _ ho)
    · exact .inside (List.mem_singleton.2 rfl) hk hr (by simp [hv]) ho

theorem cut_bare {ns ns' : List Node} (h : DocParser.Cut ns ns') : ∀ q, Bare ns' q → Bare ns q := by
  induction h with
  | skip n h ih =>
    intro q hb
    rcases hb.uncons with hb | hb
    · exact hb.head
    · exact (ih q hb).tail
  | @here cs b hc =>
    intro q hb
    have : ∀ b : List Node, ∀ n ∈ dropSep b, n ∈ b := by
      intro b
      induction b with
      | nil => simp [DocEdit.dropSep]
      | cons m b ih =>
        rw [DocEdit.dropSep]
        split
        · intro n hn; exact List.mem_cons_of_mem _ (ih n hn)
        · intro n hn; exact hn
    exact (hb.mono fun n hn _ => this b n hn).tail
  | inside h ih =>
    intro q hb
    rcases hb.uncons with hb | hb
    · exact (object_bare ih hb).head
    · exact hb.tail

theorem swap_bare {v w : Node} (hv : v.isValue = true) (hw : w.isValue = true) (hw2 : ∀ ocs, w ≠ .object ocs)
    {ns ns' : List Node} (h : Swap v w ns ns') : ∀ q, Bare ns' q → Bare ns q := by
  induction h with
  | skip n h ih =>
    intro q hb
    rcases hb.uncons with hb | hb
    · exact hb.head
    · exact (ih q hb).tail
  | @here fa b sep bl hs hbl =>
    intro q hb
    rcases hb.uncons with hb | hb
    · cases hb with
      | here h1 hk hb =>
        simp only [List.mem_singleton, Node.field.injEq] at h1
        subst h1
        exact absurd ⟨_, _, rfl, _, _, _, hs, hbl, rfl⟩ hb
      | inside h1 hk hr hv1 ho =>
        simp only [List.mem_singleton, Node.field.injEq] at h1
        subst h1
        rw [fieldPath_split hv hw] at hk
        simp only [List.mem_append, List.mem_cons, List.mem_map, List.mem_singleton] at hv1
        refine Bare.head (.inside (List.mem_singleton.2 rfl) hk hr ?_ ho)
        rcases hv1 with (hv1 | hv1 | ⟨_, _, hv1⟩) | hv1
        · simp [hv1]
        · simp at hv1
        · simp at hv1
        · simp at hv1
          exact absurd hv1.symm (hw2 _)
    · exact hb.tail
  | inside h ih =>
    intro q hb
    rcases hb.uncons with hb | hb
    · exact (object_bare (fb := []) ih hb).head
    · exact hb.tail

theorem steps_bare {w : Node} (hw : w.isValue = true) (hw2 : ∀ ocs, w ≠ .object ocs) {ns ns' : List Node} (h : Steps w ns ns') :
    ∀ q, Bare ns' q → Bare ns q := by
  induction h with
  | refl => exact fun _ h => h
  | cut _ h1 ih => exact fun q h => ih q (cut_bare h1 q h)
  | swap _ hv h1 ih => exact fun q h => ih q (swap_bare hv hw hw2 h1 q h)

theorem cuts_bare {ns ns' : List Node} (h : Cuts ns ns') : ∀ q, Bare ns' q → Bare ns q := by
  induction h with
  | refl => exact fun _ h => h
  | step _ h1 ih => exact fun q h => ih q (cut_bare h1 q h)

/-! ## The value -/

theorem single_inline {env : Env} {text : Str} {toks : List Tok} {w : Node}
    (ht : tokenize env true text = .ok toks) (hpv : parseSingleValue env .conf toks = .ok (some w)) (hnl : '\n' ∉ text)
    {ocs : List Node} (hw : w = .object ocs) : InLine ocs ∧ '{' ∈ text := by
  have hgu := tokenize_good ht
  rw [tokenize, Res.bind_eq_ok] at ht
  obtain ⟨T, hU, ht⟩ := ht
  simp only [Res.ok.injEq] at ht
  subst ht
  have hch := lexAll_chain _ (Nat.le_refl _) hU
  have hsub := (tokenLoop_lexed hU).text_sub
  have hg : Good env true T := hgu.tail
  have hno : NoLine T := by
    rintro a k x c rfl
    exfalso
    apply hnl
    refine hsub.subset ?_
    simp [Tok.textList_append, Tok.textList, Tok.text]
  unfold parseSingleValue at hpv
  simp only [nextToken, Res.ok_bind] at hpv
  rw [Res.bind_eq_ok] at hpv
  obtain ⟨⟨t, T1⟩, h1, h⟩ := hpv
  have e := nextToken_conf h1
  subst e
  simp only at h
  split at h
  · simp at h
  split at h
  · simp at h
  rw [Res.bind_eq_ok] at h
  obtain ⟨⟨ns, v, T2⟩, h2, h⟩ := h
  simp only at h
  rw [Res.bind_eq_ok] at h
  obtain ⟨⟨t', T3⟩, h3, h⟩ := h
  simp only at h
  split at h
  rotate_left
  · simp at h
  simp only [Res.ok.injEq] at h
  subst h
  have hfv : fieldVal env .conf (fuelFor (.start :: t :: T1) + 1) (t :: T1) = .ok (ns, w, T2) := by
    rw [fieldVal, h2]; rfl
  obtain ⟨_, To, k1, _, _, k4, _⟩ := fieldVal_cut hfv hg
  obtain ⟨To', f', os, rfl, rfl, _, g3⟩ := k4 ocs hw
  have e : t :: T1 = (tokensList ns) ++ .openCurly :: (To' ++ T2) := by rw [k1]; simp
  rw [e] at hg hch hno
  refine ⟨.plain ⟨_, Or.inl rfl⟩ ((obj_inline env f').1 _ _ _ _ _ _ _ g3 hg.suffix.tail hch.suffix hno.suffix.tail).1, ?_⟩
  refine hsub.subset ?_
  rw [e]
  simp [Tok.textList_append, Tok.textList, Tok.text]

end DocEdit
end Hocon
