import Verif.Lemmas.RemoveEdit

/-!
# Documents in which no line begins with a comma
-/

set_option autoImplicit false

namespace Hocon
namespace DocEdit
open PathParser (Syntax)
open Node Tokenizer DocParser

/-- No comma token is the first of its line. -/
def NoLine (T : List Tok) : Prop := ∀ a k w c, T = a ++ .newline k :: (w ++ .comma :: c) → ¬ Gap w

theorem NoLine.suffix {a b : List Tok} (h : NoLine (a ++ b)) : NoLine b := by
  intro x k w c e
  exact h (a ++ x) k w c (by rw [e]; simp)

theorem NoLine.tail {t : Tok} {b : List Tok} (h : NoLine (t :: b)) : NoLine b := NoLine.suffix (a := [t]) h

theorem sepLoop_line {saw b0 : Bool} {T : List Tok} {ws : List Node} {b : Bool} {ts : List Tok}
    (h : sepLoop saw T = .ok (ws, b, ts)) (hch : Chain b0 T) (ha : NoAdjWs T) {a c : List Node}
    (e : ws = a ++ .single .comma :: c) :
    (∃ w r, T = w ++ .comma :: r ∧ Gap w ∧ ∀ n ∈ a, ∃ s l, n = .single (.ws s l)) ∨
      ∃ x k w r, T = x ++ .newline k :: (w ++ .comma :: r) ∧ Gap w := by
  induction T generalizing saw b0 ws a with
  | nil => simp [sepLoop] at h
  | cons x xs ih =>
    rw [sepLoop.eq_def] at h
    simp only at h
    split at h
    · simp only [Res.ok.injEq, Prod.mk.injEq] at h
      obtain ⟨rfl, _, _⟩ := h
      cases a with
      | nil => exact Or.inl ⟨[], xs, rfl, Or.inl rfl, by simp⟩
      | cons n a => simp at e
    · split at h
      · rename_i n hn
        rw [Res.bind_eq_ok] at h
        obtain ⟨⟨ns, b1, ts1⟩, h1, h⟩ := h
        simp only [Res.ok.injEq, Prod.mk.injEq] at h
        obtain ⟨rfl, rfl, rfl⟩ := h
        cases a with
        | nil =>
          simp only [List.nil_append, List.cons.injEq] at e
          rw [e.1] at hn
          exfalso
          cases x <;> simp [collectNode] at hn
        | cons m a =>
          simp only [List.cons_append, List.cons.injEq] at e
          obtain ⟨rfl, rfl⟩ := e
          rcases ih h1 hch.2.2 ha.tail rfl with ⟨w, r, rfl, hw, hall⟩ | ⟨y, k, w, r, rfl, hw⟩
          · have hhead : ∀ y ys, w ++ Tok.comma :: r = y :: ys → y = .comma ∨ ∃ s l, y = .ws s l := by
              intro y ys e
              rcases hw with rfl | ⟨s, l, rfl⟩ <;> simp at e
              · exact Or.inl e.1.symm
              · exact Or.inr ⟨s, l, e.1.symm⟩
            cases x <;> simp [collectNode] at hn
            case newline => exact Or.inr ⟨[], _, w, r, rfl, hw⟩
            case ws s l =>
              left
              subst hn
              rcases hw with rfl | ⟨s', l', rfl⟩
              · exact ⟨[_], r, rfl, Or.inr ⟨_, _, rfl⟩, by
                  intro n hn
                  rcases List.mem_cons.1 hn with rfl | hn
                  · exact ⟨_, _, rfl⟩
                  · exact hall n hn⟩
              · exact absurd rfl (ha [] _ _ _ _ _)
            case comment d b k =>
              exfalso
              obtain ⟨y, ys, e, hy⟩ := hch.2.1 ⟨_, _, _, rfl⟩
              rcases hhead y ys e with rfl | ⟨_, _, rfl⟩ <;> simp at hy
            case unquoted s k =>
              exfalso
              obtain ⟨_, y, ys, e, hy, _⟩ := hch.1 hn.1
              rcases hhead y ys e with rfl | ⟨_, _, rfl⟩ <;> simp [Tok.isSimple] at hy
          · exact Or.inr ⟨x :: y, k, w, r, rfl, hw⟩
      · simp only [Res.ok.injEq, Prod.mk.injEq] at h
        obtain ⟨rfl, _, _⟩ := h
        simp at e

theorem parseInclude_incl {pre : List Node} {toks : List Tok} {n : Node} {R : List Tok}
    (h : parseInclude pre toks = .ok (n, R)) : ∃ cs k, n = .incl cs k := by
  unfold parseInclude at h
  rw [Res.bind_eq_ok] at h
  obtain ⟨⟨ws, t, ts⟩, h1, h⟩ := h
  simp only at h
  repeat' (split at h <;> try (simp at h; done))
  all_goals first
    | (simp only [Res.ok.injEq, Prod.mk.injEq] at h; exact ⟨_, _, h.1.symm⟩)
    | (rw [Res.bind_eq_ok] at h
       obtain ⟨⟨ws, t, ts⟩, h1, h⟩ := h
       simp only at h
       repeat' (split at h <;> try (simp at h; done))
       rw [Res.bind_eq_ok] at h
       obtain ⟨⟨ws, t, ts⟩, h1, h⟩ := h
       simp only at h
       split at h
       · simp only [Res.ok.injEq, Prod.mk.injEq] at h
         exact ⟨_, _, h.1.symm⟩
       · simp at h)

theorem InLine.front {ws b : List Node} (hw : ∀ n ∈ ws, Plain n) (h : InLine b) : InLine (ws ++ b) := by
  induction ws with
  | nil => exact h
  | cons n ws ih => exact .plain (hw n (by simp)) (ih fun m hm => hw m (by simp [hm]))

/-- No comma in front of the first field. -/
def NoComma (ns : List Node) : Prop := ∀ a c, ns = a ++ .single .comma :: c → ¬ ∀ n ∈ a, Plain n

theorem NoComma.front {ws b : List Node} (hw : ∀ n ∈ ws, n ≠ .single .comma) (h : NoComma b) : NoComma (ws ++ b) := by
  induction ws with
  | nil => exact h
  | cons n ws ih =>
    intro a c e ha
    cases a with
    | nil =>
      simp only [List.cons_append, List.nil_append, List.cons.injEq] at e
      exact hw n (by simp) e.1
    | cons m a =>
      simp only [List.cons_append, List.cons.injEq] at e
      exact ih (fun m hm => hw m (by simp [hm])) a c e.2 (fun n hn => ha n (by simp [hn]))

theorem NoComma.value {n : Node} {b : List Node} (hn : ¬ Plain n) : NoComma (n :: b) := by
  intro a c e ha
  cases a with
  | nil =>
    simp only [List.nil_append, List.cons.injEq] at e
    exact hn ⟨_, Or.inl e.1⟩
  | cons m a =>
    simp only [List.cons_append, List.cons.injEq] at e
    exact hn (by rw [e.1]; exact ha m (by simp))

theorem collect_nocomma {T : List Tok} {ns : List Node} {t : Tok} {ts : List Tok}
    (h : nextCollect .conf T = .ok (ns, t, ts)) : ∀ n ∈ ns, n ≠ .single .comma := by
  induction T generalizing ns with
  | nil => simp [nextCollect] at h
  | cons x xs ih =>
    rw [nextCollect] at h
    simp only [nextToken, Res.ok_bind] at h
    split at h
    · rename_i n hn
      rw [Res.bind_eq_ok] at h
      obtain ⟨⟨ns1, t1, ts1⟩, h1, h⟩ := h
      simp only [Res.ok.injEq, Prod.mk.injEq] at h
      obtain ⟨rfl, rfl, rfl⟩ := h
      intro m hm
      rcases List.mem_cons.1 hm with rfl | hm
      · rintro rfl
        cases x <;> simp [collectNode] at hn
      · exact ih h1 m hm
    · simp only [Res.ok.injEq, Prod.mk.injEq] at h
      rw [← h.1]
      simp

theorem not_plain_field (cs : List Node) : ¬ Plain (.field cs) := fun h => plain_not_field h cs rfl

theorem obj_inline (env : Env) (f : Nat) :
    (∀ ho ac keys T ns R b, objectLoop env .conf f ho ac keys T = .ok (ns, R) → Good env true T → Chain b T → NoLine T →
      InLine ns ∧ NoComma ns) ∧
    (∀ ho keys T ns R b, objectSep env .conf f ho keys T = .ok (ns, R) → Good env true T → Chain b T → NoLine T →
      InLine ns ∧ CommaOk ns) := by
  induction f using Nat.strongRecOn with
  | ind f ih =>
  cases f with
  | zero => constructor <;> intros <;> simp_all [objectLoop, objectSep]
  | succ f =>
  have sp := spec_all env .conf true f
  constructor
  · intro ho ac keys T ns R b h hg hch hnl
    rw [objectLoop, Res.bind_eq_ok] at h
    obtain ⟨⟨ws, t, ts1⟩, h1, h⟩ := h
    obtain ⟨e1, p1, hc1⟩ := nextCollect_spec h1
    have hnc := collect_nocomma h1
    have hg1 : Good env true (t :: ts1) := by rw [e1] at hg; exact hg.suffix
    have hnl1 : NoLine (t :: ts1) := by rw [e1] at hnl; exact hnl.suffix
    obtain ⟨b1, hch1⟩ : ∃ b, Chain b (t :: ts1) := by rw [e1] at hch; exact hch.at
    simp only at h
    split at h
    · rw [if_neg (by simp)] at h
      split at h
      · simp at h
      simp only [Res.ok.injEq, Prod.mk.injEq] at h
      obtain ⟨rfl, _⟩ := h
      refine ⟨.front p1 (.plain ⟨_, Or.inl rfl⟩ .nil), .front hnc ?_⟩
      intro a c e
      cases a <;> simp at e
    · split at h
      · simp only [Res.ok.injEq, Prod.mk.injEq] at h
        obtain ⟨rfl, _⟩ := h
        have := InLine.front p1 .nil
        have h2 := NoComma.front hnc (b := []) (by intro a c e; simp at e)
        simp only [List.append_nil] at this h2
        exact ⟨this, h2⟩
      · split at h
        · rw [Res.bind_eq_ok] at h
          obtain ⟨⟨inc, ts2⟩, h2, h⟩ := h
          rw [Res.bind_eq_ok] at h
          obtain ⟨⟨n2, ts3⟩, h3, h⟩ := h
          simp only [Res.ok.injEq, Prod.mk.injEq] at h
          obtain ⟨rfl, rfl⟩ := h
          obtain ⟨cs, k, rfl⟩ := parseInclude_incl h2
          obtain ⟨U1, u1, _, _⟩ := parseInclude_local h2
          have hg2 : Good env true ts2 := by rw [u1] at hg1; exact hg1.tail.suffix
          have hnl2 : NoLine ts2 := by rw [u1] at hnl1; exact hnl1.tail.suffix
          obtain ⟨b2, hch2⟩ : ∃ b, Chain b ts2 := by
            rw [u1] at hch1
            exact hch1.2.2.at
          obtain ⟨k1, _⟩ := (ih f (by omega)).2 _ _ _ _ _ _ h3 hg2 hch2 hnl2
          exact ⟨.front p1 (.incl k1), .front hnc (.value (by rintro ⟨_, h | ⟨h, _⟩⟩ <;> cases h))⟩
        · rw [Res.bind_eq_ok] at h
          obtain ⟨⟨p, fld, ts2⟩, h2, h⟩ := h
          rw [Res.bind_eq_ok] at h
          obtain ⟨keys', hk, h⟩ := h
          rw [Res.bind_eq_ok] at h
          obtain ⟨⟨n2, ts3⟩, h3, h⟩ := h
          simp only [Res.ok.injEq, Prod.mk.injEq] at h
          obtain ⟨rfl, rfl⟩ := h
          obtain ⟨used, hu2, husub, _⟩ := (sp.field _ _ _ _ _ h2 hg1).1
          have hg2 : Good env true ts2 := by rw [hu2] at hg1; exact hg1.suffix
          have hnl2 : NoLine ts2 := by rw [hu2] at hnl1; exact hnl1.suffix
          obtain ⟨b2, hch2⟩ : ∃ b, Chain b ts2 := by rw [hu2] at hch1; exact hch1.at
          obtain ⟨k1, k2⟩ := (ih f (by omega)).2 _ _ _ _ _ _ h3 hg2 hch2 hnl2
          obtain ⟨fa, v0, Tf, To, hfld, hv0, htoks, hEH, hsep, hobj⟩ := parseField_cut h2 hg1
          subst hfld
          have hval := parseField_value h2 hg1
          refine ⟨.front p1 (.field ⟨_, _, rfl, hval, hv0⟩ k2 ?_ k1), .front hnc (.value (not_plain_field _))⟩
          intro ocs hm
          rcases List.mem_append.1 hm with hm | hm
          · have := hval _ hm
            simp [Node.isValue] at this
          · simp only [List.mem_singleton] at hm
            obtain ⟨To', f', os, g1, g2, gf, g3, g4⟩ := hobj ocs hm.symm
            subst g2
            have e : t :: (Tf ++ (.openCurly :: To' ++ ts2)) = (t :: Tf) ++ .openCurly :: (To' ++ ts2) := by simp
            have hgi : Good env true (To' ++ ts2) := by
              rw [htoks, g1, e] at hg1
              exact hg1.suffix.tail
            have hci : Chain false (To' ++ ts2) := by
              rw [htoks, g1, e] at hch1
              exact hch1.suffix
            have hni : NoLine (To' ++ ts2) := by
              rw [htoks, g1, e] at hnl1
              exact hnl1.suffix.tail
            exact .plain ⟨_, Or.inl rfl⟩ ((ih f' (by omega)).1 _ _ _ _ _ _ _ g3 hgi hci hni).1
  · intro ho keys T ns R b h hg hch hnl
    rw [objectSep, Res.bind_eq_ok] at h
    obtain ⟨⟨ws, sep0, ts1⟩, h1, h⟩ := h
    rw [checkSep] at h1
    obtain ⟨e1, p1⟩ := sepLoop_spec h1
    have hg1 : Good env true ts1 := by rw [e1] at hg; exact hg.suffix
    have hnl1 : NoLine ts1 := by rw [e1] at hnl; exact hnl.suffix
    obtain ⟨b1, hch1⟩ : ∃ b, Chain b ts1 := by rw [e1] at hch; exact hch.at
    have main : ∀ m, NoComma m → CommaOk (ws ++ m) := by
      intro m hm a c e ha
      have hsplit : (∃ c', ws = a ++ .single .comma :: c') ∨ ∃ a2, m = a2 ++ .single .comma :: c ∧ ∀ n ∈ a2, n ∈ a := by
        rcases List.append_eq_append_iff.1 e with ⟨a2, h1, h2⟩ | ⟨c', h1, h2⟩
        · exact Or.inr ⟨a2, h2, by intro n hn; rw [h1]; simp [hn]⟩
        · cases c' with
          | nil => exact Or.inr ⟨[], by simpa using h2.symm, by simp⟩
          | cons x c' =>
            simp only [List.cons_append, List.cons.injEq] at h2
            exact Or.inl ⟨c', by rw [h1, h2.1]⟩
      rcases hsplit with ⟨c', e'⟩ | ⟨a2, e', ha2⟩
      · rcases sepLoop_line h1 hch hg.adj e' with ⟨_, _, _, _, hall⟩ | ⟨x, k, w, r, eT, hw⟩
        · intro n hn
          exact Or.inl (hall n hn)
        · exact absurd hw (hnl _ _ _ _ eT)
      · exact absurd (fun n hn => ha n (ha2 n hn)) (hm a2 c e')
    simp only at h
    split at h
    · rw [Res.bind_eq_ok] at h
      obtain ⟨⟨n1, ts2⟩, h2, h⟩ := h
      simp only [Res.ok.injEq, Prod.mk.injEq] at h
      obtain ⟨rfl, rfl⟩ := h
      obtain ⟨k1, k2⟩ := (ih f (by omega)).1 _ _ _ _ _ _ _ h2 hg1 hch1 hnl1
      exact ⟨.front p1 k1, main _ k2⟩
    · rw [Res.bind_eq_ok] at h
      obtain ⟨⟨ws2, t, ts2⟩, h2, h⟩ := h
      obtain ⟨_, p2, _⟩ := nextCollect_spec h2
      have hnc := collect_nocomma h2
      simp only at h
      split at h
      · split at h
        · simp only [Res.ok.injEq, Prod.mk.injEq] at h
          obtain ⟨rfl, _⟩ := h
          rw [List.append_assoc]
          refine ⟨.front p1 (.front p2 (.plain ⟨_, Or.inl rfl⟩ .nil)), main _ (.front hnc ?_)⟩
          intro a c e
          cases a <;> simp at e
        · simp at h
      · split at h
        · simp at h
        · simp only [Res.ok.injEq, Prod.mk.injEq] at h
          obtain ⟨rfl, _⟩ := h
          have i2 := InLine.front p2 .nil
          have n2 := NoComma.front hnc (b := []) (by intro a c e; simp at e)
          simp only [List.append_nil] at i2 n2
          exact ⟨.front p1 i2, main _ n2⟩
      · simp at h

theorem parse_inline {env : Env} {T : List Tok} {root a cs b : List Node}
    (h : parse env .conf (.start :: T) = .ok root) (hg : Good env true T) (hch : Chain false T) (hnl : NoLine T)
    (hf : findObject root = .ok (a, cs, b)) : InLine cs := by
  rw [parse] at h
  simp only [nextToken, Res.ok_bind] at h
  rw [Res.bind_eq_ok] at h
  obtain ⟨⟨ws, t0, T2⟩, h1, h⟩ := h
  obtain ⟨e1, p1, hc1⟩ := nextCollect_spec h1
  have hg1 : Good env true (t0 :: T2) := by rw [e1] at hg; exact hg.suffix
  have hnl1 : NoLine (t0 :: T2) := by rw [e1] at hnl; exact hnl.suffix
  simp only at h
  generalize hF : fuelFor (.start :: T) = F at h
  split at h
  · rw [Res.bind_eq_ok] at h
    obtain ⟨⟨n, R⟩, h2, h⟩ := h
    obtain ⟨wse, rest, h3, h4⟩ := parseEnd_ok h
    cases F with
    | zero => simp [fuelFor] at hF
    | succ F =>
      rw [parseValue] at h2
      simp only at h2
      rw [Res.bind_eq_ok] at h2
      obtain ⟨⟨ns, R'⟩, h2, h5⟩ := h2
      simp only [Res.ok.injEq, Prod.mk.injEq] at h5
      obtain ⟨rfl, rfl⟩ := h5
      simp only [Bool.false_eq_true, if_false] at h4
      rw [h4, List.append_assoc, List.singleton_append, findObject_plain p1] at hf
      simp only [findObject, Res.ok_bind, Res.ok.injEq, Prod.mk.injEq, List.append_nil] at hf
      obtain ⟨rfl, rfl, rfl⟩ := hf
      have hch2 : Chain false T2 := by rw [e1] at hch; exact hch.suffix
      exact .plain ⟨_, Or.inl rfl⟩ ((obj_inline env F).1 _ _ _ _ _ _ _ h2 hg1.tail hch2 hnl1.tail).1
  · exfalso
    rw [Res.bind_eq_ok] at h
    obtain ⟨⟨n, R⟩, h2, h⟩ := h
    obtain ⟨wse, rest, h3, h4⟩ := parseEnd_ok h
    cases F with
    | zero => simp [fuelFor] at hF
    | succ F =>
      rw [parseValue] at h2
      obtain ⟨xs, rfl⟩ := parseArray_node h2
      simp only [Bool.false_eq_true, if_false] at h4
      rw [h4, List.append_assoc, List.singleton_append, findObject_plain p1] at hf
      simp [findObject] at hf
  · rw [Res.bind_eq_ok] at h
    obtain ⟨⟨ns, R⟩, h2, h⟩ := h
    obtain ⟨wse, rest, h3, h4⟩ := parseEnd_ok h
    obtain ⟨r, rfl⟩ := (open_end env F).1 _ _ _ _ _ h2
    have hwse : wse = [] := by
      change nextCollect .conf (.end_ :: r) = _ at h3
      rw [nextCollect] at h3
      simp only [nextToken, Res.ok_bind, collectNode, Res.ok.injEq, Prod.mk.injEq] at h3
      exact h3.1.symm
    subst hwse
    simp only [if_true, List.append_nil] at h4
    rw [h4] at hf
    simp only [findObject, Res.ok.injEq, Prod.mk.injEq] at hf
    obtain ⟨rfl, rfl, rfl⟩ := hf
    have h2' : objectLoop env .conf F false false [] T = .ok (ws ++ ns, .end_ :: r) := by
      rw [e1, objectLoop_front h1, h2]; rfl
    exact ((obj_inline env F).1 _ _ _ _ _ _ _ h2' hg hch hnl).1

/-- The condition on the text gives the one on the tokens. -/
theorem noLine_text {env : Env} {T : List Tok} {s : Str} (ht : Tok.textList T = s) (hw : ∀ t ∈ T, WfTok env true t)
    (hs : ∀ w, AllBlank w → ¬ ('\n' :: (w ++ [','])) <:+: s) : NoLine T := by
  rintro a k w c rfl hg
  have hb : AllBlank (Tok.textList w) := by
    rcases hg with rfl | ⟨x, l, rfl⟩
    · simp [Tok.textList, AllBlank]
    · have := (hw (.ws x l) (by simp)).2
      simpa [Tok.textList, Tok.text] using this
  refine hs _ hb ⟨Tok.textList a, Tok.textList c, ?_⟩
  rw [← ht]
  simp [Tok.textList_append, Tok.textList, Tok.text]

end DocEdit
end Hocon
