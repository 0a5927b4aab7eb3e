import Verif.Lemmas.EditAgain

/-!
# Changing a setting that has just been added

A setting that is added with one value and then given another one is the setting added with the other value.
-/

set_option autoImplicit false

namespace Hocon
namespace DocEdit
open PathParser (Syntax)
open Node
open PathM (startsWith subPath)
open Classical

/-! ## The place does not depend on the setting -/

/-- One setting put in the place of another one. -/
noncomputable def swap (new new' : Node) (n : Node) : Node := if n = new then new' else n

theorem swap_self {new new' : Node} : swap new new' new = new' := if_pos rfl

theorem swap_other {new new' n : Node} (h : n ≠ new) : swap new new' n = n := if_neg h

theorem swap_map {new new' : Node} {l : List Node} (h : new ∉ l) : l.map (swap new new') = l := by
  induction l with
  | nil => rfl
  | cons n ns ih =>
    rw [List.mem_cons, not_or] at h
    rw [List.map_cons, swap_other (Ne.symm h.1), ih h.2]

theorem swap_hasTok {new new' : Node} (hf : new.isField = true) (hf' : new'.isField = true) (f : Tok → Bool) (n : Node) :
    (swap new new' n).hasTok f = n.hasTok f := by
  unfold swap
  split
  · subst n
    cases new <;> first | (cases hf; done) | skip
    cases new' <;> first | (cases hf'; done) | rfl
  · rfl

theorem swap_startsWithComma {new new' : Node} (hf : new.isField = true) (hf' : new'.isField = true) (l : List Node) :
    startsWithComma (l.map (swap new new')) = startsWithComma l := by
  cases l with
  | nil => rfl
  | cons n ns => exact swap_hasTok hf hf' _ n

theorem insertLoop_swap {fl : Syntax} {brace same : Bool} {new new' : Node} (hf : new.isField = true)
    (hf' : new'.isField = true) : ∀ (k : Nat) (todo done : List Node), todo.length ≤ k → new ∉ todo →
      ∀ r, insertLoop fl brace same new done todo = .ok r →
        insertLoop fl brace same new' (done.map (swap new new')) todo = .ok (r.map (swap new new'))
  | k, [], done, _, _, r, h => by rw [insertLoop] at h ⊢; cases h; rfl
  | 0, c :: rest, _, hk, _, _, _ => by simp at hk
  | k + 1, c :: rest, done, hk, hn, r, h => by
    have hcomma : Node.single .comma ≠ new := by rintro rfl; cases hf
    rw [List.mem_cons, not_or] at hn
    simp only [List.length_cons] at hk
    have hc : c ≠ new := Ne.symm hn.1
    rw [insertLoop.eq_def] at h ⊢
    simp only [swap_startsWithComma hf hf'] at h ⊢
    by_cases h1 : ((decide (fl = .json) || same) && c.isField && !startsWithComma done) = true
    · rw [if_pos h1] at h ⊢
      cases h
      simp [swap_other hc, swap_other hcomma, swap_map hn.2]
    · rw [if_neg h1] at h ⊢
      by_cases h2 : (brace && c.hasTok Tok.isCloseCurly) = true
      · rw [if_pos h2] at h ⊢
        cases rest with
        | nil => cases h
        | cons prev rest1 =>
          simp only at h ⊢
          have hp : prev ≠ new := by rintro rfl; exact hn.2 (by simp)
          have hn1 : new ∉ rest1 := fun h => hn.2 (by simp [h])
          simp only [List.length_cons] at hk
          by_cases h3 : prev.hasTok Tok.isNewline = true
          · rw [if_pos h3] at h ⊢
            have := insertLoop_swap hf hf' k rest1 _ (by omega) hn1 r h
            simpa [swap_self, swap_other hp, swap_other hc] using this
          · rw [if_neg h3] at h ⊢
            by_cases h4 : prev.hasTok Tok.isWs = true
            · rw [if_pos h4] at h ⊢
              cases rest1 with
              | nil => cases h
              | cons before rest2 =>
                simp only at h ⊢
                simp only [List.length_cons] at hk
                have hb : before ≠ new := by rintro rfl; exact hn1 (by simp)
                by_cases h5 : same = true
                · rw [if_pos h5] at h ⊢
                  have := insertLoop_swap hf hf' k _ _ (by simp only [List.length_cons]; omega) hn1 r h
                  simpa [swap_self, swap_other hp, swap_other hc] using this
                · rw [if_neg h5] at h ⊢
                  by_cases h6 : before.hasTok Tok.isNewline = true
                  · rw [if_pos h6] at h ⊢
                    have := insertLoop_swap hf hf' k rest2 _ (by omega) (fun h => hn1 (by simp [h])) r h
                    simpa [swap_self, swap_other hp, swap_other hc, swap_other hb] using this
                  · rw [if_neg h6] at h ⊢
                    have := insertLoop_swap hf hf' k _ _ (by simp only [List.length_cons]; omega) hn.2 r h
                    simpa [swap_self, swap_other hc] using this
            · rw [if_neg h4] at h ⊢
              have := insertLoop_swap hf hf' k _ _ (by simp only [List.length_cons]; omega) hn.2 r h
              simpa [swap_self, swap_other hc] using this
      · rw [if_neg h2] at h ⊢
        have := insertLoop_swap hf hf' k rest _ (by omega) hn.2 r h
        simpa [swap_other hc] using this

theorem insertNew_swap {fl : Syntax} {same : Bool} {new new' : Node} (hf : new.isField = true) (hf' : new'.isField = true)
    {cs r : List Node} (hn : new ∉ cs) (h : insertNew fl same new cs = .ok r) :
    insertNew fl same new' cs = .ok (r.map (swap new new')) := by
  unfold insertNew at h ⊢
  rw [Res.bind_eq_ok] at h
  obtain ⟨cs1, h1, h⟩ := h
  have hb : insertBase fl same new' cs = .ok (cs1.map (swap new new')) := by
    unfold insertBase at h1 ⊢
    split at h1
    · rename_i hc
      rw [if_pos hc]
      have := insertLoop_swap hf hf' _ cs.reverse [] (Nat.le_refl _) (by simpa using hn) _ h1
      simpa using this
    · rename_i hc
      rw [if_neg hc]
      cases h1
      rw [swap_map hn]
  rw [hb]
  cases h
  simp only [Res.ok_bind, Res.ok.injEq]
  split
  · rfl
  · unfold insertEnd
    rcases List.eq_nil_or_concat cs1 with rfl | ⟨x, l, hx⟩
    · simp [swap_self]
    · have hx' : cs1 = x ++ [l] := by simpa using hx
      subst hx'
      simp only [List.map_append, List.map_cons, List.map_nil, List.getLast?_concat, List.dropLast_concat,
        swap_hasTok hf hf']
      split <;> simp [swap_self]

/-! ## The change finds the new setting -/

/-- The change goes through the children and keeps what it is to keep. -/
def Finds (fl : Syntax) (p : Path) (w : Node) (r r' : List Node) : Prop :=
  ∃ vc, ∀ i prev, changeLoop fl p (some w) i prev r = .ok (r', true, vc)

theorem changeLoop_before {fl : Syntax} {p : Path} (hd : p ≠ []) {ow vc : Option Node} {b b' : List Node}
    (h : ∀ i prev, changeLoop fl p ow i prev b = .ok (b', true, vc)) : ∀ (a : List Node), WfList fl a → ¬ Occurs a p →
      ∀ i prev, changeLoop fl p ow i prev (a ++ b) = .ok (a ++ b', true, vc)
  | [], _, _, i, prev => h i prev
  | n :: a, hw, ho, i, prev => by
    rw [Occurs.cons, not_or] at ho
    rw [List.cons_append, changeLoop, changeLoop_before hd h a hw.2 ho.2]
    simp only [Res.ok_bind]
    obtain ⟨s, h1, h2, _⟩ := changeNode_absent hd (value := vc) i prev (r := a ++ b') (seen := true) n
      (fun _ _ => rfl) hw.1 ho.1
    rw [h1, h2 rfl]
    rfl

theorem changeLoop_around {fl : Syntax} {p : Path} (hd : p ≠ []) {w : Node} {a b : List Node} {n n' : Node}
    (ha : WfList fl a) (hoa : ¬ Occurs a p) (hb : WfList fl b) (hob : ¬ Occurs b p) (hj : fl = .json → NoTrail b)
    (h : ∃ vc, ∀ i prev s, changeNode fl p i prev b s (some w) n = .ok (n' :: b, true, vc)) :
    Finds fl p w (a ++ n :: b) (a ++ n' :: b) := by
  obtain ⟨vc, h⟩ := h
  refine ⟨vc, changeLoop_before hd (fun i prev => ?_) a ha hoa⟩
  obtain ⟨s, h1, _⟩ := changeLoop_absent hd (value := some w) b hb hj hob (i + 1) (some n)
  rw [changeLoop, h1]
  exact h i prev s

theorem insertNew_finds {fl : Syntax} {p : Path} (hd : p ≠ []) {w : Node} {same : Bool} {new new' : Node} {cs r : List Node}
    (hb : Braces cs) (hw : WfList fl cs) (ho : ¬ Occurs cs p) (hf : new.isField = true) (hf' : new'.isField = true)
    (hocc : Occurs [new] p) (h : insertNew fl same new cs = .ok r)
    (hn : ∃ vc, ∀ b i prev s, changeNode fl p i prev b s (some w) new = .ok (new' :: b, true, vc)) :
    ∃ r', insertNew fl same new' cs = .ok r' ∧ Finds fl p w r r' := by
  have hnot : new ∉ cs := by
    intro hm
    obtain ⟨a, b, rfl⟩ := List.append_of_mem hm
    rw [Occurs.append, Occurs.cons] at ho
    exact ho (Or.inr (Or.inl hocc))
  obtain ⟨r1, g1, g2⟩ := insertNew_spec (fl := fl) (same := same) (new := new) hb
  rw [h] at g1
  cases g1
  obtain ⟨x0, x, y, rfl, rfl, hx, hy, _⟩ := g2
  rw [Occurs.append, not_or] at ho
  rw [WfList.iff] at hw
  have hxm : ∀ n ∈ x, n ∈ x0 ∨ n = .single .comma := fun n h => hx.mem h
  have hnx : new ∉ x := by
    intro hm
    rcases hxm new hm with h | h
    · exact hnot (by simp [h])
    · subst h; cases hf
  have hny : new ∉ y := fun hm => hnot (by simp [hm])
  refine ⟨x ++ new' :: y, ?_, ?_⟩
  · rw [insertNew_swap hf hf' hnot h]
    simp [swap_self, swap_map hnx, swap_map hny]
  · obtain ⟨vc, hn⟩ := hn
    refine changeLoop_around hd ?_ ?_ ?_ ho.2 ?_ ⟨vc, hn y⟩
    · rw [WfList.iff]
      intro n hm
      rcases hxm n hm with h | rfl
      · exact hw n (by simp [h])
      · trivial
    · intro hox
      refine ho.1 (hox.mono fun n hm hnf => ?_)
      rcases hxm n hm with h | rfl
      · exact h
      · cases hnf
    · rw [WfList.iff]
      intro n hm
      exact hw n (by simp [hm])
    · intro _ a c b hab hc
      exfalso
      rw [(hy c (by rw [hab]; simp)).2] at hc
      cases hc

theorem Flat.prepare {fl : Syntax} {w v iv : Node} (h : Flat fl w) {cs indent : List Node} {same : Bool}
    (hp : prepare cs v = .ok (indent, iv, same)) : prepare cs w = .ok (indent, w, same) := by
  have hw : indentedNew (indentation cs) w = .ok w := by
    unfold indentedNew
    split
    · rename_i l hl
      split
      · rcases indentNode_spec (fl := fl) (indentation_neutral cs l (List.mem_of_getLast? hl)) w h.wf with
          ⟨n', h3, _⟩ | ⟨h3, _⟩
        · rw [h3, indentNode_oneLine w h.oneLine n' h3]
        · exact absurd h3 (indentNode_ne_fuel w h.oneLine)
      · rfl
    · rfl
  unfold DocEdit.prepare at hp ⊢
  rw [Res.bind_eq_ok] at hp
  obtain ⟨_, _, hp⟩ := hp
  cases hp
  rw [hw]
  rfl

theorem newObjectNodes_noTrail {indent : List Node} (hi : ∀ n ∈ indent, Neutral n) : NoTrail (newObjectNodes indent) := by
  intro a c b hab hc
  exfalso
  have hmem : c ∈ newObjectNodes indent := by rw [hab]; simp
  unfold newObjectNodes at hmem
  simp only [List.cons_append, List.mem_cons, List.mem_append, List.not_mem_nil, or_false] at hmem
  rcases hmem with rfl | (h1 | h1) | rfl
  · simp [hasTok, singleToken?, Tok.isComma] at hc
  · split at h1
    · simp only [List.mem_singleton] at h1
      subst h1
      simp [hasTok, singleToken?, Tok.isComma, lineNode] at hc
    · simp at h1
  · rw [(hi c h1).notComma] at hc; simp at hc
  · simp [hasTok, singleToken?, Tok.isComma] at hc

theorem buildNew_finds {fl : Syntax} {w : Node} (hf : Flat fl w) {p : Path} (hp : p ≠ []) {iv : Node} {indent : List Node}
    {same : Bool} {cs : List Node} {toks : List Tok} (hv : VOk fl iv) (hi : ∀ n ∈ indent, Neutral n)
    (hb : Braces cs) (hw : WfList fl cs) (ho : ¬ Occurs cs p) (hd : dots toks + 1 = p.length) {r : List Node}
    (h : buildNew fl iv indent same cs p toks = .ok r) :
    ∃ r', buildNew fl w indent same cs p toks = .ok r' ∧ Finds fl p w r r' := by
  induction p generalizing iv indent same cs toks r with
  | nil => exact absurd rfl hp
  | cons k p ih =>
    obtain ⟨ts, hfn⟩ := firstNode_spec hd
    have hsplit : ∀ v : Node, ∀ n ∈ indent ++ [.path [k] ts, wsNode [' '], .single .colon, wsNode [' ']], n.isValue = false := by
      intro v n hn
      simp only [List.mem_append, List.mem_cons, List.not_mem_nil, or_false] at hn
      rcases hn with h1 | rfl | rfl | rfl | rfl
      · exact (hi n h1).notValue
      all_goals rfl
    have hnew : ∀ v, newField indent (.path [k] ts) v =
        .field ((indent ++ [.path [k] ts, wsNode [' '], .single .colon, wsNode [' ']]) ++ v :: []) := by
      intro v; simp [newField]
    have hkey : ∀ v, fieldPath ((indent ++ [.path [k] ts, wsNode [' '], .single .colon, wsNode [' ']]) ++ v :: []) = .ok ([k], ts) := by
      intro v
      rw [List.append_assoc, fieldPath_neutral hi]; rfl
    cases p with
    | nil =>
      rw [buildNew] at h ⊢
      · rw [hfn, Res.ok_bind] at h ⊢
        obtain ⟨n1, n2, n3⟩ := newField_spec (ts := ts) (k := k) hi hv.isValue hv.wf rfl
        refine insertNew_finds (by simp) hb hw ho n2 rfl ((n3 _).2 (Or.inl List.prefix_rfl)) h ⟨none, fun b i prev s => ?_⟩
        rw [hnew, hnew, changeNode_field (by simp) (hkey iv), if_pos rfl]
        simp only [Option.isNone_some, Bool.false_eq_true, if_false, setField, hf.indented i prev, Res.ok_bind,
          replaceValue_split (w := w) (hsplit iv) hv.isValue]
      · simp
      · simp
    | cons k2 p =>
      rw [buildNew, hfn, Res.ok_bind, Res.bind_eq_ok] at h
      obtain ⟨toks', h3, h1⟩ := h
      rw [Res.bind_eq_ok] at h1
      obtain ⟨⟨indent', iv', same'⟩, h4, h1⟩ := h1
      simp only at h1
      rw [Res.bind_eq_ok] at h1
      obtain ⟨ocs, h5, h2⟩ := h1
      obtain ⟨o1, o2, o3⟩ := newObjectNodes_spec hi
      obtain ⟨q1, q2⟩ := prepare_spec hv h4
      have hd' : dots toks' + 1 = (k2 :: p).length := by
        have := subTokens_dots h3 (by omega)
        simp only [List.length_cons] at hd ⊢
        omega
      have hi' := buildNew_spec (by simp) q2 q1 o1 (o2 fl) hd' h5
      obtain ⟨ocs', g1, vc, g2⟩ := ih (by simp) q2 q1 o1 (o2 fl) (o3 _) hd' h5
      obtain ⟨n1, n2, n3⟩ := newField_spec (fl := fl) (ts := ts) (k := k) (v := .object ocs) hi rfl
        ⟨hi'.braces o1, fun _ => hi'.trail (newObjectNodes_noTrail hi), hi'.wf⟩ rfl
      have hne : [k] ≠ k :: k2 :: p := by simp
      have hpre : [k] <+: k :: k2 :: p := ⟨k2 :: p, rfl⟩
      obtain ⟨rem, hrem, hpe, hsub⟩ := length_drop_facts (by simp) hpre hne
      have hreme : rem = k2 :: p := by simpa using hpe.symm
      subst hreme
      obtain ⟨r', hr1, hr2⟩ := insertNew_finds (w := w) (new' := newField indent (.path [k] ts) (.object ocs')) (by simp) hb hw ho n2 rfl
        ((n3 _).2 (Or.inr ⟨k2 :: p, ocs, by simp, rfl, rfl, hi'.occ⟩)) h2 ⟨some w, fun b i prev s => by
          rw [hnew, hnew, changeNode_field (by simp) (hkey (.object ocs)), if_neg hne,
            if_neg (by intro h; have := h.length_le; simp at this), if_pos hpre, hsub,
            changeField_split (w := .object ocs') (hsplit iv) rfl (by rw [changeInObject, g2]; rfl)]
          rfl⟩
      refine ⟨r', ?_, hr2⟩
      rw [buildNew, hfn, Res.ok_bind, h3, Res.ok_bind, hf.prepare h4]
      simp only [Res.ok_bind]
      rw [g1, Res.ok_bind]
      exact hr1

theorem addFinish_finds {fl : Syntax} {w : Node} (hf : Flat fl w) {value : Node} {p : Path} (hp : p ≠ []) {toks : List Tok}
    {cs : List Node} (hv : VOk fl value) (hb : Braces cs) (hw : WfList fl cs) (ho : ¬ Occurs cs p)
    (hd : dots toks + 1 = p.length) {inner inner' : Res (Option (List Node))}
    (hnone : inner = .ok none → inner' = .ok none)
    (hin : ∀ r, inner = .ok (some r) → ∃ r', inner' = .ok (some r') ∧ Finds fl p w r r') {r : List Node}
    (h : addFinish fl value p toks cs inner = .ok r) :
    ∃ r', addFinish fl w p toks cs inner' = .ok r' ∧ Finds fl p w r r' := by
  unfold addFinish at h ⊢
  rw [Res.bind_eq_ok] at h
  obtain ⟨⟨indent, iv, same⟩, h1, h⟩ := h
  obtain ⟨q1, q2⟩ := prepare_spec hv h1
  simp only at h
  rw [Res.bind_eq_ok] at h
  obtain ⟨o, h2, h⟩ := h
  rw [hf.prepare h1]
  simp only [Res.ok_bind]
  cases o with
  | some cs' =>
    simp only [Res.ok.injEq] at h
    subst h
    unfold searchFields at h2 ⊢
    split at h2
    · rename_i hl
      obtain ⟨r', g1, g2⟩ := hin _ h2
      rw [if_pos hl, g1]
      exact ⟨r', rfl, g2⟩
    · simp at h2
  | none =>
    have : searchFields p inner' = .ok none := by
      unfold searchFields at h2 ⊢
      split at h2
      · rename_i hl
        rw [if_pos hl, hnone h2]
      · rename_i hl
        rw [if_neg hl]
    rw [this]
    exact buildNew_finds hf hp q2 q1 hb hw ho hd h

mutual
theorem addIn_finds {fl : Syntax} {w : Node} (hf : Flat fl w) {value : Node} (hv : VOk fl value) {p : Path} (hp : p ≠ [])
    {toks : List Tok} (hd : dots toks + 1 = p.length) :
    (ns : List Node) → WfList fl ns → ¬ Occurs ns p → (fl = .json → NoTrail ns) →
      (addIn fl value p toks ns = .ok none → addIn fl w p toks ns = .ok none) ∧
      ∀ r, addIn fl value p toks ns = .ok (some r) → ∃ r', addIn fl w p toks ns = .ok (some r') ∧ Finds fl p w r r'
  | [], _, _, _ => ⟨fun _ => rfl, fun r h => by simp [addIn] at h⟩
  | n :: ns, hw, ho, hj => by
    rw [Occurs.cons, not_or] at ho
    have hj' : fl = .json → NoTrail ns := fun h => (NoTrail.cons.1 (hj h)).1
    obtain ⟨i1, i2⟩ := addIn_finds hf hv hp hd ns hw.2 ho.2 hj'
    obtain ⟨j1, j2⟩ := addNode_finds hf hv hp hd n hw.1 ho.1
    simp only [addIn]
    constructor
    · intro h
      rw [Res.bind_eq_ok] at h
      obtain ⟨o, h1, h⟩ := h
      cases o with
      | some ns' => cases h
      | none =>
        simp only at h
        rw [Res.bind_eq_ok] at h
        obtain ⟨o, h2, h⟩ := h
        cases o with
        | some n' => cases h
        | none =>
          rw [i1 h1, Res.ok_bind]
          simp only
          rw [j1 h2]
          rfl
    · intro r h
      rw [Res.bind_eq_ok] at h
      obtain ⟨o, h1, h⟩ := h
      cases o with
      | some ns' =>
        cases h
        obtain ⟨r', g1, vc, g2⟩ := i2 _ h1
        rw [g1, Res.ok_bind]
        refine ⟨_, rfl, vc, changeLoop_before hp g2 [n] ⟨hw.1, trivial⟩ ho.1⟩
      | none =>
        simp only at h
        rw [Res.bind_eq_ok] at h
        obtain ⟨o, h2, h⟩ := h
        cases o with
        | none => cases h
        | some n' =>
          cases h
          obtain ⟨m, g1, g2⟩ := j2 _ h2
          rw [i1 h1, Res.ok_bind]
          simp only
          rw [g1, Res.ok_bind]
          exact ⟨_, rfl, changeLoop_around hp (a := []) trivial Occurs.nil hw.2 ho.2 hj' ⟨some w, g2 ns⟩⟩
termination_by structural ns => ns
theorem addNode_finds {fl : Syntax} {w : Node} (hf : Flat fl w) {value : Node} (hv : VOk fl value) {p : Path} (hp : p ≠ [])
    {toks : List Tok} (hd : dots toks + 1 = p.length) :
    (n : Node) → WfNode fl n → ¬ Occurs [n] p →
      (addNode fl value p toks n = .ok none → addNode fl w p toks n = .ok none) ∧
      ∀ n', addNode fl value p toks n = .ok (some n') → ∃ m, addNode fl w p toks n = .ok (some m) ∧
        ∀ b i prev s, changeNode fl p i prev b s (some w) n' = .ok (m :: b, true, some w)
  | .field cs, hn, ho => by
    obtain ⟨⟨k, ks, ts, hkey⟩, ⟨v, hval⟩, hcs⟩ := hn
    rw [Occurs.field hkey, not_or] at ho
    simp only [addNode, hkey, Res.ok_bind, PathM.C03_startsWith p (k :: ks) hp]
    by_cases hpre : (k :: ks) <+: p
    · simp only [hpre, decide_true, if_true]
      have heq : k :: ks ≠ p := by
        rintro rfl
        exact ho.1 (List.prefix_refl _)
      obtain ⟨rem, hrem, rfl, hsub⟩ := length_drop_facts (by simp) hpre heq
      have hocs : ∀ ocs, v = .object ocs → ¬ Occurs ocs rem := by
        rintro ocs rfl h
        exact ho.2 ⟨rem, ocs, hrem, rfl, hval, h⟩
      rw [PathM.C03_length _ (by simp)]
      obtain ⟨i1, i2⟩ := addField_finds hf hv (key := k :: ks) (by simp) hrem hd cs hcs v hval hocs
      constructor
      · intro h
        rw [Res.bind_eq_ok] at h
        obtain ⟨o, h2, h⟩ := h
        cases o with
        | some _ => cases h
        | none => rw [i1 h2]; rfl
      · intro n' h
        rw [Res.bind_eq_ok] at h
        obtain ⟨o, h2, h⟩ := h
        cases o with
        | none => cases h
        | some c =>
          cases h
          obtain ⟨c', g1, g2, g3⟩ := i2 _ h2
          rw [g1]
          refine ⟨.field c', rfl, fun b i prev s => ?_⟩
          rw [changeNode_field hp (by rw [g2, hkey]), if_neg heq, if_neg ho.1, if_pos hpre, hsub, g3]
          rfl
    · simp only [hpre, decide_false, Bool.false_eq_true, if_false]
      exact ⟨id, fun n' h => by cases h⟩
  | .single _, _, _ | .comment _, _, _ | .path _ _, _, _ | .simple _, _, _
  | .incl .., _, _ | .object _, _, _ | .array _, _, _ | .concat _, _, _ => by simp [addNode]
termination_by structural n => n
theorem addField_finds {fl : Syntax} {w : Node} (hf : Flat fl w) {value : Node} (hv : VOk fl value) {key rem : Path}
    (hk : key ≠ []) (hr : rem ≠ []) {toks : List Tok} (hd : dots toks + 1 = (key ++ rem).length) :
    (cs : List Node) → WfList fl cs → (v : Node) → fieldValue cs = .ok v → (∀ ocs, v = .object ocs → ¬ Occurs ocs rem) →
      (addField fl value key.length (key ++ rem) toks cs = .ok none → addField fl w key.length (key ++ rem) toks cs = .ok none) ∧
      ∀ c, addField fl value key.length (key ++ rem) toks cs = .ok (some c) →
        ∃ c', addField fl w key.length (key ++ rem) toks cs = .ok (some c') ∧ fieldPath c = fieldPath cs ∧
          changeField fl rem (some w) c = .ok c'
  | [], _, v, hval, _ => by simp [fieldValue] at hval
  | n :: ns, hw, v, hval, ho => by
    rw [fieldValue] at hval
    simp only [addField]
    by_cases hvn : n.isValue = true
    · rw [if_pos hvn] at hval
      simp only [hvn, if_true]
      cases hval
      obtain ⟨i1, i2⟩ := addInObject_finds hf hv hk hr hd n hw.1 ho
      constructor
      · intro h
        rw [Res.bind_eq_ok] at h
        obtain ⟨o, h2, h⟩ := h
        cases o with
        | some _ => cases h
        | none => rw [i1 h2]; rfl
      · intro c h
        rw [Res.bind_eq_ok] at h
        obtain ⟨o, h2, h⟩ := h
        cases o with
        | none => cases h
        | some n' =>
          cases h
          obtain ⟨m, g1, g2, g3⟩ := i2 _ h2
          rw [g1]
          refine ⟨_, rfl, ?_, ?_⟩
          · cases n <;> first | (cases hvn; done) | (cases n' <;> first | (cases g2; done) | rfl)
          · rw [changeField, if_pos g2, g3]
            rfl
    · rw [if_neg hvn] at hval
      simp only [hvn, if_false]
      obtain ⟨i1, i2⟩ := addField_finds hf hv hk hr hd ns hw.2 v hval ho
      constructor
      · intro h
        rw [if_neg (by simp), Res.bind_eq_ok] at h
        obtain ⟨o, h2, h⟩ := h
        cases o with
        | some _ => cases h
        | none => rw [if_neg (by simp), i1 h2]; rfl
      · intro c h
        rw [if_neg (by simp), Res.bind_eq_ok] at h
        obtain ⟨o, h2, h⟩ := h
        cases o with
        | none => cases h
        | some n' =>
          cases h
          obtain ⟨m, g1, g2, g3⟩ := i2 _ h2
          rw [if_neg (by simp), g1]
          refine ⟨_, rfl, ?_, ?_⟩
          · cases n <;> simp_all [fieldPath]
          · rw [changeField, if_neg hvn, g3]
            rfl
termination_by structural cs => cs
theorem addInObject_finds {fl : Syntax} {w : Node} (hf : Flat fl w) {value : Node} (hv : VOk fl value) {key rem : Path}
    (hk : key ≠ []) (hr : rem ≠ []) {toks : List Tok} (hd : dots toks + 1 = (key ++ rem).length) :
    (n : Node) → WfNode fl n → (∀ ocs, n = .object ocs → ¬ Occurs ocs rem) →
      (addInObject fl value key.length (key ++ rem) toks n = .ok none → addInObject fl w key.length (key ++ rem) toks n = .ok none) ∧
      ∀ n', addInObject fl value key.length (key ++ rem) toks n = .ok (some n') →
        ∃ m, addInObject fl w key.length (key ++ rem) toks n = .ok (some m) ∧ n'.isValue = true ∧
          changeInObject fl rem (some w) n' = .ok m
  | .object ocs, hn, ho => by
    have hkl : 0 < key.length := List.length_pos_iff.2 hk
    have hsub : subPath key.length (key ++ rem) = rem := by
      rw [PathM.C03_subPath]
      · simp
      · have := List.length_pos_iff.2 hr
        simp only [List.length_append]
        omega
    simp only [addInObject, hsub]
    constructor
    · intro h
      rw [Res.bind_eq_ok] at h
      obtain ⟨toks', _, h⟩ := h
      rw [Res.bind_eq_ok] at h
      obtain ⟨ocs', _, h⟩ := h
      cases h
    · intro n' h
      rw [Res.bind_eq_ok] at h
      obtain ⟨toks', h1, h⟩ := h
      rw [Res.bind_eq_ok] at h
      obtain ⟨ocs', h2, h⟩ := h
      cases h
      have hdd := subTokens_dots h1 hkl
      rw [List.length_append] at hd
      obtain ⟨i1, i2⟩ := addIn_finds hf hv hr (toks := toks') (by omega) ocs hn.2.2 (ho ocs rfl) hn.2.1
      obtain ⟨r', g1, vc, g2⟩ := addFinish_finds hf hr hv hn.1 hn.2.2 (ho ocs rfl) (by omega) i1 i2 h2
      rw [h1, Res.ok_bind, g1]
      refine ⟨_, rfl, rfl, ?_⟩
      rw [changeInObject, g2]
      rfl
  | .single _, _, _ | .comment _, _, _ | .path _ _, _, _ | .simple _, _, _
  | .incl .., _, _ | .field _, _, _ | .array _, _, _ | .concat _, _, _ => by simp [addInObject]
termination_by structural n => n
end

theorem addValue_finds {fl : Syntax} {w : Node} (hf : Flat fl w) {value : Node} (hv : VOk fl value) {p : Path} (hp : p ≠ [])
    {toks : List Tok} (hd : dots toks + 1 = p.length) {cs r : List Node} (hn : WfNode fl (.object cs)) (ho : ¬ Occurs cs p)
    (h : addValue fl p toks value cs = .ok r) : ∃ r', addValue fl p toks w cs = .ok r' ∧ Finds fl p w r r' := by
  obtain ⟨i1, i2⟩ := addIn_finds hf hv hp hd cs hn.2.2 ho hn.2.1
  exact addFinish_finds hf hp hv hn.1 hn.2.2 ho hd i1 i2 h

/-- Setting a path twice. -/
theorem setValue_twice {fl : Syntax} {v w : Node} (hv : VOk fl v) (hf : Flat fl w) {p : Path} (hp : p ≠ [])
    {toks : List Tok} (hd : dots toks + 1 = p.length) {cs r : List Node} (hn : WfNode fl (.object cs))
    (h : setValue fl p toks v cs = .ok r) : setValue fl p toks w r = setValue fl p toks w cs := by
  unfold setValue changeValue at h ⊢
  have hv' : ∀ u, some v = some u → VOk fl u := by intro u h; cases h; exact hv
  have hf' : ∀ u, some w = some u → Flat fl u := by intro u h; cases h; exact hf
  obtain ⟨c1, s1, v1, h1, h2, _, h3⟩ := changeLoop_spec hp hv' cs hn.2.2 0 none
  obtain ⟨c0, s0, v0, g1, g2, _, g3⟩ := changeLoop_spec hp (fun u h => (hf' u h).toVOk) cs hn.2.2 0 none
  have hag := (again_loop hp hv' hf' (by intro h; cases h) cs hn.2.2 _ _ _ _ _ _ h1 g1).1
  rw [h1] at h
  simp only [Res.ok_bind] at h
  rw [Res.bind_eq_ok] at h
  obtain ⟨b, hb, h⟩ := h
  obtain ⟨b', hb', hbo⟩ := hasValue_spec hp c1 h2.wf
  rw [hb] at hb'
  cases hb'
  cases b with
  | true =>
    cases h
    rw [hag, g1]
  | false =>
    have hno : ¬ Occurs c1 p := fun h => by cases hbo.2 h
    have hw1 : WfNode fl (.object c1) := ⟨h2.sim.braces hn.1, fun hj => (h3 hj).1, h2.wf⟩
    obtain ⟨s2, k1, _⟩ := changeLoop_absent hp (value := some w) c1 h2.wf (fun hj => (h3 hj).1) hno 0 none
    rw [hag] at k1
    cases k1
    simp only [Bool.false_eq_true, if_false] at h
    obtain ⟨r', m1, vc, m2⟩ := addValue_finds hf hv hp hd hw1 hno h
    have hocc := (addValue_spec hf.toVOk hp hd hw1 m1)
    obtain ⟨b2, hb2, hb3⟩ := hasValue_spec hp r' hocc.wf
    rw [m2, g1]
    simp only [Res.ok_bind, hb, hb2, hb3.2 hocc.occ, if_true, Bool.false_eq_true, if_false, m1]

end DocEdit
end Hocon
