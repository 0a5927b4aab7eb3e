import Verif.Lemmas.EditReadAt

/-!
# A setting that nothing hides is read
-/

set_option autoImplicit false

namespace Hocon
namespace EditRead
open Value ConfigParser
open DocEdit (changeLoop changeNode changeField changeInObject changeNode_field changeNode_other WfNode WfList VOk
  dropSep setField changeField_spec changeLoop_spec length_drop_facts replaceValue_spec indentedValue_spec Occurs)
open Node (fieldPath fieldValue isValue)

/-- A field whose key is a proper beginning of the path has a value that is not an object, or an object in which there
is such a field. -/
inductive Shut : List Node → Path → Prop where
  | here {ns cs : List Node} {v : Node} {key rem : Path} {ts : List Tok} (hm : Node.field cs ∈ ns)
      (hk : fieldPath cs = .ok (key, ts)) (hr : rem ≠ []) (hv : fieldValue cs = .ok v) (ho : ∀ ocs, v ≠ .object ocs) :
      Shut ns (key ++ rem)
  | inside {ns cs ocs : List Node} {key rem : Path} {ts : List Tok} (hm : Node.field cs ∈ ns)
      (hk : fieldPath cs = .ok (key, ts)) (hr : rem ≠ []) (hv : fieldValue cs = .ok (.object ocs)) (ho : Shut ocs rem) :
      Shut ns (key ++ rem)

theorem Shut.mono {ns ms : List Node} {p : Path} (h : Shut ns p) (hm : ∀ n ∈ ns, n ∈ ms) : Shut ms p := by
  cases h with
  | here h1 hk hr hv ho => exact .here (hm _ h1) hk hr hv ho
  | inside h1 hk hr hv ho => exact .inside (hm _ h1) hk hr hv ho

theorem Shut.cons {n : Node} {ns : List Node} {p : Path} : Shut (n :: ns) p ↔ Shut [n] p ∨ Shut ns p := by
  constructor
  · intro h
    cases h with
    | here h1 hk hr hv ho =>
      rcases List.mem_cons.1 h1 with rfl | h1
      · exact .inl (.here (by simp) hk hr hv ho)
      · exact .inr (.here h1 hk hr hv ho)
    | inside h1 hk hr hv ho =>
      rcases List.mem_cons.1 h1 with rfl | h1
      · exact .inl (.inside (by simp) hk hr hv ho)
      · exact .inr (.inside h1 hk hr hv ho)
  · rintro (h | h)
    · exact h.mono (by simp)
    · exact h.mono fun _ h => by simp [h]

theorem Shut.nil {p : Path} : ¬ Shut [] p := by
  intro h
  cases h with
  | here h1 => cases h1
  | inside h1 => cases h1

theorem Shut.not_field {n : Node} {p : Path} (h : n.isField = false) : ¬ Shut [n] p := by
  intro ho
  cases ho with
  | here h1 => simp only [List.mem_singleton] at h1; subst h1; simp [Node.isField] at h
  | inside h1 => simp only [List.mem_singleton] at h1; subst h1; simp [Node.isField] at h

theorem Shut.field {cs : List Node} {p key : Path} {ts : List Tok} {v : Node} (hk : fieldPath cs = .ok (key, ts))
    (hv : fieldValue cs = .ok v) : Shut [.field cs] p ↔
      ∃ rem, rem ≠ [] ∧ p = key ++ rem ∧ ∀ ocs, v = .object ocs → Shut ocs rem := by
  constructor
  · intro h
    cases h with
    | here h1 hk' hr hv' ho =>
      simp only [List.mem_singleton, Node.field.injEq] at h1
      subst h1
      rw [hk] at hk'
      rw [hv] at hv'
      cases hk'; cases hv'
      exact ⟨_, hr, rfl, fun ocs e => absurd e (ho ocs)⟩
    | inside h1 hk' hr hv' ho =>
      simp only [List.mem_singleton, Node.field.injEq] at h1
      subst h1
      rw [hk] at hk'
      rw [hv] at hv'
      cases hk'; cases hv'
      exact ⟨_, hr, rfl, fun ocs e => by cases e; exact ho⟩
  · rintro ⟨rem, hr, rfl, h⟩
    cases v with
    | object ocs => exact .inside (by simp) hk hr hv (h ocs rfl)
    | _ => exact .here (by simp) hk hr hv (by simp)

/-! ## Values through which earlier ones show -/

/-- Along the path there are only objects through which earlier values show. -/
def Loose : Path → Option Value → Prop
  | [], _ => True
  | k :: p, a => firm a = false ∧ Loose p (sub a k)

theorem loose_none : ∀ (p : Path), Loose p none
  | [] => trivial
  | _ :: p => ⟨rfl, loose_none p⟩

theorem Loose.over : ∀ {p : Path} {m a : Option Value}, PlainO a → Loose p m → Loose p a → Loose p (over m a)
  | [], _, _, _, _, _ => trivial
  | k :: p, m, a, ha, h1, h2 => by
    obtain ⟨g1, g2⟩ := over_loose h1.1 ha
    refine ⟨g1.trans h2.1, ?_⟩
    rw [g2]
    exact Loose.over (ha.sub k) h1.2 h2.2

theorem seen_over : ∀ {p : Path} {m a : Option Value}, PlainO a → Loose p m → (atO m p ≠ none ∨ atO a p ≠ none) →
    atO (over m a) p ≠ none
  | [], m, a, _, _, h => by
    rw [atO_nil] at *
    rw [atO_nil] at h
    cases m <;> cases a <;> simp_all [over]
  | k :: p, m, a, ha, h1, h => by
    rw [atO_cons, atO_cons] at h
    rw [atO_cons, (over_loose h1.1 ha).2 k]
    exact seen_over (ha.sub k) h1.2 h

theorem loose_nest : ∀ {key p : Path} {v : Value}, (∀ rem, p = key ++ rem → Loose rem (some v)) → Loose p (some (nest key v))
  | [], p, _, h => h p rfl
  | _ :: _, [], _, _ => trivial
  | k :: key, k' :: p, v, h => by
    refine ⟨rfl, ?_⟩
    rw [sub_nest]
    by_cases e : k = k'
    · subst e
      rw [if_pos rfl]
      exact loose_nest fun rem hr => h rem (by rw [hr]; rfl)
    · rw [if_neg e]
      exact loose_none p

theorem seen_nest : ∀ {key p : Path} (v : Value), p <+: key → atO (some (nest key v)) p ≠ none
  | _, [], _, _ => by rw [atO_nil]; simp
  | [], _ :: _, _, h => by simp at h
  | k :: key, k' :: p, v, h => by
    rw [List.cons_prefix_cons] at h
    obtain ⟨rfl, h⟩ := h
    rw [atO_cons, sub_nest, if_pos rfl]
    exact seen_nest v h

mutual
theorem seen_loop (env : Env) (inc : Includer) : (ns : List Node) → WfList .conf ns → staticL false ns = true →
    ∀ p, p ≠ [] → ¬ Shut ns p → ∀ arr outer fs gs n m, PlainF fs → Loose p (some (newObj fs)) →
      parseFields env inc false arr outer ns fs n = .ok (gs, m) →
      Loose p (some (newObj gs)) ∧ (atO (some (newObj fs)) p ≠ none ∨ Occurs ns p → atO (some (newObj gs)) p ≠ none)
  | [], _, _, p, _, _, _, _, fs, gs, _, _, _, hl, h => by
    cases h
    refine ⟨hl, ?_⟩
    rintro (h | h)
    · exact h
    · cases h with
      | here h1 => cases h1
      | inside h1 => cases h1
  | .field cs :: ns, hw, hs, p, hp, hsh, arr, outer, fs, gs, n, m, hf, hl, h => by
    obtain ⟨⟨⟨k, ks, ts, hkey⟩, ⟨w, hval⟩, hcs⟩, hw2⟩ := hw
    simp only [staticL, static, Bool.and_eq_true, Bool.not_eq_true'] at hs
    rw [Shut.cons, not_or, Shut.field hkey hval] at hsh
    rw [parseFields_field _ _ _ _ _ _ _ _ _ hs.1.1, hkey] at h
    simp only [Res.ok_bind, Res.bind_eq_ok] at h
    obtain ⟨⟨v, n1⟩, q1, fs1, q2, q3⟩ := h
    have pv := parseFieldValue_plain env inc nofalse false arr _ cs n n1 v hs.1.2 q1
    obtain ⟨fs2, r1, r2, r3⟩ := putField_over (key := k :: ks) (by simp) hf pv
    rw [q2] at r1
    cases r1
    have hv : ∀ rem, p = (k :: ks) ++ rem → Loose rem (some v) ∧
        ∀ ocs, w = .object ocs → Occurs ocs rem → atO (some v) rem ≠ none := by
      intro rem hrem
      match rem with
      | [] =>
        refine ⟨trivial, fun _ _ _ => ?_⟩
        rw [atO_nil]; simp
      | k1 :: rem =>
        have : ∃ ocs, w = .object ocs ∧ ¬ Shut ocs (k1 :: rem) := by
          by_contra hc
          exact hsh.1 ⟨_, by simp, hrem, fun ocs e => by_contra fun hn => hc ⟨ocs, e, hn⟩⟩
        obtain ⟨ocs, rfl, hno⟩ := this
        obtain ⟨a1, a2⟩ := seen_field env inc cs hcs hs.1.2 ocs hval _ (by simp) hno _ _ _ _ _ q1
        exact ⟨a1, fun ocs' e => by cases e; exact a2⟩
    have hnest : Loose p (some (nest (k :: ks) v)) := loose_nest fun rem hr => (hv rem hr).1
    have hl1 : Loose p (some (newObj fs1)) ∧
        (atO (some (nest (k :: ks) v)) p ≠ none ∨ atO (some (newObj fs)) p ≠ none → atO (some (newObj fs1)) p ≠ none) := by
      match p with
      | [] => exact absurd rfl hp
      | k0 :: p0 =>
        have hpl : PlainO (findKey fs k0) := fun x hx => hf.find hx
        refine ⟨⟨rfl, ?_⟩, fun h => ?_⟩
        · rw [sub_newObj, r3]
          exact Loose.over hpl hnest.2 hl.2
        · rw [atO_cons, atO_cons] at h
          rw [atO_cons, sub_newObj, r3]
          exact seen_over hpl hnest.2 h
    obtain ⟨b1, b2⟩ := seen_loop env inc ns hw2 hs.2 p hp hsh.2 arr outer fs1 gs n1 m r2 hl1.1 q3
    refine ⟨b1, fun h => b2 ?_⟩
    rcases h with h | h
    · exact .inl (hl1.2 (.inr h))
    · rw [Occurs.cons] at h
      rcases h with h | h
      · refine .inl (hl1.2 (.inl ?_))
        rw [Occurs.field hkey] at h
        rcases h with h | ⟨rem, ocs, e1, e2, e3, e4⟩
        · exact seen_nest v h
        · rw [hval] at e3
          cases e3
          rw [e2, atO_nest_append]
          exact (hv rem e2).2 ocs rfl e4
      · exact .inr h
  | .incl _ _ :: ns, _, hs, _, _, _, _, _, _, _, _, _, _, _, _ => by simp [staticL, static] at hs
  | .single _ :: ns, hw, hs, p, hp, hsh, arr, outer, fs, gs, n, m, hf, hl, h
  | .comment _ :: ns, hw, hs, p, hp, hsh, arr, outer, fs, gs, n, m, hf, hl, h
  | .path _ _ :: ns, hw, hs, p, hp, hsh, arr, outer, fs, gs, n, m, hf, hl, h
  | .simple _ :: ns, hw, hs, p, hp, hsh, arr, outer, fs, gs, n, m, hf, hl, h
  | .object _ :: ns, hw, hs, p, hp, hsh, arr, outer, fs, gs, n, m, hf, hl, h
  | .array _ :: ns, hw, hs, p, hp, hsh, arr, outer, fs, gs, n, m, hf, hl, h
  | .concat _ :: ns, hw, hs, p, hp, hsh, arr, outer, fs, gs, n, m, hf, hl, h => by
    simp only [staticL, Bool.and_eq_true] at hs
    rw [Shut.cons, not_or] at hsh
    rw [parseFields_skip _ _ _ _ _ _ _ _ _ (by simp) (by simp)] at h
    obtain ⟨b1, b2⟩ := seen_loop env inc ns hw.2 hs.2 p hp hsh.2 arr outer fs gs n m hf hl h
    refine ⟨b1, fun h => b2 ?_⟩
    rcases h with h | h
    · exact .inl h
    · rw [Occurs.cons] at h
      exact .inr (h.resolve_left (Occurs.not_field rfl))
termination_by structural ns => ns
theorem seen_field (env : Env) (inc : Includer) : (cs : List Node) → WfList .conf cs → staticL false cs = true →
    ∀ ocs, fieldValue cs = .ok (.object ocs) → ∀ rem, rem ≠ [] → ¬ Shut ocs rem → ∀ arr outer n m v,
      parseFieldValue env inc false arr outer cs n = .ok (v, m) →
      Loose rem (some v) ∧ (Occurs ocs rem → atO (some v) rem ≠ none)
  | [], _, _, _, hv, _, _, _, _, _, _, _, _, _ => by cases hv
  | c :: cs, hw, hs, ocs, hv, rem, hr, hsh, arr, outer, n, m, v, h => by
    simp only [staticL, Bool.and_eq_true] at hs
    rw [parseFieldValue] at h
    rw [fieldValue] at hv
    by_cases hc : c.isValue = true
    · rw [if_pos hc] at h hv
      simp only [Res.ok.injEq] at hv
      exact seen_value env inc c hw.1 hs.1 ocs hv rem hr hsh arr outer n m v h
    · rw [if_neg hc] at h hv
      exact seen_field env inc cs hw.2 hs.2 ocs hv rem hr hsh arr outer n m v h
termination_by structural cs => cs
theorem seen_value (env : Env) (inc : Includer) : (c : Node) → WfNode .conf c → static false c = true →
    ∀ ocs, c = .object ocs → ∀ rem, rem ≠ [] → ¬ Shut ocs rem → ∀ arr outer n m v,
      parseValue env inc false arr outer c n = .ok (v, m) →
      Loose rem (some v) ∧ (Occurs ocs rem → atO (some v) rem ≠ none)
  | .object ocs, hw, hs, _, rfl, rem, hr, hsh, arr, outer, n, m, v, h => by
    simp only [parseValue, Res.bind_eq_ok] at h
    obtain ⟨⟨gs, m'⟩, h2, h3⟩ := h
    simp only [Res.ok.injEq, Prod.mk.injEq] at h3
    obtain ⟨rfl, rfl⟩ := h3
    rw [static] at hs
    have hl : Loose rem (some (newObj [])) := by
      match rem with
      | [] => trivial
      | k :: rem => exact ⟨rfl, loose_none rem⟩
    obtain ⟨b1, b2⟩ := seen_loop env inc ocs hw.2.2 hs rem hr hsh arr outer [] gs n m' ⟨by simp [keysOf], by simp⟩ hl h2
    exact ⟨b1, fun h => b2 (.inr h)⟩
  | .single _, _, _, _, e, _, _, _, _, _, _, _, _, _ | .comment _, _, _, _, e, _, _, _, _, _, _, _, _, _
  | .path _ _, _, _, _, e, _, _, _, _, _, _, _, _, _ | .simple _, _, _, _, e, _, _, _, _, _, _, _, _, _
  | .field _, _, _, _, e, _, _, _, _, _, _, _, _, _ | .array _, _, _, _, e, _, _, _, _, _, _, _, _, _
  | .concat _, _, _, _, e, _, _, _, _, _, _, _, _, _ | .incl _ _, _, _, _, e, _, _, _, _, _, _, _, _, _ => by cases e
termination_by structural c => c
end

/-! ## Setting the path hides nothing -/

theorem mem_dropSep : ∀ {r : List Node} {n : Node}, n ∈ dropSep r → n ∈ r
  | [], _, h => h
  | c :: cs, n, h => by
    rw [dropSep] at h
    split at h
    · exact List.mem_cons_of_mem _ (mem_dropSep h)
    · exact h

mutual
theorem shut_loop {p : Path} (hd : p ≠ []) {ov : Option Node} (hv : ∀ w, ov = some w → VOk .conf w) :
    (ns : List Node) → WfList .conf ns → ¬ Shut ns p → ∀ (i : Nat) (prev : Option Node) y,
      changeLoop .conf p ov i prev ns = .ok y → ¬ Shut y.1 p
  | [], _, _, _, _, _, h => by
    cases h
    exact Shut.nil
  | n :: ns, hw, hs, i, prev, y, h => by
    rw [changeLoop, Res.bind_eq_ok] at h
    obtain ⟨⟨r, s, vc⟩, h3, h⟩ := h
    rw [Shut.cons, not_or] at hs
    have ih := shut_loop hd hv ns hw.2 hs.2 _ _ _ h3
    obtain ⟨_, _, _, g1, _, g3, _⟩ := changeLoop_spec hd hv ns hw.2 (i + 1) (some n)
    rw [h3] at g1
    cases g1
    refine shut_node hd ?_ ih n hw.1 hs.1 i prev y h
    intro v h
    rcases g3 with g | g
    · exact hv v (g ▸ h)
    · rw [g] at h; cases h
termination_by structural ns => ns
theorem shut_node {p : Path} (hd : p ≠ []) {vc : Option Node} (hv : ∀ w, vc = some w → VOk .conf w) {r : List Node} {s : Bool}
    (ih : ¬ Shut r p) : (n : Node) → WfNode .conf n → ¬ Shut [n] p → ∀ (i : Nat) (prev : Option Node) y,
      changeNode .conf p i prev r s vc n = .ok y → ¬ Shut y.1 p
  | .field cs, hn, hs, i, prev, y, h => by
    obtain ⟨⟨k, ks, ts, hkey⟩, ⟨v, hval⟩, hcs⟩ := hn
    have hdrop : ¬ Shut (dropSep r) p := fun h => ih (h.mono fun _ => mem_dropSep)
    rw [changeNode_field hd hkey] at h
    by_cases e1 : k :: ks = p
    · rw [if_pos e1] at h
      cases vc with
      | none =>
        cases h
        exact hdrop
      | some w =>
        rw [if_neg (by simp), Res.bind_eq_ok] at h
        obtain ⟨cs', h3, h⟩ := h
        cases h
        obtain ⟨w', g1, g2⟩ := indentedValue_spec i prev (hv w rfl)
        simp only [setField, g1, Res.ok_bind] at h3
        obtain ⟨cs2, b1, b2, b3, _⟩ := replaceValue_spec g2.isValue hval
        rw [h3] at b1
        cases b1
        rw [Shut.cons, not_or]
        refine ⟨?_, ih⟩
        rw [Shut.field (b2.trans hkey) b3]
        rintro ⟨rem, h1, h2, _⟩
        rw [e1] at h2
        exact h1 (List.append_cancel_left (h2.symm.trans (List.append_nil p).symm))
    · rw [if_neg e1] at h
      by_cases e2 : p <+: k :: ks
      · rw [if_pos e2] at h
        cases h
        exact hdrop
      · rw [if_neg e2] at h
        by_cases e3 : k :: ks <+: p
        · rw [if_pos e3, Res.bind_eq_ok] at h
          obtain ⟨cs', h3, h⟩ := h
          cases h
          obtain ⟨rem, t1, t2, t3⟩ := length_drop_facts (by simp) e3 e1
          rw [t3] at h3
          obtain ⟨cs2, v', b1, b2, b3, _⟩ := changeField_spec t1 hv cs hcs v hval
          rw [h3] at b1
          cases b1
          rw [Shut.cons, not_or]
          refine ⟨?_, ih⟩
          rw [Shut.field hkey hval] at hs
          have : ∃ ocs, v = .object ocs ∧ ¬ Shut ocs rem := by
            by_contra hc
            exact hs ⟨_, t1, t2, fun ocs e => by_contra fun hn => hc ⟨ocs, e, hn⟩⟩
          obtain ⟨ocs, rfl, hno⟩ := this
          obtain ⟨ocs', c1, c2⟩ := shut_field t1 hv cs hcs ocs hval hno _ h3
          rw [Shut.field (b2.trans hkey) c1]
          rintro ⟨rem', h1, h2, h4⟩
          have : rem' = rem := List.append_cancel_left (h2.symm.trans t2)
          subst this
          exact c2 (h4 ocs' rfl)
        · rw [if_neg e3] at h
          cases h
          rw [Shut.cons, not_or]
          exact ⟨hs, ih⟩
  | .single _, _, hs, _, _, _, h | .comment _, _, hs, _, _, _, h | .path _ _, _, hs, _, _, _, h
  | .simple _, _, hs, _, _, _, h | .object _, _, hs, _, _, _, h | .array _, _, hs, _, _, _, h
  | .concat _, _, hs, _, _, _, h | .incl _ _, _, hs, _, _, _, h => by
    rw [changeNode_other rfl, if_neg (by simp)] at h
    cases h
    rw [Shut.cons, not_or]
    exact ⟨hs, ih⟩
termination_by structural n => n
theorem shut_field {rem : Path} (hd : rem ≠ []) {ov : Option Node} (hv : ∀ w, ov = some w → VOk .conf w) :
    (cs : List Node) → WfList .conf cs → ∀ ocs, fieldValue cs = .ok (.object ocs) → ¬ Shut ocs rem →
      ∀ cs', changeField .conf rem ov cs = .ok cs' → ∃ ocs', fieldValue cs' = .ok (.object ocs') ∧ ¬ Shut ocs' rem
  | [], _, _, hval, _, _, h => by cases h
  | c :: cs, hw, ocs, hval, hs, cs', h => by
    rw [changeField] at h
    rw [fieldValue] at hval
    by_cases hc : c.isValue = true
    · rw [if_pos hc, Res.bind_eq_ok] at h
      rw [if_pos hc] at hval
      obtain ⟨c', h1, h⟩ := h
      cases h
      simp only [Res.ok.injEq] at hval
      obtain ⟨ocs', e, g⟩ := shut_value hd hv c hw.1 ocs hval hs c' h1
      subst e
      exact ⟨ocs', by rw [fieldValue]; rfl, g⟩
    · rw [if_neg hc, Res.bind_eq_ok] at h
      rw [if_neg hc] at hval
      obtain ⟨cs1, h1, h⟩ := h
      cases h
      obtain ⟨ocs', e, g⟩ := shut_field hd hv cs hw.2 ocs hval hs cs1 h1
      exact ⟨ocs', by rw [fieldValue, if_neg hc]; exact e, g⟩
termination_by structural cs => cs
theorem shut_value {rem : Path} (hd : rem ≠ []) {ov : Option Node} (hv : ∀ w, ov = some w → VOk .conf w) :
    (c : Node) → WfNode .conf c → ∀ ocs, c = .object ocs → ¬ Shut ocs rem → ∀ c', changeInObject .conf rem ov c = .ok c' →
      ∃ ocs', c' = .object ocs' ∧ ¬ Shut ocs' rem
  | .object ocs, hw, _, rfl, hs, c', h => by
    rw [changeInObject, Res.bind_eq_ok] at h
    obtain ⟨⟨r, s, vc⟩, h1, h⟩ := h
    cases h
    exact ⟨r, rfl, shut_loop hd hv ocs hw.2.2 hs _ _ _ h1⟩
  | .single _, _, _, e, _, _, _ | .comment _, _, _, e, _, _, _ | .path _ _, _, _, e, _, _, _
  | .simple _, _, _, e, _, _, _ | .field _, _, _, e, _, _, _ | .array _, _, _, e, _, _, _
  | .concat _, _, _, e, _, _, _ | .incl _ _, _, _, e, _, _, _ => by cases e
termination_by structural c => c
end

end EditRead
end Hocon
