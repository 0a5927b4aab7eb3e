import Verif.Lemmas.TameFiles

/-!
# The fields of an object as one layer
-/

set_option autoImplicit false

namespace Hocon
namespace EditRead
open Value ConfigParser
open Node (fieldPath)

/-! ## Without includes the includer does not matter -/

mutual
theorem parseValue_inc (env : Env) (inc inc' : Includer) (json : Bool) : (c : Node) → static false c = true →
    ∀ arr outer n, parseValue env inc json arr outer c n = parseValue env inc' json arr outer c n
  | .object cs, hs, arr, outer, n => by
    rw [static] at hs
    rw [parseValue, parseValue, parseFields_inc env inc inc' json cs hs arr outer [] n]
  | .array cs, hs, arr, outer, n => by
    rw [static] at hs
    rw [parseValue, parseValue, parseElems_inc env inc inc' json cs hs]
  | .concat cs, hs, arr, outer, n => by
    rw [static] at hs
    rw [parseValue, parseValue, parseElems_inc env inc inc' json cs hs]
  | .simple _, _, _, _, _ | .single _, _, _, _, _ | .comment _, _, _, _, _ | .path _ _, _, _, _, _ | .field _, _, _, _, _
  | .incl _ _, _, _, _, _ => by simp [parseValue]
termination_by structural c => c
theorem parseElems_inc (env : Env) (inc inc' : Includer) (json : Bool) : (cs : List Node) → staticL false cs = true →
    ∀ arr outer n, parseElems env inc json arr outer cs n = parseElems env inc' json arr outer cs n
  | [], _, _, _, _ => rfl
  | c :: cs, hs, arr, outer, n => by
    simp only [staticL, Bool.and_eq_true] at hs
    rw [parseElems, parseElems, parseValue_inc env inc inc' json c hs.1]
    simp only [parseElems_inc env inc inc' json cs hs.2]
termination_by structural cs => cs
theorem parseFieldValue_inc (env : Env) (inc inc' : Includer) (json : Bool) : (cs : List Node) → staticL false cs = true →
    ∀ arr outer n, parseFieldValue env inc json arr outer cs n = parseFieldValue env inc' json arr outer cs n
  | [], _, _, _, _ => rfl
  | c :: cs, hs, arr, outer, n => by
    simp only [staticL, Bool.and_eq_true] at hs
    rw [parseFieldValue, parseFieldValue, parseValue_inc env inc inc' json c hs.1,
      parseFieldValue_inc env inc inc' json cs hs.2]
termination_by structural cs => cs
theorem parseFields_inc (env : Env) (inc inc' : Includer) (json : Bool) : (cs : List Node) → staticL false cs = true →
    ∀ arr outer fs n, parseFields env inc json arr outer cs fs n = parseFields env inc' json arr outer cs fs n
  | [], _, _, _, _, _ => rfl
  | .field ds :: cs, hs, arr, outer, fs, n => by
    simp only [staticL, static, Bool.and_eq_true, Bool.not_eq_true'] at hs
    rw [parseFields_field _ _ _ _ _ _ _ _ _ hs.1.1, parseFields_field _ _ _ _ _ _ _ _ _ hs.1.1]
    simp only [parseFieldValue_inc env inc inc' json ds hs.1.2, parseFields_inc env inc inc' json cs hs.2]
  | .incl ds k :: cs, hs, arr, outer, fs, n => by
    simp [staticL, static] at hs
  | .single _ :: cs, hs, arr, outer, fs, n | .comment _ :: cs, hs, arr, outer, fs, n
  | .path _ _ :: cs, hs, arr, outer, fs, n | .simple _ :: cs, hs, arr, outer, fs, n
  | .object _ :: cs, hs, arr, outer, fs, n | .array _ :: cs, hs, arr, outer, fs, n
  | .concat _ :: cs, hs, arr, outer, fs, n => by
    simp only [staticL, Bool.and_eq_true] at hs
    rw [parseFields_skip _ _ _ _ _ _ _ _ _ (by simp) (by simp),
      parseFields_skip _ _ _ _ _ _ _ _ _ (by simp) (by simp), parseFields_inc env inc inc' json cs hs.2]
termination_by structural cs => cs
end

/-! ## One layer -/

theorem over_assoc {a b c : Option Value} (hb : PlainO b) (hc : PlainO c) : over (over a b) c = over a (over b c) := by
  cases a with
  | none => rfl
  | some x =>
    cases b with
    | none => rfl
    | some y =>
      cases c with
      | none => rfl
      | some z => simp only [over, pmerge_assoc x y z (hb y rfl) (hc z rfl)]

/-- The fields `ns` read from any fields put the layer `gs` over them. -/
def Layer (env : Env) (inc : Includer) (arr : Nat) (outer : Option Path) (ns : List Node) (n m : Nat) (gs : Fields) : Prop :=
  PlainF gs ∧ ∀ fs, PlainF fs → ∃ x, parseFields env inc false arr outer ns fs n = .ok (x, m) ∧ PlainF x ∧
    ∀ k, findKey x k = over (findKey gs k) (findKey fs k)

theorem Layer.cons {env : Env} {inc : Includer} {arr : Nat} {outer : Option Path} {c : Node} {ns : List Node} {n m : Nat}
    {hs gs : Fields} (h : Layer env inc arr outer ns n m gs) (hp : PlainF hs)
    (hc : ∀ fs, PlainF fs → ∃ x, parseFields env inc false arr outer (c :: ns) fs n = parseFields env inc false arr outer ns x n ∧
      PlainF x ∧ ∀ k, findKey x k = over (findKey hs k) (findKey fs k)) :
    ∃ gs', Layer env inc arr outer (c :: ns) n m gs' := by
  obtain ⟨gs', _, p1, p2⟩ := h.2 hs hp
  refine ⟨gs', p1, fun fs hf => ?_⟩
  obtain ⟨x, q1, q2, q3⟩ := hc fs hf
  obtain ⟨y, r1, r2, r3⟩ := h.2 x q2
  refine ⟨y, by rw [q1, r1], r2, fun k => ?_⟩
  rw [r3, q3, p2, over_assoc (fun v hv => hp.find hv) (fun v hv => hf.find hv)]

theorem layer (env : Env) (inc : Includer) {b : Bool} (hi : b = true → Tame inc) (arr : Nat) (outer : Option Path) :
    ∀ (ns : List Node), staticL b ns = true → ∀ (fs x : Fields) (n m : Nat), PlainF fs →
      parseFields env inc false arr outer ns fs n = .ok (x, m) → m = n ∧ ∃ gs, Layer env inc arr outer ns n n gs
  | [], _, fs, x, n, m, _, h => by
    cases h
    exact ⟨rfl, [], ⟨by simp [keysOf], by simp⟩, fun fs hf => ⟨fs, rfl, hf, fun k => rfl⟩⟩
  | .field ds :: ns, hs, fs, x, n, m, hf, h => by
    simp only [staticL, static, Bool.and_eq_true, Bool.not_eq_true'] at hs
    have h0 := h
    rw [parseFields_field _ _ _ _ _ _ _ _ _ hs.1.1] at h
    simp only [Res.bind_eq_ok] at h
    obtain ⟨⟨key, ts⟩, h1, ⟨v, n1⟩, q1, fs1, q2, q3⟩ := h
    have hn := parseFieldValue_count env inc hi false arr _ ds n n1 v hs.1.2 q1
    simp only at hn q1 q2 q3
    subst hn
    have pv := parseFieldValue_plain env inc (fun e => (hi e).plain) false arr _ ds n1 n1 v hs.1.2 q1
    have hk : key ≠ [] := by rintro rfl; cases q2
    obtain ⟨fs1', e1, e2, _⟩ := putField_over hk hf pv
    rw [q2] at e1
    cases e1
    obtain ⟨rfl, gs, ih⟩ := layer env inc hi arr outer ns hs.2 fs1 x n1 m e2 q3
    refine ⟨rfl, ?_⟩
    have hnil : PlainF [] := ⟨by simp [keysOf], by simp⟩
    obtain ⟨ls, l1, l2, l3⟩ := putField_over hk hnil pv
    refine ih.cons l2 fun gs hg => ?_
    obtain ⟨y, y1, y2, y3⟩ := putField_over hk hg pv
    refine ⟨y, ?_, y2, fun k => ?_⟩
    · rw [parseFields_field _ _ _ _ _ _ _ _ _ hs.1.1, h1]
      simp only [Res.ok_bind]
      rw [q1]
      simp only [Res.ok_bind]
      rw [y1, Res.ok_bind]
    · rw [y3, l3, findKey_nil, over_none]
  | .incl ds k :: ns, hs, fs, x, n, m, hf, h => by
    simp only [staticL, static, Bool.and_eq_true] at hs
    simp only [parseFields, Bool.false_eq_true, if_false, Res.bind_eq_ok] at h
    obtain ⟨⟨fs1, n1⟩, q1, q2⟩ := h
    have hn := (hi hs.1.1).parseInclude hs.1.2 q1
    simp only at hn q2
    subst hn
    obtain ⟨is, a1, a2, e1⟩ := parseInclude_both (hi hs.1.1).plain q1
    have b1 := putAll_over hf a1 a2
    obtain ⟨rfl, gs, ih⟩ := layer env inc hi arr outer ns hs.2 fs1 x n1 m b1.1 q2
    refine ⟨rfl, ih.cons a1 fun gs hg => ?_⟩
    obtain ⟨y, c1⟩ := putAll_total is hg a1
    obtain ⟨c2, c3⟩ := putAll_over hg a1 c1
    refine ⟨y, ?_, c2, c3⟩
    simp only [parseFields, Bool.false_eq_true, if_false, e1 gs y c1, Res.ok_bind]
  | .single _ :: ns, hs, fs, x, n, m, hf, h | .comment _ :: ns, hs, fs, x, n, m, hf, h
  | .path _ _ :: ns, hs, fs, x, n, m, hf, h | .simple _ :: ns, hs, fs, x, n, m, hf, h
  | .object _ :: ns, hs, fs, x, n, m, hf, h | .array _ :: ns, hs, fs, x, n, m, hf, h
  | .concat _ :: ns, hs, fs, x, n, m, hf, h => by
    simp only [staticL, Bool.and_eq_true] at hs
    rw [parseFields_skip _ _ _ _ _ _ _ _ _ (by simp) (by simp)] at h
    obtain ⟨rfl, gs, h1, h2⟩ := layer env inc hi arr outer ns hs.2 fs x n m hf h
    refine ⟨rfl, gs, h1, fun fs hf => ?_⟩
    rw [parseFields_skip _ _ _ _ _ _ _ _ _ (by simp) (by simp)]
    exact h2 fs hf

end EditRead
end Hocon
