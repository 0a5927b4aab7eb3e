import Verif.Lemmas.EditReadLoop
import Verif.Lemmas.RemoveEdit

/-!
# A setting that is read is in the document; line numbers do not matter for reading
-/

set_option autoImplicit false

namespace Hocon
namespace EditRead
open Value ConfigParser
open DocEdit (WfNode WfList Occurs)
open Node (fieldPath fieldValue fieldSeparator isValue unlineList isValue_unline)

/-! ## Objects that are not joined with anything -/

/-- Not an object, nor something that may contain one. -/
def apiece : Node → Bool
  | .object _ | .concat _ | .field _ => false
  | _ => true

mutual
/-- No object is part of a concatenation. -/
def noJoin : Node → Bool
  | .field cs => noJoinL cs
  | .object cs => noJoinL cs
  | .concat cs => cs.all apiece
  | _ => true
def noJoinL : List Node → Bool
  | [] => true
  | c :: cs => noJoin c && noJoinL cs
end

theorem join_nonobj (env : Env) (a b j : Value) (ha : a.isObject = false) (h : join env a b = .ok (some j)) :
    j.isObject = false := by
  simp only [join, ha, Bool.false_and, Bool.false_eq_true, if_false] at h
  split at h
  · cases h
  split at h
  · simp only [Res.ok.injEq, Option.some.injEq] at h
    subst h
    cases a <;> cases b <;> simp_all [appendLists, isObject]
  split at h
  · simp only [Res.ok.injEq, Option.some.injEq] at h
    exact h ▸ ha
  split at h
  · cases h
  split at h
  · cases h
  split at h
  · cases h
  · simp only [Res.ok.injEq, Option.some.injEq] at h
    rw [← h]; rfl

theorem joinLoop_nonobj (env : Env) (a : Value) (vs c : List Value) (ha : a.Plain) (ho : a.isObject = false)
    (hv : ∀ v ∈ vs, v.Plain) (h : joinLoop env [] a vs = .ok c) : ∃ j, c = [j] ∧ j.isObject = false := by
  induction vs generalizing a with
  | nil =>
    simp only [joinLoop, List.nil_append, Res.ok.injEq] at h
    exact ⟨a, h.symm, ho⟩
  | cons b vs ih =>
    rw [joinLoop, Res.bind_eq_ok] at h
    obtain ⟨o, h1, h⟩ := h
    obtain ⟨j, rfl, hj⟩ := join_plain env a b o ha (hv b (by simp)) h1
    exact ih j hj (join_nonobj env a b j ho h1) (fun w hw => hv w (by simp [hw])) h

theorem concatenate_nonobj (env : Env) (vs : List Value) (v : Value) (h : ∀ w ∈ vs, w.Plain ∧ w.isObject = false)
    (hok : concatenate env vs = .ok (some v)) : v.isObject = false := by
  match vs with
  | [] => simp [concatenate, consolidate] at hok
  | [w] =>
    rw [C41_single] at hok
    simp only [Res.ok.injEq, Option.some.injEq] at hok
    exact hok ▸ (h w (by simp)).2
  | a :: b :: vs =>
    rw [concatenate_eq _ _ _ _ (fun x hx => Plain.notConcat (h x hx).1), Res.bind_eq_ok] at hok
    obtain ⟨c, hj, hok⟩ := hok
    obtain ⟨j, rfl, hp⟩ := joinLoop_nonobj env a (b :: vs) c (h a (by simp)).1 (h a (by simp)).2
      (fun x hx => (h x (by simp_all)).1) hj
    simp only [Res.ok.injEq, Option.some.injEq] at hok
    exact hok ▸ hp

theorem apiece_nonobj (env : Env) (inc : Includer) {arr : Nat} {outer : Option Path} {c : Node} {n m : Nat} {v : Value}
    (hc : apiece c = true) (hs : static false c = true) (h : parseValue env inc false arr outer c n = .ok (v, m)) :
    v.isObject = false := by
  cases c with
  | simple t =>
    rw [parseValue] at h
    cases t with
    | subst => simp [static] at hs
    | value | unquoted =>
      simp only [ConfigParser.getValue, Res.ok.injEq, Prod.mk.injEq] at h
      rw [← h.1]; rfl
    | _ => simp [ConfigParser.getValue] at h
  | array cs =>
    simp only [parseValue, Res.bind_eq_ok] at h
    obtain ⟨⟨vs, n'⟩, h1, h2⟩ := h
    simp only [Res.ok.injEq, Prod.mk.injEq] at h2
    rw [← h2.1]; rfl
  | object | concat | field => cases hc
  | _ => simp [parseValue] at h

theorem elems_nonobj (env : Env) (inc : Includer) {arr : Nat} {outer : Option Path} : ∀ {cs : List Node} {n m : Nat}
    {vs : List Value}, cs.all apiece = true → staticL false cs = true →
    parseElems env inc false arr outer cs n = .ok (vs, m) → ∀ v ∈ vs, v.Plain ∧ v.isObject = false
  | [], _, _, _, _, _, h => by
    simp only [parseElems, Res.ok.injEq, Prod.mk.injEq] at h
    simp [← h.1]
  | c :: cs, n, m, vs, ha, hs, h => by
    simp only [staticL, Bool.and_eq_true, List.all_cons] at hs ha
    rw [parseElems] at h
    split at h
    · simp only [Res.bind_eq_ok] at h
      obtain ⟨⟨v, n1⟩, h1, ⟨ws, n2⟩, h2, h3⟩ := h
      simp only [Res.ok.injEq, Prod.mk.injEq] at h3
      rw [← h3.1]
      intro w hw
      rcases List.mem_cons.1 hw with rfl | hw
      · exact ⟨parseValue_plain env inc nofalse false arr outer c n n1 _ hs.1 h1, apiece_nonobj env inc ha.1 hs.1 h1⟩
      · exact elems_nonobj env inc ha.2 hs.2 h2 w hw
    · exact elems_nonobj env inc ha.2 hs.2 h

/-- Only an object is read as an object. -/
theorem read_nonobj (env : Env) (inc : Includer) {arr : Nat} {outer : Option Path} {c : Node} {n m : Nat} {v : Value}
    (hc : ∀ ocs, c ≠ .object ocs) (hj : noJoin c = true) (hs : static false c = true)
    (h : parseValue env inc false arr outer c n = .ok (v, m)) : v.isObject = false := by
  cases c with
  | object ocs => exact absurd rfl (hc ocs)
  | concat cs =>
    rw [parseValue, if_neg (by simp)] at h
    simp only [Res.bind_eq_ok] at h
    obtain ⟨⟨vs, n'⟩, h1, o, h2, w, h3, h4⟩ := h
    simp only [Res.ok.injEq, Prod.mk.injEq] at h4
    rw [static] at hs
    rw [noJoin] at hj
    cases o with
    | none => cases h3
    | some x =>
      simp only [nonNull, Res.ok.injEq] at h3
      subst h3
      exact h4.1 ▸ concatenate_nonobj env vs x (elems_nonobj env inc hj hs h1) h2
  | field => simp [parseValue] at h
  | _ => exact apiece_nonobj env inc rfl hs h

/-! ## What is read is in the document -/

theorem sub_nonobj {v : Value} (h : v.isObject = false) (k : Str) : sub (some v) k = none := by
  cases v <;> first | rfl | cases h

theorem atO_none (q : Path) : atO none q = none := rfl

theorem atO_over : ∀ {q : Path} {a b : Option Value}, PlainO b → atO (over a b) q ≠ none → atO a q ≠ none ∨ atO b q ≠ none
  | [], a, b, _, h => by
    cases a with
    | none => exact .inr h
    | some x => exact .inl (by simp [atO, Spec.at?])
  | k :: q, a, b, hb, h => by
    rw [atO_cons] at h ⊢
    cases hm : firm a with
    | true =>
      rw [over_firm hm] at h
      exact .inl h
    | false =>
      rw [(over_loose hm hb).2 k] at h
      rw [atO_cons]
      exact atO_over (hb.sub k) h

theorem atO_nest : ∀ {key q : Path} {v : Value}, atO (some (nest key v)) q ≠ none →
    q <+: key ∨ ∃ rem, rem ≠ [] ∧ q = key ++ rem ∧ atO (some v) rem ≠ none
  | [], [], _, _ => .inl (List.prefix_refl _)
  | [], k :: q, _, h => .inr ⟨k :: q, by simp, rfl, h⟩
  | _ :: _, [], _, _ => .inl List.nil_prefix
  | k :: key, k' :: q, v, h => by
    rw [atO_cons, sub_nest] at h
    by_cases e : k = k'
    · subst e
      rw [if_pos rfl] at h
      rcases atO_nest h with h | ⟨rem, h1, h2, h3⟩
      · exact .inl (by rw [List.cons_prefix_cons]; exact ⟨rfl, h⟩)
      · exact .inr ⟨rem, h1, by rw [h2]; rfl, h3⟩
    · rw [if_neg e] at h
      exact absurd rfl h

mutual
theorem has_loop (env : Env) (inc : Includer) : (ns : List Node) → WfList .conf ns → staticL false ns = true →
    noJoinL ns = true → ∀ arr outer fs gs n m q, PlainF fs → q ≠ [] →
      parseFields env inc false arr outer ns fs n = .ok (gs, m) → atO (some (newObj gs)) q ≠ none →
      atO (some (newObj fs)) q ≠ none ∨ Occurs ns q
  | [], _, _, _, _, _, fs, gs, _, _, q, _, _, h, hq => by
    cases h; exact .inl hq
  | .field cs :: ns, hw, hs, hj, arr, outer, fs, gs, n, m, q, hf, hne, h, hq => by
    obtain ⟨⟨⟨k, ks, ts, hkey⟩, ⟨w, hval⟩, hcs⟩, hw2⟩ := hw
    simp only [staticL, static, Bool.and_eq_true, Bool.not_eq_true'] at hs
    simp only [noJoinL, noJoin, Bool.and_eq_true] at hj
    rw [parseFields_field _ _ _ _ _ _ _ _ _ hs.1.1, hkey] at h
    simp only [Res.ok_bind, Res.bind_eq_ok] at h
    obtain ⟨⟨v, n1⟩, q1, fs1, q2, q3⟩ := h
    have pv := parseFieldValue_plain env inc nofalse false arr _ cs n n1 v hs.1.2 q1
    obtain ⟨fs2, r1, r2, r3⟩ := putField_over (key := k :: ks) (by simp) hf pv
    rw [q2] at r1
    cases r1
    rw [Occurs.cons]
    rcases has_loop env inc ns hw2 hs.2 hj.2 arr outer fs1 gs n1 m q r2 hne q3 hq with h | h
    · have hq' : atO (some (newObj fs)) q ≠ none ∨ atO (some (nest (k :: ks) v)) q ≠ none := by
        match q with
        | [] => exact absurd rfl hne
        | k' :: q =>
          rw [atO_cons, sub_newObj, r3] at h
          rw [atO_cons, atO_cons, sub_newObj]
          exact (atO_over (fun x hx => hf.find hx) h).symm
      rcases hq' with h | h
      · exact .inl h
      · refine .inr (.inl ?_)
        rw [Occurs.field hkey]
        rcases atO_nest h with h | ⟨rem, h1, h2, h3⟩
        · exact .inl h
        · obtain ⟨ocs, h4, h5⟩ := has_field env inc cs hcs hs.1.2 hj.1 _ _ _ _ _ _ h1 q1 h3
          exact .inr ⟨rem, ocs, h1, h2, h4, h5⟩
    · exact .inr (.inr h)
  | .incl _ _ :: ns, _, hs, _, _, _, _, _, _, _, _, _, _, _, _ => by simp [staticL, static] at hs
  | .single _ :: ns, hw, hs, hj, arr, outer, fs, gs, n, m, q, hf, hne, h, hq
  | .comment _ :: ns, hw, hs, hj, arr, outer, fs, gs, n, m, q, hf, hne, h, hq
  | .path _ _ :: ns, hw, hs, hj, arr, outer, fs, gs, n, m, q, hf, hne, h, hq
  | .simple _ :: ns, hw, hs, hj, arr, outer, fs, gs, n, m, q, hf, hne, h, hq
  | .object _ :: ns, hw, hs, hj, arr, outer, fs, gs, n, m, q, hf, hne, h, hq
  | .array _ :: ns, hw, hs, hj, arr, outer, fs, gs, n, m, q, hf, hne, h, hq
  | .concat _ :: ns, hw, hs, hj, arr, outer, fs, gs, n, m, q, hf, hne, h, hq => by
    simp only [staticL, noJoinL, Bool.and_eq_true] at hs hj
    rw [parseFields_skip _ _ _ _ _ _ _ _ _ (by simp) (by simp)] at h
    rcases has_loop env inc ns hw.2 hs.2 hj.2 arr outer fs gs n m q hf hne h hq with h | h
    · exact .inl h
    · exact .inr (Occurs.cons.2 (.inr h))
termination_by structural ns => ns
theorem has_field (env : Env) (inc : Includer) : (cs : List Node) → WfList .conf cs → staticL false cs = true →
    noJoinL cs = true → ∀ arr outer n m v rem, rem ≠ [] → parseFieldValue env inc false arr outer cs n = .ok (v, m) →
      atO (some v) rem ≠ none → ∃ ocs, fieldValue cs = .ok (.object ocs) ∧ Occurs ocs rem
  | [], _, _, _, _, _, _, _, _, _, _, h, _ => by cases h
  | c :: cs, hw, hs, hj, arr, outer, n, m, v, rem, hr, h, hq => by
    simp only [staticL, noJoinL, Bool.and_eq_true] at hs hj
    rw [parseFieldValue] at h
    rw [fieldValue]
    by_cases hc : c.isValue = true
    · rw [if_pos hc] at h ⊢
      obtain ⟨ocs, h1, h2⟩ := has_value env inc c hw.1 hs.1 hj.1 arr outer n m v rem hr h hq
      exact ⟨ocs, by rw [h1], h2⟩
    · rw [if_neg hc] at h ⊢
      exact has_field env inc cs hw.2 hs.2 hj.2 arr outer n m v rem hr h hq
termination_by structural cs => cs
theorem has_value (env : Env) (inc : Includer) : (c : Node) → WfNode .conf c → static false c = true →
    noJoin c = true → ∀ arr outer n m v rem, rem ≠ [] → parseValue env inc false arr outer c n = .ok (v, m) →
      atO (some v) rem ≠ none → ∃ ocs, c = .object ocs ∧ Occurs ocs rem
  | .object ocs, hw, hs, hj, arr, outer, n, m, v, rem, hr, h, hq => by
    simp only [parseValue, Res.bind_eq_ok] at h
    obtain ⟨⟨gs, m'⟩, h2, h3⟩ := h
    simp only [Res.ok.injEq, Prod.mk.injEq] at h3
    obtain ⟨rfl, rfl⟩ := h3
    rw [static] at hs
    rw [noJoin] at hj
    refine ⟨ocs, rfl, ?_⟩
    have hnil : PlainF [] := ⟨by simp [keysOf], by simp⟩
    rcases has_loop env inc ocs hw.2.2 hs hj arr outer [] gs n m' rem hnil hr h2 hq with h | h
    · match rem with
      | [] => exact absurd rfl hr
      | k :: rem => exact absurd rfl h
    · exact h
  | .single _, _, hs, hj, _, _, _, _, v, rem, hr, h, hq
  | .comment _, _, hs, hj, _, _, _, _, v, rem, hr, h, hq
  | .path _ _, _, hs, hj, _, _, _, _, v, rem, hr, h, hq
  | .simple _, _, hs, hj, _, _, _, _, v, rem, hr, h, hq
  | .field _, _, hs, hj, _, _, _, _, v, rem, hr, h, hq
  | .array _, _, hs, hj, _, _, _, _, v, rem, hr, h, hq
  | .concat _, _, hs, hj, _, _, _, _, v, rem, hr, h, hq
  | .incl _ _, _, hs, hj, _, _, _, _, v, rem, hr, h, hq => by
    exfalso
    have := read_nonobj env inc (by simp) hj hs h
    match rem with
    | [] => exact hr rfl
    | k :: rem =>
      rw [atO_cons, sub_nonobj this] at hq
      exact hq rfl
termination_by structural c => c
end

/-! ## Lines -/

theorem fieldSeparator_unline (cs : List Node) :
    fieldSeparator (unlineList cs) = (fieldSeparator cs).map Tok.unline := by
  induction cs with
  | nil => rfl
  | cons n cs ih =>
    rw [unlineList, fieldSeparator, fieldSeparator, ih]
    cases n with
    | single t => cases t <;> rfl
    | comment t => cases t <;> rfl
    | _ => rfl

theorem isPlusEquals_unline (cs : List Node) : isPlusEquals (unlineList cs) = isPlusEquals cs := by
  unfold isPlusEquals
  rw [fieldSeparator_unline]
  cases fieldSeparator cs with
  | none => rfl
  | some t => cases t <;> rfl

mutual
theorem static_unline {b : Bool} : (c : Node) → static b c.unline = static b c
  | .field cs => by rw [Node.unline, static, static, isPlusEquals_unline, staticL_unline cs]
  | .object cs => by rw [Node.unline, static, static, staticL_unline cs]
  | .array cs => by rw [Node.unline, static, static, staticL_unline cs]
  | .concat cs => by rw [Node.unline, static, static, staticL_unline cs]
  | .simple t => by cases t <;> rfl
  | .incl cs _ => by rw [Node.unline, static, static, staticL_unline cs]
  | .single _ | .comment _ | .path _ _ => rfl
termination_by structural c => c
theorem staticL_unline {b : Bool} : (cs : List Node) → staticL b (unlineList cs) = staticL b cs
  | [] => rfl
  | c :: cs => by rw [unlineList, staticL, staticL, static_unline c, staticL_unline cs]
termination_by structural cs => cs
end

theorem includeName_unline {b : Bool} (env : Env) : ∀ (cs : List Node), staticL b cs = true →
    ∀ n, includeName env (unlineList cs) n = includeName env cs n
  | [], _, _ => rfl
  | c :: cs, hs, n => by
    simp only [staticL, Bool.and_eq_true] at hs
    rw [unlineList]
    cases c with
    | simple t =>
      rw [Node.unline, includeName, includeName]
      cases t with
      | subst => simp [static] at hs
      | _ => rfl
    | _ => simp only [Node.unline, includeName]; exact includeName_unline env cs hs.2 n

theorem parseInclude_unline {b : Bool} (env : Env) (inc : Includer) (cs : List Node) (hs : staticL b cs = true) (arr : Nat)
    (k : IncludeKind) (fs : Fields) (n : Nat) :
    parseInclude env inc arr k (unlineList cs) fs n = parseInclude env inc arr k cs fs n := by
  rw [parseInclude, parseInclude]
  cases k <;> simp only [callIncluder, includeName_unline env cs hs]

mutual
theorem parseValue_unline {b : Bool} (env : Env) (inc : Includer) (json : Bool) : (c : Node) → static b c = true →
    ∀ arr outer n, parseValue env inc json arr outer c.unline n = parseValue env inc json arr outer c n
  | .simple t, hs, _, _, _ => by
    rw [Node.unline, parseValue, parseValue]
    cases t with
    | subst => simp [static] at hs
    | _ => rfl
  | .object cs, hs, arr, outer, n => by
    rw [static] at hs
    rw [Node.unline, parseValue, parseValue, parseFields_unline env inc json cs hs arr outer [] n]
  | .array cs, hs, arr, outer, n => by
    rw [static] at hs
    rw [Node.unline, parseValue, parseValue, parseElems_unline env inc json cs hs]
  | .concat cs, hs, arr, outer, n => by
    rw [static] at hs
    rw [Node.unline, parseValue, parseValue, parseElems_unline env inc json cs hs]
  | .single _, _, _, _, _ | .comment _, _, _, _, _ | .path _ _, _, _, _, _ | .field _, _, _, _, _
  | .incl _ _, _, _, _, _ => by simp [Node.unline, parseValue]
termination_by structural c => c
theorem parseElems_unline {b : Bool} (env : Env) (inc : Includer) (json : Bool) : (cs : List Node) → staticL b cs = true →
    ∀ arr outer n, parseElems env inc json arr outer (unlineList cs) n = parseElems env inc json arr outer cs n
  | [], _, _, _, _ => rfl
  | c :: cs, hs, arr, outer, n => by
    simp only [staticL, Bool.and_eq_true] at hs
    rw [unlineList, parseElems, parseElems, isValue_unline, parseValue_unline env inc json c hs.1]
    simp only [parseElems_unline env inc json cs hs.2]
termination_by structural cs => cs
theorem parseFieldValue_unline {b : Bool} (env : Env) (inc : Includer) (json : Bool) : (cs : List Node) → staticL b cs = true →
    ∀ arr outer n, parseFieldValue env inc json arr outer (unlineList cs) n = parseFieldValue env inc json arr outer cs n
  | [], _, _, _, _ => rfl
  | c :: cs, hs, arr, outer, n => by
    simp only [staticL, Bool.and_eq_true] at hs
    rw [unlineList, parseFieldValue, parseFieldValue, isValue_unline, parseValue_unline env inc json c hs.1,
      parseFieldValue_unline env inc json cs hs.2]
termination_by structural cs => cs
theorem parseFields_unline {b : Bool} (env : Env) (inc : Includer) (json : Bool) : (cs : List Node) → staticL b cs = true →
    ∀ arr outer fs n, parseFields env inc json arr outer (unlineList cs) fs n = parseFields env inc json arr outer cs fs n
  | [], _, _, _, _, _ => rfl
  | .field ds :: cs, hs, arr, outer, fs, n => by
    simp only [staticL, static, Bool.and_eq_true, Bool.not_eq_true'] at hs
    rw [unlineList, Node.unline, parseFields_field _ _ _ _ _ _ _ _ _ hs.1.1,
      parseFields_field _ _ _ _ _ _ _ _ _ (by rw [isPlusEquals_unline]; exact hs.1.1), DocEdit.fieldPath_unline]
    simp only [parseFieldValue_unline env inc json ds hs.1.2, parseFields_unline env inc json cs hs.2]
    cases fieldPath ds <;> rfl
  | .incl ds k :: cs, hs, arr, outer, fs, n => by
    simp only [staticL, static, Bool.and_eq_true] at hs
    rw [unlineList, Node.unline, parseFields, parseFields]
    simp only [parseInclude_unline env inc ds hs.1.2, parseFields_unline env inc json cs hs.2]
  | .single _ :: cs, hs, arr, outer, fs, n | .comment _ :: cs, hs, arr, outer, fs, n
  | .path _ _ :: cs, hs, arr, outer, fs, n | .simple _ :: cs, hs, arr, outer, fs, n
  | .object _ :: cs, hs, arr, outer, fs, n | .array _ :: cs, hs, arr, outer, fs, n
  | .concat _ :: cs, hs, arr, outer, fs, n => by
    simp only [staticL, Bool.and_eq_true] at hs
    rw [unlineList, Node.unline, parseFields_skip _ _ _ _ _ _ _ _ _ (by simp) (by simp),
      parseFields_skip _ _ _ _ _ _ _ _ _ (by simp) (by simp), parseFields_unline env inc json cs hs.2]
termination_by structural cs => cs
end

theorem isComplex_unline (c : Node) : c.unline.isComplex = c.isComplex := by cases c <;> rfl

theorem parseRoot_unline {b : Bool} (env : Env) (inc : Includer) (json : Bool) : ∀ (cs : List Node), staticL b cs = true →
    ∀ r n, parseRoot env inc json (unlineList cs) r n = parseRoot env inc json cs r n
  | [], _, _, _ => rfl
  | c :: cs, hs, r, n => by
    simp only [staticL, Bool.and_eq_true] at hs
    have ih := parseRoot_unline env inc json cs hs.2
    rw [unlineList]
    by_cases hc : c.isComplex = true
    · rw [parseRoot.eq_def, parseRoot.eq_def]
      simp only [isComplex_unline, hc, if_true, parseValue_unline env inc json c hs.1, ih]
    · cases c with
      | single t => cases t <;> cases r <;> simp [Node.unline, Tok.unline, parseRoot, Node.isComplex, ih]
      | object | array | concat => exact absurd rfl hc
      | _ => simp [Node.unline, parseRoot, Node.isComplex, ih]

/-- Trees that differ only in the line numbers are read as the same value. -/
theorem parseRoot_lines {b : Bool} {env : Env} {inc : Includer} {json : Bool} {cs ds : List Node} (h : unlineList ds = unlineList cs)
    (hs : staticL b cs = true) (r : Option Value) (n : Nat) :
    parseRoot env inc json ds r n = parseRoot env inc json cs r n := by
  have hs' : staticL b ds = true := by rw [← staticL_unline, h, staticL_unline]; exact hs
  rw [← parseRoot_unline env inc json ds hs', h, parseRoot_unline env inc json cs hs]

end EditRead
end Hocon
