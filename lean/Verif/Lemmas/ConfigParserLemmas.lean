import Verif.Props.ConcatProps
import Verif.Props.FactoryProps
import Verif.Props.ObjectProps

/-!
# Lemmas about the config parser
-/

set_option autoImplicit false

namespace Hocon
namespace ConfigParser

open Value Spec

mutual
/-- No substitutions and no `+=` in the tree, and no includes unless they are allowed. -/
def static (b : Bool) : Node → Bool
  | .simple (.subst ..) => false
  | .field cs => !isPlusEquals cs && staticL b cs
  | .incl cs _ => b && staticL b cs
  | .object cs => staticL b cs
  | .array cs => staticL b cs
  | .concat cs => staticL b cs
  | _ => true
def staticL (b : Bool) : List Node → Bool
  | [] => true
  | c :: cs => static b c && staticL b cs
end

mutual
/-- No `+=` in the tree. -/
def noPlus : Node → Bool
  | .field cs => !isPlusEquals cs && noPlusL cs
  | .object cs => noPlusL cs
  | .array cs => noPlusL cs
  | .concat cs => noPlusL cs
  | _ => true
def noPlusL : List Node → Bool
  | [] => true
  | c :: cs => noPlus c && noPlusL cs
end

/-- The includer returns only objects without substitutions. -/
def IncPlain (inc : Includer) : Prop :=
  ∀ name n v m, inc.file name n = .ok (v, m) ∨ inc.heuristic name n = .ok (v, m) →
    v.Plain ∧ v.isObject = true ∧ closed v = false

/-! ## Plain results -/

theorem join_plain (env : Env) (a b : Value) (o : Option Value) (ha : a.Plain) (hb : b.Plain)
    (h : join env a b = .ok o) : ∃ j, o = some j ∧ j.Plain := by
  cases hq : b.isIgnoredWhitespace with
  | false =>
    obtain ⟨_, j, h1, h2, _⟩ := join_kinds env a b o ha hb hq h
    exact ⟨j, h1, h2⟩
  | true =>
    cases b with
    | scalar t =>
      rcases ha.cases with ⟨h1, h2, _⟩ | ⟨fs, i, rfl, hf⟩
      · cases a <;> simp [isObject, isUnmergeable] at h1 h2
        · rename_i s _
          by_cases hs : s.transformToString env = []
          · simp [join, isObject, isList, isConcat, isUnmergeable, toText, hs] at h
          by_cases ht : t.transformToString env = []
          · simp [join, isObject, isList, isConcat, isUnmergeable, toText, ht] at h
          rw [join_scalars env s t hs ht] at h
          simp only [Res.ok.injEq] at h
          exact ⟨_, h.symm, by simp [Wf], rfl⟩
        · simp [join, isObject, isList, hq] at h
          exact ⟨_, h.symm, ha⟩
      · simp [join, isObject, isList, hq] at h
        exact ⟨_, h.symm, ha⟩
    | _ => simp [isIgnoredWhitespace] at hq

theorem joinLoop_plain (env : Env) (a : Value) (vs c : List Value) (ha : a.Plain)
    (hv : ∀ v ∈ vs, v.Plain) (h : joinLoop env [] a vs = .ok c) : ∃ j, c = [j] ∧ j.Plain := by
  induction vs generalizing a with
  | nil =>
    simp only [joinLoop, List.nil_append, Res.ok.injEq] at h
    exact ⟨a, h.symm, ha⟩
  | cons b vs ih =>
    rw [joinLoop, Res.bind_eq_ok] at h
    obtain ⟨o, ho, h⟩ := h
    obtain ⟨j, rfl, hj⟩ := join_plain env a b o ha (hv b (by simp)) ho
    exact ih j hj (fun w hw => hv w (by simp [hw])) h

theorem Plain.notConcat {v : Value} (h : v.Plain) : v.isConcat = false := by
  have := h.res
  cases v <;> simp_all [resolved, isConcat]

theorem concatenate_plain (env : Env) (vs : List Value) (v : Value) (h : ∀ w ∈ vs, w.Plain)
    (hok : concatenate env vs = .ok (some v)) : v.Plain := by
  match vs with
  | [] => simp [concatenate, consolidate] at hok
  | [w] =>
    rw [C41_single] at hok
    simp only [Res.ok.injEq, Option.some.injEq] at hok
    exact hok ▸ h w (by simp)
  | a :: b :: vs =>
    rw [concatenate_eq _ _ _ _ (fun x hx => Plain.notConcat (h x hx)), Res.bind_eq_ok] at hok
    obtain ⟨c, hj, hok⟩ := hok
    obtain ⟨j, rfl, hp⟩ := joinLoop_plain env a (b :: vs) c (h a (by simp))
      (fun x hx => h x (by simp_all)) hj
    simp only [Res.ok.injEq, Option.some.injEq] at hok
    exact hok ▸ hp

theorem findKey_putKey (k k' : Str) (v : Value) (fs : Fields) :
    findKey (putKey k v fs) k' = if k = k' then some v else findKey fs k' := by
  induction fs with
  | nil => simp [putKey, findKey_cons]
  | cons f fs ih =>
    obtain ⟨a, w⟩ := f
    by_cases ha : a = k
    · simp only [putKey, ha, if_true, findKey_cons]
      by_cases h : k = k' <;> simp [h]
    · simp only [putKey, ha, if_false, findKey_cons, ih]
      by_cases h : k = k'
      · subst h; simp [ha]
      · simp [h]

theorem mem_putKey {k : Str} {v : Value} {fs : Fields} {f : Str × Value} (h : f ∈ putKey k v fs) :
    f = (k, v) ∨ f ∈ fs := by
  induction fs with
  | nil => simpa [putKey] using h
  | cons g fs ih =>
    obtain ⟨a, w⟩ := g
    rw [putKey] at h
    split at h
    · rename_i ha
      rcases List.mem_cons.1 h with h | h
      · exact .inl (by rw [h, ha])
      · exact .inr (by simp [h])
    · rcases List.mem_cons.1 h with h | h
      · exact .inr (by simp [h])
      · rcases ih h with h | h
        · exact .inl h
        · exact .inr (by simp [h])

theorem keysOf_putKey_mem {k : Str} {v : Value} {fs : Fields} (h : k ∈ keysOf fs) :
    keysOf (putKey k v fs) = keysOf fs := by
  induction fs with
  | nil => simp [keysOf] at h
  | cons g fs ih =>
    obtain ⟨a, w⟩ := g
    by_cases ha : a = k
    · simp [putKey, ha, keysOf]
    · have : k ∈ keysOf fs := by
        simp only [keysOf, List.map_cons, List.mem_cons] at h
        exact h.resolve_left fun e => ha e.symm
      simp only [putKey, ha, if_false]
      have := ih this
      simp_all [keysOf]

theorem putKey_not_mem {k : Str} {v : Value} {fs : Fields} (h : k ∉ keysOf fs) :
    putKey k v fs = fs ++ [(k, v)] := by
  induction fs with
  | nil => rfl
  | cons g fs ih =>
    obtain ⟨a, w⟩ := g
    simp only [keysOf, List.map_cons, List.mem_cons, not_or] at h
    rw [putKey, if_neg fun e : a = k => h.1 e.symm, List.cons_append, ih h.2]

theorem putKey_nodup {k : Str} {v : Value} {fs : Fields} (h : (keysOf fs).Nodup) :
    (keysOf (putKey k v fs)).Nodup := by
  by_cases hk : k ∈ keysOf fs
  · rw [keysOf_putKey_mem hk]; exact h
  · rw [putKey_not_mem hk, keysOf_append]
    exact List.nodup_append.2 ⟨h, by simp [keysOf], by
      intro a ha b hb
      simp only [keysOf, List.map_cons, List.map_nil, List.mem_singleton] at hb
      rintro rfl
      exact hk (hb ▸ ha)⟩

theorem PlainF.put {k : Str} {v : Value} {fs : Fields} (h : PlainF fs) (hv : v.Plain) :
    PlainF (putKey k v fs) := by
  refine ⟨putKey_nodup h.nodup, fun f hf => ?_⟩
  rcases mem_putKey hf with rfl | hf
  · exact hv
  · exact h.all f hf

theorem newObj_plain {fs : Fields} (h : PlainF fs) : (newObj fs).Plain := by
  have : resolvedFields fs = true := resolvedFields_iff.2 fun f hf => (h.all f hf).res
  rw [newObj, this]
  exact plain_obj.2 ⟨rfl, h⟩

theorem nest_plain {v : Value} (h : v.Plain) (p : Path) : (nest p v).Plain := by
  induction p with
  | nil => exact h
  | cons k p ih => exact newObj_plain ⟨by simp [keysOf], by simpa using ih⟩

theorem createValueUnderPath_eq (p : Path) (v : Value) (h : p ≠ []) :
    createValueUnderPath p v = .ok (nest p v) := by
  induction p with
  | nil => exact absurd rfl h
  | cons k p ih =>
    cases p with
    | nil => rfl
    | cons k' p => rw [createValueUnderPath, ih (by simp)]; rfl; simp

/-- Storing a field is storing the nested objects under its first key. -/
theorem putField_conf (fs : Fields) (k : Str) (p : Path) (v : Value) :
    putField false fs (k :: p) v = putMerged fs k (nest p v) := by
  cases p with
  | nil => simp [putField, nest]
  | cons k' p =>
    rw [putField, if_neg (by simp), createValueUnderPath_eq _ _ (by simp)]
    rfl
    simp

theorem putMerged_plain {fs : Fields} {k : Str} {w : Value} (hf : PlainF fs) (hw : w.Plain) :
    ∃ m, putMerged fs k w = .ok (putKey k m fs) ∧ m.Plain ∧
      m = (match findKey fs k with | none => w | some old => pmerge w old) := by
  rw [putMerged]
  cases h : findKey fs k with
  | none => exact ⟨w, rfl, hw, rfl⟩
  | some old =>
    have ho := hf.find h
    exact ⟨pmerge w old, by simp [(withFallback_plain w old hw ho).1], hw.merge ho, rfl⟩

theorem putField_plain {json : Bool} {fs fs' : Fields} {p : Path} {v : Value} (hf : PlainF fs)
    (hv : v.Plain) (h : putField json fs p v = .ok fs') : PlainF fs' := by
  match p with
  | [] => simp [putField] at h
  | k :: p =>
    have key : putMerged fs k (nest p v) = .ok fs' := by
      cases json with
      | false => rwa [putField_conf] at h
      | true =>
        cases p with
        | nil =>
          simp only [putField] at h
          split at h
          · cases h
          · exact h
        | cons k' p => simp [putField] at h
    obtain ⟨m, h1, h2, _⟩ := putMerged_plain (k := k) hf (nest_plain hv p)
    rw [h1] at key
    simp only [Res.ok.injEq] at key
    exact key ▸ PlainF.put hf h2

theorem putAll_plain (gs fs fs' : Fields) (hf : PlainF fs) (hg : PlainF gs)
    (h : putAll fs gs = .ok fs') : PlainF fs' ∧ ∀ k, findKey fs' k =
      (match findKey gs k, findKey fs k with
        | some v, some w => some (pmerge v w)
        | some v, none => some v
        | none, o => o) := by
  induction gs generalizing fs with
  | nil =>
    simp only [putAll, Res.ok.injEq] at h
    subst h
    exact ⟨hf, fun k => by simp⟩
  | cons g gs ih =>
    obtain ⟨k, v⟩ := g
    obtain ⟨hv, hg', hk⟩ := hg.cons
    obtain ⟨m, h1, h2, h3⟩ := putMerged_plain (k := k) hf hv
    rw [putAll, h1, Res.ok_bind] at h
    obtain ⟨e1, e2⟩ := ih (putKey k m fs) (PlainF.put hf h2) hg' h
    refine ⟨e1, fun k' => ?_⟩
    rw [e2, findKey_putKey, findKey_cons]
    by_cases hkk : k = k'
    · subst hkk
      rw [findKey_none.2 hk]
      simp only [if_true]
      rw [h3]
      cases findKey fs k <;> rfl
    · simp [hkk]

theorem parseInclude_ok (env : Env) (inc : Includer) (hi : IncPlain inc) (arr : Nat)
    (k : IncludeKind) (ds : List Node) (fs fs' : Fields) (n m : Nat)
    (h : parseInclude env inc arr k ds fs n = .ok (fs', m)) :
    ∃ gs, PlainF gs ∧ putAll fs gs = .ok fs' ∧
      ∃ name n', inc.file name n' = .ok (.obj gs true false, m) ∨
        inc.heuristic name n' = .ok (.obj gs true false, m) := by
  simp only [parseInclude, Res.bind_eq_ok] at h
  obtain ⟨⟨o, n1⟩, h1, gs', h2, h4⟩ := h
  simp only [Res.ok.injEq, Prod.mk.injEq] at h4
  obtain ⟨rfl, rfl⟩ := h4
  have key : ∃ name n', inc.file name n' = .ok (o, n1) ∨ inc.heuristic name n' = .ok (o, n1) := by
    cases k with
    | file =>
      simp only [callIncluder, Res.bind_eq_ok] at h1
      obtain ⟨⟨name, n'⟩, _, h1⟩ := h1
      exact ⟨name, n', .inl h1⟩
    | heuristic =>
      simp only [callIncluder, Res.bind_eq_ok] at h1
      obtain ⟨⟨name, n'⟩, _, h1⟩ := h1
      exact ⟨name, n', .inr h1⟩
    | _ => cases h1
  obtain ⟨name, n', hn⟩ := key
  obtain ⟨hp, ho, hc⟩ := hi name n' o n1 hn
  simp only at h2
  cases o with
  | obj gs r i =>
    obtain ⟨rfl, hg⟩ := plain_obj.1 hp
    simp only [closed] at hc
    subst hc
    rw [putIncluded] at h2
    split at h2
    · cases h2
    · exact ⟨gs, hg, h2, name, n', hn⟩
  | dmo st => exact absurd hp.res (by simp [resolved])
  | _ => simp [isObject] at ho

theorem getValue_plain {b : Bool} (env : Env) (t : Tok) (n m : Nat) (v : Value)
    (hs : static b (.simple t) = true) (h : getValue env t n = .ok (v, m)) : v.Plain := by
  cases t with
  | value s text l =>
    simp only [getValue, Res.ok.injEq, Prod.mk.injEq] at h
    exact h.1 ▸ ⟨by simp [Wf], rfl⟩
  | unquoted s l =>
    simp only [getValue, Res.ok.injEq, Prod.mk.injEq] at h
    exact h.1 ▸ ⟨by simp [Wf], rfl⟩
  | subst => simp [static] at hs
  | _ => simp [getValue] at h

mutual
theorem parseValue_plain {b : Bool} (env : Env) (inc : Includer) (hi : b = true → IncPlain inc) (json : Bool) (arr : Nat)
    (outer : Option Path) (c : Node) (n m : Nat) (v : Value) (hs : static b c = true)
    (h : parseValue env inc json arr outer c n = .ok (v, m)) : v.Plain := by
  match c with
  | .simple t =>
    rw [parseValue] at h
    exact getValue_plain env t n m v hs h
  | .object cs =>
    simp only [parseValue, Res.bind_eq_ok] at h
    obtain ⟨⟨fs, n'⟩, h1, h2⟩ := h
    simp only [Res.ok.injEq, Prod.mk.injEq] at h2
    rw [static] at hs
    exact h2.1 ▸ newObj_plain (parseFields_plain env inc hi json arr outer cs [] fs n n' hs
      ⟨by simp [keysOf], by simp⟩ h1)
  | .array cs =>
    simp only [parseValue, Res.bind_eq_ok] at h
    obtain ⟨⟨vs, n'⟩, h1, h2⟩ := h
    simp only [Res.ok.injEq, Prod.mk.injEq] at h2
    rw [static] at hs
    have := parseElems_plain env inc hi json (arr + 1) outer cs n n' vs hs h1
    refine h2.1 ▸ ⟨?_, ?_⟩
    · simp only [Wf, WfL.iff]; exact fun w hw => (this w hw).wf
    · simp only [resolved, resolvedAll_iff]; exact fun w hw => (this w hw).res
  | .concat cs =>
    rw [parseValue] at h
    split at h
    · cases h
    · simp only [Res.bind_eq_ok] at h
      obtain ⟨⟨vs, n'⟩, h1, o, h2, w, h3, h4⟩ := h
      simp only [Res.ok.injEq, Prod.mk.injEq] at h4
      rw [static] at hs
      cases o with
      | none => cases h3
      | some x =>
        simp only [nonNull, Res.ok.injEq] at h3
        subst h3
        exact h4.1 ▸ concatenate_plain env vs x
          (parseElems_plain env inc hi json arr outer cs n n' vs hs h1) h2
  | .single t => simp [parseValue] at h
  | .comment t => simp [parseValue] at h
  | .path p ts => simp [parseValue] at h
  | .field cs => simp [parseValue] at h
  | .incl cs k => simp [parseValue] at h
theorem parseElems_plain {b : Bool} (env : Env) (inc : Includer) (hi : b = true → IncPlain inc) (json : Bool) (arr : Nat)
    (outer : Option Path) (cs : List Node) (n m : Nat) (vs : List Value) (hs : staticL b cs = true)
    (h : parseElems env inc json arr outer cs n = .ok (vs, m)) : ∀ v ∈ vs, v.Plain := by
  match cs with
  | [] =>
    simp only [parseElems, Res.ok.injEq, Prod.mk.injEq] at h
    simp [← h.1]
  | c :: cs =>
    simp only [staticL, Bool.and_eq_true] at hs
    rw [parseElems] at h
    split at h
    · simp only [Res.bind_eq_ok] at h
      obtain ⟨⟨v, n1⟩, h1, ⟨ws, n2⟩, h2, h3⟩ := h
      simp only [Res.ok.injEq, Prod.mk.injEq] at h3
      rw [← h3.1]
      intro w hw
      rcases List.mem_cons.1 hw with rfl | hw
      · exact parseValue_plain env inc hi json arr outer c n n1 _ hs.1 h1
      · exact parseElems_plain env inc hi json arr outer cs n1 n2 ws hs.2 h2 w hw
    · exact parseElems_plain env inc hi json arr outer cs n m vs hs.2 h
theorem parseFieldValue_plain {b : Bool} (env : Env) (inc : Includer) (hi : b = true → IncPlain inc) (json : Bool) (arr : Nat)
    (outer : Option Path) (cs : List Node) (n m : Nat) (v : Value) (hs : staticL b cs = true)
    (h : parseFieldValue env inc json arr outer cs n = .ok (v, m)) : v.Plain := by
  match cs with
  | [] => simp [parseFieldValue] at h
  | c :: cs =>
    simp only [staticL, Bool.and_eq_true] at hs
    rw [parseFieldValue] at h
    split at h
    · exact parseValue_plain env inc hi json arr outer c n m v hs.1 h
    · exact parseFieldValue_plain env inc hi json arr outer cs n m v hs.2 h
theorem parseFields_plain {b : Bool} (env : Env) (inc : Includer) (hi : b = true → IncPlain inc) (json : Bool) (arr : Nat)
    (outer : Option Path) (cs : List Node) (fs fs' : Fields) (n m : Nat) (hs : staticL b cs = true)
    (hf : PlainF fs) (h : parseFields env inc json arr outer cs fs n = .ok (fs', m)) :
    PlainF fs' := by
  match cs with
  | [] =>
    simp only [parseFields, Res.ok.injEq, Prod.mk.injEq] at h
    exact h.1 ▸ hf
  | .incl ds k :: cs =>
    simp only [staticL, static, Bool.and_eq_true] at hs
    rw [parseFields] at h
    split at h
    · exact parseFields_plain env inc hi json arr outer cs fs fs' n m hs.2 hf h
    · simp only [Res.bind_eq_ok] at h
      obtain ⟨⟨gs, n1⟩, h1, h2⟩ := h
      obtain ⟨o, h3, h4, _⟩ := parseInclude_ok env inc (hi hs.1.1) arr k ds fs gs n n1 h1
      exact parseFields_plain env inc hi json arr outer cs gs fs' n1 m hs.2
        (putAll_plain o fs gs hf h3 h4).1 h2
  | .field ds :: cs =>
    simp only [staticL, static, Bool.and_eq_true, Bool.not_eq_true'] at hs
    simp only [parseFields, Res.bind_eq_ok, hs.1.1, Bool.false_eq_true, if_false] at h
    obtain ⟨⟨p, ts⟩, h1, ⟨v, n1⟩, h2, gs, h3, h4⟩ := h
    exact parseFields_plain env inc hi json arr outer cs gs fs' n1 m hs.2
      (putField_plain hf (parseFieldValue_plain env inc hi json arr _ ds n n1 v hs.1.2 h2) h3) h4
  | .single t :: cs =>
    simp only [staticL, Bool.and_eq_true] at hs
    rw [parseFields] at h
    exact parseFields_plain env inc hi json arr outer cs fs fs' n m hs.2 hf h
    all_goals simp
  | .comment t :: cs =>
    simp only [staticL, Bool.and_eq_true] at hs
    rw [parseFields] at h
    exact parseFields_plain env inc hi json arr outer cs fs fs' n m hs.2 hf h
    all_goals simp
  | .path p ts :: cs =>
    simp only [staticL, Bool.and_eq_true] at hs
    rw [parseFields] at h
    exact parseFields_plain env inc hi json arr outer cs fs fs' n m hs.2 hf h
    all_goals simp
  | .simple t :: cs =>
    simp only [staticL, Bool.and_eq_true] at hs
    rw [parseFields] at h
    exact parseFields_plain env inc hi json arr outer cs fs fs' n m hs.2 hf h
    all_goals simp
  | .object ds :: cs =>
    simp only [staticL, Bool.and_eq_true] at hs
    rw [parseFields] at h
    exact parseFields_plain env inc hi json arr outer cs fs fs' n m hs.2 hf h
    all_goals simp
  | .array ds :: cs =>
    simp only [staticL, Bool.and_eq_true] at hs
    rw [parseFields] at h
    exact parseFields_plain env inc hi json arr outer cs fs fs' n m hs.2 hf h
    all_goals simp
  | .concat ds :: cs =>
    simp only [staticL, Bool.and_eq_true] at hs
    rw [parseFields] at h
    exact parseFields_plain env inc hi json arr outer cs fs fs' n m hs.2 hf h
    all_goals simp
end

/-! ## Steps of the loop -/

theorem parseFields_skip (env : Env) (inc : Includer) (json : Bool) (arr : Nat)
    (outer : Option Path) (c : Node) (cs : List Node) (fs : Fields) (n : Nat)
    (h1 : ∀ ds, c ≠ .field ds) (h2 : ∀ ds k, c ≠ .incl ds k) :
    parseFields env inc json arr outer (c :: cs) fs n =
      parseFields env inc json arr outer cs fs n := by
  cases c <;> first | exact absurd rfl (h1 _) | exact absurd rfl (h2 _ _) | simp [parseFields]

theorem parseFields_field (env : Env) (inc : Includer) (json : Bool) (arr : Nat)
    (outer : Option Path) (ds cs : List Node) (fs : Fields) (n : Nat)
    (h : isPlusEquals ds = false) :
    parseFields env inc json arr outer (.field ds :: cs) fs n =
      (Node.fieldPath ds >>= fun pt =>
        parseFieldValue env inc json arr (some (pushPath outer pt.1)) ds n >>= fun vn =>
        putField json fs pt.1 vn.1 >>= fun fs =>
        parseFields env inc json arr outer cs fs vn.2) := by
  simp [parseFields, h]

theorem parseFields_append (env : Env) (inc : Includer) (json : Bool) (arr : Nat)
    (outer : Option Path) (as cs : List Node) (fs : Fields) (n : Nat) :
    parseFields env inc json arr outer (as ++ cs) fs n =
      (parseFields env inc json arr outer as fs n >>= fun r =>
        parseFields env inc json arr outer cs r.1 r.2) := by
  induction as generalizing fs n with
  | nil => simp [parseFields]
  | cons a as ih =>
    have bind_assoc : ∀ {α β γ : Type} (x : Res α) (f : α → Res β) (g : β → Res γ),
        ((x >>= f) >>= g) = (x >>= fun a => f a >>= g) := by
      intro α β γ x f g; cases x <;> rfl
    by_cases h1 : ∃ ds, a = .field ds
    · obtain ⟨ds, rfl⟩ := h1
      simp only [List.cons_append, parseFields, bind_assoc]
      congr 1; funext pt
      split
      · split
        · rfl
        · simp only [bind_assoc]
          congr 1; funext vn; congr 1; funext wn; congr 1; funext gs; exact ih _ _
      · simp only [bind_assoc]
        congr 1; funext vn; congr 1; funext gs; exact ih _ _
    by_cases h2 : ∃ ds k, a = .incl ds k
    · obtain ⟨ds, k, rfl⟩ := h2
      simp only [List.cons_append, parseFields]
      split
      · exact ih _ _
      · simp only [bind_assoc]
        congr 1; funext r; exact ih _ _
    · have e1 : ∀ ds, a ≠ .field ds := fun ds e => h1 ⟨ds, e⟩
      have e2 : ∀ ds k, a ≠ .incl ds k := fun ds k e => h2 ⟨ds, k, e⟩
      rw [List.cons_append, parseFields_skip _ _ _ _ _ _ _ _ _ e1 e2,
        parseFields_skip _ _ _ _ _ _ _ _ _ e1 e2]
      exact ih _ _

/-! ## The enclosing path matters only for `+=` -/

mutual
theorem parseValue_outer (env : Env) (inc : Includer) (json : Bool) (arr : Nat)
    (o1 o2 : Option Path) (c : Node) (n : Nat) (hs : noPlus c = true) :
    parseValue env inc json arr o1 c n = parseValue env inc json arr o2 c n := by
  match c with
  | .simple t => simp [parseValue]
  | .object cs =>
    rw [noPlus] at hs
    simp only [parseValue, parseFields_outer env inc json arr o1 o2 cs [] n hs]
  | .array cs =>
    rw [noPlus] at hs
    simp only [parseValue, parseElems_outer env inc json (arr + 1) o1 o2 cs n hs]
  | .concat cs =>
    rw [noPlus] at hs
    simp only [parseValue, parseElems_outer env inc json arr o1 o2 cs n hs]
  | .single t => simp [parseValue]
  | .comment t => simp [parseValue]
  | .path p ts => simp [parseValue]
  | .field cs => simp [parseValue]
  | .incl cs k => simp [parseValue]
theorem parseElems_outer (env : Env) (inc : Includer) (json : Bool) (arr : Nat)
    (o1 o2 : Option Path) (cs : List Node) (n : Nat) (hs : noPlusL cs = true) :
    parseElems env inc json arr o1 cs n = parseElems env inc json arr o2 cs n := by
  match cs with
  | [] => simp [parseElems]
  | c :: cs =>
    simp only [noPlusL, Bool.and_eq_true] at hs
    simp only [parseElems, parseValue_outer env inc json arr o1 o2 c n hs.1,
      fun n => parseElems_outer env inc json arr o1 o2 cs n hs.2]
theorem parseFieldValue_outer (env : Env) (inc : Includer) (json : Bool) (arr : Nat)
    (o1 o2 : Option Path) (cs : List Node) (n : Nat) (hs : noPlusL cs = true) :
    parseFieldValue env inc json arr o1 cs n = parseFieldValue env inc json arr o2 cs n := by
  match cs with
  | [] => simp [parseFieldValue]
  | c :: cs =>
    simp only [noPlusL, Bool.and_eq_true] at hs
    simp only [parseFieldValue, parseValue_outer env inc json arr o1 o2 c n hs.1,
      parseFieldValue_outer env inc json arr o1 o2 cs n hs.2]
theorem parseFields_outer (env : Env) (inc : Includer) (json : Bool) (arr : Nat)
    (o1 o2 : Option Path) (cs : List Node) (fs : Fields) (n : Nat) (hs : noPlusL cs = true) :
    parseFields env inc json arr o1 cs fs n = parseFields env inc json arr o2 cs fs n := by
  match cs with
  | [] => simp [parseFields]
  | c :: cs =>
    simp only [noPlusL, Bool.and_eq_true] at hs
    have ih : ∀ fs n, parseFields env inc json arr o1 cs fs n =
        parseFields env inc json arr o2 cs fs n :=
      fun fs n => parseFields_outer env inc json arr o1 o2 cs fs n hs.2
    match c with
    | .field ds =>
      simp only [noPlus, Bool.and_eq_true, Bool.not_eq_true'] at hs
      simp only [parseFields, hs.1.1, Bool.false_eq_true, if_false, ih]
      cases Node.fieldPath ds with
      | ok pt =>
        simp only [Res.ok_bind]
        rw [parseFieldValue_outer env inc json arr (some (pushPath o1 pt.1))
          (some (pushPath o2 pt.1)) ds n hs.1.2]
      | err e => rfl
      | ub => rfl
      | fuel => rfl
    | .incl ds k => simp only [parseFields, ih]
    | .single t => simp [parseFields, ih]
    | .comment t => simp [parseFields, ih]
    | .path p ts => simp [parseFields, ih]
    | .simple t => simp [parseFields, ih]
    | .object ds => simp [parseFields, ih]
    | .array ds => simp [parseFields, ih]
    | .concat ds => simp [parseFields, ih]
end

end ConfigParser
end Hocon
