import Verif.Lemmas.SettleRun

/-!
# Helper lemmas: lists whose first elements vanish
-/

set_option autoImplicit false

namespace Hocon
namespace Settle
open Spec Value Resolve

variable {env : Env} {ext : Path → Option Str}

/-- What vanishes was not resolved. -/
theorem Ev.none_unresolved {root v : Value} {m : List Nat} {pos : Option Path}
    (h : Ev env ext root m pos v none) : v.resolved = false := by
  cases h <;> rfl

theorem modifiedList_unsteady {vs : List Value} {os : List (Option Value)} (hl : os.length = vs.length)
    (hst : ¬ Steady vs os) (hr : ∀ v, vs.head? = some v → os.head? = some none → v.resolved = false) :
    modifiedList false vs os = .err .config := by
  match vs, os, hl, hst, hr with
  | [], _, _, hst, _ => exact absurd (by simp [Steady]) hst
  | [_], _, _, hst, _ => exact absurd (by simp [Steady]) hst
  | _ :: _ :: _, [], hl, _, _ => cases hl
  | _ :: _ :: _, [_], hl, _, _ => cases hl
  | _ :: _ :: _, some _ :: _ :: _, _, hst, _ => exact absurd (by simp [Steady]) hst
  | v :: w :: vs, none :: o :: os, hl, hst, hr =>
    have hne : (o != some w) = true := bne_iff_ne.2 hst
    have hv : v.resolved = false := hr v rfl rfl
    have key : changedElems [] false [] ((v :: w :: vs).zip (none :: o :: os)) =
        (true, [v] ++ o.toList ++ os.filterMap id) := by
      have hz : (vs.zip os).map Prod.snd = os := List.map_snd_zip (by simp at hl; omega)
      rw [List.zip_cons_cons, changedElems, List.zip_cons_cons]
      simp only [List.isEmpty_nil, Bool.true_and, show ((none : Option Value) != some v) = true from rfl, if_true,
        Option.toList_none, List.append_nil, List.nil_append]
      rw [changedElems]
      simp only [List.isEmpty_nil, Bool.true_and, hne, if_true]
      rw [changedElems_init _ _ _ (by simp), hz]
    have hbad : (Value.list ([v] ++ o.toList ++ os.filterMap id)).resolved = false := by
      cases hc : (Value.list ([v] ++ o.toList ++ os.filterMap id)).resolved with
      | false => rfl
      | true =>
        simp only [Value.resolved, resolvedAll_iff] at hc
        exact absurd (hc v (by simp)) (by simp [hv])
    unfold modifiedList
    rw [key]
    simp only [hbad, Bool.or_false, Bool.false_eq_true, if_false]

/-- With enough fuel the resolver throws for `v`. -/
def Throws (env : Env) (b : Bool) (root : Value) (m : List Nat) (pos : Option Path) (v : Value) : Prop :=
  ∃ N, ∀ n, N ≤ n → ∀ c s, Before b root m c s → (∀ q, pos = some q → s.path = chain root q []) →
    resolveN env n c s v = .err .config

theorem EvL.first_unresolved {root : Value} {m : List Nat} {vs : List Value} {os : List (Option Value)}
    (h : EvL env ext root m vs os) : ∀ v, vs.head? = some v → os.head? = some none → v.resolved = false := by
  intro v hv ho
  cases h with
  | nil => cases hv
  | cons h1 _ =>
    simp only [List.head?_cons, Option.some.injEq] at hv ho
    subst hv ho
    exact Ev.none_unresolved h1

theorem throws_list {b : Bool} {root : Value} {m : List Nat} {pos : Option Path} {vs : List Value}
    {os : List (Option Value)} (h : EvL env (envExt env b) root m vs os) (hst : ¬ Steady vs os)
    (hroot : root.Wf) (hobj : root.isObject = true) (hv : WfL vs) :
    Throws env b root m pos (.list vs) := by
  obtain ⟨N, hg⟩ := EvL.goes h hroot hobj hv
  have hm := modifiedList_unsteady (EvL.length h) hst (EvL.first_unresolved h)
  have hc : (Value.list vs).resolved = false := by
    match vs, os, h, hst with
    | [], _, _, hst => exact absurd (by simp [Steady]) hst
    | [_], _, _, hst => exact absurd (by simp [Steady]) hst
    | v :: w :: vs, none :: o :: os, h, _ =>
      have := EvL.first_unresolved h v rfl rfl
      simp [Value.resolved, resolvedAll, this]
    | _ :: _ :: _, some _ :: _, _, hst => exact absurd (by simp [Steady]) hst
  refine ⟨N + 1, fun n hn c s hb _ => ?_⟩
  cases n with
  | zero => omega
  | succ n =>
    obtain ⟨⟨c', e, a⟩, -⟩ := hg n (by omega) c (s.push (.list vs)) ⟨hb.opts, hb.restr, hb.marks,
      (push_root _ _).trans hb.root⟩
    rw [resolveN_succ rfl]
    simp only [resolveSubstitutions, resolveList, hc, hb.restr, List.isEmpty_nil, Bool.not_true,
      Bool.false_eq_true, if_false, e, Res.bind, hb.opts, hm]

/-- The elements before the one that throws are resolved. -/
theorem elems_throw {b : Bool} {root v : Value} {m : List Nat} {post : List Value}
    (hf : Throws env b root m none v) : {pre : List Value} → {os : List (Option Value)} →
    EvL env (envExt env b) root m pre os → root.Wf → root.isObject = true → WfL pre →
    ∃ N, ∀ n, N ≤ n → ∀ c s, Before b root m c s →
      resolveElems (resolveN env n) s c (pre ++ v :: post) = .err .config
  | [], _, _, _, _, _ => by
    obtain ⟨N, hg⟩ := hf
    refine ⟨N, fun n hn c s hb => ?_⟩
    simp only [List.nil_append, resolveElems, hg n hn c s hb (by simp), Res.bind]
  | w :: pre, _, h, hroot, hobj, hw => by
    cases h with
    | cons h1 h2 =>
      obtain ⟨N1, hg⟩ := Ev.goes h1 hroot hobj hw.1 (by simp)
      obtain ⟨N2, ht⟩ := elems_throw (post := post) hf h2 hroot hobj hw.2
      refine ⟨max N1 N2, fun n hn c s hb => ?_⟩
      obtain ⟨c1, e1, a1⟩ := hg n (by omega) c s hb (by simp)
      simp only [List.cons_append, resolveElems, e1, Res.bind, ht n (by omega) c1 s (a1.before hb hb.root)]

theorem throws_elem {b : Bool} {root v : Value} {m : List Nat} {pos : Option Path} {pre post : List Value}
    {os : List (Option Value)} (h : EvL env (envExt env b) root m pre os) (hf : Throws env b root m none v)
    (hu : v.resolved = false)
    (hroot : root.Wf) (hobj : root.isObject = true) (hw : WfL pre) :
    Throws env b root m pos (.list (pre ++ v :: post)) := by
  obtain ⟨N, hg⟩ := elems_throw (post := post) hf h hroot hobj hw
  have hc : (Value.list (pre ++ v :: post)).resolved = false := by
    cases hc : (Value.list (pre ++ v :: post)).resolved with
    | false => rfl
    | true =>
      simp only [Value.resolved, resolvedAll_iff] at hc
      exact absurd (hc v (by simp)) (by simp [hu])
  refine ⟨N + 1, fun n hn c s hb _ => ?_⟩
  cases n with
  | zero => omega
  | succ n =>
    rw [resolveN_succ rfl]
    simp only [resolveSubstitutions, resolveList, hc, hb.restr, List.isEmpty_nil, Bool.not_true,
      Bool.false_eq_true, if_false, hg n (by omega) c _ ⟨hb.opts, hb.restr, hb.marks,
      (push_root _ _).trans hb.root⟩, Res.bind]

/-- The fields before the one that throws are resolved. -/
theorem fields_throw {b : Bool} {root v : Value} {m : List Nat} {pos : Option Path} {k : Str} {post : Fields}
    (hf : Throws env b root m (pos.map (· ++ [k])) v) : {pre : Fields} → {os : List (Str × Option Value)} →
    EvF env (envExt env b) root m pos pre os → root.Wf → root.isObject = true → WfF pre →
    (∀ q, pos = some q → ∀ f ∈ pre, at? root (q ++ [f.1]) = some f.2) →
    ∃ N, ∀ n, N ≤ n → ∀ c s, Before b root m c s →
      (∀ q, pos = some q → ∀ f ∈ pre ++ [(k, v)], s.path = chain root (q ++ [f.1]) []) →
      resolveFields (resolveN env n) [] s c (pre ++ (k, v) :: post) = .err .config
  | [], _, _, _, _, _, _ => by
    obtain ⟨N, hg⟩ := hf
    refine ⟨N, fun n hn c s hb hq => ?_⟩
    have hc : c.restrict [] = c := by
      cases c; have := hb.restr; simp only at this; subst this; rfl
    have := hg n hn c s hb (by
      intro q hq'
      obtain ⟨q', rfl, rfl⟩ := Option.map_eq_some_iff.1 hq'
      exact hq q' rfl (k, v) (by simp))
    simp only [List.nil_append, resolveFields, resolveChild, hb.restr, hc, this, Res.bind]
  | (k', w) :: pre, _, h, hroot, hobj, hw, ha => by
    cases h with
    | cons h1 h2 =>
      obtain ⟨N1, hg⟩ := Ev.goes h1 hroot hobj hw.1 (by
        intro q hq
        obtain ⟨q', rfl, rfl⟩ := Option.map_eq_some_iff.1 hq
        exact ha q' rfl (k', w) (by simp))
      obtain ⟨N2, ht⟩ := fields_throw (post := post) hf h2 hroot hobj hw.2
        (fun q hq f hf => ha q hq f (by simp [hf]))
      refine ⟨max N1 N2, fun n hn c s hb hq => ?_⟩
      have hc : c.restrict [] = c := by
        cases c; have := hb.restr; simp only at this; subst this; rfl
      obtain ⟨c1, e1, a1⟩ := hg n (by omega) c s hb (by
        intro q hq'
        obtain ⟨q', rfl, rfl⟩ := Option.map_eq_some_iff.1 hq'
        exact hq q' rfl (k', w) (by simp))
      have hc1 : c1.restrict [] = c1 := by
        cases c1; have := a1.restr; simp only at this; subst this; rfl
      simp only [List.cons_append, resolveFields, resolveChild, hb.restr, hc, e1, Res.bind, hc1,
        ht n (by omega) c1 s (a1.before hb hb.root) (fun q hq' f hf' => hq q hq' f (by simp at hf' ⊢; tauto))]

theorem throws_field {b : Bool} {root v : Value} {m : List Nat} {pos : Option Path} {k : Str} {pre post : Fields}
    {i : Bool} {os : List (Str × Option Value)} (h : EvF env (envExt env b) root m pos pre os)
    (hf : Throws env b root m (pos.map (· ++ [k])) v) (hroot : root.Wf) (hobj : root.isObject = true)
    (hw : (Value.obj (pre ++ (k, v) :: post) false i).Wf)
    (ha : ∀ q, pos = some q → at? root q = some (.obj (pre ++ (k, v) :: post) false i)) :
    Throws env b root m pos (.obj (pre ++ (k, v) :: post) false i) := by
  have hv' : false = resolvedFields (pre ++ (k, v) :: post) ∧ (keysOf (pre ++ (k, v) :: post)).Nodup ∧
      WfF (pre ++ (k, v) :: post) := by simpa only [Wf] using hw
  have hin : ∀ f ∈ pre ++ (k, v) :: post, findKey (pre ++ (k, v) :: post) f.1 = some f.2 :=
    fun f hf => findKey_of_mem hv'.2.1 hf
  have hwp : WfF pre := WfF.iff.2 fun f hf => WfF.iff.1 hv'.2.2 f (by simp [hf])
  obtain ⟨N, hg⟩ := fields_throw (post := post) hf h hroot hobj hwp (by
    intro q hq f hf
    exact at?_snoc (ha q hq) (by rw [child_eq_findKey]; exact hin f (by simp [hf])))
  refine ⟨N + 1, fun n hn c s hb hq => ?_⟩
  cases n with
  | zero => omega
  | succ n =>
    rw [resolveN_succ rfl]
    have := hg n (by omega) c (s.push (.obj (pre ++ (k, v) :: post) false i)) ⟨hb.opts, hb.restr, hb.marks,
        (push_root _ _).trans hb.root⟩ (by
          intro q hq' f hf
          exact push_chain hb.root (hq q hq') (ha q hq') (by
            rw [hin f (by simp at hf ⊢; tauto)]; rfl))
    simp only [resolveSubstitutions, resolveObject, Bool.false_eq_true, if_false, hb.restr, this, Res.bind]

end Settle
end Hocon
