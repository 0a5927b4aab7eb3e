import Verif.Props.ObjectProps
import Verif.Spec.Equal

/-!
# Equality of values: C37
-/

set_option autoImplicit false

namespace Hocon
namespace Value
open Spec

theorem forall₂_mem {α β : Type} {R S : α → β → Prop} {xs : List α} {ys : List β}
    (h : List.Forall₂ R xs ys) (hi : ∀ x ∈ xs, ∀ y ∈ ys, R x y → S x y) : List.Forall₂ S xs ys := by
  induction h with
  | nil => exact .nil
  | cons h _ ih =>
    exact .cons (hi _ (by simp) _ (by simp) h)
      (ih fun x hx y hy => hi x (by simp [hx]) y (by simp [hy]))

theorem SameL.iff {env : Env} {xs ys : List Value} :
    SameL env xs ys ↔ List.Forall₂ (Same env) xs ys := by
  induction xs generalizing ys with
  | nil => cases ys <;> simp [SameL]
  | cons x xs ih => cases ys <;> simp [SameL, ih]

theorem SameF.iff {env : Env} {fs gs : Fields} :
    SameF env fs gs ↔ ∀ k x, (k, x) ∈ fs → ∀ y, (k, y) ∈ gs → Same env x y := by
  induction fs with
  | nil => simp [SameF]
  | cons f fs ih =>
    obtain ⟨k, x⟩ := f
    simp only [SameF, ih, List.mem_cons, Prod.mk.injEq]
    constructor
    · rintro ⟨h1, h2⟩ k' x' (⟨rfl, rfl⟩ | h) y hy
      · exact h1 y hy
      · exact h2 k' x' h y hy
    · intro h
      exact ⟨fun y hy => h k x (.inl ⟨rfl, rfl⟩) y hy, fun k' x' h' y hy => h k' x' (.inr h') y hy⟩

theorem sameScalar_symm {env : Env} (he : DoubleOk env) {x y : Scalar} (h : SameScalar env x y) :
    SameScalar env y x := by
  cases h with
  | null => exact .null
  | bool => exact .bool _
  | str => exact .str _ _ _
  | int _ _ i h1 h2 => exact .int _ _ i h2 h1
  | double d e o o' h => exact .double _ _ _ _ (he.symm d e ▸ h)
  | mixed _ d o i h1 h2 h3 => exact .mixed' _ _ _ i h1 h2 (he.symm _ d ▸ h3)
  | mixed' _ d o i h1 h2 h3 => exact .mixed _ _ _ i h1 h2 (he.symm d _ ▸ h3)

mutual
theorem same_symm {env : Env} (he : DoubleOk env) : ∀ (a b : Value), Same env a b → Same env b a
  | .scalar x, .scalar y, h => by simp only [Same] at h ⊢; exact sameScalar_symm he h
  | .list xs, .list ys, h => by
    simp only [Same] at h ⊢
    exact sameL_symm he xs ys h
  | .obj fs r i, .obj gs r' i', h => by
    simp only [Same] at h ⊢
    refine ⟨fun k => (h.1 k).symm, ?_⟩
    rw [SameF.iff]
    intro k y hy x hx
    exact sameF_symm he fs gs h.2 k x y hx hy
  | .ref .., b, h => by simp [Same] at h
  | .concat _, b, h => by simp [Same] at h
  | .dm _, b, h => by simp [Same] at h
  | .dmo _, b, h => by simp [Same] at h
  | .scalar _, .list _, h | .scalar _, .obj .., h | .scalar _, .ref .., h | .scalar _, .concat _, h
  | .scalar _, .dm _, h | .scalar _, .dmo _, h => by simp [Same] at h
  | .list _, .scalar _, h | .list _, .obj .., h | .list _, .ref .., h | .list _, .concat _, h
  | .list _, .dm _, h | .list _, .dmo _, h => by simp [Same] at h
  | .obj .., .scalar _, h | .obj .., .list _, h | .obj .., .ref .., h | .obj .., .concat _, h
  | .obj .., .dm _, h | .obj .., .dmo _, h => by simp [Same] at h
theorem sameL_symm {env : Env} (he : DoubleOk env) :
    ∀ (xs ys : List Value), SameL env xs ys → SameL env ys xs
  | [], [], _ => trivial
  | x :: xs, y :: ys, h => ⟨same_symm he x y h.1, sameL_symm he xs ys h.2⟩
  | [], _ :: _, h => by simp [SameL] at h
  | _ :: _, [], h => by simp [SameL] at h
theorem sameF_symm {env : Env} (he : DoubleOk env) : ∀ (fs gs : List (Str × Value)), SameF env fs gs →
    ∀ k x y, (k, x) ∈ fs → (k, y) ∈ gs → Same env y x
  | [], _, _, _, _, _, h, _ => by cases h
  | (k', x') :: fs, gs, h, k, x, y, hx, hy => by
    rcases List.mem_cons.1 hx with e | hm
    · cases e; exact same_symm he x' y (h.1 y hy)
    · exact sameF_symm he fs gs h.2 k x y hm hy
end

theorem InRangeL.iff {env : Env} {vs : List Value} : InRangeL env vs ↔ ∀ v ∈ vs, InRange env v := by
  induction vs with
  | nil => simp [InRangeL]
  | cons v vs ih => simp [InRangeL, ih]

theorem InRangeF.iff {env : Env} {fs : Fields} : InRangeF env fs ↔ ∀ f ∈ fs, InRange env f.2 := by
  induction fs with
  | nil => simp [InRangeF]
  | cons f fs ih => obtain ⟨k, v⟩ := f; simp [InRangeF, ih]

theorem NarrowL.iff {vs : List Value} : NarrowL vs ↔ ∀ v ∈ vs, Narrow v := by
  induction vs with
  | nil => simp [NarrowL]
  | cons v vs ih => simp [NarrowL, ih]

theorem NarrowF.iff {fs : Fields} : NarrowF fs ↔ ∀ f ∈ fs, Narrow f.2 := by
  induction fs with
  | nil => simp [NarrowF]
  | cons f fs ih => obtain ⟨k, v⟩ := f; simp [NarrowF, ih]

theorem heightL_le {vs : List Value} {v : Value} (h : v ∈ vs) : height v ≤ heightL vs := by
  induction vs with
  | nil => cases h
  | cons x vs ih =>
    rcases List.mem_cons.1 h with rfl | h
    · simp only [heightL]; omega
    · simp only [heightL]; have := ih h; omega

theorem heightF_le {fs : Fields} {f : Str × Value} (h : f ∈ fs) : height f.2 ≤ heightF fs := by
  induction fs with
  | nil => cases h
  | cons x fs ih =>
    obtain ⟨k, v⟩ := x
    rcases List.mem_cons.1 h with rfl | h2
    · simp only [heightF]; omega
    · simp only [heightF]; have := ih h2; omega

theorem scalarEq_same {env : Env} (he : DoubleOk env) {x y : Scalar} (h : SameScalar env x y)
    (hx : InRange env (.scalar x)) : scalarEq env x y = .ok true := by
  cases h with
  | null => rfl
  | bool b => simp [scalarEq]
  | str => simp [scalarEq]
  | int _ _ i h1 h2 =>
    cases x <;> simp [intOf] at h1 <;> cases y <;> simp [intOf] at h2 <;>
      subst h1 <;> subst h2 <;>
      simp [scalarEq, scalarType, longValue, doubleValue, Res.bind, he.refl]
  | double d e o o' h =>
    simp only [InRange] at hx
    cases hd : env.doubleToI64 d with
    | none => exact absurd hd hx
    | some i =>
      have := he.cut d e h
      rw [hd] at this
      simp [scalarEq, scalarType, longValue, doubleValue, Res.bind, hd, ← this, h]
  | mixed _ d o i h1 h2 h3 =>
    cases x <;> simp [intOf] at h1 <;> subst h1 <;>
      simp [scalarEq, scalarType, longValue, doubleValue, Res.bind, h2, h3]
  | mixed' _ d o i h1 h2 h3 =>
    cases y <;> simp [intOf] at h1 <;> subst h1 <;>
      simp [scalarEq, scalarType, longValue, doubleValue, Res.bind, h2, h3]

theorem eqAll_true {eq : Value → Value → Res Bool} {xs ys : List Value}
    (h : List.Forall₂ (fun x y => eq x y = .ok true) xs ys) : eqAll eq xs ys = .ok true := by
  induction h with
  | nil => rfl
  | cons h _ ih => rw [eqAll, h]; exact ih

theorem eqFields_true {eq : Value → Value → Res Bool} (fs gs : Fields)
    (h : ∀ k x, (k, x) ∈ fs → ∃ y, findKey gs k = some y ∧ eq y x = .ok true) :
    eqFields eq fs gs true = .ok true := by
  induction fs with
  | nil => rfl
  | cons f fs ih =>
    obtain ⟨k, x⟩ := f
    obtain ⟨y, hy, he⟩ := h k x (by simp)
    rw [eqFields, hy]
    simp only [he, Res.bind]
    exact ih fun k' x' h' => h k' x' (by simp [h'])

theorem length_eq_of_keys {fs gs : Fields} (hf : (keysOf fs).Nodup) (hg : (keysOf gs).Nodup)
    (h : ∀ k, k ∈ keysOf fs ↔ k ∈ keysOf gs) : fs.length = gs.length := by
  have := ((List.perm_ext_iff_of_nodup hf hg).2 h).length_eq
  simpa [keysOf] using this

theorem Plain.list {vs : List Value} (h : (Value.list vs).Plain) : ∀ v ∈ vs, v.Plain := by
  intro v hv
  have h1 := h.wf
  have h2 := h.res
  simp only [Wf, resolved] at h1 h2
  exact ⟨WfL.iff.1 h1 v hv, resolvedAll_iff.1 h2 v hv⟩

theorem valueEqN_same {env : Env} (he : DoubleOk env) (n : Nat) (a b : Value) (ha : a.Plain)
    (hb : b.Plain) (ra : InRange env a) (rb : InRange env b) (h : Same env a b)
    (hn : height a < n ∨ height b < n) : valueEqN env n a b = .ok true := by
  induction n generalizing a b with
  | zero => omega
  | succ n ih =>
    rw [valueEqN.eq_def]
    cases a with
    | scalar x =>
      cases b with
      | scalar y => exact scalarEq_same he (by simpa [Same] using h) ra
      | _ => simp [Same] at h
    | list xs =>
      cases b with
      | list ys =>
        simp only [Same] at h
        rw [SameL.iff] at h
        simp only [h.length_eq, if_true]
        apply eqAll_true
        have hpa := ha.list
        have hpb := hb.list
        simp only [InRange] at ra rb
        have ra := InRangeL.iff.1 ra
        have rb := InRangeL.iff.1 rb
        simp only [height] at hn
        refine forall₂_mem h fun x hx y hy hxy =>
          ih x y (hpa x hx) (hpb y hy) (ra x hx) (rb y hy) hxy ?_
        have h1 := heightL_le hx
        have h2 := heightL_le hy
        omega
      | _ => simp [Same] at h
    | obj fs r i =>
      cases b with
      | obj gs r' i' =>
        simp only [Same] at h
        obtain ⟨hk, hs⟩ := h
        rw [SameF.iff] at hs
        have hf := (plain_obj.1 ha).2
        have hg := (plain_obj.1 hb).2
        simp only [length_eq_of_keys hf.nodup hg.nodup hk, if_true]
        apply eqFields_true
        intro k x hx
        have hkm : k ∈ keysOf gs := (hk k).1 (List.mem_map.2 ⟨(k, x), hx, rfl⟩)
        obtain ⟨y, hy⟩ := mem_keysOf.1 hkm
        have hym := findKey_mem hy
        refine ⟨y, hy, ih y x (hg.all _ hym) (hf.all _ hx) ?_ ?_
          (same_symm he x y (hs k x hx y hym)) ?_⟩
        · simp only [InRange] at rb; exact InRangeF.iff.1 rb _ hym
        · simp only [InRange] at ra; exact InRangeF.iff.1 ra _ hx
        · simp only [height] at hn
          have h1 := heightF_le hx
          have h2 := heightF_le hym
          simp only at h1 h2
          omega
      | _ => simp [Same] at h
    | _ => simp [Same] at h

/-- **C37 (partial).** Structurally equal resolved values compare equal, whatever the iteration order
of their objects. Missing: the converse, see `C37_narrow_partial` and `C37_unequal_equal`. -/
theorem C37_same_equal_partial (env : Env) (he : DoubleOk env) (a b : Value) (ha : a.Plain)
    (hb : b.Plain) (ra : InRange env a) (rb : InRange env b) (h : Same env a b) :
    valueEq env a b = .ok true ∧ valueEq env b a = .ok true :=
  ⟨valueEqN_same he _ a b ha hb ra rb h (.inl (by omega)),
    valueEqN_same he _ b a hb ha rb ra (same_symm he a b h) (.inl (by omega))⟩

theorem longValue_ok {env : Env} {x : Scalar} {i : Int} (h : longValue env x = .ok i) :
    (intOf x = some i ∧ doubleValue env x = .ok (env.i64ToDouble i)) ∨
    ∃ d o, x = .double d o ∧ env.doubleToI64 d = some i := by
  cases x with
  | int v o => cases h; exact .inl ⟨rfl, rfl⟩
  | long v o => cases h; exact .inl ⟨rfl, rfl⟩
  | double d o =>
    simp only [longValue] at h
    cases hd : env.doubleToI64 d with
    | none => rw [hd] at h; cases h
    | some j => rw [hd] at h; cases h; exact .inr ⟨d, o, rfl, hd⟩
  | _ => cases h

theorem scalarEq_num {env : Env} {x y : Scalar} (h : (longValue env x >>= fun i =>
      longValue env y >>= fun j => if i = j then
        doubleValue env x >>= fun d => doubleValue env y >>= fun e => Res.ok (env.doubleEq d e)
      else .ok false) = .ok true) : SameScalar env x y := by
  rw [Res.bind_eq_ok] at h
  obtain ⟨i, hi, h⟩ := h
  rw [Res.bind_eq_ok] at h
  obtain ⟨j, hj, h⟩ := h
  by_cases e : i = j
  · subst e
    rw [if_pos rfl, Res.bind_eq_ok] at h
    obtain ⟨d, hd, h⟩ := h
    rw [Res.bind_eq_ok] at h
    obtain ⟨d', hd', h⟩ := h
    simp only [Res.ok.injEq] at h
    rcases longValue_ok hi with ⟨h1, h2⟩ | ⟨a, o, rfl, h1⟩
    · rcases longValue_ok hj with ⟨h3, h4⟩ | ⟨b, o', rfl, h3⟩
      · exact .int _ _ i h1 h3
      · rw [h2] at hd; cases hd; cases hd'
        exact .mixed _ _ _ i h1 h3 h
    · cases hd
      rcases longValue_ok hj with ⟨h3, h4⟩ | ⟨b, o', rfl, h3⟩
      · rw [h4] at hd'; cases hd'
        exact .mixed' _ _ _ i h3 h1 h
      · cases hd'
        exact .double _ _ _ _ h
  · rw [if_neg e] at h; cases h

theorem scalarEq_true {env : Env} {x y : Scalar} (h : scalarEq env x y = .ok true) :
    SameScalar env x y := by
  cases x <;> cases y
  case null.null => exact .null
  case bool.bool => simp [scalarEq] at h; subst h; exact .bool _
  case str.str => simp [scalarEq] at h; subst h; exact .str _ _ _
  all_goals first
    | (simp [scalarEq, scalarType] at h; done)
    | exact scalarEq_num h

theorem eqAll_forall {eq : Value → Value → Res Bool} {xs ys : List Value}
    (hl : xs.length = ys.length) (h : eqAll eq xs ys = .ok true) :
    List.Forall₂ (fun x y => eq x y = .ok true) xs ys := by
  induction xs generalizing ys with
  | nil => cases ys with
    | nil => exact .nil
    | cons => simp at hl
  | cons x xs ih =>
    cases ys with
    | nil => simp at hl
    | cons y ys =>
      rw [eqAll] at h
      cases he : eq x y with
      | ok e =>
        rw [he] at h
        simp only [Res.bind] at h
        cases e with
        | true => exact .cons he (ih (by simpa using hl) h)
        | false => simp at h
      | _ => rw [he] at h; cases h

theorem valueEqN_narrow {env : Env} (he : DoubleOk env) (n : Nat) (a b : Value) (ha : a.Plain)
    (hb : b.Plain) (na : Narrow a) (nb : Narrow b) (h : valueEqN env n a b = .ok true) :
    Same env a b := by
  induction n generalizing a b with
  | zero => cases h
  | succ n ih =>
    rw [valueEqN.eq_def] at h
    have hra := ha.res
    cases a with
    | scalar x =>
      cases b with
      | scalar y => simp only [Same]; exact scalarEq_true h
      | _ => simp at h
    | list xs =>
      cases b with
      | list ys =>
        simp only at h
        split at h
        · rename_i hl
          have h := eqAll_forall hl h
          simp only [Same]
          rw [SameL.iff]
          have hpa := ha.list
          have hpb := hb.list
          simp only [Narrow] at na nb
          have na := NarrowL.iff.1 na
          have nb := NarrowL.iff.1 nb
          exact forall₂_mem h fun x hx y hy hxy =>
            ih x y (hpa x hx) (hpb y hy) (na x hx) (nb y hy) hxy
        · cases h
      | _ => simp at h
    | obj fs r i =>
      cases b with
      | obj gs r' i' =>
        simp only at h
        split at h
        · rename_i hl
          have hf := (plain_obj.1 ha).2
          have hg := (plain_obj.1 hb).2
          simp only [Narrow] at na nb
          match fs, gs with
          | [], [] => simp [Same, SameF]
          | [(k, x)], [(k', y)] =>
            rw [eqFields.eq_def] at h
            simp only [findKey_cons, findKey_nil] at h
            by_cases e : k' = k
            · subst e
              simp only [if_true] at h
              have hyx : valueEqN env n y x = .ok true := by
                cases he : valueEqN env n y x with
                | ok e => rw [he] at h; simp only [Res.bind, eqFields] at h; exact h
                | _ => rw [he] at h; cases h
              have := ih y x (hg.all (k', y) (by simp)) (hf.all (k', x) (by simp)) nb.2.1 na.2.1 hyx
              simp only [Same, SameF]
              refine ⟨by simp, fun y' hy' => ?_, trivial⟩
              simp only [List.mem_singleton, Prod.mk.injEq, true_and] at hy'
              subst hy'
              exact same_symm he _ _ this
            · simp [e] at h
          | [], _ :: _ => simp at hl
          | _ :: _, [] => simp at hl
          | _ :: _ :: _, _ => exact absurd na.1 (by simp)
          | [_], _ :: _ :: _ => exact absurd nb.1 (by simp)
        · cases h
      | _ => simp at h
    | _ => simp [resolved] at hra

/-- **C37 (partial).** For values whose objects have at most one field (lists and scalars without
restriction), `==` implies structural equality. Missing: objects with several fields, where the claim
is false (`C37_unequal_equal`). -/
theorem C37_narrow_partial (env : Env) (he : DoubleOk env) (a b : Value) (ha : a.Plain)
    (hb : b.Plain) (na : Narrow a) (nb : Narrow b) (h : valueEq env a b = .ok true) :
    Same env a b := valueEqN_narrow he _ a b ha hb na nb h

theorem one_ne_nine {env : Env} : ¬ Same env (.scalar (.int 1 [])) (.scalar (.int 9 [])) := by
  intro h
  simp only [Same] at h
  cases h with
  | int _ _ i h1 h2 => simp [intOf] at h1 h2; omega

/-- **C37 (violated), witnesses.** Only the last field visited counts: `{a:1,b:2} == {a:9,b:2}`; the
answer depends on which side is asked; and objects of the same size with different keys make `==`
throw `std::out_of_range`. -/
theorem C37_unequal_equal (env : Env) (he : DoubleOk env) :
    ∃ (x y z : Value), x.Plain ∧ y.Plain ∧ z.Plain ∧
      valueEq env x y = .ok true ∧ ¬ Same env x y ∧ valueEq env y x = .ok false ∧
      valueEq env x z = .err .foreign := by
  refine ⟨.obj [(ch "a", exInt 1), (ch "b", exInt 2)] true false,
    .obj [(ch "b", exInt 2), (ch "a", exInt 9)] true false,
    .obj [(ch "c", exInt 1), (ch "b", exInt 2)] true false, ?_, ?_, ?_, ?_, ?_, ?_, ?_⟩
  · exact ⟨by simp [Wf, WfF, keysOf, resolvedFields, resolved, exInt], rfl⟩
  · exact ⟨by simp [Wf, WfF, keysOf, resolvedFields, resolved, exInt], rfl⟩
  · exact ⟨by simp [Wf, WfF, keysOf, resolvedFields, resolved, exInt], rfl⟩
  · simp [valueEq, valueEqN, eqFields, findKey, exInt, scalarEq, scalarType, longValue, doubleValue,
      Res.bind, height, heightF, he.refl]
  · intro h
    rw [Same] at h
    exact one_ne_nine (SameF.iff.1 h.2 (ch "a") (exInt 1) (by simp) (exInt 9) (by simp))
  · simp [valueEq, valueEqN, eqFields, findKey, exInt, scalarEq, scalarType, longValue, doubleValue,
      Res.bind, height, heightF, he.refl]
  · simp [valueEq, valueEqN, eqFields, findKey, exInt]

/-- **C37 (violated), unresolved values.** Of two concatenations of the same length only the last pieces count: `${p} s` equals
`${q} s` for all paths. Substitutions on their own are equal exactly if their paths are, and both or neither are optional. -/
theorem C37_concat_violated (env : Env) (i j : Nat) (p q : Path) (o o' : Bool) (s t : Str) (u w : Bool) :
    valueEq env (.concat [.ref i p o 0, .scalar (.str s u)]) (.concat [.ref j q o' 0, .scalar (.str t w)]) = .ok (s == t) ∧
    (valueEq env (.ref i p o 0) (.ref j q o' 0) = .ok true ↔ p = q ∧ o = o') := by
  refine ⟨by simp [valueEq, valueEqN, eqLast, scalarEq, height, heightL, Res.bind], ?_⟩
  simp only [valueEq, valueEqN, Res.ok.injEq, Bool.and_eq_true, beq_iff_eq]
  rw [PathM.C03_beq]

/-- **C37 (violated).** Comparing a double outside the range of `int64_t` with anything numeric is
undefined. -/
theorem C37_big_double_undefined (env : Env) (d : Dbl) (o : Str) (x : Scalar)
    (hd : env.doubleToI64 d = none) (hx : scalarType x = .number) :
    valueEq env (.scalar (.double d o)) (.scalar x) = .ub := by
  cases x <;> simp [scalarType] at hx <;>
    simp [valueEq, valueEqN, scalarEq, scalarType, longValue, hd, Res.bind]

theorem exEnv_double : DoubleOk Tokenizer.exEnv := by
  constructor
  · intro d e; exact Bool.beq_comm (a := d) (b := e)
  · intro i; exact beq_self_eq_true i
  · intro d e h; rfl

example : Same Tokenizer.exEnv (.obj [(ch "a", exInt 1), (ch "b", .list [exInt 2])] true false)
    (.obj [(ch "b", .list [.scalar (.long 2 (ch "02"))]), (ch "a", exInt 1)] true false) ∧
    valueEq Tokenizer.exEnv (.obj [(ch "a", exInt 1), (ch "b", .list [exInt 2])] true false)
      (.obj [(ch "b", .list [.scalar (.long 2 (ch "02"))]), (ch "a", exInt 1)] true false) = .ok true := by
  refine ⟨?_, by decide⟩
  rw [Same]
  refine ⟨by simp [or_comm], ?_⟩
  rw [SameF.iff]
  intro k x hx y hy
  simp only [List.mem_cons, Prod.mk.injEq, List.not_mem_nil, or_false] at hx hy
  rcases hx with ⟨rfl, rfl⟩ | ⟨rfl, rfl⟩ <;> rcases hy with ⟨h, rfl⟩ | ⟨h, rfl⟩ <;> simp at h
  · exact .int _ _ 1 rfl rfl
  · rw [Same]; exact ⟨.int _ _ 2 rfl rfl, trivial⟩

end Value
end Hocon
