import Verif.Factory
import Verif.Props.GetterProps

/-!
# Plain C++ values and list getters: C40, C54
-/

set_option autoImplicit false

namespace Hocon
namespace Value
open Spec
open PathParser (newPath)

mutual
/-- The maps in the tree have distinct keys, as every `unordered_map` has. -/
def Unw.Keys : Unw → Prop
  | .list l => Unw.KeysL l
  | .map m => (m.map Prod.fst).Nodup ∧ Unw.KeysF m
  | _ => True
/-- ... all elements. -/
def Unw.KeysL : List Unw → Prop
  | [] => True
  | x :: l => Unw.Keys x ∧ Unw.KeysL l
/-- ... all entries. -/
def Unw.KeysF : List (Str × Unw) → Prop
  | [] => True
  | (_, x) :: m => Unw.Keys x ∧ Unw.KeysF m
end

theorem bindOk {α β : Type} {r : Res α} {f : α → Res β} {b : β} (h : r.bind f = .ok b) :
    ∃ a, r = .ok a ∧ f a = .ok b := by
  cases r with
  | ok a => exact ⟨a, rfl, h⟩
  | _ => cases h

theorem zip_fst_snd {α β : Type} (m : List (α × β)) : (m.map Prod.fst).zip (m.map Prod.snd) = m := by
  induction m with
  | nil => rfl
  | cons f m ih => simp [ih]

theorem putKey_new {α : Type} (k : Str) (v : α) (m : List (Str × α)) (h : k ∉ m.map Prod.fst) :
    putKey k v m = m ++ [(k, v)] := by
  induction m with
  | nil => rfl
  | cons f m ih =>
    obtain ⟨k', v'⟩ := f
    simp only [List.map_cons, List.mem_cons, not_or] at h
    rw [putKey, if_neg (fun e => h.1 e.symm), ih h.2]; rfl

/-- The fields made from the entries. -/
def entriesOf (m : List (Str × Unw)) : Fields := m.map fun f => (f.1, fromAny f.2)

theorem fromAnyF_eq (m : List (Str × Unw)) (acc : Fields)
    (h : (keysOf acc ++ m.map Prod.fst).Nodup) : fromAnyF m acc = acc ++ entriesOf m := by
  induction m generalizing acc with
  | nil => simp [fromAnyF, entriesOf]
  | cons f m ih =>
    obtain ⟨k, x⟩ := f
    rw [List.map_cons] at h
    have hk : k ∉ keysOf acc := fun hm => (List.nodup_append.1 h).2.2 k hm k (by simp) rfl
    rw [fromAnyF, putKey_new _ _ _ hk, ih]
    · simp [entriesOf]
    · simpa [keysOf, List.append_assoc] using h

theorem unwrappedF_eq (fs : Fields) (us : List Unw) (acc : List (Str × Unw))
    (h : (acc.map Prod.fst ++ keysOf fs).Nodup)
    (hu : unwrappedL (fs.map Prod.snd) = .ok us) :
    unwrappedF fs acc = .ok (acc ++ (keysOf fs).zip us) := by
  induction fs generalizing acc us with
  | nil => simp [unwrappedF, keysOf]
  | cons f fs ih =>
    obtain ⟨k, v⟩ := f
    simp only [List.map_cons, unwrappedL] at hu
    obtain ⟨x, hv, hu⟩ := bindOk hu
    obtain ⟨us', hr, hu⟩ := bindOk hu
    cases hu
    have hk : k ∉ acc.map Prod.fst := fun hm =>
      (List.nodup_append.1 h).2.2 k hm k (by simp [keysOf]) rfl
    rw [unwrappedF, hv]
    show unwrappedF fs (putKey k x acc) = _
    rw [putKey_new _ _ _ hk, ih us' _ (by simpa [keysOf, List.append_assoc] using h) hr]
    simp [keysOf]

mutual
/-- **C40.** A plain C++ value tree turned into a configuration value unwraps to the same tree (with
maps in the same order). -/
theorem C40_roundtrip : ∀ (x : Unw), Unw.Keys x → unwrapped (fromAny x) = .ok x
  | .blank, _ => rfl
  | .str _, _ => rfl
  | .long _, _ => rfl
  | .double _, _ => rfl
  | .int _, _ => rfl
  | .bool _, _ => rfl
  | .list l, h => by
    rw [Unw.Keys] at h
    rw [fromAny, unwrapped, roundtripL l h]; rfl
  | .map m, h => by
    rw [Unw.Keys] at h
    have e : fromAnyF m [] = entriesOf m := by
      rw [fromAnyF_eq m [] (by simpa [keysOf] using h.1)]; rfl
    have ek : keysOf (entriesOf m) = m.map Prod.fst := by
      simp [keysOf, entriesOf]
    rw [fromAny, e, newObj, unwrapped,
      unwrappedF_eq _ (m.map Prod.snd) [] (by simpa [ek] using h.1) (by
        have := roundtripF m h.2
        simpa [entriesOf, Function.comp_def] using this), ek]
    show Res.ok (Unw.map _) = _
    rw [List.nil_append, zip_fst_snd]
theorem roundtripL : ∀ (l : List Unw), Unw.KeysL l → unwrappedL (fromAnyL l) = .ok l
  | [], _ => rfl
  | x :: l, h => by
    rw [Unw.KeysL] at h
    rw [fromAnyL, unwrappedL, C40_roundtrip x h.1, roundtripL l h.2]; rfl
theorem roundtripF : ∀ (m : List (Str × Unw)), Unw.KeysF m →
    unwrappedL (m.map fun f => fromAny f.2) = .ok (m.map Prod.snd)
  | [], _ => rfl
  | (k, x) :: m, h => by
    rw [Unw.KeysF] at h
    rw [List.map_cons, unwrappedL, C40_roundtrip x h.1, roundtripF m h.2]; rfl
end

example : Unw.Keys (.map [(ch "a", .int 1), (ch "b", .list [.bool true, .map []])]) := by
  simp [Unw.Keys, Unw.KeysF, Unw.KeysL]

mutual
theorem fromAny_plain : ∀ (x : Unw), Unw.Keys x → (fromAny x).Plain
  | .blank, _ => ⟨trivial, rfl⟩
  | .str _, _ => ⟨trivial, rfl⟩
  | .long _, _ => ⟨trivial, rfl⟩
  | .double _, _ => ⟨trivial, rfl⟩
  | .int _, _ => ⟨trivial, rfl⟩
  | .bool _, _ => ⟨trivial, rfl⟩
  | .list l, h => by
    rw [Unw.Keys] at h
    have := fromAnyL_plain l h
    rw [fromAny]
    exact ⟨WfL.iff.2 fun v hv => (this v hv).1, resolvedAll_iff.2 fun v hv => (this v hv).2⟩
  | .map m, h => by
    rw [Unw.Keys] at h
    have e : fromAnyF m [] = entriesOf m := by
      rw [fromAnyF_eq m [] (by simpa [keysOf] using h.1)]; rfl
    have ek : keysOf (entriesOf m) = m.map Prod.fst := by simp [keysOf, entriesOf]
    have := fromAnyF_plain m h.2
    rw [fromAny, e]
    exact ⟨⟨rfl, by rw [ek]; exact h.1, WfF.iff.2 fun v hv => (this v hv).1⟩,
      resolvedFields_iff.2 fun v hv => (this v hv).2⟩
theorem fromAnyL_plain : ∀ (l : List Unw), Unw.KeysL l → ∀ v ∈ fromAnyL l, v.Plain
  | [], _ => by simp [fromAnyL]
  | x :: l, h => by
    rw [Unw.KeysL] at h
    rw [fromAnyL]
    intro v hv
    rcases List.mem_cons.1 hv with rfl | hv
    · exact fromAny_plain x h.1
    · exact fromAnyL_plain l h.2 v hv
theorem fromAnyF_plain : ∀ (m : List (Str × Unw)), Unw.KeysF m → ∀ f ∈ entriesOf m, f.2.Plain
  | [], _ => by simp [entriesOf]
  | (k, x) :: m, h => by
    rw [Unw.KeysF] at h
    intro v hv
    rcases List.mem_cons.1 hv with rfl | hv
    · exact fromAny_plain x h.1
    · exact fromAnyF_plain m h.2 v hv
end

/-- **C40.** The value made from a plain tree is resolved and well-formed, so that the getter theorems
apply to it. -/
theorem C40_plain (x : Unw) (h : Unw.Keys x) : (fromAny x).Plain := fromAny_plain x h

mutual
theorem unwrapped_plain : ∀ (v : Value), v.Wf → v.resolved = true → ∃ x, unwrapped v = .ok x
  | .scalar s, _, _ => ⟨_, rfl⟩
  | .list vs, h, r => by
    rw [Wf] at h
    obtain ⟨l, hl⟩ := unwrappedL_plain vs h r
    exact ⟨.list l, by rw [unwrapped, hl]; rfl⟩
  | .obj fs r i, h, hr => by
    rw [Wf] at h
    have hr : resolvedFields fs = true := by rw [← h.1]; exact hr
    obtain ⟨m, hm⟩ := unwrappedF_plain fs h.2.2 hr []
    exact ⟨.map m, by rw [unwrapped, hm]; rfl⟩
  | .ref .., _, r => by cases r
  | .concat _, _, r => by cases r
  | .dm _, _, r => by cases r
  | .dmo _, _, r => by cases r
theorem unwrappedL_plain : ∀ (vs : List Value), WfL vs → resolvedAll vs = true →
    ∃ l, unwrappedL vs = .ok l
  | [], _, _ => ⟨_, rfl⟩
  | v :: vs, h, r => by
    rw [WfL] at h
    rw [resolvedAll, Bool.and_eq_true] at r
    obtain ⟨x, hx⟩ := unwrapped_plain v h.1 r.1
    obtain ⟨l, hl⟩ := unwrappedL_plain vs h.2 r.2
    exact ⟨x :: l, by rw [unwrappedL, hx]; show (unwrappedL vs).bind _ = _; rw [hl]; rfl⟩
theorem unwrappedF_plain : ∀ (fs : Fields), WfF fs → resolvedFields fs = true →
    ∀ acc, ∃ m, unwrappedF fs acc = .ok m
  | [], _, _, acc => ⟨acc, rfl⟩
  | (k, v) :: fs, h, r, acc => by
    rw [WfF] at h
    have r' := resolvedFields_iff.1 r
    obtain ⟨x, hx⟩ := unwrapped_plain v h.1 (r' _ List.mem_cons_self)
    obtain ⟨m, hm⟩ := unwrappedF_plain fs h.2
      (resolvedFields_iff.2 fun f hf => r' f (List.mem_cons_of_mem _ hf)) (putKey k x acc)
    exact ⟨m, by rw [unwrappedF, hx]; exact hm⟩
end

/-- **C40.** Every resolved value can be unwrapped. -/
theorem C40_unwrapped_total (v : Value) (h : v.Plain) : ∃ x, unwrapped v = .ok x :=
  unwrapped_plain v h.1 h.2

mutual
theorem unwrapped_throws : ∀ (v : Value), v.Wf → v.resolved = false → ∃ e, unwrapped v = .err e
  | .scalar s, _, r => by cases r
  | .list vs, h, r => by
    rw [Wf] at h
    obtain ⟨e, hl⟩ := unwrappedL_throws vs h r
    exact ⟨e, by rw [unwrapped, hl]; rfl⟩
  | .obj fs r i, h, hr => by
    rw [Wf] at h
    have hr : resolvedFields fs = false := by rw [← h.1]; exact hr
    obtain ⟨e, hm⟩ := unwrappedF_throws fs h.2.2 hr []
    exact ⟨e, by rw [unwrapped, hm]; rfl⟩
  | .ref .., _, _ => ⟨_, rfl⟩
  | .concat _, _, _ => ⟨_, rfl⟩
  | .dm _, _, _ => ⟨_, rfl⟩
  | .dmo _, _, _ => ⟨_, rfl⟩
theorem unwrappedL_throws : ∀ (vs : List Value), WfL vs → resolvedAll vs = false → ∃ e, unwrappedL vs = .err e
  | [], _, r => by cases r
  | v :: vs, h, r => by
    rw [WfL] at h
    cases hv : v.resolved with
    | false =>
      obtain ⟨e, he⟩ := unwrapped_throws v h.1 hv
      exact ⟨e, by rw [unwrappedL, he]; rfl⟩
    | true =>
      rw [resolvedAll, hv, Bool.true_and] at r
      obtain ⟨x, hx⟩ := unwrapped_plain v h.1 hv
      obtain ⟨e, he⟩ := unwrappedL_throws vs h.2 r
      exact ⟨e, by rw [unwrappedL, hx]; show (unwrappedL vs).bind _ = _; rw [he]; rfl⟩
theorem unwrappedF_throws : ∀ (fs : Fields), WfF fs → resolvedFields fs = false → ∀ acc, ∃ e, unwrappedF fs acc = .err e
  | [], _, r, _ => by cases r
  | (k, v) :: fs, h, r, acc => by
    rw [WfF] at h
    cases hv : v.resolved with
    | false =>
      obtain ⟨e, he⟩ := unwrapped_throws v h.1 hv
      exact ⟨e, by rw [unwrappedF, he]; rfl⟩
    | true =>
      have r' : resolvedFields fs = false := by
        rw [← Bool.not_eq_true, resolvedFields_iff] at r ⊢
        intro hall
        refine r fun f hf => ?_
        rcases List.mem_cons.1 hf with rfl | hf
        · exact hv
        · exact hall f hf
      obtain ⟨x, hx⟩ := unwrapped_plain v h.1 hv
      obtain ⟨e, he⟩ := unwrappedF_throws fs h.2 r' (putKey k x acc)
      exact ⟨e, by rw [unwrappedF, hx]; exact he⟩
end

/-- **C40.** A value that still contains a substitution anywhere cannot be unwrapped: the call throws. -/
theorem C40_unresolved_throws (v : Value) (h : v.Wf) (hr : v.resolved = false) : ∃ e, unwrapped v = .err e :=
  unwrapped_throws v h hr

/-- A substitution in a list in an object. -/
example : ∃ v : Value, v.Wf ∧ v.resolved = false ∧ v = .obj [(ch "a", .list [.ref 0 [ch "b"] false 0])] false false :=
  ⟨_, by simp [Wf, WfF, WfL, resolvedFields, resolved, resolvedAll, keysOf], rfl, rfl⟩

/-- **C40.** `get_any_ref` gives the plain value at the path, whatever its type is; for a path without a value,
and for null, it throws. -/
theorem C40_get_any_ref (env : Env) (v : Value) (s : Str) (p : Path) (hv : v.Plain) (ho : v.isObject = true)
    (hs : newPath env s = .ok p) :
    (∀ w, at? v p = some w → w ≠ .scalar .null → ∃ x, getAnyRef env v s = .ok x ∧ unwrapped w = .ok x) ∧
    (at? v p = none → getAnyRef env v s = .err .config) ∧
    (at? v p = some (.scalar .null) → getAnyRef env v s = .err .null) := by
  refine ⟨?_, ?_, ?_⟩
  · intro w h hn
    obtain ⟨x, hx⟩ := C40_unwrapped_total w (hv.at h)
    refine ⟨x, ?_, hx⟩
    have hg : findExpr env v s .unspecified = .ok w := (C29_get_value env v w s p hv ho hs).2 ⟨h, hn⟩
    rw [getAnyRef, hg]
    exact hx
  · intro h
    rw [getAnyRef, C51_missing_sliced env v s p .unspecified hv ho hs h]; rfl
  · intro h
    rw [getAnyRef, C51_null_partial env v s p .unspecified hv ho hs h]; rfl

/-! ## C54: list getters -/

/-- `unwrappedL` is element-wise. -/
theorem pickAll_unwrapped {α : Type} (pick : Unw → Option α) (vs : List Value) (us : List Unw)
    (hu : unwrappedL vs = .ok us) :
    (∀ xs, pickAll pick us = .ok xs ↔
      List.Forall₂ (fun v x => ∃ u, unwrapped v = .ok u ∧ pick u = some x) vs xs) ∧
    (pickAll pick us).isThrowOrOk = true := by
  induction vs generalizing us with
  | nil =>
    cases hu
    refine ⟨fun xs => ⟨fun h => by cases h; exact .nil, fun h => by cases h; rfl⟩, rfl⟩
  | cons v vs ih =>
    obtain ⟨u, hv, hu⟩ := bindOk hu
    obtain ⟨us', hr, hu⟩ := bindOk hu
    cases hu
    obtain ⟨ih1, ih2⟩ := ih us' hr
    rw [pickAll]
    cases hp : pick u with
    | none =>
      refine ⟨fun xs => ⟨(fun h => by cases h), fun h => ?_⟩, rfl⟩
      cases h with
      | cons h _ =>
        obtain ⟨u', h1, h2⟩ := h
        rw [hv] at h1
        cases h1
        rw [hp] at h2; cases h2
    | some a =>
      constructor
      · intro xs
        constructor
        · intro h
          obtain ⟨as, h1, h2⟩ := bindOk h
          cases h2
          exact .cons ⟨u, hv, hp⟩ ((ih1 _).1 h1)
        · intro h
          cases h with
          | cons h t =>
            obtain ⟨u', h1, h2⟩ := h
            rw [hv] at h1
            cases h1
            rw [hp] at h2; cases h2
            show (pickAll pick us').bind _ = _
            rw [(ih1 _).2 t]; rfl
      · show ((pickAll pick us').bind _).isThrowOrOk = true
        cases h : pickAll pick us' <;> rw [h] at ih2 <;> first | rfl | cases ih2

/-- The list getters look at the list at the path and pick every element by its exact stored type. -/
theorem getHomogeneous_spec {α : Type} (pick : Unw → Option α) (is : α → Value → Prop)
    (his : ∀ v x, is x v ↔ ∃ u, unwrapped v = .ok u ∧ pick u = some x)
    (env : Env) (v : Value) (s : Str) (p : Path) (hv : v.Plain)
    (ho : v.isObject = true) (hs : newPath env s = .ok p) :
    (∀ xs, getHomogeneous pick env v s = .ok xs ↔
      ∃ vs, at? v p = some (.list vs) ∧ List.Forall₂ (fun w x => is x w) vs xs) ∧
    (getHomogeneous pick env v s).isThrowOrOk = true := by
  obtain ⟨g1, g2⟩ := C32_get_list env v s p hv ho hs
  unfold getHomogeneous
  cases hg : getList env v s with
  | ok vs =>
    have ha := (g1 vs).1 hg
    have hp : (Value.list vs).Plain := hv.at ha
    obtain ⟨us, hu⟩ := unwrappedL_plain vs hp.1 hp.2
    obtain ⟨k1, k2⟩ := pickAll_unwrapped pick vs us hu
    show (∀ xs, (unwrappedL vs).bind _ = _ ↔ _) ∧ ((unwrappedL vs).bind _).isThrowOrOk = true
    rw [hu]
    refine ⟨fun xs => ?_, k2⟩
    show pickAll pick us = .ok xs ↔ _
    rw [k1 xs]
    simp only [← his]
    constructor
    · intro h; exact ⟨vs, ha, h⟩
    · rintro ⟨vs', h1, h2⟩
      rw [ha] at h1; cases h1; exact h2
  | _ =>
    rw [hg] at g2
    refine ⟨fun xs => ⟨(fun h => by cases h), ?_⟩, by first | rfl | cases g2⟩
    rintro ⟨vs, h1, _⟩
    rw [(g1 vs).2 h1] at hg; cases hg

/-- **C54.** `get_bool_list` returns the booleans of the list at the path in order; if some element is
not a boolean, it throws. -/
theorem C54_bool_list (env : Env) (v : Value) (s : Str) (p : Path) (hv : v.Plain)
    (ho : v.isObject = true) (hs : newPath env s = .ok p) :
    (∀ xs, getBoolList env v s = .ok xs ↔ at? v p = some (.list (xs.map fun b => .scalar (.bool b)))) ∧
    (getBoolList env v s).isThrowOrOk = true := by
  have := getHomogeneous_spec pickBool (fun b v => v = .scalar (.bool b)) (fun v x => by
    constructor
    · rintro rfl; exact ⟨_, rfl, rfl⟩
    · rintro ⟨u, h1, h2⟩
      cases u <;> cases h2
      cases v with
      | scalar c => cases c <;> cases h1; rfl
      | list vs => obtain ⟨_, _, h⟩ := bindOk h1; cases h
      | obj => obtain ⟨_, _, h⟩ := bindOk h1; cases h
      | _ => cases h1) env v s p hv ho hs
  refine ⟨fun xs => ?_, this.2⟩
  rw [show getBoolList env v s = getHomogeneous pickBool env v s from rfl, this.1 xs]
  have key : ∀ (vs : List Value) (xs : List Bool),
      List.Forall₂ (fun w x => w = Value.scalar (.bool x)) vs xs ↔ vs = xs.map fun b => .scalar (.bool b) := by
    intro vs
    induction vs with
    | nil => intro xs; cases xs <;> simp
    | cons w vs ih => intro xs; cases xs <;> simp [ih]
  constructor
  · rintro ⟨vs, h1, h2⟩; rw [h1, (key _ _).1 h2]
  · intro h; exact ⟨_, h, (key _ _).2 rfl⟩

/-- **C54 (partial).** `get_int_list` returns the integers of the list at the path in order, each stored
as a 32-bit integer; if some element is anything else, it throws. Missing: elements that `get_int` would
convert, see `C54_no_conversion`. -/
theorem C54_int_list_partial (env : Env) (v : Value) (s : Str) (p : Path) (hv : v.Plain)
    (ho : v.isObject = true) (hs : newPath env s = .ok p) :
    (∀ xs, getIntList env v s = .ok xs ↔ ∃ vs, at? v p = some (.list vs) ∧
      List.Forall₂ (fun w x => ∃ o, w = Value.scalar (.int x o)) vs xs) ∧
    (getIntList env v s).isThrowOrOk = true :=
  getHomogeneous_spec pickInt (fun i v => ∃ o, v = .scalar (.int i o)) (fun v x => by
    constructor
    · rintro ⟨o, rfl⟩; exact ⟨_, rfl, rfl⟩
    · rintro ⟨u, h1, h2⟩
      cases u <;> cases h2
      cases v with
      | scalar c => cases c <;> cases h1; exact ⟨_, rfl⟩
      | list vs => obtain ⟨_, _, h⟩ := bindOk h1; cases h
      | obj => obtain ⟨_, _, h⟩ := bindOk h1; cases h
      | _ => cases h1) env v s p hv ho hs

/-- **C54 (partial).** `get_long_list` returns the integers of the list at the path in order; if some
element is not an integer, it throws. Missing: elements that `get_long` would convert. -/
theorem C54_long_list_partial (env : Env) (v : Value) (s : Str) (p : Path) (hv : v.Plain)
    (ho : v.isObject = true) (hs : newPath env s = .ok p) :
    (∀ xs, getLongList env v s = .ok xs ↔ ∃ vs, at? v p = some (.list vs) ∧
      List.Forall₂ (fun w x => ∃ o, w = Value.scalar (.int x o) ∨ w = Value.scalar (.long x o)) vs xs) ∧
    (getLongList env v s).isThrowOrOk = true :=
  getHomogeneous_spec pickLong (fun i v => ∃ o, v = .scalar (.int i o) ∨ v = .scalar (.long i o))
    (fun v x => by
      constructor
      · rintro ⟨o, rfl | rfl⟩ <;> exact ⟨_, rfl, rfl⟩
      · rintro ⟨u, h1, h2⟩
        cases u <;> cases h2
        all_goals
          cases v with
          | scalar c => cases c <;> cases h1; first | exact ⟨_, .inl rfl⟩ | exact ⟨_, .inr rfl⟩
          | list vs => obtain ⟨_, _, h⟩ := bindOk h1; cases h
          | obj => obtain ⟨_, _, h⟩ := bindOk h1; cases h
          | _ => cases h1) env v s p hv ho hs

/-- **C54 (partial).** `get_double_list` returns the numbers of the list at the path in order, if all of
them are stored as floating-point numbers; otherwise it throws. Missing: integers in the list. -/
theorem C54_double_list_partial (env : Env) (v : Value) (s : Str) (p : Path) (hv : v.Plain)
    (ho : v.isObject = true) (hs : newPath env s = .ok p) :
    (∀ xs, getDoubleList env v s = .ok xs ↔ ∃ vs, at? v p = some (.list vs) ∧
      List.Forall₂ (fun w x => ∃ o, w = Value.scalar (.double x o)) vs xs) ∧
    (getDoubleList env v s).isThrowOrOk = true :=
  getHomogeneous_spec pickDouble (fun i v => ∃ o, v = .scalar (.double i o)) (fun v x => by
    constructor
    · rintro ⟨o, rfl⟩; exact ⟨_, rfl, rfl⟩
    · rintro ⟨u, h1, h2⟩
      cases u <;> cases h2
      cases v with
      | scalar c => cases c <;> cases h1; exact ⟨_, rfl⟩
      | list vs => obtain ⟨_, _, h⟩ := bindOk h1; cases h
      | obj => obtain ⟨_, _, h⟩ := bindOk h1; cases h
      | _ => cases h1) env v s p hv ho hs

/-- **C54 (partial).** `get_string_list` returns the strings of the list at the path in order; if some
element is not a string, it throws. Missing: scalars that `get_string` would convert. -/
theorem C54_string_list_partial (env : Env) (v : Value) (s : Str) (p : Path) (hv : v.Plain)
    (ho : v.isObject = true) (hs : newPath env s = .ok p) :
    (∀ xs, getStringList env v s = .ok xs ↔ ∃ vs, at? v p = some (.list vs) ∧
      List.Forall₂ (fun w x => ∃ q, w = Value.scalar (.str x q)) vs xs) ∧
    (getStringList env v s).isThrowOrOk = true :=
  getHomogeneous_spec pickStr (fun i v => ∃ o, v = .scalar (.str i o)) (fun v x => by
    constructor
    · rintro ⟨o, rfl⟩; exact ⟨_, rfl, rfl⟩
    · rintro ⟨u, h1, h2⟩
      cases u <;> cases h2
      cases v with
      | scalar c => cases c <;> cases h1; exact ⟨_, rfl⟩
      | list vs => obtain ⟨_, _, h⟩ := bindOk h1; cases h
      | obj => obtain ⟨_, _, h⟩ := bindOk h1; cases h
      | _ => cases h1) env v s p hv ho hs

/-- **C54 (partial).** `get_object_list` returns the elements of a list of objects unchanged and in
order. -/
theorem C54_object_list_partial (env : Env) (v : Value) (s : Str) (p : Path) (hv : v.Plain)
    (ho : v.isObject = true) (hs : newPath env s = .ok p) (vs : List Value)
    (ha : at? v p = some (.list vs)) :
    (∀ xs, getObjectList env v s = .ok xs ↔ xs = vs ∧ ∀ w ∈ vs, w.isObject = true) := by
  intro xs
  unfold getObjectList
  rw [((C32_get_list env v s p hv ho hs).1 vs).2 ha]
  show objectsOf vs = .ok xs ↔ _
  clear ha
  induction vs generalizing xs with
  | nil =>
    constructor
    · intro h; cases h; simp
    · rintro ⟨rfl, _⟩; rfl
  | cons w vs ih =>
    rw [objectsOf]
    split
    · rename_i hw
      constructor
      · intro h
        obtain ⟨l, h1, h2⟩ := bindOk h
        cases h2
        obtain ⟨rfl, h3⟩ := (ih l).1 h1
        exact ⟨rfl, fun u hu => (List.mem_cons.1 hu).elim (fun e => e ▸ hw) (h3 u)⟩
      · rintro ⟨rfl, h⟩
        rw [(ih vs).2 ⟨rfl, fun u hu => h u (List.mem_cons_of_mem _ hu)⟩]; rfl
    · rename_i hw
      constructor
      · intro h; cases h
      · rintro ⟨_, h⟩; exact absurd (h w List.mem_cons_self) hw

/-- **C54 (violated).** A list with an element that is not an object makes `get_object_list` throw
something that is not a `config_exception`. -/
theorem C54_object_list_foreign (env : Env) (v : Value) (s : Str) (p : Path) (hv : v.Plain)
    (ho : v.isObject = true) (hs : newPath env s = .ok p) (vs : List Value)
    (ha : at? v p = some (.list vs)) (w : Value) (hw : w ∈ vs) (hn : w.isObject = false) :
    getObjectList env v s = .err .foreign := by
  unfold getObjectList
  rw [((C32_get_list env v s p hv ho hs).1 vs).2 ha]
  show objectsOf vs = _
  clear ha
  induction vs with
  | nil => cases hw
  | cons u vs ih =>
    rw [objectsOf]
    split
    · rename_i hu
      rcases List.mem_cons.1 hw with rfl | hw
      · rw [hn] at hu; cases hu
      · rw [ih hw]; rfl
    · rfl

/-- **C54 (violated).** `get_config_list` throws for every list that is not empty, also when all
elements are objects. -/
theorem C54_config_list_unusable (env : Env) (v : Value) (s : Str) (p : Path) (hv : v.Plain)
    (ho : v.isObject = true) (hs : newPath env s = .ok p) (w : Value) (vs : List Value)
    (ha : at? v p = some (.list (w :: vs))) : getConfigList env v s = .err .config := by
  unfold getConfigList
  rw [((C32_get_list env v s p hv ho hs).1 _).2 ha]
  rfl

/-- **C54.** What `get_config_list` can return: the empty list, and exactly for a setting that is the empty list. -/
theorem C54_config_list_partial (env : Env) (v : Value) (s : Str) (p : Path) (hv : v.Plain)
    (ho : v.isObject = true) (hs : newPath env s = .ok p) (ws : List Value) :
    getConfigList env v s = .ok ws ↔ ws = [] ∧ at? v p = some (.list []) := by
  have h := (C32_get_list env v s p hv ho hs).1
  unfold getConfigList
  constructor
  · intro hg
    cases hl : getList env v s with
    | ok vs =>
      rw [hl] at hg
      cases vs with
      | nil =>
        cases hg
        exact ⟨rfl, (h []).1 hl⟩
      | cons => cases hg
    | _ => rw [hl] at hg; cases hg
  · rintro ⟨rfl, ha⟩
    rw [(h []).2 ha]
    rfl

example : getConfigList Tokenizer.exEnv (.obj [(ch "x", .list [])] true false) (ch "x") = .ok [] := rfl

/-- `{ l : [1, "2", 3], o : [{}], e : [true, false] }` -/
def exLists : Value :=
  .obj [(ch "l", .list [.scalar (.int 1 (ch "1")), .scalar (.str (ch "2") true), .scalar (.int 3 (ch "3"))]),
    (ch "o", .list [.obj [] true false]), (ch "e", .list [.scalar (.bool true), .scalar (.bool false)])]
    true false

theorem exLists_plain : exLists.Plain := by
  constructor
  · simp [exLists, Wf, WfF, WfL, keysOf, resolvedFields, resolved, resolvedAll]
  · rfl

/-- **C54 (violated).** `get_int` converts the string `"2"` and `get_double` the integer `1`; the list
getters refuse a list that holds them. -/
theorem C54_no_conversion (env : Env) :
    getInt env (.obj [(ch "x", .scalar (.str (ch "2") true))] true false) (ch "x") = .ok 2 ∧
    getIntList env exLists (ch "l") = .err .config ∧
    getDouble env (.obj [(ch "x", .scalar (.int 1 (ch "1")))] true false) (ch "x") =
      .ok (env.i64ToDouble 1) ∧
    getDoubleList env (.obj [(ch "x", .list [.scalar (.int 1 (ch "1"))])] true false) (ch "x") =
      .err .config := by
  refine ⟨rfl, rfl, rfl, rfl⟩

example : getBoolList Tokenizer.exEnv exLists (ch "e") = .ok [true, false] ∧
    exLists.isObject = true ∧ newPath Tokenizer.exEnv (ch "e") = .ok [ch "e"] ∧
    at? exLists [ch "o"] = some (.list [.obj [] true false]) := by decide
example : getConfigList Tokenizer.exEnv exLists (ch "o") = .err .config :=
  C54_config_list_unusable _ _ _ [ch "o"] exLists_plain rfl rfl _ _ rfl

end Value
end Hocon
