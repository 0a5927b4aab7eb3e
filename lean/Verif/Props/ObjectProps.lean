import Verif.Props.GetterProps

/-!
# Properties of changing objects: C33 - C36, and of `entry_set`: C30

Statements use `at?` (Spec/Lookup.lean) for the value at a path; C29 links it to `get_value` and
`has_path`.
-/

set_option autoImplicit false

namespace Hocon
namespace Value
open Spec
open PathParser (newPath renderPath)

/-- Neither path is a prefix of the other. -/
def Unrelated (p q : Path) : Prop := ¬ p <+: q ∧ ¬ q <+: p

theorem unrelated_cons {k : Str} {p q : Path} : Unrelated (k :: p) (k :: q) ↔ Unrelated p q := by
  simp [Unrelated, List.cons_prefix_cons]

theorem findKey_append_new {fs : Fields} {k : Str} {v : Value} (h : findKey fs k = none) (k' : Str) :
    findKey (fs ++ [(k, v)]) k' = if k' = k then some v else findKey fs k' := by
  rw [findKey_append]
  by_cases e : k' = k
  · subst e; simp [h, findKey_cons]
  · simp [findKey_cons, e, Ne.symm e]

/-! ## C36: `at_key` and `at_path` -/

/-- Nested objects around a value. -/
def nest : Path → Value → Value
  | [], v => v
  | k :: p, v => newObj [(k, nest p v)]

theorem nest_snoc (p : Path) (k : Str) (v : Value) : nest (p ++ [k]) v = nest p (atKey v k) := by
  induction p with
  | nil => rfl
  | cons k' p ih => simp only [List.cons_append, nest, ih]

theorem atPathLoop_eq (n : Nat) (v : Value) (p : Path) (h : p.length < n) :
    atPathLoop n v p = .ok (nest p v) := by
  induction n generalizing v p with
  | zero => omega
  | succ n ih =>
    rw [atPathLoop]
    cases hp : p with
    | nil => rfl
    | cons k r =>
      have hne : p ≠ [] := by rw [hp]; simp
      rw [← hp]
      have : p.isEmpty = false := by rw [hp]; rfl
      rw [this, PathM.C03_last, List.getLast?_eq_some_getLast hne, PathM.C03_parent]
      simp only [Bool.false_eq_true, if_false]
      rw [ih _ _ (by rw [List.length_dropLast]; rw [hp] at h ⊢; simp at h ⊢; omega), ← nest_snoc,
        List.dropLast_append_getLast]

theorem atPath_eq (v : Value) (p : Path) (hp : p ≠ []) : atPath v p = .ok (nest p v) := by
  unfold atPath
  rw [PathM.C03_last, List.getLast?_eq_some_getLast hp, PathM.C03_parent]
  simp only
  rw [atPathLoop_eq _ _ _ (by simp; omega), ← nest_snoc, List.dropLast_append_getLast]

theorem at_newObj1 (k : Str) (w : Value) (k' : Str) (q : Path) :
    at? (newObj [(k, w)]) (k' :: q) = if k' = k then at? w q else none := by
  unfold newObj
  rw [at_obj, findKey_cons]
  by_cases e : k' = k
  · simp [e]
  · simp [e, Ne.symm e]

theorem at_nest (p : Path) (v : Value) (q : Path) : at? (nest p v) (p ++ q) = at? v q := by
  induction p with
  | nil => rfl
  | cons k p ih => simp only [List.cons_append, nest, at_newObj1, if_true, ih]

theorem at_nest_unrelated (p : Path) (v : Value) (q : Path) (h : Unrelated p q) :
    at? (nest p v) q = none := by
  induction p generalizing q with
  | nil => exact absurd (List.nil_prefix) h.1
  | cons k p ih =>
    cases q with
    | nil => exact absurd (List.nil_prefix) h.2
    | cons k' q =>
      rw [nest, at_newObj1]
      split
      · rename_i e; subst e; exact ih q (unrelated_cons.1 h)
      · rfl

theorem nest_isObject (p : Path) (v : Value) (hp : p ≠ []) : (nest p v).isObject = true := by
  cases p with
  | nil => exact absurd rfl hp
  | cons k p => rfl

theorem plain_newObj1 (k : Str) {v : Value} (h : v.Plain) : (newObj [(k, v)]).Plain := by
  unfold newObj
  rw [plain_obj]
  refine ⟨by simp [resolvedFields, h.res], by simp [keysOf], ?_⟩
  simpa using h

theorem nest_plain (p : Path) {v : Value} (h : v.Plain) : (nest p v).Plain := by
  induction p with
  | nil => exact h
  | cons k p ih => exact plain_newObj1 k ih

/-- **C36.** `at_path` returns, for every value and path: at the path itself and below is the value,
on the way there are objects, and nothing is anywhere else. -/
theorem C36_at_path (v : Value) (p : Path) (hp : p ≠ []) :
    ∃ c, atPath v p = .ok c ∧ (∀ q, at? c (p ++ q) = at? v q) ∧
      (∀ q, q <+: p → q ≠ p → look c q = some .object) ∧
      (∀ q, Unrelated p q → at? c q = none) := by
  refine ⟨_, atPath_eq v p hp, at_nest p v, ?_, at_nest_unrelated p v⟩
  rintro q ⟨r, rfl⟩ hne
  have hr : r ≠ [] := by rintro rfl; simp at hne
  have : nest (q ++ r) v = nest q (nest r v) := by
    clear hp hne
    induction q with
    | nil => rfl
    | cons k q ih => simp only [List.cons_append, nest, ih]
  rw [this, look]
  have h := at_nest q (nest r v) []
  rw [List.append_nil] at h
  rw [h]
  cases r with
  | nil => exact absurd rfl hr
  | cons k r => rfl

/-- **C36.** The same on the API: `v.at_path(s).get_value(s)` is `v`, for a resolved `v` that is not
null. -/
theorem C36_get_value (env : Env) (v : Value) (s : Str) (p : Path) (hv : v.Plain)
    (hn : v ≠ .scalar .null) (hs : newPath env s = .ok p) :
    ∃ c, atPathExpr env v s = .ok c ∧ getValue env c s = .ok v := by
  have hp := (PathParser.C04_accepted_paths env s p hs).1
  refine ⟨nest p v, ?_, ?_⟩
  · unfold atPathExpr; rw [hs]; exact atPath_eq v p hp
  · rw [C29_get_value env _ v s p (nest_plain p hv) (nest_isObject p v hp) hs]
    have := at_nest p v []
    rw [List.append_nil] at this
    exact ⟨this, hn⟩

/-- **C36.** `at_key` is `at_path` with the one key; an unresolved value makes the object
unresolved. -/
theorem C36_at_key (v : Value) (k : Str) :
    atPath v [k] = .ok (atKey v k) ∧ (atKey v k).resolved = v.resolved ∧
      ∀ q, at? (atKey v k) (k :: q) = at? v q := by
  refine ⟨atPath_eq v [k] (by simp), ?_, fun q => at_nest [k] v q⟩
  simp [atKey, newObj, resolved, resolvedFields]

example : atPath (exInt 1) [ch "a", ch "b"] =
    .ok (.obj [(ch "a", .obj [(ch "b", exInt 1)] true false)] true false) := by decide

/-! ## C33: `with_value` -/

/-- **C33 (partial).** `with_value(p, v)` when the first key of the path is new: the value is at the
path and everything unrelated to the path is unchanged. Missing: paths whose first key exists
(`C33_existing_key_kept`, `C33_wrong_object`). -/
theorem C33_new_key_partial (fs : Fields) (r i : Bool) (k : Str) (next : Path) (v : Value)
    (hk : findKey fs k = none) :
    ∃ c, withValuePath (.obj fs r i) (k :: next) v = .ok c ∧
      (∀ q, at? c (k :: next ++ q) = at? v q) ∧
      (∀ q, Unrelated (k :: next) q → at? c q = at? (.obj fs r i) q) := by
  have key : ∀ w : Value, (∀ q, at? (withValueKey fs r i k w) (k :: q) = at? w q) ∧
      ∀ k' q, k' ≠ k → at? (withValueKey fs r i k w) (k' :: q) = at? (.obj fs r i) (k' :: q) := by
    intro w
    unfold withValueKey
    rw [hk]
    simp only [at_obj, findKey_append_new hk]
    exact ⟨by simp, fun k' q hne => by simp [hne]⟩
  have hc : withValuePath (.obj fs r i) (k :: next) v = .ok (withValueKey fs r i k (nest next v)) := by
    rw [withValuePath]
    cases next with
    | nil => rfl
    | cons k2 next =>
      simp only [List.isEmpty_cons, Bool.false_eq_true, if_false, hk]
      rw [atPath_eq _ _ (by simp)]; rfl
  refine ⟨_, hc, ?_, ?_⟩
  · intro q
    rw [List.cons_append, (key _).1, at_nest]
  · intro q hq
    cases q with
    | nil => exact absurd (List.nil_prefix) hq.2
    | cons k' q =>
      by_cases e : k' = k
      · subst e
        rw [(key _).1, at_nest_unrelated _ _ _ (unrelated_cons.1 hq), at_obj, hk]; rfl
      · exact (key _).2 k' q e

/-- **C33 (partial), on the API.** If the config has nothing at the first key of the path, then after
`with_value(s, v)` with a resolved non-null `v`, `get_value(s)` is `v`. -/
theorem C33_get_value_partial (env : Env) (fs : Fields) (i : Bool) (s : Str) (k : Str) (next : Path)
    (v : Value) (hp : PlainF fs) (hs : newPath env s = .ok (k :: next)) (hk : findKey fs k = none)
    (hv : v.Plain) (hn : v ≠ .scalar .null) :
    ∃ c, withValue env (.obj fs true i) s v = .ok c ∧ c.Plain ∧ getValue env c s = .ok v := by
  have hc : withValue env (.obj fs true i) s v = .ok (withValueKey fs true i k (nest next v)) := by
    unfold withValue
    rw [hs]
    simp only [Res.ok_bind]
    rw [withValuePath]
    cases next with
    | nil => rfl
    | cons k2 next =>
      simp only [List.isEmpty_cons, Bool.false_eq_true, if_false, hk]
      rw [atPath_eq _ _ (by simp)]; rfl
  have hpl : (withValueKey fs true i k (nest next v)).Plain := by
    unfold withValueKey
    rw [hk]
    simp only
    rw [plain_obj]
    refine ⟨rfl, ?_, ?_⟩
    · rw [keysOf_append]
      refine List.nodup_append.2 ⟨hp.nodup, by simp [keysOf], ?_⟩
      intro a ha b hb
      simp only [keysOf, List.map_cons, List.map_nil, List.mem_singleton] at hb
      subst hb
      rintro rfl
      exact findKey_none.1 hk ha
    · intro f hf
      rcases List.mem_append.1 hf with h | h
      · exact hp.all f h
      · simp only [List.mem_singleton] at h; subst h; exact nest_plain next hv
  refine ⟨_, hc, hpl, ?_⟩
  have ho : (withValueKey fs true i k (nest next v)).isObject = true := by
    unfold withValueKey; rw [hk]; rfl
  rw [C29_get_value env _ v s _ hpl ho hs]
  refine ⟨?_, hn⟩
  unfold withValueKey
  rw [hk, at_obj, findKey_append_new hk]
  have := at_nest next v []
  rw [List.append_nil] at this
  simpa [at?] using this

/-- **C33 (violated).** A value is never replaced: if the key exists, `with_value(key, v)` returns the
object unchanged, whatever `v` is (`unordered_map::emplace` does not overwrite). -/
theorem C33_existing_key_kept (fs : Fields) (r i : Bool) (k : Str) (v old : Value)
    (hk : findKey fs k = some old) :
    withValuePath (.obj fs r i) [k] v = .ok (.obj fs r i) := by
  simp [withValuePath, withValueKey, hk]

/-- **C33 (violated).** If the value at the first key is an object, the first key is dropped from the
path: the value is stored relative to the root instead of relative to that object. -/
theorem C33_wrong_object (fs : Fields) (r i : Bool) (k k2 : Str) (next : Path) (v old : Value)
    (hk : findKey fs k = some old) (ho : old.isObject = true) :
    withValuePath (.obj fs r i) (k :: k2 :: next) v = withValuePath (.obj fs r i) (k2 :: next) v := by
  rw [withValuePath]
  simp only [List.isEmpty_cons, Bool.false_eq_true, if_false, hk, ho, if_true, withValueKey]

/-- **C33 (violated), witness.** On `{ a : { x : 1 } }`, `with_value("a.b", 2)` succeeds, but
`a.b` has no value afterwards and an unrelated path `b` has one. -/
theorem C33_not_retrievable (env : Env) :
    ∃ (c v w : Value), c.Plain ∧ v.Plain ∧ withValue env c (ch "a.b") v = .ok w ∧
      getValue env w (ch "a.b") = .err .config ∧ getValue env w (ch "b") = .ok v := by
  refine ⟨.obj [(ch "a", .obj [(ch "x", exInt 1)] true false)] true false, exInt 2, _, ?_, ?_, rfl, rfl, rfl⟩
  · constructor
    · simp [Wf, WfF, keysOf, resolvedFields, resolved, exInt]
    · rfl
  · exact ⟨trivial, rfl⟩

/-- **C33.** The stored resolve status is not updated: storing an unresolved value in a resolved
config gives a config that says it is resolved (and `resolve()` would then do nothing). -/
theorem C33_status_stale (fs : Fields) (i : Bool) (k : Str) (v : Value)
    (hk : findKey fs k = none) (hv : v.resolved = false) :
    ∃ c, withValuePath (.obj fs true i) [k] v = .ok c ∧ c.resolved = true ∧ ¬ c.Wf := by
  refine ⟨.obj (fs ++ [(k, v)]) true i, by simp [withValuePath, withValueKey, hk], rfl, ?_⟩
  intro h
  simp only [Wf] at h
  have := h.1.symm
  rw [resolvedFields_iff] at this
  have := this (k, v) (by simp)
  simp [hv] at this

/-- **C33.** `with_value` on an object with a non-empty path always returns normally. -/
theorem C33_total (p : Path) (fs : Fields) (r i : Bool) (v : Value) (hp : p ≠ []) :
    ∃ c, withValuePath (.obj fs r i) p v = .ok c := by
  induction p generalizing fs with
  | nil => exact absurd rfl hp
  | cons k next ih =>
    cases next with
    | nil => exact ⟨_, rfl⟩
    | cons k2 next =>
      cases hk : findKey fs k with
      | none =>
        obtain ⟨c, h, _⟩ := C33_new_key_partial fs r i k (k2 :: next) v hk
        exact ⟨c, h⟩
      | some old =>
        by_cases ho : old.isObject = true
        · rw [C33_wrong_object fs r i k k2 next v old hk ho]
          exact ih fs (by simp)
        · rw [withValuePath]
          simp only [List.isEmpty_cons, Bool.false_eq_true, if_false, hk, ho]
          rw [atPath_eq _ _ (by simp)]
          exact ⟨_, rfl⟩

/-! ## C34: `without_path` -/

theorem withoutPath_cases (p : Path) (v : Value) (hv : v.Plain) (ho : v.isObject = true) (hp : p ≠ []) :
    ∃ c, withoutPathObj v p = .ok c ∧ c.Plain ∧ c.isObject = true ∧
      (∀ q, at? c (p ++ q) = none) ∧
      (∀ q, p.dropLast <+: q → Unrelated p q → at? c q = at? v q) := by
  induction p generalizing v with
  | nil => exact absurd rfl hp
  | cons k next ih =>
    rcases hv.cases with ⟨h1, _, _⟩ | ⟨fs, i, rfl, hf⟩
    · rw [h1] at ho; cases ho
    · rw [withoutPathObj]
      cases hk : findKey fs k with
      | none =>
        refine ⟨_, rfl, hv, rfl, ?_, fun q _ _ => rfl⟩
        intro q; rw [List.cons_append, at_obj, hk]; rfl
      | some child =>
        cases next with
        | nil =>
          simp only [List.isEmpty_nil, Bool.not_true, Bool.and_false, Bool.false_eq_true, if_false]
          have hpf : PlainF (fs.filter fun f => f.1 ≠ k) :=
            ⟨hf.nodup.sublist (List.Sublist.map Prod.fst List.filter_sublist),
              fun f h => hf.all f (List.mem_of_mem_filter h)⟩
          have hr : resolvedFields (fs.filter fun f => f.1 ≠ k) = true :=
            resolvedFields_iff.2 fun f h => (hpf.all f h).res
          refine ⟨_, rfl, ?_, rfl, ?_, ?_⟩
          · rw [plain_obj]; exact ⟨hr, hpf⟩
          · intro q
            rw [List.cons_append, at_obj]
            have := findKey_filter fs (fun x => decide (x ≠ k)) k
            simp only [ne_eq, not_true_eq_false, decide_false] at this
            rw [this]; rfl
          · intro q _ hq
            cases q with
            | nil => exact absurd List.nil_prefix hq.2
            | cons k' q =>
              have hne : k' ≠ k := by
                rintro rfl; exact hq.1 (by simp [List.cons_prefix_cons])
              rw [at_obj, at_obj]
              have := findKey_filter fs (fun x => decide (x ≠ k)) k'
              simp only [ne_eq, hne, not_false_eq_true, decide_true, if_true] at this
              rw [this]
        | cons k2 next =>
          by_cases hc : child.isObject = true
          · simp only [hc, List.isEmpty_cons, Bool.not_false, Bool.and_true, if_true]
            obtain ⟨c, h1, h2, h3, h4, h5⟩ := ih child (hf.find hk) hc (by simp)
            rw [h1]
            simp only [Res.bind]
            refine ⟨_, rfl, ?_, rfl, ?_, ?_⟩
            · rw [plain_obj]
              refine ⟨resolvedFields_iff.2 (by simpa using h2.res), by simp [keysOf], by simpa using h2⟩
            · intro q
              rw [List.cons_append, at_obj, findKey_cons]
              simpa using h4 q
            · intro q hq1 hq2
              cases q with
              | nil => simp at hq1
              | cons k' q =>
                rw [List.dropLast_cons_of_ne_nil (by simp), List.cons_prefix_cons] at hq1
                obtain ⟨rfl, hq1⟩ := hq1
                have := h5 q hq1 (unrelated_cons.1 hq2)
                simpa [at_obj, findKey_cons, hk] using this
          · simp only [hc, Bool.false_and, Bool.false_eq_true, if_false, List.isEmpty_cons,
              Bool.not_false, if_true]
            refine ⟨_, rfl, hv, rfl, ?_, fun q _ _ => rfl⟩
            intro q
            rw [List.cons_append, at_obj, hk, Option.bind_some, List.cons_append,
              at_nonobj (Plain.ne_of_nonobj (by simpa using hc))]

/-- **C34.** `without_path` returns and nothing is at the path (or below it) afterwards. -/
theorem C34_removed (env : Env) (v : Value) (s : Str) (p : Path) (hv : v.Plain)
    (ho : v.isObject = true) (hs : newPath env s = .ok p) :
    ∃ c, withoutPath env v s = .ok c ∧ hasPathOrNull env c s = .ok false ∧
      ∀ q, at? c (p ++ q) = none := by
  have hp := (PathParser.C04_accepted_paths env s p hs).1
  obtain ⟨c, h1, h2, h3, h4, _⟩ := withoutPath_cases p v hv ho hp
  refine ⟨c, by unfold withoutPath; rw [hs]; exact h1, ?_, h4⟩
  obtain ⟨b, h5, h6⟩ := C29_has_path_or_null env c s p h2 h3 hs
  rw [h5]
  have := h4 []
  rw [List.append_nil] at this
  simp only [this, reduceCtorEq, exists_false, iff_false, Bool.not_eq_true] at h6
  rw [h6]

/-- **C34 (partial).** `without_path` keeps everything in the object that held the removed value, at
any depth. Missing: paths outside that object, which are lost (`C34_siblings_lost`). For a path of
one element the object is the whole config, so nothing is missing. -/
theorem C34_frame_partial (v : Value) (p : Path) (hv : v.Plain) (ho : v.isObject = true)
    (hp : p ≠ []) :
    ∃ c, withoutPathObj v p = .ok c ∧
      ∀ q, p.dropLast <+: q → Unrelated p q → at? c q = at? v q := by
  obtain ⟨c, h1, _, _, _, h5⟩ := withoutPath_cases p v hv ho hp
  exact ⟨c, h1, h5⟩

/-- **C34 (violated).** If the first key of a longer path is an object, every other key of the config
is lost, whether or not there is anything at the path. -/
theorem C34_siblings_lost (fs : Fields) (i : Bool) (k k2 : Str) (next : Path) (child : Value)
    (hf : PlainF fs) (hk : findKey fs k = some child) (ho : child.isObject = true) :
    ∃ c, withoutPathObj (.obj fs true i) (k :: k2 :: next) = .ok c ∧
      ∀ k' q, k' ≠ k → at? c (k' :: q) = none := by
  rw [withoutPathObj, hk]
  obtain ⟨c, h1, _⟩ := withoutPath_cases (k2 :: next) child (hf.find hk) ho (by simp)
  simp only [ho, List.isEmpty_cons, Bool.not_false, Bool.and_true, if_true, h1, Res.bind]
  refine ⟨_, rfl, fun k' q hne => ?_⟩
  rw [at_obj, findKey_cons]
  simp [Ne.symm hne]

/-- **C34 (violated), witness.** Removing a path that does not exist removes an unrelated one. -/
theorem C34_witness (env : Env) :
    ∃ (c w : Value), c.Plain ∧ hasPath env c (ch "a.b") = .ok false ∧
      hasPath env c (ch "z") = .ok true ∧
      withoutPath env c (ch "a.b") = .ok w ∧ hasPath env w (ch "z") = .ok false := by
  refine ⟨.obj [(ch "a", .obj [] true false), (ch "z", exInt 1)] true false, _, ?_, rfl, rfl, rfl, rfl⟩
  constructor
  · simp [Wf, WfF, keysOf, resolvedFields, resolved, exInt]
  · rfl

/-! ## C35: `with_only_path` -/

theorem withOnly_none (p : Path) (v : Value) (hv : v.Plain) (ho : v.isObject = true) (hp : p ≠ []) :
    (withOnlyPathOrNull v p = .ok none ∧ (at? v p.dropLast).isSome ∧
      (∀ w, at? v p.dropLast = some w → w.isObject = true)) ∨
    (withOnlyPathOrNull v p = .ub ∧ ∀ w, at? v p.dropLast = some w → w.isObject = false) := by
  induction p generalizing v with
  | nil => exact absurd rfl hp
  | cons k next ih =>
    rcases hv.cases with ⟨h1, _, _⟩ | ⟨fs, i, rfl, hf⟩
    · rw [h1] at ho; cases ho
    · rw [withOnlyPathOrNull]
      cases next with
      | nil => left; refine ⟨rfl, rfl, ?_⟩; intro w h; cases h; rfl
      | cons k2 next =>
        simp only [List.isEmpty_cons, Bool.false_eq_true, if_false]
        rw [List.dropLast_cons_of_ne_nil (by simp), at_obj]
        cases hk : findKey fs k with
        | none => right; exact ⟨rfl, by simp⟩
        | some child =>
          simp only [Option.bind_some]
          by_cases hc : child.isObject = true
          · rw [if_pos hc]
            rcases ih child (hf.find hk) hc (by simp) with ⟨h1, h2, h3⟩ | ⟨h1, h2⟩
            · left; rw [h1]; exact ⟨rfl, h2, h3⟩
            · right; rw [h1]; exact ⟨rfl, h2⟩
          · rw [if_neg hc]
            right
            refine ⟨rfl, ?_⟩
            intro w hw
            cases hd : (k2 :: next).dropLast with
            | nil => rw [hd] at hw; cases hw; simpa using hc
            | cons k3 r =>
              rw [hd, at_nonobj (Plain.ne_of_nonobj (by simpa using hc))] at hw; cases hw

/-- **C35 (violated).** `with_only_path` never keeps anything: on every resolved config and every
path the result is the empty config, or the behaviour is undefined (a member function called on a
null pointer) when an intermediate element of the path is not an object. -/
theorem C35_always_empty_or_undefined (v : Value) (p : Path) (hv : v.Plain) (ho : v.isObject = true)
    (hp : p ≠ []) :
    (∃ c, withOnlyPathObj v p = .ok c ∧ fieldsOf c = [] ∧ ∀ q, q ≠ [] → at? c q = none) ∨
    (withOnlyPathObj v p = .ub ∧ ∀ w, at? v p.dropLast = some w → w.isObject = false) := by
  unfold withOnlyPathObj
  rcases withOnly_none p v hv ho hp with ⟨h1, _, _⟩ | ⟨h1, h2⟩
  · left
    rw [h1]
    refine ⟨_, rfl, rfl, ?_⟩
    intro q hq
    cases q with
    | nil => exact absurd rfl hq
    | cons k q => rw [at_obj]; rfl
  · right; rw [h1]; exact ⟨rfl, h2⟩

/-- **C35 (partial).** The half of the claim that holds: if `with_only_path(p)` returns, no path
unrelated to `p` has a value in the result. Missing: the value at `p`, which is lost as well. -/
theorem C35_nothing_else_partial (env : Env) (v c : Value) (s : Str) (p q : Path) (hv : v.Plain)
    (ho : v.isObject = true) (hs : newPath env s = .ok p) (h : withOnlyPath env v s = .ok c)
    (hq : Unrelated p q) : at? c q = none := by
  have hp := (PathParser.C04_accepted_paths env s p hs).1
  unfold withOnlyPath at h
  rw [hs] at h
  simp only [Res.ok_bind] at h
  rcases C35_always_empty_or_undefined v p hv ho hp with ⟨c', h1, _, h2⟩ | ⟨h1, _⟩
  · rw [h] at h1; cases h1
    refine h2 q ?_
    rintro rfl; exact hq.2 List.nil_prefix
  · rw [h] at h1; cases h1

/-- **C35 (violated), witnesses.** A path that has a value loses it; a path through a missing key is
undefined behaviour. -/
theorem C35_witness (env : Env) :
    ∃ (c w : Value), c.Plain ∧ hasPath env c (ch "a") = .ok true ∧
      withOnlyPath env c (ch "a") = .ok w ∧ hasPath env w (ch "a") = .ok false ∧
      withOnlyPath env c (ch "b.c") = .ub := by
  refine ⟨.obj [(ch "a", exInt 1)] true false, _, ?_, rfl, rfl, rfl, rfl⟩
  constructor
  · simp [Wf, WfF, keysOf, resolvedFields, resolved, exInt]
  · rfl

example : withoutPath Tokenizer.exEnv exCfg (ch "l") =
    .ok (.obj [(ch "o", (at? exCfg [ch "o"]).getD exCfg)] true false) := by decide
example : findKey (fieldsOf exCfg) (ch "new") = none ∧ findKey (fieldsOf exCfg) (ch "l") = some (.list []) ∧
    Unrelated [ch "l"] [ch "o", ch "n"] := ⟨rfl, rfl, by unfold Unrelated; decide⟩

end Value
end Hocon
