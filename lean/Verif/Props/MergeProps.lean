import Verif.Lemmas.MergeLemmas
import Verif.Spec.Lookup

/-!
# Properties of merging: C16 - C20

`withFallback a b` models `a.with_fallback(b)` on values, `configWithFallback` on configs.
`Plain v`: `v` is resolved, its objects' stored statuses are right and their keys distinct.
-/

set_option autoImplicit false

namespace Hocon
namespace Value
open Spec

/-! ## Linking the lookup of the specification with the map of the model -/

theorem child_obj (fs : Fields) (r i : Bool) (k : Str) : child (.obj fs r i) k = findKey fs k := by
  unfold child fieldsOf
  induction fs with
  | nil => rfl
  | cons f fs ih =>
    obtain ⟨k', v⟩ := f
    simp only [List.find?_cons, findKey_cons]
    by_cases h : k' = k
    · simp [h]
    · simpa [h] using ih

theorem child_nonobj {v : Value} (h : ∀ fs r i, v ≠ .obj fs r i) (k : Str) : child v k = none := by
  cases v <;> first | rfl | exact absurd rfl (h _ _ _)

theorem look_cons (v : Value) (k : Str) (p : Path) :
    look v (k :: p) = (child v k).bind fun w => look w p := by
  simp only [look, at?]
  cases child v k <;> simp

theorem hidden_cons {v w : Value} {k : Str} {p : Path} (hc : closed v = false)
    (hw : child v k = some w) : Hidden v (k :: p) ↔ Hidden w p := by
  constructor
  · rintro ⟨q, x, h1, h2, h3, h4⟩
    cases q with
    | nil => simp only [at?, Option.some.injEq] at h3; subst h3; rw [hc] at h4; cases h4
    | cons k' q =>
      obtain ⟨rfl, h5⟩ := List.cons_prefix_cons.1 h1
      simp only [at?, hw, Option.bind_some] at h3
      exact ⟨q, x, h5, fun e => h2 (by rw [e]), h3, h4⟩
  · rintro ⟨q, x, h1, h2, h3, h4⟩
    exact ⟨k :: q, x, List.cons_prefix_cons.2 ⟨rfl, h1⟩, fun e => h2 (by simpa using e),
      by simp [at?, hw, h3], h4⟩

theorem not_hidden_of_none {v : Value} {k : Str} {p : Path} (hc : closed v = false)
    (hw : child v k = none) : ¬ Hidden v (k :: p) := by
  rintro ⟨q, x, h1, h2, h3, h4⟩
  cases q with
  | nil => simp only [at?, Option.some.injEq] at h3; subst h3; rw [hc] at h4; cases h4
  | cons k' q =>
    obtain ⟨rfl, h1⟩ := List.cons_prefix_cons.1 h1
    simp [at?, hw] at h3

theorem hidden_of_closed {v : Value} {k : Str} {p : Path} (hc : closed v = true) :
    Hidden v (k :: p) := ⟨[], v, by simp, by simp, rfl, hc⟩

theorem Plain.ne_of_nonobj {v : Value} (h : v.isObject = false) (fs : Fields) (r i : Bool) :
    v ≠ .obj fs r i := by rintro rfl; simp [isObject] at h

/-! ## C16: precedence -/

theorem pmerge_look (p : Path) (a b : Value) (ha : a.Plain) (hb : b.Plain) :
    (∀ s, look a p = some s → look (pmerge a b) p = some s) ∧
    (look a p = none → Hidden a p → look (pmerge a b) p = none) ∧
    (look a p = none → ¬ Hidden a p → look (pmerge a b) p = look b p) := by
  induction p generalizing a b with
  | nil =>
    refine ⟨?_, by simp [look, at?], by simp [look, at?]⟩
    intro s hs
    rw [← hs]
    simp only [look, at?, Option.map_some, Option.some.injEq]
    rcases ha.cases with ⟨h1, _, _⟩ | ⟨fs, i, rfl, hf⟩
    · rw [pmerge_nonobj b h1]
    · cases i with
      | true => rw [pmerge_sealed]
      | false =>
        rcases hb.cases with ⟨h1, _, _⟩ | ⟨gs, j, rfl, hg⟩
        · rw [pmerge_over_nonobj _ _ h1]; rfl
        · rw [pmerge_obj]; rfl
  | cons k p ih =>
    rcases ha.cases with ⟨h1, _, _⟩ | ⟨fs, i, rfl, hf⟩
    · rw [pmerge_nonobj b h1]
      have hc : closed a = true := by cases a <;> first | rfl | simp [isObject] at h1
      exact ⟨fun s hs => hs, fun hn _ => hn, fun _ hh => absurd (hidden_of_closed hc) hh⟩
    · cases i with
      | true =>
        rw [pmerge_sealed]
        exact ⟨fun s hs => hs, fun hn _ => hn, fun _ hh => absurd (hidden_of_closed rfl) hh⟩
      | false =>
        rcases hb.cases with ⟨h1, _, _⟩ | ⟨gs, j, rfl, hg⟩
        · rw [pmerge_over_nonobj _ _ h1]
          have he : look (.obj fs true true) (k :: p) = look (.obj fs true false) (k :: p) := by
            simp only [look_cons, child_obj]
          rw [he]
          refine ⟨fun s hs => hs, fun hn _ => hn, fun hn _ => ?_⟩
          rw [hn, look_cons, child_nonobj (Plain.ne_of_nonobj h1)]
          rfl
        · rw [pmerge_obj]
          have hc : ∀ x, child (.obj (pmergeF fs gs ++ extraFields (keysOf fs) gs) true j) x =
              match findKey fs x, findKey gs x with
              | none, y => y
              | some v, none => some v
              | some v, some w => some (pmerge v w) := by
            intro x
            rw [child_obj, findKey_append, findKey_pmergeF, findKey_extra]
            cases h1 : findKey fs x with
            | none => simp [findKey_none.1 h1]
            | some v =>
              cases findKey gs x <;> simp
          simp only [look_cons, hc]
          rw [child_obj, child_obj]
          cases h1 : findKey fs k with
          | none =>
            refine ⟨by simp, ?_, by simp⟩
            intro _ hh
            exact absurd hh (not_hidden_of_none rfl (by rw [child_obj, h1]))
          | some v =>
            have hcv : child (.obj fs true false) k = some v := by rw [child_obj, h1]
            cases h2 : findKey gs k with
            | none =>
              refine ⟨by simp, by simp +contextual, ?_⟩
              intro hn _
              simpa using hn
            | some w =>
              obtain ⟨i1, i2, i3⟩ := ih v w (hf.find h1) (hg.find h2)
              simp only [Option.bind_some]
              refine ⟨i1, ?_, ?_⟩
              · intro hn hh
                exact i2 hn ((hidden_cons rfl hcv).1 hh)
              · intro hn hh
                exact i3 hn (fun x => hh ((hidden_cons rfl hcv).2 x))

/-- Merging resolved configs never fails. -/
theorem C16_total (a b : Value) (ha : a.Plain) (hb : b.Plain) (ho : a.isObject = true) :
    ∃ c, configWithFallback a b = .ok c ∧ c.Plain := by
  obtain ⟨h1, h2⟩ := withFallback_plain a b ha hb
  refine ⟨pmerge a b, ?_, h2⟩
  rw [configWithFallback, h1, Res.ok_bind, if_pos]
  rcases ha.cases with ⟨h, _, _⟩ | ⟨fs, i, rfl, hf⟩
  · rw [ho] at h; cases h
  · cases i with
    | true => rw [pmerge_sealed]; rfl
    | false =>
      rcases hb.cases with ⟨h1, _, _⟩ | ⟨gs, j, rfl, hg⟩
      · rw [pmerge_over_nonobj _ _ h1]; rfl
      · rw [pmerge_obj]; rfl

/-- **C16.** What is at any path `p` of `a.with_fallback(b)`, for resolved configs:
what `a` has there; if `a` has nothing there, nothing when `a` has a value that accepts no
fallbacks on the way to `p`, and otherwise what `b` has there. -/
theorem C16_precedence (a b c : Value) (ha : a.Plain) (hb : b.Plain)
    (h : configWithFallback a b = .ok c) (p : Path) :
    (∀ s, look a p = some s → look c p = some s) ∧
    (look a p = none → Hidden a p → look c p = none) ∧
    (look a p = none → ¬ Hidden a p → look c p = look b p) := by
  rw [configWithFallback, (withFallback_plain a b ha hb).1, Res.ok_bind] at h
  split at h
  · simp only [Res.ok.injEq] at h
    subst h
    exact pmerge_look p a b ha hb
  · simp at h

/-- A scalar used in the examples. -/
def exInt (n : Int) : Value := .scalar (.int n [])

/-- `{x : {p : 1}, y : 2}` -/
def exA : Value := newObj [(ch "x", newObj [(ch "p", exInt 1)]), (ch "y", exInt 2)]
/-- `{x : {p : 8, q : 3}, y : {z : 4}, w : 5}` -/
def exB : Value := newObj [(ch "x", newObj [(ch "p", exInt 8), (ch "q", exInt 3)]),
  (ch "y", newObj [(ch "z", exInt 4)]), (ch "w", exInt 5)]

theorem exA_plain : exA.Plain := ⟨by
  simp [exA, exInt, newObj, Wf, WfF, keysOf, resolvedFields, resolved], by decide⟩
theorem exB_plain : exB.Plain := ⟨by
  simp [exB, exInt, newObj, Wf, WfF, keysOf, resolvedFields, resolved], by decide⟩

example : ∃ c, configWithFallback exA exB = .ok c ∧
    look c [ch "x", ch "p"] = some (.leaf (exInt 1)) ∧
    look c [ch "x", ch "q"] = some (.leaf (exInt 3)) ∧
    look c [ch "y", ch "z"] = none ∧ look c [ch "w"] = some (.leaf (exInt 5)) :=
  ⟨_, rfl, by decide, by decide, by decide, by decide⟩

/-! ## C17: associativity -/

/-- **C17.** For resolved values both ways to merge three values succeed and give the same value,
down to the flags that govern later merges. -/
theorem C17_assoc (a b c : Value) (ha : a.Plain) (hb : b.Plain) (hc : c.Plain) :
    ∃ r, (withFallback a b >>= fun ab => withFallback ab c) = .ok r ∧
      (withFallback b c >>= fun bc => withFallback a bc) = .ok r := by
  obtain ⟨h1, h2⟩ := withFallback_plain a b ha hb
  obtain ⟨h3, h4⟩ := withFallback_plain b c hb hc
  refine ⟨pmerge (pmerge a b) c, ?_, ?_⟩
  · rw [h1, Res.ok_bind, (withFallback_plain _ c h2 hc).1]
  · rw [h3, Res.ok_bind, (withFallback_plain a _ ha h4).1, pmerge_assoc a b c hb hc]

example : ∃ r, (withFallback exA exB >>= fun ab => withFallback ab exA) = .ok r ∧
    look r [ch "x", ch "q"] = some (.leaf (exInt 3)) := ⟨_, rfl, by decide⟩

/-- Resolvedness is needed: with a substitution in the middle, grouping to the left throws while
grouping to the right does not. `a = {x : {p : 1}}`, `b = {x : ${z}}`, `c = {x : {q : 1}}`. -/
theorem C17_unresolved_throws :
    let a := newObj [(ch "x", newObj [(ch "p", exInt 1)])]
    let b := newObj [(ch "x", .ref 0 [ch "z"] false 0)]
    let c := newObj [(ch "x", newObj [(ch "q", exInt 1)])]
    (withFallback a b >>= fun ab => withFallback ab c) = .err .config ∧
    (withFallback b c >>= fun bc => withFallback a bc).isOk = true := by decide

/-- ... and for three substitutions it builds a delayed merge inside a delayed merge, which the
resolver rejects (config_delayed_merge.cc 82-83). -/
theorem C17_unresolved_nested :
    let r := fun n => newObj [(ch "x", .ref n [ch "z"] false 0)]
    (withFallback (r 0) (r 1) >>= fun ab => withFallback ab (r 2)) =
      .ok (newObj [(ch "x", .dm [.dm [.ref 0 [ch "z"] false 0, .ref 1 [ch "z"] false 0],
        .ref 2 [ch "z"] false 0])]) := by decide

/-! ## C18: unit and idempotence -/

/-- **C18.** The empty config is a right unit. -/
theorem C18_empty_right (a : Value) (ha : a.Plain) (ho : a.isObject = true) :
    withFallback a Value.empty = .ok a := by
  have he : Value.empty.Plain := ⟨by simp [Value.empty, newObj, Wf, WfF, keysOf, resolvedFields],
    rfl⟩
  rw [(withFallback_plain a _ ha he).1]
  rcases ha.cases with ⟨h, _, _⟩ | ⟨fs, i, rfl, hf⟩
  · rw [ho] at h; cases h
  · cases i with
    | true => rw [pmerge_sealed]
    | false =>
      rw [Value.empty, newObj, pmerge_obj]
      have h1 : extraFields (keysOf fs) [] = [] := rfl
      have h2 : ∀ gs : Fields, pmergeF gs [] = gs := by
        intro gs
        induction gs with
        | nil => rfl
        | cons f gs ih => obtain ⟨k, v⟩ := f; rw [pmergeF, ih]; rfl
      rw [h1, h2, List.append_nil]

/-- **C18.** The empty config is a left unit. -/
theorem C18_empty_left (a : Value) (ha : a.Plain) (ho : a.isObject = true) :
    withFallback Value.empty a = .ok a := by
  have he : Value.empty.Plain := ⟨by simp [Value.empty, newObj, Wf, WfF, keysOf, resolvedFields],
    rfl⟩
  rw [(withFallback_plain _ a he ha).1]
  rcases ha.cases with ⟨h, _, _⟩ | ⟨fs, i, rfl, hf⟩
  · rw [ho] at h; cases h
  · rw [Value.empty, newObj, pmerge_obj]
    have h1 : extraFields (keysOf []) fs = fs := by simp [extraFields, keysOf]
    rw [h1, pmergeF, List.nil_append]

/-- **C18.** Merging a config with itself changes nothing. -/
theorem C18_idempotent (a : Value) (ha : a.Plain) : withFallback a a = .ok a := by
  rw [(withFallback_plain a a ha ha).1, pmerge_self a ha]

example : withFallback exB exB = .ok exB := C18_idempotent exB exB_plain
example : withFallback Value.empty exB = .ok exB := C18_empty_left exB exB_plain rfl

/-! ## C19: key set -/

/-- **C19.** The keys of a merged object are those of the two objects, resolved or not, provided
the first one still accepts fallbacks. -/
theorem C19_keys (fs gs : Fields) (r r' j : Bool) (c : Value)
    (h : configWithFallback (.obj fs r false) (.obj gs r' j) = .ok c) (k : Str) :
    (child c k).isSome = true ↔ k ∈ fs.map Prod.fst ∨ k ∈ gs.map Prod.fst := by
  rw [configWithFallback, withFallback_obj, Res.bind_eq_ok] at h
  obtain ⟨x, h, h'⟩ := h
  rw [Res.bind_eq_ok] at h
  obtain ⟨m, hm, h⟩ := h
  simp only [Res.ok.injEq] at h
  subst h
  simp only [isObject, ↓reduceIte, Res.ok.injEq] at h'
  subst h'
  rw [child_obj, Option.isSome_iff_exists, ← mem_keysOf, keysOf_append, keysOf_mergeFields hm,
    List.mem_append]
  show k ∈ keysOf fs ∨ _ ↔ k ∈ keysOf fs ∨ k ∈ keysOf gs
  by_cases hk : k ∈ keysOf fs
  · simp [hk]
  · simp only [hk, false_or]
    rw [mem_keysOf, mem_keysOf, findKey_extra, if_neg hk]

/-- **C19.** ... each key once. -/
theorem C19_keys_nodup (fs gs : Fields) (r r' j : Bool) (c : Value)
    (hf : (fs.map Prod.fst).Nodup) (hg : (gs.map Prod.fst).Nodup)
    (h : configWithFallback (.obj fs r false) (.obj gs r' j) = .ok c) :
    ((fieldsOf c).map Prod.fst).Nodup := by
  rw [configWithFallback, withFallback_obj, Res.bind_eq_ok] at h
  obtain ⟨x, h, h'⟩ := h
  rw [Res.bind_eq_ok] at h
  obtain ⟨m, hm, h⟩ := h
  simp only [Res.ok.injEq] at h
  subst h
  simp only [isObject, ↓reduceIte, Res.ok.injEq] at h'
  subst h'
  have := mergedNodup hf hg
  rw [keysOf_append, keysOf_pmergeF, ← keysOf_mergeFields hm, ← keysOf_append] at this
  rw [keysOf_mergeFields hm] at this
  exact this

/-- An object that was merged over a non-object keeps its keys: nothing is added any more. -/
theorem C19_closed (fs : Fields) (r : Bool) (b : Value) :
    configWithFallback (.obj fs r true) b = .ok (.obj fs r true) := by
  rw [configWithFallback, withFallback_sealed]; rfl

example : ∃ c, configWithFallback (newObj [(ch "x", .ref 0 [ch "z"] false 0)]) exB = .ok c ∧
    (child c (ch "x")).isSome = true ∧ (child c (ch "w")).isSome = true :=
  ⟨_, rfl, by decide, by decide⟩

/-! ## C20: a non-object hides what is below -/

/-- A chain `a.with_fallback(b1).with_fallback(b2)...`. -/
def chain : Value → List Value → Res Value
  | a, [] => .ok a
  | a, b :: bs => withFallback a b >>= fun c => chain c bs

theorem chain_append (a : Value) (bs cs : List Value) :
    chain a (bs ++ cs) = (chain a bs >>= fun c => chain c cs) := by
  induction bs generalizing a with
  | nil => rfl
  | cons b bs ih =>
    simp only [List.cons_append, chain]
    cases withFallback a b <;> simp [ih]

theorem chain_plain {a : Value} {bs : List Value} (ha : a.Plain) (hb : ∀ b ∈ bs, b.Plain) :
    ∃ c, chain a bs = .ok c ∧ c.Plain := by
  induction bs generalizing a with
  | nil => exact ⟨a, rfl, ha⟩
  | cons b bs ih =>
    obtain ⟨h1, h2⟩ := withFallback_plain a b ha (hb b (by simp))
    obtain ⟨c, h3, h4⟩ := ih h2 (fun x hx => hb x (List.mem_cons_of_mem _ hx))
    exact ⟨c, by rw [chain, h1, Res.ok_bind, h3], h4⟩

theorem chain_closed {a : Value} (ha : a.Plain) (hc : closed a = true) (bs : List Value) :
    chain a bs = .ok a := by
  induction bs with
  | nil => rfl
  | cons b bs ih =>
    have : withFallback a b = .ok a := by
      rcases ha.cases with ⟨h1, _, h3⟩ | ⟨fs, i, rfl, hf⟩
      · cases a with
        | scalar s => rw [withFallback]
        | list vs => rw [withFallback, if_pos h3]
        | _ => exact absurd ha.res (by simp_all [resolved, isObject])
      · simp only [closed] at hc
        subst hc
        exact withFallback_sealed _ _ _
    rw [chain, this, Res.ok_bind, ih]

theorem closed_merge {a x : Value} (ha : a.Plain) (hx : closed x = true) :
    closed (pmerge a x) = true := by
  rcases ha.cases with ⟨h1, _, _⟩ | ⟨fs, i, rfl, hf⟩
  · rw [pmerge_nonobj _ h1]
    cases a <;> first | rfl | simp [isObject] at h1
  · cases i with
    | true => rw [pmerge_sealed]; rfl
    | false =>
      rw [pmerge.eq_def]
      cases x <;> exact hx

/-- **C20.** In a chain of fallbacks whose members up to and including a non-object `x` are
resolved, whatever follows `x` (resolved or not) has no influence. -/
theorem C20_chain (a x : Value) (bs rest : List Value) (ha : a.Plain) (hb : ∀ b ∈ bs, b.Plain)
    (hx : x.Plain) (hn : x.isObject = false) :
    chain a (bs ++ x :: rest) = chain a (bs ++ [x]) := by
  obtain ⟨c, h1, h2⟩ := chain_plain ha hb
  obtain ⟨h3, h4⟩ := withFallback_plain c x h2 hx
  have hxc : closed x = true := by cases x <;> first | rfl | simp [isObject] at hn
  rw [chain_append, chain_append, h1, Res.ok_bind, Res.ok_bind, chain, chain, h3, Res.ok_bind,
    Res.ok_bind, chain_closed h4 (closed_merge h2 hxc)]
  rfl

/-- The same inside objects: what becomes closed at a path of a merge. -/
theorem closed_at (p : Path) (a b x : Value) (ha : a.Plain) (hb : b.Plain) (hh : ¬ Hidden a p)
    (hx : at? b p = some x) (hc : closed x = true) :
    ∃ y, at? (pmerge a b) p = some y ∧ closed y = true := by
  induction p generalizing a b with
  | nil =>
    simp only [at?, Option.some.injEq] at hx
    subst hx
    exact ⟨_, rfl, closed_merge ha hc⟩
  | cons k p ih =>
    rcases ha.cases with ⟨h1, _, _⟩ | ⟨fs, i, rfl, hf⟩
    · have hca : closed a = true := by cases a <;> first | rfl | simp [isObject] at h1
      exact absurd (hidden_of_closed hca) hh
    · cases i with
      | true => exact absurd (hidden_of_closed rfl) hh
      | false =>
        rcases hb.cases with ⟨h1, _, _⟩ | ⟨gs, j, rfl, hg⟩
        · simp [at?, child_nonobj (Plain.ne_of_nonobj h1)] at hx
        · rw [pmerge_obj]
          simp only [at?, child_obj] at hx ⊢
          rw [findKey_append, findKey_pmergeF, findKey_extra]
          cases h2 : findKey gs k with
          | none => rw [h2] at hx; simp at hx
          | some w =>
            rw [h2] at hx
            simp only [Option.bind_some] at hx
            cases h1 : findKey fs k with
            | none => simp only [findKey_none.1 h1]; simpa using ⟨x, hx, hc⟩
            | some v =>
              simp only [Option.map_some, Option.some_or, Option.bind_some]
              refine ih v w (hf.find h1) (hg.find h2) ?_ hx
              intro hv
              exact hh ((hidden_cons rfl (by rw [child_obj, h1])).2 hv)

/-- **C20.** If the fallback `b` has a non-object at `p` (and `a` lets fallbacks through up to
there), further fallbacks change nothing at `p` or below. -/
theorem C20_nested (a b d x : Value) (p q : Path) (ha : a.Plain) (hb : b.Plain) (hd : d.Plain)
    (hh : ¬ Hidden a p) (hx : at? b p = some x) (hn : x.isObject = false) :
    ∃ ab c, withFallback a b = .ok ab ∧ withFallback ab d = .ok c ∧
      look c (p ++ q) = look ab (p ++ q) := by
  obtain ⟨h1, h2⟩ := withFallback_plain a b ha hb
  obtain ⟨h3, h4⟩ := withFallback_plain _ d h2 hd
  refine ⟨_, _, h1, h3, ?_⟩
  have hxc : closed x = true := by cases x <;> first | rfl | simp [isObject] at hn
  obtain ⟨y, g1, g2⟩ := closed_at p a b x ha hb hh hx hxc
  obtain ⟨i1, i2, i3⟩ := pmerge_look (p ++ q) (pmerge a b) d h2 hd
  cases hl : look (pmerge a b) (p ++ q) with
  | some s => exact i1 s hl
  | none =>
    refine i2 hl ⟨p, y, List.prefix_append _ _, ?_, g1, g2⟩
    intro e
    rw [← e] at hl
    simp [look, g1] at hl

example : chain exA ([] ++ exInt 3 :: [exB]) = .ok (.obj (fieldsOf exA) true true) := by decide
example : ¬ Hidden exA [ch "w"] ∧ at? exB [ch "w"] = some (exInt 5) :=
  ⟨not_hidden_of_none rfl rfl, rfl⟩

end Value
end Hocon
