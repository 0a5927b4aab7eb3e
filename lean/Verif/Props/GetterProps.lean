import Verif.Lemmas.AccessLemmas
import Verif.Spec.Convert
import Verif.Props.PathParserProps
import Verif.Props.TokenizerProps

/-!
# Properties of lookups and getters: C29, C31, C32, C51

`Plain v`: `v` is resolved, its objects' stored statuses are right and their keys distinct.
A config is an object value (`isObject`).
-/

set_option autoImplicit false

namespace Hocon
namespace Value
open Spec
open PathParser (newPath renderPath)
open Tokenizer (lexCastI64 digitsVal)

/-! ## C29: `has_path`, `has_path_or_null`, `get_value`, `get_is_null` -/

/-- **C29.** `has_path(s)` on a resolved config: is there a value other than null at the path? -/
theorem C29_has_path (env : Env) (v : Value) (s : Str) (p : Path) (hv : v.Plain)
    (ho : v.isObject = true) (hs : newPath env s = .ok p) :
    ∃ b, hasPath env v s = .ok b ∧ (b = true ↔ ∃ w, at? v p = some w ∧ w ≠ .scalar .null) := by
  have hp := (PathParser.C04_accepted_paths env s p hs).1
  unfold hasPath hasPathPeek
  rw [hs]
  simp only [Res.ok_bind]
  rw [peekPath_plain p v hv ho hp]
  simp only [recatch_ok, Res.ok_bind]
  cases h : at? v p with
  | none => exact ⟨false, rfl, by simp⟩
  | some w =>
    obtain ⟨t, ht⟩ := (hv.at h).type
    simp only [ht, Res.ok_bind]
    refine ⟨_, rfl, ?_⟩
    have : t = .null ↔ w = .scalar .null := by
      rw [← valueType_null, ht]; simp
    simp [this]

/-- **C29.** `has_path_or_null(s)`: is there a value at the path? -/
theorem C29_has_path_or_null (env : Env) (v : Value) (s : Str) (p : Path) (hv : v.Plain)
    (ho : v.isObject = true) (hs : newPath env s = .ok p) :
    ∃ b, hasPathOrNull env v s = .ok b ∧ (b = true ↔ ∃ w, at? v p = some w) := by
  have hp := (PathParser.C04_accepted_paths env s p hs).1
  unfold hasPathOrNull hasPathPeek
  rw [hs]
  simp only [Res.ok_bind]
  rw [peekPath_plain p v hv ho hp]
  simp only [recatch_ok, Res.ok_bind]
  exact ⟨_, rfl, Option.isSome_iff_exists⟩

/-- **C29.** `get_value(s)` returns normally iff there is a non-null value at the path, and then
returns that value. -/
theorem C29_get_value (env : Env) (v w : Value) (s : Str) (p : Path) (hv : v.Plain)
    (ho : v.isObject = true) (hs : newPath env s = .ok p) :
    getValue env v s = .ok w ↔ at? v p = some w ∧ w ≠ .scalar .null := by
  have hp := (PathParser.C04_accepted_paths env s p hs).1
  unfold getValue
  rw [findExpr_plain env _ v s p hv ho hs hp]
  cases h : at? v p with
  | none => simp [convertFound, recatch, Res.bind]
  | some x =>
    rw [convertFound_unspecified]
    simp only [recatch_ok, Res.bind, throwIfNull_plain (hv.at h), Option.some.injEq]
    split
    · rename_i hx; subst hx
      simp only [reduceCtorEq, false_iff, not_and, not_not]
      rintro rfl; rfl
    · rename_i hx
      simp only [Res.ok.injEq]
      exact ⟨fun e => ⟨e, e ▸ hx⟩, fun e => e.1⟩

/-- **C29.** `get_is_null(s)` returns normally iff there is a value at the path, and says whether it
is null. -/
theorem C29_get_is_null (env : Env) (v : Value) (s : Str) (p : Path) (b : Bool) (hv : v.Plain)
    (ho : v.isObject = true) (hs : newPath env s = .ok p) :
    getIsNull env v s = .ok b ↔ ∃ w, at? v p = some w ∧ (b = true ↔ w = .scalar .null) := by
  have hp := (PathParser.C04_accepted_paths env s p hs).1
  unfold getIsNull findExprOrNull
  rw [hs]
  simp only [Res.ok_bind]
  rw [findOrNull_plain env _ p p v hv ho hp (Nat.le_refl _)]
  cases h : at? v p with
  | none => simp [convertFound, recatch]
  | some w =>
    rw [convertFound_unspecified]
    obtain ⟨t, ht⟩ := (hv.at h).type
    simp only [recatch_ok, Res.ok_bind, ht, Res.ok.injEq, Option.some.injEq, exists_eq_left']
    have : t = .null ↔ w = .scalar .null := by
      rw [← valueType_null, ht]; simp
    rw [← this]
    cases b <;> simp

/-- **C29.** The agreement stated on the API: on a resolved config and a valid path, `get_value`
returns normally iff `has_path` says true, `get_is_null` iff `has_path_or_null` says true, and
`has_path` implies `has_path_or_null`. -/
theorem C29_agree (env : Env) (v : Value) (s : Str) (p : Path) (hv : v.Plain)
    (ho : v.isObject = true) (hs : newPath env s = .ok p) :
    (hasPath env v s = .ok true ↔ ∃ w, getValue env v s = .ok w) ∧
    (hasPathOrNull env v s = .ok true ↔ ∃ b, getIsNull env v s = .ok b) ∧
    (hasPath env v s = .ok true ↔
      hasPathOrNull env v s = .ok true ∧ getIsNull env v s = .ok false) := by
  obtain ⟨b, h1, h2⟩ := C29_has_path env v s p hv ho hs
  obtain ⟨c, h3, h4⟩ := C29_has_path_or_null env v s p hv ho hs
  simp only [h1, h3, Res.ok.injEq, C29_get_value env v _ s p hv ho hs,
    C29_get_is_null env v s p _ hv ho hs]
  refine ⟨h2, ?_, ?_⟩
  · rw [h4]
    constructor
    · rintro ⟨w, hw⟩; exact ⟨decide (w = .scalar .null), w, hw, by simp⟩
    · rintro ⟨_, w, hw, _⟩; exact ⟨w, hw⟩
  · rw [h2, h4]
    constructor
    · rintro ⟨w, hw, hn⟩; exact ⟨⟨w, hw⟩, w, hw, by simp [hn]⟩
    · rintro ⟨_, w, hw, hn⟩; exact ⟨w, hw, by simpa using hn⟩

/-- An unresolved value makes `has_path` throw although `has_path_or_null` returns: the hypothesis
"resolved" of C29 is needed. -/
theorem C29_unresolved (env : Env) :
    ∃ (v : Value), v.Wf ∧ v.isObject = true ∧ hasPathOrNull env v (ch "a") = .ok true ∧
      hasPath env v (ch "a") = .err .notResolved :=
  ⟨.obj [(ch "a", .ref 0 [ch "b"] false 0)] false false, by simp [Wf, WfF, keysOf, resolvedFields, resolved],
    rfl, rfl, rfl⟩

/-! ## C51: the class of the exception -/

/-- **C51 (violated).** For a path with no value every getter throws a plain `config_exception`,
whatever type is asked for: `missing_exception` never reaches the caller, because
`config::find_or_null` catches and rethrows by value (`throw ex`). -/
theorem C51_missing_sliced (env : Env) (v : Value) (s : Str) (p : Path) (t : VType) (hv : v.Plain)
    (ho : v.isObject = true) (hs : newPath env s = .ok p) (hm : at? v p = none) :
    findExpr env v s t = .err .config := by
  have hp := (PathParser.C04_accepted_paths env s p hs).1
  rw [findExpr_plain env _ v s p hv ho hs hp, hm]
  rfl

/-- **C51 (violated).** Neither `missing_exception` nor `wrong_type_exception` is ever thrown by a
lookup on any value, resolved or not. -/
theorem C51_never_missing_or_wrong_type (env : Env) (v : Value) (p o : Path) (t : VType) :
    findOrNull env v p t o ≠ .err .missing ∧ findOrNull env v p t o ≠ .err .wrongType := by
  have key : ∀ r : Res Value, recatch r ≠ .err .missing ∧ recatch r ≠ .err .wrongType := by
    intro r
    cases r with
    | err e => cases e <;> simp [recatch]
    | _ => simp [recatch]
  cases p with
  | nil => simp [findOrNull]
  | cons k p => rw [findOrNull]; exact key _

/-- **C51 (the part that holds).** A null at the path is reported as `null_exception`. -/
theorem C51_null_partial (env : Env) (v : Value) (s : Str) (p : Path) (t : VType) (hv : v.Plain)
    (ho : v.isObject = true) (hs : newPath env s = .ok p) (hm : at? v p = some (.scalar .null)) :
    findExpr env v s t = .err .null := by
  have hp := (PathParser.C04_accepted_paths env s p hs).1
  rw [findExpr_plain env _ v s p hv ho hs hp, hm]
  cases t <;> rfl

/-! ## C32: conversions -/

/-- `convertFound` followed by `throw_if_null`. -/
theorem findExpr_cases (env : Env) (t : VType) (v : Value) (s : Str) (p : Path) (hv : v.Plain)
    (ho : v.isObject = true) (hs : newPath env s = .ok p) :
    (at? v p = none ∧ findExpr env v s t = .err .config) ∨
    ∃ w, at? v p = some w ∧ w.Plain ∧
      findExpr env v s t = (recatch (convertFound env t (some w))).bind throwIfNull := by
  have hp := (PathParser.C04_accepted_paths env s p hs).1
  rw [findExpr_plain env _ v s p hv ho hs hp]
  cases h : at? v p with
  | none => exact .inl ⟨rfl, rfl⟩
  | some w => exact .inr ⟨w, rfl, hv.at h, rfl⟩

/-- **C32.** `get_string` returns the text of any scalar other than null, and throws for everything
else. -/
theorem C32_get_string (env : Env) (v : Value) (s : Str) (p : Path) (hv : v.Plain)
    (ho : v.isObject = true) (hs : newPath env s = .ok p) :
    (∀ x, getString env v s = .ok x ↔ ∃ w, at? v p = some w ∧ textOf env w = some x) ∧
    (getString env v s).isThrowOrOk = true := by
  unfold getString
  rcases findExpr_cases env .string v s p hv ho hs with ⟨h1, h2⟩ | ⟨w, h1, hw, h2⟩
  · rw [h1, h2]; simp [Res.isThrowOrOk]
  · rw [h1, h2]
    rcases hw with ⟨_, hr⟩
    simp only [Option.some.injEq, exists_eq_left']
    cases w with
    | scalar c =>
      cases c with
      | bool b => cases b <;> simp [convertFound, transform, valueType, scalarType, Res.bind, recatch, throwIfNull, textOf, Res.isThrowOrOk, Scalar.transformToString]
      | str x q =>
        refine ⟨fun y => ?_, rfl⟩
        change Res.ok x = Res.ok y ↔ some x = some y
        simp
      | _ => simp [convertFound, transform, valueType, scalarType, Res.bind, recatch, throwIfNull, textOf, Res.isThrowOrOk, Scalar.transformToString, written]
    | list vs => simp [convertFound, transform, valueType, Res.bind, recatch, textOf, Res.isThrowOrOk]
    | obj fs r i => simp [convertFound, transform, valueType, Res.bind, recatch, textOf, Res.isThrowOrOk]
    | _ => simp [resolved] at hr

/-- **C32.** `get_bool` succeeds exactly on booleans and the documented words. -/
theorem C32_get_bool (env : Env) (v : Value) (s : Str) (p : Path) (hv : v.Plain)
    (ho : v.isObject = true) (hs : newPath env s = .ok p) :
    (∀ b, getBool env v s = .ok b ↔ ∃ w, at? v p = some w ∧ IsBool w b) ∧
    (getBool env v s).isThrowOrOk = true := by
  unfold getBool
  rcases findExpr_cases env .boolean v s p hv ho hs with ⟨h1, h2⟩ | ⟨w, h1, hw, h2⟩
  · rw [h1, h2]; simp [Res.isThrowOrOk]
  · rw [h1, h2]
    rcases hw with ⟨_, hr⟩
    simp only [Option.some.injEq, exists_eq_left']
    have hno : ∀ {w : Value} {b : Bool}, (∀ b, w ≠ .scalar (.bool b)) → (∀ s q, w ≠ .scalar (.str s q)) →
        ¬ IsBool w b := by
      intro w b h3 h4 hb
      cases hb with
      | bool => exact h3 _ rfl
      | yes => exact h4 _ _ rfl
      | no => exact h4 _ _ rfl
    cases w with
    | scalar c =>
      cases c with
      | bool b =>
        simp only [convertFound, transform, valueType, scalarType, Res.bind, recatch]
        simp only [reduceCtorEq, if_false, false_and, ne_eq, not_true_eq_false, and_self]
        refine ⟨fun b' => ⟨?_, ?_⟩, rfl⟩
        · intro h; cases h; exact .bool _
        · intro h; cases h; rfl
      | str x q =>
        simp only [convertFound, transform, valueType, scalarType, Res.bind, recatch,
          transformString]
        by_cases ht : x ∈ trueWords
        · have : (x = ch "true" || x = ch "yes" || x = ch "on") = true := by
            simpa [trueWords, or_assoc, and_assoc] using ht
          simp only [this, if_true]
          simp only [reduceCtorEq, if_false, ne_eq, not_true_eq_false, false_and]
          refine ⟨fun b' => ⟨?_, ?_⟩, rfl⟩
          · intro h; cases h; exact .yes _ _ ht
          · intro h
            cases h with
            | yes => rfl
            | no _ _ h =>
              exfalso
              simp only [falseWords, trueWords, List.mem_cons, List.not_mem_nil, or_false] at h ht
              rcases h with rfl | rfl | rfl <;> simp at ht
        · have h3 : (x = ch "true" || x = ch "yes" || x = ch "on") = false := by
            simpa [trueWords, or_assoc, and_assoc] using ht
          simp only [h3, Bool.false_eq_true, if_false]
          by_cases hf : x ∈ falseWords
          · have : (x = ch "false" || x = ch "no" || x = ch "off") = true := by
              simpa [falseWords, or_assoc, and_assoc] using hf
            simp only [this, if_true]
            simp only [reduceCtorEq, if_false, ne_eq, not_true_eq_false, false_and]
            refine ⟨fun b' => ⟨?_, ?_⟩, rfl⟩
            · intro h; cases h; exact .no _ _ hf
            · intro h
              cases h with
              | yes _ _ h => exact absurd h ht
              | no => rfl
          · have h4 : (x = ch "false" || x = ch "no" || x = ch "off") = false := by
              simpa [falseWords, or_assoc, and_assoc] using hf
            simp only [h4, Bool.false_eq_true, if_false]
            refine ⟨fun b' => ⟨?_, ?_⟩, rfl⟩
            · intro h; cases h
            · intro h
              cases h with
              | yes _ _ h => exact absurd h ht
              | no _ _ h => exact absurd h hf
      | _ =>
        refine ⟨fun b' => ⟨?_, fun h => absurd h (hno (by simp) (by simp))⟩, rfl⟩
        intro h; cases h
    | list vs =>
      refine ⟨fun b' => ⟨?_, fun h => absurd h (hno (by simp) (by simp))⟩, rfl⟩
      intro h; cases h
    | obj fs r i =>
      refine ⟨fun b' => ⟨?_, fun h => absurd h (hno (by simp) (by simp))⟩, rfl⟩
      intro h; cases h
    | _ => simp [resolved] at hr

/-- **C32.** `get_object` succeeds exactly on objects: a scalar or list is never converted. -/
theorem C32_get_object (env : Env) (v : Value) (s : Str) (p : Path) (hv : v.Plain)
    (ho : v.isObject = true) (hs : newPath env s = .ok p) :
    (∀ w, getObject env v s = .ok w ↔ at? v p = some w ∧ ∃ fs r i, w = .obj fs r i) ∧
    (getObject env v s).isThrowOrOk = true := by
  unfold getObject
  rcases findExpr_cases env .object v s p hv ho hs with ⟨h1, h2⟩ | ⟨w, h1, hw, h2⟩
  · rw [h1, h2]; simp [Res.isThrowOrOk]
  · rw [h1, h2]
    rcases hw with ⟨_, hr⟩
    cases w with
    | scalar c =>
      refine ⟨fun x => ⟨?_, ?_⟩, by cases c <;> rfl⟩
      · intro h; cases c <;> cases h
      · rintro ⟨h, fs, r, i, rfl⟩; cases h
    | list vs =>
      refine ⟨fun x => ⟨(fun h => by cases h), ?_⟩, rfl⟩
      rintro ⟨h, fs, r, i, rfl⟩; cases h
    | obj fs r i =>
      refine ⟨fun x => ⟨?_, ?_⟩, rfl⟩
      · intro h; cases h; exact ⟨rfl, _, _, _, rfl⟩
      · rintro ⟨h, _⟩; cases h; rfl
    | _ => simp [resolved] at hr

/-- **C32.** `get_list` succeeds exactly on lists. -/
theorem C32_get_list (env : Env) (v : Value) (s : Str) (p : Path) (hv : v.Plain)
    (ho : v.isObject = true) (hs : newPath env s = .ok p) :
    (∀ vs, getList env v s = .ok vs ↔ at? v p = some (.list vs)) ∧
    (getList env v s).isThrowOrOk = true := by
  unfold getList
  rcases findExpr_cases env .list v s p hv ho hs with ⟨h1, h2⟩ | ⟨w, h1, hw, h2⟩
  · rw [h1, h2]; simp [Res.isThrowOrOk]
  · rw [h1, h2]
    rcases hw with ⟨_, hr⟩
    cases w with
    | scalar c =>
      refine ⟨fun x => ⟨?_, (fun h => by cases h)⟩, by cases c <;> rfl⟩
      intro h; cases c <;> cases h
    | list vs =>
      refine ⟨fun x => ⟨?_, ?_⟩, rfl⟩
      · intro h; cases h; rfl
      · intro h; cases h; rfl
    | obj fs r i => exact ⟨fun x => ⟨(fun h => by cases h), (fun h => by cases h)⟩, rfl⟩
    | _ => simp [resolved] at hr

/-! ## C31: integer getters -/

theorem digitsVal_eq (n : Nat) (ds : Str) :
    digitsVal n ds = ds.foldl (fun n c => 10 * n + digit c) n := by
  induction ds generalizing n with
  | nil => rfl
  | cons c ds ih =>
    refine Eq.trans (b := digitsVal (n * 10 + (c.toNat - 48)) ds) rfl ?_
    rw [Nat.mul_comm]
    exact ih _

theorem isDigit_iff (c : Char) : isDigit c = true ↔ '0' ≤ c ∧ c ≤ '9' := by
  simp only [isDigit, Bool.and_eq_true, decide_eq_true_eq]
  exact Iff.rfl

theorem digits_iff (ds : Str) : (ds.isEmpty || !(ds.all isDigit)) = false ↔ Digits ds := by
  unfold Digits
  cases ds with
  | nil => simp
  | cons c ds => simp [isDigit_iff]

theorem inI64_iff (i : Int) : (i64Min ≤ i ∧ i ≤ i64Max) ↔ InI64 i := by
  simp only [i64Min, i64Max, InI64]; omega

/-- Reading of integer texts: `boost::lexical_cast<int64_t>` as modelled accepts exactly the decimal
integers in range. -/
theorem lexCastI64_iff (s : Str) (i : Int) : lexCastI64 s = some i ↔ Denotes s i ∧ InI64 i := by
  have main : ∀ (neg : Bool) (ds : Str),
      (if ds.isEmpty || !(ds.all isDigit) then (none : Option Int) else
        let v : Int := if neg then -(digitsVal 0 ds : Int) else (digitsVal 0 ds : Int)
        if i64Min ≤ v ∧ v ≤ i64Max then some v else none) = some i ↔
      Digits ds ∧ i = (if neg then -(natValue ds : Int) else (natValue ds : Int)) ∧ InI64 i := by
    intro neg ds
    have hd : digitsVal 0 ds = natValue ds := digitsVal_eq 0 ds
    rw [← digits_iff, hd]
    generalize hv : (if neg then -(natValue ds : Int) else (natValue ds : Int)) = v
    by_cases h : (ds.isEmpty || !(ds.all isDigit)) = true
    · simp [h]
    · simp only [Bool.not_eq_true] at h
      simp only [h, Bool.false_eq_true, if_false, true_and]
      constructor
      · intro e
        split at e
        · rename_i hr; cases e; exact ⟨rfl, (inI64_iff _).1 hr⟩
        · cases e
      · rintro ⟨rfl, hr⟩; rw [if_pos ((inI64_iff _).2 hr)]
  have nosign : ∀ {c : Char} {r : Str}, Digits (c :: r) → c ≠ '-' ∧ c ≠ '+' := by
    intro c r h
    have := h.2 c (by simp)
    constructor <;> (rintro rfl; exact absurd this (by decide))
  unfold lexCastI64
  cases s with
  | nil =>
    simp only [List.isEmpty_nil, Bool.true_or, if_true]
    constructor
    · intro h; cases h
    · rintro ⟨h, _⟩; cases h with | plain _ h => exact absurd rfl h.1
  | cons c r =>
    by_cases hm : c = '-'
    · subst hm
      refine (main true r).trans ⟨?_, ?_⟩
      · rintro ⟨h1, rfl, h3⟩; exact ⟨.minus _ h1, h3⟩
      · rintro ⟨h1, h2⟩
        cases h1 with
        | plain _ h => exact absurd rfl (nosign h).1
        | minus _ h => exact ⟨h, rfl, h2⟩
    · by_cases hq : c = '+'
      · subst hq
        refine (main false r).trans ⟨?_, ?_⟩
        · rintro ⟨h1, rfl, h3⟩; exact ⟨.plus _ h1, h3⟩
        · rintro ⟨h1, h2⟩
          cases h1 with
          | plain _ h => exact absurd rfl (nosign h).2
          | plus _ h => exact ⟨h, rfl, h2⟩
      · split
        rename_i neg ds e
        have e' : neg = false ∧ ds = c :: r := by
          split at e
          · rename_i h; simp at h; exact absurd h.1 hm
          · rename_i h; simp at h; exact absurd h.1 hq
          · rename_i h; cases e; exact ⟨rfl, rfl⟩
        obtain ⟨rfl, rfl⟩ := e'
        refine (main false (c :: r)).trans ⟨?_, ?_⟩
        · rintro ⟨h1, rfl, h3⟩; exact ⟨.plain _ h1, h3⟩
        · rintro ⟨h1, h2⟩
          cases h1 with
          | plain _ h => exact ⟨h, rfl, h2⟩
          | plus => exact absurd rfl hq
          | minus => exact absurd rfl hm

/-- The scalar a number getter reads. -/
theorem find_number (env : Env) (v w : Value) (s : Str) (p : Path) (hv : v.Plain)
    (ho : v.isObject = true) (hs : newPath env s = .ok p) (hw : at? v p = some w) (i : Int)
    (h : IsInt w i) :
    ∃ c, findExpr env v s .number = .ok (.scalar c) ∧ longValue env c = .ok i := by
  rcases findExpr_cases env .number v s p hv ho hs with ⟨h1, _⟩ | ⟨w', h1, _, h2⟩
  · rw [hw] at h1; cases h1
  · rw [hw] at h1; cases h1
    rw [h2]
    cases h with
    | int i o => exact ⟨_, rfl, rfl⟩
    | long i o => exact ⟨_, rfl, rfl⟩
    | str x q i hd hr =>
      refine ⟨.long i x, ?_, rfl⟩
      simp only [convertFound, transform, valueType, scalarType, Res.bind, transformString,
        (lexCastI64_iff x i).2 ⟨hd, hr⟩]
      rfl

/-- **C31 (partial).** `get_long` returns the stored 64-bit integer unchanged, also when it is stored
as a string. Missing: numbers stored as `double`, see `C31_fraction_dropped` and
`C31_out_of_range_undefined`. -/
theorem C31_get_long_partial (env : Env) (v w : Value) (s : Str) (p : Path) (hv : v.Plain)
    (ho : v.isObject = true) (hs : newPath env s = .ok p) (hw : at? v p = some w) (i : Int)
    (h : IsInt w i) : getLong env v s = .ok i := by
  obtain ⟨c, h1, h2⟩ := find_number env v w s p hv ho hs hw i h
  unfold getLong
  rw [h1]; exact h2

/-- **C31 (partial).** `get_int` returns the stored integer if it has 32 bits and throws otherwise.
Missing: numbers stored as `double`. -/
theorem C31_get_int_partial (env : Env) (v w : Value) (s : Str) (p : Path) (hv : v.Plain)
    (ho : v.isObject = true) (hs : newPath env s = .ok p) (hw : at? v p = some w) (i : Int)
    (h : IsInt w i) :
    (InI32 i → getInt env v s = .ok i) ∧ (¬ InI32 i → getInt env v s = .err .config) := by
  obtain ⟨c, h1, h2⟩ := find_number env v w s p hv ho hs hw i h
  unfold getInt
  rw [h1]
  simp only [Res.ok_bind, intValueRangeChecked, h2]
  have hr : (i < intMin ∨ i > intMax) ↔ ¬ InI32 i := by
    simp only [intMin, intMax, InI32]; omega
  exact ⟨fun h => if_neg (fun e => hr.1 e h), fun h => if_pos (hr.2 h)⟩

/-- **C31.** A value that is not a number makes all number getters throw. -/
theorem C31_not_a_number (env : Env) (v w : Value) (s : Str) (p : Path) (hv : v.Plain)
    (ho : v.isObject = true) (hs : newPath env s = .ok p) (hw : at? v p = some w)
    (h : NotNumber env w) :
    getInt env v s = .err .config ∧ getLong env v s = .err .config ∧
      getDouble env v s = .err .config := by
  have : findExpr env v s .number = .err .config := by
    rcases findExpr_cases env .number v s p hv ho hs with ⟨_, h2⟩ | ⟨w', h1, _, h2⟩
    · exact h2
    · rw [hw] at h1; cases h1
      rw [h2]
      cases h with
      | bool => rfl
      | list => rfl
      | obj => rfl
      | str x q hd hp =>
        have hn : lexCastI64 x = none := by
          cases e : lexCastI64 x with
          | none => rfl
          | some i =>
            have := (lexCastI64_iff x i).1 e
            exact absurd this.2 (hd i this.1)
        simp only [convertFound, transform, valueType, scalarType, Res.bind, transformString, hn, hp]
        rfl
  unfold getInt getLong getDouble
  rw [this]; exact ⟨rfl, rfl, rfl⟩

/-- **C31 (violated).** A number stored as a double is cut to an integer by `get_int` without an
exception, whatever its fraction. -/
theorem C31_fraction_dropped (env : Env) (v : Value) (s : Str) (p : Path) (hv : v.Plain)
    (ho : v.isObject = true) (hs : newPath env s = .ok p) (d : Dbl) (o : Str) (i : Int)
    (hw : at? v p = some (.scalar (.double d o))) (hd : env.doubleToI64 d = some i) (hi : InI32 i) :
    getInt env v s = .ok i ∧ getLong env v s = .ok i := by
  have : findExpr env v s .number = .ok (.scalar (.double d o)) := by
    rcases findExpr_cases env .number v s p hv ho hs with ⟨h1, _⟩ | ⟨w', h1, _, h2⟩
    · rw [hw] at h1; cases h1
    · rw [hw] at h1; cases h1
      rw [h2]; rfl
  unfold getInt getLong
  rw [this]
  have hr : ¬ (i < intMin ∨ i > intMax) := by
    simp only [InI32] at hi; simp only [intMin, intMax]; omega
  simp only [Res.ok_bind, intValueRangeChecked, longValue, hd, if_neg hr, and_self]

/-- **C31 (violated).** A number stored as a double outside the 64-bit range makes `get_int` and
`get_long` undefined instead of throwing. -/
theorem C31_out_of_range_undefined (env : Env) (v : Value) (s : Str) (p : Path) (hv : v.Plain)
    (ho : v.isObject = true) (hs : newPath env s = .ok p) (d : Dbl) (o : Str)
    (hw : at? v p = some (.scalar (.double d o))) (hd : env.doubleToI64 d = none) :
    getInt env v s = .ub ∧ getLong env v s = .ub := by
  have : findExpr env v s .number = .ok (.scalar (.double d o)) := by
    rcases findExpr_cases env .number v s p hv ho hs with ⟨h1, _⟩ | ⟨w', h1, _, h2⟩
    · rw [hw] at h1; cases h1
    · rw [hw] at h1; cases h1
      rw [h2]; rfl
  unfold getInt getLong
  rw [this]
  simp [intValueRangeChecked, longValue, hd]

/-! ## Examples -/

/-- `{ o : { n : 7, b : yes, d : <double>, z : null }, l : [] }` -/
def exCfg : Value :=
  .obj [(ch "o", .obj [(ch "n", .scalar (.int 7 (ch "7"))), (ch "b", .scalar (.str (ch "yes") false)),
    (ch "d", .scalar (.double 19 (ch "1.9"))), (ch "z", .scalar .null),
    (ch "t", .scalar (.str (ch "-12") true))] true false),
    (ch "l", .list [])] true false

theorem exCfg_plain : exCfg.Plain := by
  constructor
  · simp [exCfg, Wf, WfF, WfL, keysOf, resolvedFields, resolved, resolvedAll]
  · rfl

example : newPath Tokenizer.exEnv (ch "o.n") = .ok [ch "o", ch "n"] ∧ exCfg.isObject = true ∧
    at? exCfg [ch "o", ch "n"] = some (.scalar (.int 7 (ch "7"))) ∧
    getValue Tokenizer.exEnv exCfg (ch "o.n") = .ok (.scalar (.int 7 (ch "7"))) := by decide
example : hasPath Tokenizer.exEnv exCfg (ch "o.z") = .ok false ∧
    hasPathOrNull Tokenizer.exEnv exCfg (ch "o.z") = .ok true ∧
    hasPath Tokenizer.exEnv exCfg (ch "o.q") = .ok false ∧
    getValue Tokenizer.exEnv exCfg (ch "o.q") = .err .config ∧
    getValue Tokenizer.exEnv exCfg (ch "o.z") = .err .null := by decide
example : getBool Tokenizer.exEnv exCfg (ch "o.b") = .ok true ∧
    getString Tokenizer.exEnv exCfg (ch "o.d") = .ok (ch "1.9") ∧
    getLong Tokenizer.exEnv exCfg (ch "o.t") = .ok (-12) ∧
    getBool Tokenizer.exEnv exCfg (ch "o.n") = .err .config ∧
    getList Tokenizer.exEnv exCfg (ch "l") = .ok [] ∧
    getString Tokenizer.exEnv exCfg (ch "l") = .err .config := by decide
example : Denotes (ch "-12") (-12) := .minus (ch "12") ⟨by simp, by simp⟩
/-- In an environment where the double 1.9 is cut to 1, `get_int` returns 1 for `1.9`, a number that
is not equal to 1. -/
theorem C31_witness : ∃ env : Env, getInt env exCfg (ch "o.d") = .ok 1 ∧
    env.doubleEq (env.i64ToDouble 1) 19 = false :=
  ⟨{ Tokenizer.exEnv with doubleToI64 := fun d => some (d / 10), i64ToDouble := fun i => i * 10 },
    by decide, by decide⟩

end Value
end Hocon
