import Verif.Props.ObjectProps

/-!
# `entry_set` lists the non-null leaves: C30
-/

set_option autoImplicit false

namespace Hocon
namespace Value
open Spec
open PathParser (newPath renderPath)

/-! ## Rendering of paths is injective -/

/-- The character behind a short escape. -/
def unescape (c : Char) : Char :=
  if c = 'n' then '\n' else if c = 'b' then '\x08' else if c = 'f' then '\x0c'
  else if c = 'r' then '\r' else if c = 't' then '\t' else c

theorem escapeChar_cases (c : Char) :
    (escapeChar c = [c] ∧ c ≠ '\\') ∨ ∃ e, escapeChar c = ['\\', e] ∧ unescape e = c := by
  unfold escapeChar
  repeat' split
  · exact .inr ⟨'"', rfl, by simp_all [unescape]⟩
  · exact .inr ⟨'\\', rfl, by simp_all [unescape]⟩
  · exact .inr ⟨'n', rfl, by simp_all [unescape]⟩
  · exact .inr ⟨'b', rfl, by simp_all [unescape]⟩
  · exact .inr ⟨'f', rfl, by simp_all [unescape]⟩
  · exact .inr ⟨'r', rfl, by simp_all [unescape]⟩
  · exact .inr ⟨'t', rfl, by simp_all [unescape]⟩
  · exact .inl ⟨rfl, by assumption⟩

theorem escapeChar_inj {c d : Char} {r r' : Str} (h : escapeChar c ++ r = escapeChar d ++ r') :
    c = d ∧ r = r' := by
  rcases escapeChar_cases c with ⟨h1, h2⟩ | ⟨e, h1, h2⟩ <;>
    rcases escapeChar_cases d with ⟨h3, h4⟩ | ⟨e', h3, h4⟩ <;>
    rw [h1, h3] at h <;>
    simp only [List.cons_append, List.nil_append, List.cons.injEq] at h
  · exact h
  · exact absurd h.1 h2
  · exact absurd h.1.symm h4
  · obtain ⟨_, rfl, h⟩ := h
    exact ⟨h2.symm.trans h4, h⟩

theorem escapeChar_head (c : Char) : ∃ d r, escapeChar c = d :: r ∧ d ≠ '"' := by
  unfold escapeChar
  repeat' split
  all_goals simp_all

theorem escape_inj (s t r r' : Str)
    (h : s.flatMap escapeChar ++ '"' :: r = t.flatMap escapeChar ++ '"' :: r') : s = t ∧ r = r' := by
  induction s generalizing t with
  | nil =>
    cases t with
    | nil => simpa using h
    | cons c t =>
      obtain ⟨d, x, hx, hd⟩ := escapeChar_head c
      simp only [List.flatMap_nil, List.nil_append, List.flatMap_cons, hx, List.cons_append,
        List.cons.injEq] at h
      exact absurd h.1.symm hd
  | cons c s ih =>
    cases t with
    | nil =>
      obtain ⟨d, x, hx, hd⟩ := escapeChar_head c
      simp only [List.flatMap_nil, List.nil_append, List.flatMap_cons, hx, List.cons_append,
        List.cons.injEq] at h
      exact absurd h.1 hd
    | cons c' t =>
      simp only [List.flatMap_cons, List.append_assoc] at h
      obtain ⟨rfl, h2⟩ := escapeChar_inj h
      obtain ⟨rfl, h3⟩ := ih t h2
      exact ⟨rfl, h3⟩

/-- Rendering of one element. -/
def renderElem (k : Str) : Str := if hasFunkyChars k || k.isEmpty then renderJsonString k else k

/-- What may follow an element: nothing, or a dot. -/
def Follows (r : Str) : Prop := r = [] ∨ ∃ t, r = '.' :: t

theorem notFunky_inj (k k' r r' : Str) (h1 : hasFunkyChars k = false) (h2 : hasFunkyChars k' = false)
    (hr : Follows r) (hr' : Follows r') (h : k ++ r = k' ++ r') : k = k' ∧ r = r' := by
  have dot : hasFunkyChars ['.'] = true := by decide
  have head : ∀ (k r : Str) (c : Char) (t : Str), hasFunkyChars (c :: k) = false → Follows r →
      r ≠ c :: t := by
    intro k r c t hk hr he
    rcases hr with rfl | ⟨t', rfl⟩
    · cases he
    · cases he; simp only [hasFunkyChars, List.any_cons, Bool.or_eq_false_iff] at hk
      exact absurd hk.1 (by decide)
  induction k generalizing k' with
  | nil =>
    cases k' with
    | nil => exact ⟨rfl, h⟩
    | cons c k' => exact absurd h (head k' r c _ h2 hr)
  | cons c k ih =>
    cases k' with
    | nil => exact absurd h.symm (head k r' c _ h1 hr')
    | cons c' k' =>
      simp only [List.cons_append, List.cons.injEq] at h
      obtain ⟨rfl, h⟩ := h
      simp only [hasFunkyChars, List.any_cons, Bool.or_eq_false_iff] at h1 h2
      obtain ⟨rfl, h3⟩ := ih k' h1.2 h2.2 h
      exact ⟨rfl, h3⟩

theorem renderElem_inj (k k' r r' : Str) (hr : Follows r) (hr' : Follows r')
    (h : renderElem k ++ r = renderElem k' ++ r') : k = k' ∧ r = r' := by
  have mixed : ∀ (a b x y : Str), (hasFunkyChars b || b.isEmpty) = false →
      renderJsonString a ++ x ≠ b ++ y := by
    intro a b x y hb he
    cases b with
    | nil => simp at hb
    | cons c b =>
      simp only [renderJsonString, List.cons_append, List.cons.injEq] at he
      obtain ⟨rfl, _⟩ := he
      simp only [hasFunkyChars, List.any_cons, Bool.or_eq_false_iff] at hb
      exact absurd hb.1.1 (by decide)
  unfold renderElem at h
  by_cases h1 : (hasFunkyChars k || k.isEmpty) = true
  · rw [if_pos h1] at h
    by_cases h2 : (hasFunkyChars k' || k'.isEmpty) = true
    · rw [if_pos h2] at h
      simp only [renderJsonString, List.cons_append, List.append_assoc, List.nil_append,
        List.cons.injEq, true_and] at h
      exact escape_inj _ _ _ _ h
    · rw [if_neg h2] at h
      exact absurd h (mixed _ _ _ _ (by simpa using h2))
  · rw [if_neg h1] at h
    by_cases h2 : (hasFunkyChars k' || k'.isEmpty) = true
    · rw [if_pos h2] at h
      exact absurd h.symm (mixed _ _ _ _ (by simpa using h1))
    · rw [if_neg h2] at h
      simp only [Bool.or_eq_true, not_or, Bool.not_eq_true] at h1 h2
      exact notFunky_inj _ _ _ _ h1.1 h2.1 hr hr' h

theorem renderPath_one (k : Str) : renderPath [k] = renderElem k := rfl

theorem renderPath_cons (k : Str) (p : Path) (hp : p ≠ []) :
    renderPath (k :: p) = renderElem k ++ '.' :: renderPath p := by
  cases p with
  | nil => exact absurd rfl hp
  | cons k' p => rfl

/-- **C30.** Distinct non-empty paths have distinct path expressions, whatever characters their
elements contain. -/
theorem C30_distinct (p q : Path) (hp : p ≠ []) (hq : q ≠ []) (h : renderPath p = renderPath q) :
    p = q := by
  induction p generalizing q with
  | nil => exact absurd rfl hp
  | cons k p ih =>
    cases q with
    | nil => exact absurd rfl hq
    | cons k' q =>
      have split : ∀ (k : Str) (p : Path), ∃ r, renderPath (k :: p) = renderElem k ++ r ∧ Follows r ∧
          (r = [] ↔ p = []) ∧ (p ≠ [] → r = '.' :: renderPath p) := by
        intro k p
        cases p with
        | nil => exact ⟨[], by simp [renderPath_one], .inl rfl, by simp, by simp⟩
        | cons k2 p => exact ⟨'.' :: renderPath (k2 :: p), rfl, .inr ⟨_, rfl⟩, by simp, by simp⟩
      obtain ⟨r, h1, h2, h3, h4⟩ := split k p
      obtain ⟨r', h1', h2', h3', h4'⟩ := split k' q
      rw [h1, h1'] at h
      obtain ⟨rfl, rfl⟩ := renderElem_inj _ _ _ _ h2 h2' h
      by_cases hp' : p = []
      · rw [hp', h3'.1 (h3.2 hp')]
      · have hq' : q ≠ [] := fun e => hp' (h3.1 (h3'.2 e))
        have e := (h4 hp').symm.trans (h4' hq')
        rw [ih q hp' hq' (by simpa using e)]

/-! ## The entries -/

/-- A value `entry_set` lists: not an object and not null. -/
def Leaf (w : Value) : Prop := w.isObject = false ∧ w ≠ .scalar .null

mutual
theorem findPaths_plain (parent : Path) (v : Value) (hv : v.Plain) (ho : v.isObject = true) :
    ∃ L, findPaths parent v = .ok L ∧ ∀ s w, (s, w) ∈ L ↔
      ∃ p, p ≠ [] ∧ s = renderPath (parent ++ p) ∧ at? v p = some w ∧ Leaf w := by
  match v with
  | .obj fs r i =>
    obtain ⟨L, h1, h2⟩ := findPathsFields_plain parent fs (plain_obj.1 hv).2
    refine ⟨L, by rw [findPaths]; exact h1, fun s w => ?_⟩
    rw [h2]
    constructor
    · rintro ⟨k, p, x, hx, hs, hw⟩
      exact ⟨k :: p, by simp, hs, by rw [at_obj, hx]; exact hw.1, hw.2⟩
    · rintro ⟨p, hp, hs, ha, hw⟩
      cases p with
      | nil => exact absurd rfl hp
      | cons k p =>
        rw [at_obj, Option.bind_eq_some_iff] at ha
        obtain ⟨x, hx, hxw⟩ := ha
        exact ⟨k, p, x, hx, hs, hxw, hw⟩
  | .scalar _ => cases ho
  | .list _ => cases ho
  | .ref .. => cases ho
  | .concat _ => cases ho
  | .dm _ => cases ho
  | .dmo _ => have := hv.res; simp [resolved] at this
termination_by structural v
theorem findPathsFields_plain (parent : Path) (fs : Fields) (hf : PlainF fs) :
    ∃ L, findPathsFields parent fs = .ok L ∧ ∀ s w, (s, w) ∈ L ↔
      ∃ k p x, findKey fs k = some x ∧ s = renderPath (parent ++ k :: p) ∧ at? x p = some w ∧
        Leaf w := by
  match fs with
  | [] => exact ⟨[], by rw [findPathsFields], by simp⟩
  | (k, v) :: rest =>
    obtain ⟨hv, hr, hk⟩ := hf.cons
    obtain ⟨L2, h1, h2⟩ := findPathsFields_plain parent rest hr
    have hnp : (if parent.isEmpty then [k] else PathM.prepend [k] parent) = parent ++ [k] := by
      cases parent with
      | nil => rfl
      | cons a b => simp [PathM.C03_prepend]
    have first : ∃ L1, (if v.isObject then findPaths (parent ++ [k]) v
        else if v = .scalar .null then .ok []
        else .ok [(renderPath (parent ++ [k]), v)] : Res (List (Str × Value))) = .ok L1 ∧
        ∀ s w, (s, w) ∈ L1 ↔ ∃ p, s = renderPath (parent ++ k :: p) ∧ at? v p = some w ∧ Leaf w := by
      by_cases ho : v.isObject = true
      · obtain ⟨L1, g1, g2⟩ := findPaths_plain (parent ++ [k]) v hv ho
        refine ⟨L1, by rw [if_pos ho]; exact g1, fun s w => ?_⟩
        rw [g2]
        simp only [List.append_assoc, List.singleton_append]
        constructor
        · rintro ⟨p, _, h⟩; exact ⟨p, h⟩
        · rintro ⟨p, hs, ha, hw⟩
          refine ⟨p, ?_, hs, ha, hw⟩
          rintro rfl
          simp only [at?, Option.some.injEq] at ha
          subst ha; rw [hw.1] at ho; cases ho
      · rw [if_neg ho]
        have hno : ∀ p w, at? v p = some w → p = [] ∧ w = v := by
          intro p w ha
          cases p with
          | nil => simp only [at?, Option.some.injEq] at ha; exact ⟨rfl, ha.symm⟩
          | cons k' p => rw [at_nonobj (Plain.ne_of_nonobj (by simpa using ho))] at ha; cases ha
        by_cases hn : v = .scalar .null
        · rw [if_pos hn]
          refine ⟨[], rfl, fun s w => ?_⟩
          simp only [List.not_mem_nil, false_iff]
          rintro ⟨p, _, ha, hw⟩
          obtain ⟨_, rfl⟩ := hno p w ha
          exact hw.2 hn
        · rw [if_neg hn]
          refine ⟨_, rfl, fun s w => ?_⟩
          simp only [List.mem_singleton, Prod.mk.injEq]
          constructor
          · rintro ⟨rfl, rfl⟩; exact ⟨[], rfl, rfl, by simpa using ho, hn⟩
          · rintro ⟨p, rfl, ha, _⟩
            obtain ⟨rfl, rfl⟩ := hno p w ha
            exact ⟨rfl, rfl⟩
    obtain ⟨L1, g1, g2⟩ := first
    refine ⟨L1 ++ L2, ?_, fun s w => ?_⟩
    · rw [findPathsFields]
      simp only [hnp]
      rw [g1]
      simp only [Res.bind]
      rw [h1]
    · rw [List.mem_append, g2, h2]
      constructor
      · rintro (⟨p, h⟩ | ⟨k', p, x, hx, h⟩)
        · exact ⟨k, p, v, by simp [findKey_cons], h⟩
        · refine ⟨k', p, x, ?_, h⟩
          rw [findKey_cons, if_neg]
          · exact hx
          · rintro rfl; exact hk (mem_keysOf.2 ⟨x, hx⟩)
      · rintro ⟨k', p, x, hx, h⟩
        rw [findKey_cons] at hx
        split at hx
        · rename_i e; subst e; cases hx; exact .inl ⟨p, h⟩
        · exact .inr ⟨k', p, x, hx, h⟩
termination_by structural fs
end

/-- **C30.** `entry_set()` of a resolved config returns and contains exactly the pairs of a rendered
path and the value found at that path, for the values that are neither objects nor null. -/
theorem C30_entry_set (v : Value) (hv : v.Plain) (ho : v.isObject = true) :
    ∃ L, entrySet v = .ok L ∧ ∀ s w, (s, w) ∈ L ↔
      ∃ p, p ≠ [] ∧ s = renderPath p ∧ at? v p = some w ∧ Leaf w := by
  obtain ⟨L, h1, h2⟩ := findPaths_plain [] v hv ho
  exact ⟨L, h1, by simpa using h2⟩

/-- **C30.** An expression listed by `entry_set()` determines the value: no two entries share it. -/
theorem C30_unique (v : Value) (hv : v.Plain) (ho : v.isObject = true) :
    ∃ L, entrySet v = .ok L ∧ ∀ s w w', (s, w) ∈ L → (s, w') ∈ L → w = w' := by
  obtain ⟨L, h1, h2⟩ := C30_entry_set v hv ho
  refine ⟨L, h1, fun s w w' h h' => ?_⟩
  obtain ⟨p, hp, hs, ha, _⟩ := (h2 s w).1 h
  obtain ⟨q, hq, hs', ha', _⟩ := (h2 s w').1 h'
  have := C30_distinct p q hp hq (hs ▸ hs')
  subst this
  rw [ha] at ha'; cases ha'; rfl

/-- **C30.** The entries agree with `get_value`: for every entry whose expression is read back as the
path it was rendered from (C01 says when), `get_value(expression)` is the entry's value. -/
theorem C30_get_value (env : Env) (v : Value) (hv : v.Plain) (ho : v.isObject = true)
    (hrt : ∀ p w, at? v p = some w → p ≠ [] → newPath env (renderPath p) = .ok p) :
    ∃ L, entrySet v = .ok L ∧ ∀ s w, (s, w) ∈ L → getValue env v s = .ok w := by
  obtain ⟨L, h1, h2⟩ := C30_entry_set v hv ho
  refine ⟨L, h1, fun s w h => ?_⟩
  obtain ⟨p, hp, rfl, ha, hw⟩ := (h2 s w).1 h
  rw [C29_get_value env v w _ p hv ho (hrt p w ha hp)]
  exact ⟨ha, hw.2⟩

example : entrySet exCfg = .ok [(ch "o.n", .scalar (.int 7 (ch "7"))),
    (ch "o.b", .scalar (.str (ch "yes") false)), (ch "o.d", .scalar (.double 19 (ch "1.9"))),
    (ch "o.t", .scalar (.str (ch "-12") true)), (ch "l", .list [])] := by decide
example : entrySet (.obj [(ch "a.b", exInt 1)] true false) = .ok [(ch "\"a.b\"", exInt 1)] := by
  decide

end Value
end Hocon
