import Verif.Path

/-!
# C03: path operations behave like list operations

Specification side: `++`, `List.length`, `List.dropLast`, `List.getLast?`, `List.drop`,
`List.take`, `<+:` (prefix), `=` of the standard library.
-/

namespace Hocon
namespace PathM

theorem hasRemainder_cons (k : Str) (r : Path) : hasRemainder (k :: r) = true ↔ r ≠ [] := by
  cases r <;> simp [hasRemainder, remainder]

theorem appendPath_eq (b : Builder) (p : Path) : Builder.appendPath b p = p.reverse ++ b := by
  induction p generalizing b with
  | nil => rfl
  | cons k r ih => simp [Builder.appendPath, Builder.appendKey, ih]

theorem resultFrom_eq (b : Builder) (acc : Path) : Builder.resultFrom b acc = b.reverse ++ acc := by
  induction b generalizing acc with
  | nil => rfl
  | cons k r ih => simp [Builder.resultFrom, ih]

theorem result_eq (b : Builder) : Builder.result b = b.reverse := by
  simp [Builder.result, resultFrom_eq]

/-- `prepend` is list concatenation. -/
theorem C03_prepend (p pre : Path) : prepend p pre = pre ++ p := by
  simp [prepend, result_eq, appendPath_eq]

/-- Prepending is associative: prepending `b` and then `a` equals prepending `a.b`. -/
theorem C03_prepend_assoc (a b c : Path) :
    prepend (prepend c b) a = prepend c (prepend b a) := by
  simp [C03_prepend]

/-- `length` counts the elements of a non-empty path. -/
theorem C03_length (p : Path) (h : p ≠ []) : length p = List.length p := by
  induction p with
  | nil => exact absurd rfl h
  | cons k r ih =>
    cases r with
    | nil => rfl
    | cons k' r' =>
      have := ih (by simp)
      simp [length, hasRemainder, remainder] at this ⊢
      omega

/-- `length` of the empty path is 1 (not 0): the hypothesis of `C03_length` is needed. -/
theorem C03_length_empty : length [] = 1 := rfl

/-- `last` is the last element, null for the empty path. -/
theorem C03_last (p : Path) : last p = p.getLast? := by
  induction p with
  | nil => rfl
  | cons k r ih =>
    cases r with
    | nil => rfl
    | cons k' r' =>
      rw [last]
      simp [hasRemainder, remainder, ih, List.getLast?_cons_cons]

theorem parentLoop_eq (p : Path) (b : Builder) : parentLoop p b = p.dropLast.reverse ++ b := by
  induction p generalizing b with
  | nil => rfl
  | cons k r ih =>
    cases r with
    | nil => rfl
    | cons k' r' =>
      rw [parentLoop]
      simp [hasRemainder, remainder, ih, Builder.appendKey]

/-- `parent` drops the last element. -/
theorem C03_parent (p : Path) : parent p = p.dropLast := by
  cases p with
  | nil => rfl
  | cons k r =>
    cases r with
    | nil => rfl
    | cons k' r' => simp [parent, hasRemainder, remainder, result_eq, parentLoop_eq]

/-- Every non-empty path is its parent followed by its last element. -/
theorem C03_parent_last (p : Path) (h : p ≠ []) :
    ∃ k, last p = some k ∧ prepend [k] (parent p) = p := by
  refine ⟨p.getLast h, ?_, ?_⟩
  · rw [C03_last]; exact List.getLast?_eq_some_getLast h
  · rw [C03_prepend, C03_parent, List.dropLast_concat_getLast]

/-- `remainder` drops the first element and `first` returns it. -/
theorem C03_first_remainder (p : Path) (h : p ≠ []) :
    ∃ k, first p = some k ∧ k :: remainder p = p := by
  cases p with
  | nil => exact absurd rfl h
  | cons k r => exact ⟨k, rfl, rfl⟩

/-- `sub_path(n)` drops `n` elements as long as at least one is left. -/
theorem C03_subPath (n : Nat) (p : Path) (h : n < p.length) : subPath n p = p.drop n := by
  induction n generalizing p with
  | zero => rfl
  | succ n ih =>
    match p, h with
    | k :: k' :: r, h =>
      simp only [subPath, hasRemainder, remainder, List.isEmpty_cons, Bool.not_false, ↓reduceIte,
        List.drop_succ_cons]
      exact ih _ (by simpa using h)

/-- Asking `sub_path(n)` to drop everything (or more) keeps the last element. -/
theorem C03_subPath_all (n : Nat) (p : Path) (h : p.length ≤ n) (hp : p ≠ []) :
    subPath n p = [p.getLast hp] := by
  induction n generalizing p with
  | zero => exact absurd (List.eq_nil_of_length_eq_zero (by omega)) hp
  | succ n ih =>
    match p, hp with
    | [k], _ => simp [subPath, hasRemainder, remainder]
    | k :: k' :: r, _ =>
      simp only [subPath, hasRemainder, remainder, List.isEmpty_cons, Bool.not_false, ↓reduceIte]
      rw [ih (k' :: r) (by simp at h ⊢; omega) (by simp)]
      simp

/-- `sub_path(i, j)` with `i ≤ j < length` is the elements `i..j-1`. -/
theorem C03_subPathRange (i j : Nat) (p : Path) (hij : i ≤ j) (hj : j < p.length) :
    subPathRange i j p = .ok ((p.drop i).take (j - i)) := by
  have loop : ∀ (n : Nat) (q : Path) (b : Builder), n < q.length →
      subPathRangeLoop n q b = .ok (b.reverse ++ q.take n) := by
    intro n
    induction n with
    | zero => intro q b _; simp [subPathRangeLoop, result_eq]
    | succ n ih =>
      intro q b h
      match q, h with
      | k :: k' :: r, h =>
        simp only [subPathRangeLoop, first, remainder, List.isEmpty_cons, Bool.false_eq_true,
          ↓reduceIte]
        rw [ih _ _ (by simpa using h)]
        simp [Builder.appendKey]
  unfold subPathRange
  rw [if_neg (by omega), C03_subPath i p (by omega), loop _ _ _ (by simp; omega)]
  simp

/-- `sub_path(i, length)` is rejected although the range is within the path: the range form cannot
reach the last element. (`path.cc` 120-122.) -/
theorem C03_subPathRange_end (i : Nat) (p : Path) (h : i < p.length) :
    subPathRange i p.length p = .err .config := by
  have loop : ∀ (n : Nat) (q : Path) (b : Builder), q.length = n → q ≠ [] →
      subPathRangeLoop n q b = .err .config := by
    intro n
    induction n with
    | zero => intro q b h hq; cases q <;> simp_all
    | succ n ih =>
      intro q b h hq
      match q, hq with
      | [k], _ =>
        simp at h; subst h
        simp [subPathRangeLoop, first, remainder]
      | k :: k' :: r, _ =>
        simp only [subPathRangeLoop, first, remainder, List.isEmpty_cons, Bool.false_eq_true,
          ↓reduceIte]
        exact ih _ _ (by simpa using h) (by simp)
  unfold subPathRange
  rw [if_neg (by omega), C03_subPath i p h]
  exact loop _ _ _ (by simp) (by simp; omega)

theorem startsWithLoop_eq (p q : Path) (h : q.length ≤ p.length) :
    startsWithLoop p q = .ok (decide (q <+: p)) := by
  induction q generalizing p with
  | nil => simp [startsWithLoop]
  | cons o os ih =>
    match p, h with
    | m :: ms, h =>
      simp only [startsWithLoop, first, remainder]
      by_cases e : o = m
      · subst e
        rw [if_pos rfl, ih ms (by simpa using h)]
        simp [List.cons_prefix_cons]
      · rw [if_neg e]
        simp [List.cons_prefix_cons, e]

/-- `starts_with` decides the list-prefix relation (non-empty receiver). -/
theorem C03_startsWith (p q : Path) (hp : p ≠ []) :
    startsWith p q = .ok (decide (q <+: p)) := by
  unfold startsWith
  rw [C03_length p hp]
  by_cases hq : q = []
  · subst hq
    have : 1 ≤ List.length p := by cases p <;> simp_all
    simp [length, this, startsWithLoop]
  · rw [C03_length q hq]
    split
    · exact startsWithLoop_eq p q (by assumption)
    · next h =>
      have : ¬ q <+: p := fun hpre => h hpre.length_le
      simp [this]

/-- On the empty receiver `starts_with` of a one-element path dereferences a null pointer. -/
theorem C03_startsWith_empty_ub (k : Str) : startsWith [] [k] = .ub := by
  simp [startsWith, length, hasRemainder, remainder, startsWithLoop, first]

/-- `operator==` is equality of the element lists. -/
theorem C03_beq (p q : Path) : beq p q = true ↔ p = q := by
  induction p generalizing q with
  | nil => cases q <;> simp [beq]
  | cons a p ih => cases q <;> simp [beq, ih]

/-- Constructing from a non-empty vector of strings keeps the elements in order. -/
theorem C03_ofElements (es : List Str) (h : es ≠ []) : ofElements es = .ok es := by
  have fold : ∀ (l : List Str) (b : Builder), l.foldl Builder.appendKey b = l.reverse ++ b := by
    intro l
    induction l with
    | nil => intro b; rfl
    | cons x xs ih => intro b; simp [ih, Builder.appendKey]
  cases es with
  | nil => exact absurd rfl h
  | cons e es => simp [ofElements, result_eq, fold]

/-- Constructing from a non-empty vector of paths, the first of them non-empty, concatenates. -/
theorem C03_concatPaths (p : Path) (ps : List Path) (hp : p ≠ []) :
    concatPaths (p :: ps) = .ok (p ++ ps.flatten) := by
  have fold : ∀ (l : List Path) (b : Builder),
      l.foldl Builder.appendPath b = l.flatten.reverse ++ b := by
    intro l
    induction l with
    | nil => intro b; rfl
    | cons x xs ih => intro b; simp [ih, appendPath_eq]
  match p, hp with
  | k :: r, _ =>
    cases r <;> simp [concatPaths, first, result_eq, fold, hasRemainder, remainder, appendPath_eq]

/-- The builder returns the keys in the order they were appended. -/
theorem C03_builder (ks : List Str) : Builder.result (ks.foldl Builder.appendKey []) = ks := by
  have fold : ∀ (l : List Str) (b : Builder), l.foldl Builder.appendKey b = l.reverse ++ b := by
    intro l
    induction l with
    | nil => intro b; rfl
    | cons x xs ih => intro b; simp [ih, Builder.appendKey]
  simp [result_eq, fold]

-- non-vacuity
example : prepend [ch "b"] [ch "a"] = [ch "a", ch "b"] := by decide
example : ∃ p : Path, p ≠ [] ∧ length p = 3 := ⟨[ch "a", ch "b", ch "c"], by simp, by decide⟩
example : startsWith [ch "a", ch "b", ch "c"] [ch "a", ch "b"] = .ok true := by decide
example : startsWith [ch "a", ch "b", ch "c"] [ch "b"] = .ok false := by decide
example : subPathRange 0 1 [ch "a", ch "b"] = .ok [ch "a"] := by decide
example : parent [ch "a", ch "b", ch "c"] = [ch "a", ch "b"] := by decide
example : concatPaths [[ch "a"], [ch "b", ch "c"], []] = .ok [ch "a", ch "b", ch "c"] := by decide

end PathM
end Hocon
