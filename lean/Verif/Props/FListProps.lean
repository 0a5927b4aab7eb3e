import Verif.FunctionalList

/-!
# The functional list: C84

The specifications are the functions on lists of Lean's library, membership, positions and counts.
-/

set_option autoImplicit false

namespace Hocon
namespace FList

variable {T U : Type}

/-- **C84 (front).** A list that is not empty is its front followed by the rest; on the empty list both
are undefined. -/
theorem C84_front (l : List T) :
    (∀ a r, (front l = .ok a ∧ poppedFront l = .ok r) ↔ l = a :: r) ∧
      (l = [] ↔ front l = .ub) ∧ (l = [] ↔ poppedFront l = .ub) := by
  cases l with
  | nil => simp [front, poppedFront]
  | cons => simp [front, poppedFront]

/-- **C84 (take).** `take(n)` is the first `n` elements, all of them if there are fewer, none for a
negative `n`. -/
theorem C84_take (n : Int) (l : List T) : take n l = l.take n.toNat := by
  induction l generalizing n with
  | nil => simp [take]
  | cons a l ih =>
    unfold take
    split
    · rename_i h
      rw [Int.toNat_of_nonpos h]; rfl
    · obtain ⟨k, rfl⟩ : ∃ k : Nat, n = k + 1 := ⟨(n - 1).toNat, by omega⟩
      rw [ih]
      have e1 : ((k : Int) + 1 - 1).toNat = k := by omega
      have e2 : ((k : Int) + 1).toNat = k + 1 := by omega
      rw [e1, e2]; rfl

/-- **C84 (insertedAt).** For a position from 0 to the length, the element is at that position and the
others keep their order around it; any other position is undefined. -/
theorem C84_inserted (v : T) (i : Int) (l : List T) :
    insertedAt v i l =
      if 0 ≤ i ∧ i ≤ l.length then .ok (l.take i.toNat ++ v :: l.drop i.toNat) else .ub := by
  induction l generalizing i with
  | nil =>
    unfold insertedAt
    by_cases h : i = 0
    · subst h; rfl
    · rw [if_neg h, if_neg]
      simp only [List.length_nil]
      omega
  | cons a l ih =>
    unfold insertedAt
    by_cases h : i = 0
    · subst h
      rw [if_pos rfl, if_pos ⟨by omega, by simp only [List.length_cons]; omega⟩]; rfl
    · rw [if_neg h, ih]
      simp only [List.length_cons]
      by_cases hr : 0 ≤ i ∧ i ≤ (l.length : Int) + 1
      · obtain ⟨k, rfl⟩ : ∃ k : Nat, i = k + 1 := ⟨(i - 1).toNat, by omega⟩
        have e1 : ((k : Int) + 1 - 1).toNat = k := by omega
        have e2 : ((k : Int) + 1).toNat = k + 1 := by omega
        rw [if_pos (by omega), if_pos (by omega), e1, e2]
        rfl
      · rw [if_neg (by omega), if_neg (by omega)]; rfl

theorem removed_eq [DecidableEq T] (v : T) (l : List T) : removed v l = l.filter (fun x => decide (x ≠ v)) := by
  induction l with
  | nil => rfl
  | cons a l ih =>
    unfold removed
    by_cases h : v = a
    · subst h; rw [if_pos rfl, ih]; simp
    · rw [if_neg h, ih, List.filter_cons_of_pos (by simpa using fun e => h e.symm)]

/-- **C84 (removed).** Exactly the occurrences of the element go, the others stay in order. -/
theorem C84_removed [DecidableEq T] (v : T) (l : List T) :
    removed v l = l.filter (fun x => decide (x ≠ v)) ∧ v ∉ removed v l ∧
      (∀ x, x ≠ v → (removed v l).count x = l.count x) := by
  rw [removed_eq]
  refine ⟨rfl, by simp, fun x hx => ?_⟩
  rw [List.count_filter (by simpa using hx)]

/-- The elements left by `removed1`. -/
theorem removed1_cons [DecidableEq T] {v a : T} (h : a ≠ v) (l : List T) :
    removed1 v (a :: l) = removed v (a :: l) := by
  have h' : v ≠ a := fun e => h e.symm
  simp [removed1, removed, h']

theorem removed_erase [DecidableEq T] (v : T) (l : List T) : removed v l = l.erase v ↔ l.count v ≤ 1 := by
  constructor
  · intro e
    have := congrArg (List.count v) e
    rw [List.count_erase_self, List.count_eq_zero.2 (C84_removed v l).2.1] at this
    omega
  · induction l with
    | nil => intro _; rfl
    | cons a l ih =>
      intro h
      by_cases e : v = a
      · subst e
        rw [List.count_cons_self] at h
        have h0 : v ∉ l := List.count_eq_zero.1 (by omega)
        have hs : removed v (v :: l) = removed v l := by simp [removed]
        rw [List.erase_cons_head, hs, removed_eq, List.filter_eq_self]
        intro x hx
        simpa using fun (e : x = v) => h0 (e ▸ hx)
      · have e' : a ≠ v := fun h => e h.symm
        rw [List.count_cons_of_ne e'] at h
        rw [List.erase_cons_tail (by simpa using e')]
        simp [removed, e, ih h]

/-- **C84 (removed1, violated in part).** `removed1` takes out the first occurrence only, exactly if that
is the front of the list or there are not two of them. -/
theorem C84_removed1_partial [DecidableEq T] (v : T) (l : List T) :
    removed1 v l = l.erase v ↔ l.head? = some v ∨ l.count v ≤ 1 := by
  cases l with
  | nil => simp [removed1]
  | cons a l =>
    by_cases h : a = v
    · subst h; simp [removed1]
    · rw [removed1_cons h, removed_erase]
      simp [h]

/-- **C84 (violated).** If the front is another element, `removed1` takes out all occurrences. -/
theorem C84_removed1_all [DecidableEq T] (v a : T) (l : List T) (h : a ≠ v) :
    removed1 v (a :: l) = (a :: l).filter (fun x => decide (x ≠ v)) := by
  rw [removed1_cons h, removed_eq]

/-- **C84 (member, all).** -/
theorem C84_member [DecidableEq T] (v : T) (p : T → Bool) (l : List T) :
    (member v l = true ↔ v ∈ l) ∧ (all p l = true ↔ ∀ x ∈ l, p x = true) := by
  induction l with
  | nil => simp [member, all]
  | cons a l ih =>
    constructor
    · unfold member
      split
      · rename_i h; subst h; simp
      · rename_i h; rw [ih.1]; simp [h]
    · unfold all
      cases hp : p a
      · simp [hp]
      · simp [hp, ih.2]

/-- **C84 (combinators).** Concatenation, mapping, filtering, folding from both sides, flattening,
reversing and writing through the output iterator (which gives the reversed list). -/
theorem C84_combinators (f : T → U) (p : T → Bool) (g : T → U → U) (h : U → T → U) (u : U)
    (a b l : List T) (ls : List (List T)) :
    concat a b = a ++ b ∧ fmap f l = l.map f ∧ filter p l = l.filter p ∧ foldr g u l = l.foldr g u ∧
      foldl h u l = l.foldl h u ∧ concatAll ls = ls.flatten ∧ reversed l = l.reverse ∧
      writeAll [] l = l.reverse := by
  have hc : ∀ a b : List T, concat a b = a ++ b := by
    intro a b
    induction a with
    | nil => rfl
    | cons x a ih => simp [concat, ih]
  have hf : ∀ {V : Type} (h : V → T → V) (l : List T) (u : V), foldl h u l = l.foldl h u := by
    intro V h l
    induction l with
    | nil => intro u; rfl
    | cons x l ih => intro u; simp [foldl, ih]
  refine ⟨hc a b, ?_, ?_, ?_, hf h l u, ?_, ?_, ?_⟩
  · induction l with
    | nil => rfl
    | cons x l ih => simp [fmap, ih]
  · induction l with
    | nil => rfl
    | cons x l ih => unfold filter; cases e : p x <;> simp [e, ih]
  · induction l with
    | nil => rfl
    | cons x l ih => simp [foldr, ih]
  · induction ls with
    | nil => rfl
    | cons x l ih => simp [concatAll, hc, ih]
  · have : ∀ (l acc : List T), l.foldl (fun acc v => v :: acc) acc = l.reverse ++ acc := by
      intro l
      induction l with
      | nil => intro acc; rfl
      | cons x l ih => intro acc; simp
    rw [reversed, hf, this, List.append_nil]
  · have : ∀ (l acc : List T), writeAll acc l = l.reverse ++ acc := by
      intro l
      induction l with
      | nil => intro acc; rfl
      | cons x l ih => intro acc; simp [writeAll, ih]
    rw [this, List.append_nil]

theorem foldl_removed [DecidableEq T] (bs as : List T) :
    foldl (fun acc x => removed x acc) as bs = as.filter (fun x => decide (x ∉ bs)) := by
  induction bs generalizing as with
  | nil => symm; rw [foldl, List.filter_eq_self]; simp
  | cons b bs ih =>
    rw [foldl, ih, removed_eq, List.filter_filter]
    congr 1
    funext x
    by_cases h1 : x = b <;> by_cases h2 : x ∈ bs <;> simp [h1, h2]

/-- **C84 (sets).** The difference has the elements of the first list that are not in the second, in
order; the union has the elements of both, none twice if neither list has one twice. -/
theorem C84_sets [DecidableEq T] (as bs : List T) :
    setDiff as bs = as.filter (fun x => decide (x ∉ bs)) ∧
      (∀ x, x ∈ setUnion as bs ↔ x ∈ as ∨ x ∈ bs) ∧
      (as.Nodup → bs.Nodup → (setUnion as bs).Nodup) := by
  have e : setUnion as bs = bs.filter (fun x => decide (x ∉ as)) ++ as := by
    rw [setUnion, foldl_removed]
    exact (C84_combinators (fun _ : T => ()) (fun _ => true) (fun _ u => u) (fun u _ => u)
      () _ as as []).1
  refine ⟨foldl_removed bs as, fun x => ?_, fun ha hb => ?_⟩
  · rw [e]
    by_cases h : x ∈ as <;> simp [h]
  · rw [e, List.nodup_append]
    refine ⟨hb.filter _, ha, ?_⟩
    intro x hx y hy hxy
    subst hxy
    simp at hx
    exact hx.2 hy

/-- **C84 (iterateN).** `iterateN(f, x, n)` has `n` elements (none for a negative `n`), the first is `x`
and each further one is `f` of the one before. -/
theorem C84_iterate (f : T → T) (x : T) (n : Int) :
    (iterateN f x n).length = n.toNat ∧ (0 < n → (iterateN f x n)[0]? = some x) ∧
      ∀ (i : Nat) a b, (iterateN f x n)[i]? = some a → (iterateN f x n)[i + 1]? = some b → b = f a := by
  unfold iterateN
  refine ⟨?_, ?_, ?_⟩
  · generalize n.toNat = k
    induction k generalizing x with
    | zero => rfl
    | succ k ih => simp [iterateNat, ih]
  · intro h
    obtain ⟨k, hk⟩ : ∃ k, n.toNat = k + 1 := ⟨n.toNat - 1, by omega⟩
    rw [hk]; rfl
  · generalize n.toNat = k
    induction k generalizing x with
    | zero => intro i a b h; simp [iterateNat] at h
    | succ k ih =>
      intro i a b h1 h2
      cases i with
      | zero =>
        simp only [iterateNat, List.getElem?_cons_zero, Option.some.injEq] at h1
        subst h1
        cases k with
        | zero => simp [iterateNat] at h2
        | succ k => simp [iterateNat] at h2; exact h2.symm
      | succ i =>
        simp only [iterateNat, List.getElem?_cons_succ] at h1 h2
        exact ih _ i a b h1 h2

/-! ### Examples -/

example : insertedAt 9 2 [1, 2, 3] = .ok [1, 2, 9, 3] := (C84_inserted 9 2 [1, 2, 3]).trans (by decide)
example : removed1 2 [2, 1, 2] = [1, 2] := by decide
/-- Both occurrences go. -/
example : removed1 2 [1, 2, 2] = [1] := C84_removed1_all 2 1 [2, 2] (by decide)
example : ¬ removed1 2 [1, 2, 2] = [1, 2, 2].erase 2 :=
  fun h => absurd ((C84_removed1_partial 2 [1, 2, 2]).1 h) (by decide)
example : (setUnion [1, 2] [2, 3]).Nodup := (C84_sets [1, 2] [2, 3]).2.2 (by decide) (by decide)

end FList
end Hocon
