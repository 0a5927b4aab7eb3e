import Verif.Lemmas.LinesLex
import Verif.AccessNotes

/-!
# The settings that the lines make are found at their paths
-/

set_option autoImplicit false

namespace Hocon
namespace Lines

open Spec Notes

theorem above_cons (cs : List Str) (it : Item) (pre : List Item) : above cs (it :: pre) = above (above cs [it]) pre := by
  cases it <;> simp [above]

theorem rows_cons (it : Item) (its : List Item) : rows (it :: its) = it.rows + rows its := by rw [rows]

/-- The keys of the lines. -/
theorem tree_keys (base : Origin) (l : Nat) (cs : List Str) (its : List Item) :
    ∀ f ∈ tree base l cs its, f.1 ∈ keysIn its := by
  induction its generalizing l cs with
  | nil => intro f hf; simp [tree] at hf
  | cons it its ih =>
    intro f hf
    rw [tree, List.mem_append] at hf
    rcases hf with hf | hf
    · cases it with
      | blank => simp [itemTree] at hf
      | remark c => simp [itemTree] at hf
      | set k s o => simp [itemTree] at hf; subst hf; simp [keysIn]
      | sect k o inner o' => simp [itemTree] at hf; subst hf; simp [keysIn]
    · have := ih _ _ f hf
      cases it <;> simp [keysIn, this]

theorem findKeyA_append (fs gs : AFields) (k : Str) :
    findKeyA (fs ++ gs) k = match findKeyA fs k with | some v => some v | none => findKeyA gs k := by
  induction fs with
  | nil => rfl
  | cons f fs ih =>
    obtain ⟨k', v⟩ := f
    rw [List.cons_append, findKeyA, findKeyA]
    split
    · rfl
    · exact ih

theorem findKeyA_one (k k' : Str) (v : AVal) : findKeyA [(k', v)] k = if k' = k then some v else none := by
  rw [findKeyA]; rfl

theorem mem_keysIn {its : List Item} {k : Str} (pre : List Item) (it : Item) (post : List Item)
    (h : its = pre ++ it :: post) (hk : k ∈ keysIn [it]) : k ∈ keysIn its := by
  subst h
  induction pre with
  | nil => cases it <;> simp [keysIn] at hk ⊢ <;> simp [hk]
  | cons x pre ih => cases x <;> simp [keysIn, ih]

/-- What an item stores. -/
theorem find_item {base : Origin} {l : Nat} {cs : List Str} {its pre post : List Item} {it : Item} {k : Str} {w : AVal}
    (ht : Tidy cs its) (he : its = pre ++ it :: post)
    (hi : itemTree base (l + rows pre) (above cs pre) it = [(k, w)]) :
    findKeyA (tree base l cs its) k = some w := by
  induction pre generalizing l cs its with
  | nil =>
    subst he
    rw [show l + rows [] = l by simp [rows], show above cs [] = cs by simp [above]] at hi
    rw [List.nil_append, tree, hi, findKeyA_append, findKeyA_one, if_pos rfl]
  | cons x pre ih =>
    subst he
    have hi' : itemTree base (l + x.rows + rows pre) (above (above cs [x]) pre) it = [(k, w)] := by
      rw [← above_cons, Nat.add_assoc, ← rows_cons]; exact hi
    have hk : k ∈ keysIn (pre ++ it :: post) := by
      refine mem_keysIn pre it post rfl ?_
      cases it <;> simp [itemTree] at hi <;> simp [keysIn, hi.1]
    have hf : findKeyA (itemTree base l cs x) k = none ∧ Tidy (above cs [x]) (pre ++ it :: post) := by
      rw [List.cons_append] at ht
      cases ht with
      | blank h => exact ⟨by simp [itemTree, findKeyA], by simpa [above] using h⟩
      | remark h => exact ⟨by simp [itemTree, findKeyA], by simpa [above] using h⟩
      | set h1 _ h => exact ⟨by simp [itemTree, findKeyA]; rintro rfl; exact h1 hk, by simpa [above] using h⟩
      | sect h1 _ _ h => exact ⟨by simp [itemTree, findKeyA]; rintro rfl; exact h1 hk, by simpa [above] using h⟩
    rw [List.cons_append, tree, findKeyA_append, hf.1]
    exact ih hf.2 rfl hi'

/-- What is stored comes from an item. -/
theorem item_found {base : Origin} {l : Nat} {cs : List Str} {its : List Item} {k : Str} {w : AVal}
    (h : findKeyA (tree base l cs its) k = some w) :
    ∃ pre it post, its = pre ++ it :: post ∧ itemTree base (l + rows pre) (above cs pre) it = [(k, w)] := by
  induction its generalizing l cs with
  | nil => simp [tree, findKeyA] at h
  | cons x its ih =>
    rw [tree, findKeyA_append] at h
    cases hx : findKeyA (itemTree base l cs x) k with
    | some v =>
      rw [hx] at h
      obtain rfl : v = w := by simpa using h
      refine ⟨[], x, its, rfl, ?_⟩
      rw [show l + rows [] = l by simp [rows], show above cs [] = cs by simp [above]]
      cases x with
      | blank => simp [itemTree, findKeyA] at hx
      | remark c => simp [itemTree, findKeyA] at hx
      | set k' s o =>
        simp [itemTree, findKeyA] at hx
        rw [itemTree, ← hx.2, hx.1]
      | sect k' o inner o' =>
        simp [itemTree, findKeyA] at hx
        rw [itemTree, ← hx.2, hx.1]
    | none =>
      rw [hx] at h
      obtain ⟨pre, it, post, rfl, hi⟩ := ih h
      refine ⟨x :: pre, it, post, rfl, ?_⟩
      rw [above_cons, rows_cons, ← Nat.add_assoc]
      exact hi

theorem Tidy.inner {cs : List Str} {pre post inner : List Item} {k : Str} {o o' : Option Str}
    (h : Tidy cs (pre ++ .sect k o inner o' :: post)) : Tidy o.toList inner := by
  induction pre generalizing cs with
  | nil => cases h with | sect _ _ h _ => exact h
  | cons x pre ih =>
    rw [List.cons_append] at h
    cases h with
    | blank h => exact ih h
    | remark h => exact ih h
    | set _ _ h => exact ih h
    | sect _ _ _ h => exact ih h

theorem peek_one (o : Origin) (fs : AFields) (r i : Bool) (k : Str) :
    peekPathA (.obj o fs r i) [k] = .ok (findKeyA fs k) := by
  rw [peekPathA, attemptPeekA]; rfl

theorem recatch_peek (v : AVal) (p : Path) : Value.recatch (peekPathA v p) = peekPathA v p := by
  cases p with
  | nil => rfl
  | cons k p =>
    rw [peekPathA]
    generalize (attemptPeekA v k).bind _ = r
    cases r with
    | err e => cases e <;> rfl
    | _ => rfl

theorem peek_more (o : Origin) (fs : AFields) (r i : Bool) (k k' : Str) (p : Path) :
    peekPathA (.obj o fs r i) (k :: k' :: p) = match findKeyA fs k with
      | some w => if w.erase.isObject then peekPathA w (k' :: p) else .ok none
      | none => .ok none := by
  rw [peekPathA, attemptPeekA]
  cases findKeyA fs k with
  | none => rfl
  | some w =>
    show Value.recatch (if w.erase.isObject = true then peekPathA w (k' :: p) else .ok none)
      = if w.erase.isObject = true then peekPathA w (k' :: p) else .ok none
    split
    · exact recatch_peek _ _
    · rfl

/-- The value of a setting. -/
def ValueIs (v : Value) : Option Scalar → Prop
  | some s => v = .scalar s
  | none => ∃ fs, v = .obj fs true false

theorem stands_ne {l m : Nat} {cs ds : List Str} {its : List Item} {p : Path} {s : Option Scalar}
    (h : Stands l cs its p m ds s) : p ≠ [] := by
  cases h <;> simp

theorem stands_peek {base : Origin} {l m : Nat} {cs ds : List Str} {its : List Item} {p : Path} {s : Option Scalar}
    (h : Stands l cs its p m ds s) (ht : Tidy cs its) (o : Origin) (r i : Bool) :
    ∃ w, peekPathA (.obj o (tree base l cs its) r i) p = .ok (some w) ∧ w.origin = at_ base m ds ∧ ValueIs w.erase s := by
  induction h generalizing o r i with
  | @set l cs pre post k s nt =>
    refine ⟨.scalar (at_ base (l + rows pre) (above cs pre ++ nt.toList)) s, ?_, rfl, rfl⟩
    rw [peek_one, find_item ht rfl (by rw [itemTree])]
  | @sect l cs pre post inner k nt nt' =>
    refine ⟨.obj (at_ base (l + rows pre) (above cs pre ++ nt'.toList)) (tree base (l + rows pre + 1) nt.toList inner)
      true false, ?_, rfl, ⟨_, rfl⟩⟩
    rw [peek_one, find_item ht rfl (by rw [itemTree])]
  | @inside l m cs ds pre post inner k nt nt' p s hs ih =>
    obtain ⟨w, h1, h2⟩ := ih (Tidy.inner ht) (at_ base (l + rows pre) (above cs pre ++ nt'.toList)) true false
    refine ⟨w, ?_, h2⟩
    cases p with
    | nil => exact absurd rfl (stands_ne hs)
    | cons k' p =>
      rw [peek_more, find_item ht rfl (by rw [itemTree])]
      exact h1

theorem peek_stands {base : Origin} {l : Nat} {cs : List Str} {its : List Item} {p : Path} {o : Origin} {r i : Bool}
    {w : AVal} (hp : p ≠ []) (h : peekPathA (.obj o (tree base l cs its) r i) p = .ok (some w)) :
    ∃ m ds s, Stands l cs its p m ds s := by
  induction p generalizing l cs its o r i with
  | nil => exact absurd rfl hp
  | cons k p ih =>
    cases p with
    | nil =>
      rw [peek_one] at h
      obtain ⟨pre, it, post, rfl, hi⟩ := item_found (by simpa using h)
      cases it with
      | blank => simp [itemTree] at hi
      | remark c => simp [itemTree] at hi
      | set k' s nt =>
        simp [itemTree] at hi
        obtain ⟨rfl, _⟩ := hi
        exact ⟨_, _, _, .set⟩
      | sect k' nt inner nt' =>
        simp [itemTree] at hi
        obtain ⟨rfl, _⟩ := hi
        exact ⟨_, _, _, .sect⟩
    | cons k' p =>
      rw [peek_more] at h
      cases hf : findKeyA (tree base l cs its) k with
      | none => rw [hf] at h; simp at h
      | some v =>
        rw [hf] at h
        obtain ⟨pre, it, post, rfl, hi⟩ := item_found hf
        cases it with
        | blank => simp [itemTree] at hi
        | remark c => simp [itemTree] at hi
        | set k'' s nt =>
          simp [itemTree] at hi
          obtain ⟨_, rfl⟩ := hi
          simp [AVal.erase, Value.isObject] at h
        | sect k'' nt inner nt' =>
          simp [itemTree] at hi
          obtain ⟨rfl, rfl⟩ := hi
          obtain ⟨m, ds, s, hs⟩ := ih (by simp) h
          exact ⟨m, ds, s, .inside hs⟩

end Lines
end Hocon
