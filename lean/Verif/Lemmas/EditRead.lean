import Verif.Lemmas.EditAgain
import Verif.Lemmas.ConfigParserLemmas

/-!
# What an edit of a document changes in the config read from it

Removing or replacing the value at a path changes the config only at that path and below it: the two configs
are `Alike` off the path.
-/

set_option autoImplicit false

namespace Hocon
namespace EditRead
open Value

/-- The value of a key, if this is an object with it. -/
def sub : Option Value → Str → Option Value
  | some (.obj fs _ _), k => findKey fs k
  | _, _ => none

/-- Nothing shows through from values set earlier. -/
def firm : Option Value → Bool
  | none => false
  | some (.obj _ _ i) => i
  | some _ => true

/-- The later value merged over the earlier one. -/
def over : Option Value → Option Value → Option Value
  | none, b => b
  | some a, none => some a
  | some a, some b => some (pmerge a b)

/-- The same everywhere except at `p` and below. -/
def Alike : Path → Option Value → Option Value → Prop
  | [], _, _ => True
  | k :: p, a, b => firm a = firm b ∧ (∀ k', k' ≠ k → sub a k' = sub b k') ∧ Alike p (sub a k) (sub b k)

theorem Alike.refl : ∀ (p : Path) (a : Option Value), Alike p a a
  | [], _ => trivial
  | _ :: p, _ => ⟨rfl, fun _ _ => rfl, Alike.refl p _⟩

/-- A value without substitutions, or none. -/
def PlainO (a : Option Value) : Prop := ∀ v, a = some v → v.Plain

theorem PlainO.sub {a : Option Value} (h : PlainO a) (k : Str) : PlainO (sub a k) := by
  intro v hv
  match a, h with
  | none, _ => cases hv
  | some (.obj fs r i), h =>
    obtain ⟨_, hf⟩ := plain_obj.1 (h _ rfl)
    exact hf.find hv
  | some (.scalar _), _ | some (.list _), _ | some (.ref ..), _ | some (.concat _), _ | some (.dm _), _
  | some (.dmo _), _ => cases hv

theorem over_firm {m : Option Value} (h : firm m = true) (a : Option Value) : over m a = m := by
  match m, a with
  | none, _ => cases h
  | some x, none => rfl
  | some (.obj fs r i), some y =>
    cases h
    rw [over, pmerge_sealed]
  | some (.scalar _), some y | some (.list _), some y | some (.ref ..), some y | some (.concat _), some y
  | some (.dm _), some y => rw [over, pmerge_nonobj _ rfl]
  | some (.dmo _), some y => rw [over, pmerge_dmo]

theorem over_none (m : Option Value) : over m none = m := by cases m <;> rfl

theorem over_loose {m : Option Value} (h : firm m = false) {a : Option Value} (ha : PlainO a) :
    firm (over m a) = firm a ∧ ∀ k, sub (over m a) k = over (sub m k) (sub a k) := by
  match m, a with
  | none, a => exact ⟨rfl, fun _ => rfl⟩
  | some (.scalar _), _ | some (.list _), _ | some (.ref ..), _ | some (.concat _), _
  | some (.dm _), _ | some (.dmo _), _ => cases h
  | some (.obj fs r i), none => exact ⟨h, fun k => (over_none _).symm⟩
  | some (.obj fs r i), some y =>
    cases h
    rcases (ha y rfl).cases with ⟨h1, _, _⟩ | ⟨gs, j, rfl, hg⟩
    · rw [over, pmerge_over_nonobj fs r h1]
      have hs : ∀ k, sub (some y) k = none := by
        intro k
        cases y <;> first | rfl | cases h1
      refine ⟨?_, fun k => ?_⟩
      · cases y <;> first | rfl | cases h1
      · rw [hs, over_none]; rfl
    · rw [over, pmerge_obj]
      refine ⟨rfl, fun k => ?_⟩
      simp only [sub]
      rw [findKey_append, findKey_pmergeF, findKey_extra]
      cases h2 : findKey fs k with
      | none =>
        rw [if_neg (findKey_none.1 h2)]
        simp [over]
      | some v =>
        cases h3 : findKey gs k <;> simp [over]

theorem Alike.over : ∀ {p : Path} {m m' a b : Option Value}, Alike p m m' → Alike p a b → PlainO a → PlainO b →
    Alike p (over m a) (over m' b)
  | [], _, _, _, _, _, _, _, _ => trivial
  | k :: p, m, m', a, b, h1, h2, ha, hb => by
    obtain ⟨e1, e2, e3⟩ := h1
    obtain ⟨f1, f2, f3⟩ := h2
    cases hm : firm m with
    | true =>
      rw [over_firm hm, over_firm (e1 ▸ hm)]
      exact ⟨e1, e2, e3⟩
    | false =>
      obtain ⟨g1, g2⟩ := over_loose hm ha
      obtain ⟨g3, g4⟩ := over_loose (e1 ▸ hm) hb
      refine ⟨by rw [g1, g3, f1], fun k' hk => ?_, ?_⟩
      · rw [g2, g4, e2 k' hk, f2 k' hk]
      · rw [g2, g4]
        exact e3.over f3 (ha.sub k) (hb.sub k)

/-! ## Fields -/

theorem sub_newObj (fs : Fields) (k : Str) : sub (some (newObj fs)) k = findKey fs k := rfl

theorem firm_newObj (fs : Fields) : firm (some (newObj fs)) = false := rfl

/-- The fields read so far. -/
def AlikeF (p : Path) (fs fs' : Fields) : Prop := Alike p (some (newObj fs)) (some (newObj fs'))

theorem plainO_obj {fs : Fields} (h : PlainF fs) : PlainO (some (newObj fs)) := by
  intro v hv; cases hv; exact ConfigParser.newObj_plain h

/-- Storing a field puts it over the fields stored before. -/
theorem putField_over {fs : Fields} {key : Path} {v : Value} (hk : key ≠ []) (hf : PlainF fs) (hv : v.Plain) :
    ∃ gs, ConfigParser.putField false fs key v = .ok gs ∧ PlainF gs ∧
      ∀ k, findKey gs k = over (sub (some (nest key v)) k) (findKey fs k) := by
  match key with
  | [] => exact absurd rfl hk
  | k :: p =>
    obtain ⟨m, h1, h2, h3⟩ := ConfigParser.putMerged_plain (k := k) hf (ConfigParser.nest_plain hv p)
    refine ⟨_, by rw [ConfigParser.putField_conf, h1], ConfigParser.PlainF.put hf h2, fun k' => ?_⟩
    rw [ConfigParser.findKey_putKey]
    change _ = over (findKey [(k, nest p v)] k') _
    rw [findKey_cons]
    by_cases e : k = k'
    · subst e
      simp only [if_true]
      rw [h3]
      cases findKey fs k <;> rfl
    · simp only [e, if_false, findKey_nil]
      cases findKey fs k' <;> rfl

theorem alikeF_iff {k0 : Str} {p0 : Path} {fs fs' : Fields} : AlikeF (k0 :: p0) fs fs' ↔
    (∀ k, k ≠ k0 → findKey fs k = findKey fs' k) ∧ Alike p0 (findKey fs k0) (findKey fs' k0) :=
  ⟨fun h => ⟨h.2.1, h.2.2⟩, fun h => ⟨rfl, h.1, h.2⟩⟩

/-- A field stored on both sides. -/
theorem put_alike {p : Path} {fs fs' gs : Fields} {key : Path} {v v' : Value} (hk : key ≠ [])
    (hf : PlainF fs) (hf' : PlainF fs') (hv : v.Plain) (hv' : v'.Plain) (h : AlikeF p fs fs')
    (hn : Alike p (some (nest key v)) (some (nest key v'))) (hp : ConfigParser.putField false fs key v = .ok gs) :
    ∃ gs', ConfigParser.putField false fs' key v' = .ok gs' ∧ PlainF gs ∧ PlainF gs' ∧ AlikeF p gs gs' := by
  obtain ⟨gs0, h1, h2, h3⟩ := putField_over hk hf hv
  obtain ⟨gs', h4, h5, h6⟩ := putField_over hk hf' hv'
  rw [hp] at h1
  cases h1
  refine ⟨gs', h4, h2, h5, ?_⟩
  match p with
  | [] => trivial
  | k0 :: p0 =>
    obtain ⟨a1, a2⟩ := alikeF_iff.1 h
    obtain ⟨_, b1, b2⟩ := hn
    refine alikeF_iff.2 ⟨fun k hk => ?_, ?_⟩
    · rw [h3, h6, b1 k hk, a1 k hk]
    · rw [h3, h6]
      exact b2.over a2 (fun v hv => hf.find hv) (fun v hv => hf'.find hv)

/-- A field at or below the path stored on one side only. -/
theorem put_alike_left {p : Path} {fs fs' gs : Fields} {key : Path} {v : Value} (hk : key ≠ [])
    (hf : PlainF fs) (hf' : PlainF fs') (hv : v.Plain) (h : AlikeF p fs fs')
    (hn : Alike p (some (nest key v)) none) (hp : ConfigParser.putField false fs key v = .ok gs) :
    PlainF gs ∧ AlikeF p gs fs' := by
  obtain ⟨gs0, h1, h2, h3⟩ := putField_over hk hf hv
  rw [hp] at h1
  cases h1
  refine ⟨h2, ?_⟩
  match p with
  | [] => trivial
  | k0 :: p0 =>
    obtain ⟨a1, a2⟩ := alikeF_iff.1 h
    obtain ⟨_, b1, b2⟩ := hn
    refine alikeF_iff.2 ⟨fun k hk => ?_, ?_⟩
    · rw [h3, b1 k hk, a1 k hk]; rfl
    · rw [h3]
      exact b2.over a2 (fun v hv => hf.find hv) (fun v hv => hf'.find hv)

theorem sub_nest (k : Str) (key : Path) (v : Value) (k' : Str) :
    sub (some (nest (k :: key) v)) k' = if k = k' then some (nest key v) else none := by
  change findKey [(k, nest key v)] k' = _
  rw [findKey_cons]; rfl

/-- A value nested at or below `p` shows only there. -/
theorem nest_below : ∀ {p key : Path} (v : Value), p <+: key → Alike p (some (nest key v)) none
  | [], _, _, _ => trivial
  | k :: p, [], _, h => by simp at h
  | k :: p, k1 :: key, v, h => by
    rw [List.cons_prefix_cons] at h
    obtain ⟨rfl, h⟩ := h
    refine ⟨rfl, fun k' hk => ?_, ?_⟩
    · rw [sub_nest, if_neg (fun e => hk e.symm)]; rfl
    · rw [sub_nest, if_pos rfl]
      exact nest_below v h

theorem nest_alike (rem : Path) {v v' : Value} (h : Alike rem (some v) (some v')) :
    ∀ (key : Path), Alike (key ++ rem) (some (nest key v)) (some (nest key v'))
  | [] => h
  | k :: key => by
    refine ⟨rfl, fun k' hk => ?_, ?_⟩
    · rw [sub_nest, sub_nest, if_neg (fun e => hk e.symm), if_neg (fun e => hk e.symm)]
    · rw [sub_nest, sub_nest, if_pos rfl, if_pos rfl]
      exact nest_alike rem h key

/-! ## What lies off the path -/

/-- The value at a path. -/
def atO (a : Option Value) (p : Path) : Option Value := a.bind fun v => Spec.at? v p

theorem atO_cons (a : Option Value) (k : Str) (p : Path) : atO a (k :: p) = atO (sub a k) p := by
  match a with
  | none => rfl
  | some (.obj fs r i) =>
    change Spec.at? (.obj fs r i) (k :: p) = (findKey fs k).bind _
    rw [Spec.at?, child_obj]
  | some (.scalar _) | some (.list _) | some (.ref ..) | some (.concat _) | some (.dm _) | some (.dmo _) => rfl

theorem Alike.off : ∀ {p q : Path} {a b : Option Value}, Alike p a b → Unrelated p q → atO a q = atO b q
  | [], _, _, _, _, h => absurd (List.nil_prefix) h.1
  | _ :: _, [], _, _, _, h => absurd (List.nil_prefix) h.2
  | k :: p, k' :: q, a, b, h, hu => by
    rw [atO_cons, atO_cons]
    by_cases e : k' = k
    · subst e
      exact h.2.2.off (unrelated_cons.1 hu)
    · rw [h.2.1 k' e]

end EditRead
end Hocon
