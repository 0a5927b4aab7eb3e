import Verif.Lemmas.LinesGap
import Verif.Lemmas.LinesEdit

/-!
# Removing a setting from a document made of lines
-/

set_option autoImplicit false

namespace Hocon
namespace Lines

open Spec DocParser HoconParse HoconLex Notes Tokenizer
open DocEdit (Doc Cut)

/-- A document made of lines with a setting to be removed. -/
theorem gap_doc {env : Env} (hx : HexOk env) {o : Option Str} {its its' : List Item} {p : Path} {A F X B : Str}
    (h : Gap env (Numeral env) o true true its its' p A F X B) (hti : Tidy [] its) :
    ∃ cs cs', Doc.parse env .conf (A ++ (F ++ B)) = .ok ⟨[.object cs], .conf⟩ ∧ Cut true cs p cs' ∧
      Node.renderList cs' = A ++ (X ++ B) := by
  have g := gap_lex hx h hti 1 [] (fun us => us = []) (fun _ => rfl) (fun m _ => G.end_)
  rw [List.append_nil] at g
  obtain ⟨us, l, hl, ⟨ts, ts', ns, ns', pre, post, rfl, hr, hsh, ho, e1, e2, hpo, rfl⟩, hp⟩ := g
  obtain ⟨w, hw, hwt, ht⟩ := hp [] Blanks.nil
  have ht := ht false (fun _ => rfl)
  rw [List.append_nil] at ht hl
  have hdoc := doc_nodes (tokenize_of_toks ht) hw hr
  have hpost : post = B := by simpa [Tok.textList] using hpo
  subst hpost
  refine ⟨gn w ++ ns, gn w ++ ns', ?_, Cut.prefix (Bits.occurs (Bits.gap hw.wts) p) ho, ?_⟩
  · rw [Doc.parse, hdoc]
    rfl
  · have e3 : Tok.textList w ++ Node.renderList ns = A ++ (F ++ post) := by
      rw [hsh.1, hwt, ← hl.2]
      simp
    rw [e1, ← List.append_assoc] at e3
    have e4 := List.append_cancel_right e3
    rw [renderList_append, gn_text hw.wts, e2, ← List.append_assoc, e4]

/-- The text that is taken away and what is left of it. -/
theorem Gap.texts {env : Env} {N : Str → Scalar → Prop} {o : Option Str} {z start : Bool} {its its' : List Item} {p : Path}
    {A F X B : Str} (h : Gap env N o z start its its' p A F X B) :
    (∃ d, d ≠ [] ∧ F = d ++ X) ∧ (o = none → X = []) ∧ ∀ c, o = some c → X = '#' :: c ∨ X = '/' :: '/' :: c := by
  have rest : ∀ {X : Str}, Rest o X → (o = none → X = []) ∧ ∀ c, o = some c → X = '#' :: c ∨ X = '/' :: '/' :: c := by
    intro X h
    cases h with
    | none => exact ⟨fun _ => rfl, fun c h => by cases h⟩
    | hash => exact ⟨(by rintro ⟨⟩), (by rintro c ⟨⟩; exact Or.inl rfl)⟩
    | slashes => exact ⟨(by rintro ⟨⟩), (by rintro c ⟨⟩; exact Or.inr rfl)⟩
  induction h with
  | newline _ ih => exact ih
  | note _ _ ih => exact ih
  | set _ _ _ _ _ _ _ _ _ ih => exact ih
  | sect _ _ _ _ _ _ _ _ ih => exact ih
  | @hereSet z k kt w w1 w2 x t e u X c s its _ _ _ _ _ _ _ _ hX hd =>
    obtain ⟨d, rfl⟩ := hd
    exact ⟨⟨kt ++ (w1 ++ c :: (w2 ++ (t ++ d))), by simp, by simp⟩, rest hX⟩
  | @hereSect z k kt w w1 w2 f x e u X n inner its _ _ _ _ _ _ _ hX hd =>
    obtain ⟨d, rfl⟩ := hd
    exact ⟨⟨kt ++ (w1 ++ '{' :: (f ++ (x ++ (w2 ++ '}' :: d)))), by simp, by simp⟩, rest hX⟩
  | inside _ _ _ _ _ _ _ _ ih => exact ih

/-! ### What the remaining lines say -/

theorem Stands.bounds {l m : Nat} {cs ds : List Str} {its : List Item} {q : Path} {s : Option Scalar}
    (h : Stands l cs its q m ds s) : l ≤ m ∧ m < l + rows its := by
  have happ : ∀ a b : List Item, rows (a ++ b) = rows a + rows b := by
    intro a b
    induction a with
    | nil => simp [rows]
    | cons it a ih => rw [List.cons_append, rows_cons, rows_cons, ih]; omega
  induction h with
  | set => rw [happ, rows_cons, Item.rows]; omega; simp
  | sect => rw [happ, rows_cons, Item.rows]; omega
  | inside _ ih => rw [happ, rows_cons, Item.rows]; omega

/-- The lines moved up or down. -/
theorem Stands.shift {l m : Nat} {cs ds : List Str} {its : List Item} {q : Path} {s : Option Scalar}
    (h : Stands l cs its q m ds s) (l' : Nat) : Stands l' cs its q (l' + (m - l)) ds s := by
  induction h generalizing l' with
  | set =>
    rw [Nat.add_sub_cancel_left]
    exact .set
  | sect =>
    rw [Nat.add_sub_cancel_left]
    exact .sect
  | @inside l m cs ds pre post inner k o o' p s h ih =>
    have := (Stands.bounds h).1
    have ih := ih (l' + rows pre + 1)
    rw [show l' + rows pre + 1 + (m - (l + rows pre + 1)) = l' + (m - l) by omega] at ih
    exact .inside ih

/-- The lines below other comments. -/
theorem Stands.below {l m : Nat} {ds : List Str} {its : List Item} {q : Path} {s : Option Scalar}
    (h : Stands l [] its q m ds s) (cs : List Str) :
    ∃ e, (e = [] ∨ e = cs) ∧ Stands l cs its q m (e ++ ds) s := by
  have key : ∀ (pre : List Item) (c0 : List Str), ∃ e, (e = [] ∨ e = cs) ∧
      above (cs ++ c0) pre = e ++ above c0 pre := by
    intro pre
    induction pre with
    | nil => exact fun c0 => ⟨cs, Or.inr rfl, rfl⟩
    | cons it pre ih =>
      intro c0
      cases it with
      | remark c =>
        rw [above, above, List.append_assoc]
        exact ih _
      | blank => exact ⟨[], Or.inl rfl, rfl⟩
      | set => exact ⟨[], Or.inl rfl, rfl⟩
      | sect => exact ⟨[], Or.inl rfl, rfl⟩
  generalize hc : ([] : List Str) = c0 at h
  cases h with
  | @set _ _ pre =>
    subst hc
    obtain ⟨e, he, h⟩ := key pre []
    rw [List.append_nil] at h
    refine ⟨e, he, ?_⟩
    rw [← List.append_assoc, ← h]
    exact .set
  | @sect _ _ pre =>
    subst hc
    obtain ⟨e, he, h⟩ := key pre []
    rw [List.append_nil] at h
    refine ⟨e, he, ?_⟩
    rw [← List.append_assoc, ← h]
    exact .sect
  | inside h =>
    subst hc
    exact ⟨[], Or.inl rfl, .inside h⟩

theorem Tidy.rest {cs : List Str} {it : Item} {its : List Item} (h : Tidy cs (it :: its)) : ∃ cs', Tidy cs' its := by
  cases h with
  | blank h => exact ⟨_, h⟩
  | remark h => exact ⟨_, h⟩
  | set _ _ h => exact ⟨_, h⟩
  | sect _ _ _ h => exact ⟨_, h⟩

/-- The comments that are moved to the next setting. -/
def Moved (o : Option Str) (d0 e : List Str) : Prop := e = [] ∨ (o ≠ none ∧ e = d0)

/-- What is shown of the lines left by a removal. -/
def Left (o : Option Str) (l : Nat) (cs : List Str) (its : List Item) (p : Path) (its' : List Item) : Prop :=
  ∃ m0 d0 s0 r, Stands l cs its p m0 d0 s0 ∧ rows its = rows its' + r ∧ m0 + r < l + rows its ∧
    (∀ q m ds s, Stands l cs its q m ds s → ¬ p <+: q → ∃ e, Moved o d0 e ∧
      Stands l cs its' q (if m ≤ m0 then m else m - r) (e ++ ds) s) ∧
    (∀ q m ds s, Stands l cs its' q m ds s → ¬ p <+: q ∧ ∃ m' ds', Stands l cs its q m' ds' s)

theorem note_stands {o : Option Str} {l m : Nat} {cs ds : List Str} {its : List Item} {q : Path} {s : Option Scalar}
    (h : Stands l cs (noteItem o :: its) q m ds s) : Stands (l + 1) (above cs [noteItem o]) its q m ds s := by
  rcases Stands.cons h with h | ⟨_, _, _, e, _⟩ | ⟨_, _, _, _, e, _⟩ | ⟨_, _, _, _, _, e, _⟩
  · cases o <;> exact h
  all_goals cases o <;> cases e

/-- The lines behind the removed item. -/
theorem Stands.behind {o : Option Str} {l m r : Nat} {cs ds : List Str} {its : List Item} {q : Path} {s : Option Scalar}
    (h : Stands (l + (1 + r)) [] its q m ds s) : ∃ e, Moved o (cs ++ o.toList) e ∧
      Stands l cs (noteItem o :: its) q (if m ≤ l then m else m - r) (e ++ ds) s := by
  have hb := (Stands.bounds h).1
  have h1 := Stands.shift h (l + 1)
  rw [show l + 1 + (m - (l + (1 + r))) = m - r by omega] at h1
  rw [if_neg (by omega)]
  cases o with
  | none => exact ⟨[], Or.inl rfl, Stands.later (it := .blank) h1⟩
  | some c =>
    obtain ⟨e, he, h2⟩ := Stands.below h1 (cs ++ [c])
    exact ⟨e, he.imp id (fun h => ⟨by simp, h⟩), Stands.later (it := .remark c) h2⟩

theorem Stands.before {o : Option Str} {l m r : Nat} {cs ds : List Str} {its : List Item} {q : Path} {s : Option Scalar}
    (h : Stands l cs (noteItem o :: its) q m ds s) :
    ∃ m' ds', Stands (l + (1 + r)) [] its q m' ds' s := by
  have h1 := note_stands h
  have h2 := Stands.shift h1 (l + (1 + r))
  have key : ∀ {l m : Nat} {cs ds : List Str}, Stands l cs its q m ds s → ∃ ds', Stands l [] its q m ds' s := by
    intro l m cs ds h
    cases h with
    | set => exact ⟨_, .set⟩
    | sect => exact ⟨_, .sect⟩
    | inside h => exact ⟨_, .inside h⟩
  obtain ⟨ds', h3⟩ := key h2
  exact ⟨_, ds', h3⟩

/-- An item before the removed one. -/
theorem Left.cons {o : Option Str} {l : Nat} {cs : List Str} {it : Item} {its its' : List Item} {p : Path}
    {as : List Str} (ht : Tidy as (it :: its)) (h : Left o (l + it.rows) (above cs [it]) its p its') :
    Left o l cs (it :: its) p (it :: its') := by
  obtain ⟨m0, d0, s0, r, h0, hr, hm, h1, h2⟩ := h
  have hb := (Stands.bounds h0).1
  obtain ⟨k0, p0, rfl, hk0⟩ := Stands.head h0
  refine ⟨m0, d0, s0, r, Stands.later h0, by rw [rows_cons, rows_cons, hr]; omega, by rw [rows_cons]; omega, ?_, ?_⟩
  · intro q m ds s h hpq
    rcases Stands.cons h with h | ⟨k', s', o', rfl, rfl, rfl, rfl, rfl⟩ | ⟨k', _, _, _, rfl, rfl, rfl, rfl, rfl⟩ |
      ⟨k', _, inner, _, q', rfl, rfl, hi⟩
    · obtain ⟨e, he, h⟩ := h1 q m ds s h hpq
      exact ⟨e, he, Stands.later h⟩
    · rw [if_pos (by omega)]
      exact ⟨[], Or.inl rfl, Stands.first_set⟩
    · rw [if_pos (by omega)]
      exact ⟨[], Or.inl rfl, Stands.first_sect⟩
    · have := (Stands.bounds hi).2
      rw [Item.rows] at hb
      rw [if_pos (by omega)]
      exact ⟨[], Or.inl rfl, Stands.first_inside hi⟩
  · intro q m ds s h
    have hne : ∀ k', k' ∉ keysIn its → ∀ q', ¬ (k0 :: p0) <+: (k' :: q') := by
      intro k' hk' q' hp
      obtain ⟨rfl, _⟩ := List.cons_prefix_cons.mp hp
      exact hk' hk0
    rcases Stands.cons h with h | ⟨k', s', o', rfl, rfl, rfl, rfl, rfl⟩ | ⟨k', _, _, _, rfl, rfl, rfl, rfl, rfl⟩ |
      ⟨k', _, inner, _, q', rfl, rfl, hi⟩
    · obtain ⟨g1, m', ds', g2⟩ := h2 q m ds s h
      exact ⟨g1, m', ds', Stands.later g2⟩
    · cases ht with
      | set hk _ _ => exact ⟨hne _ hk _, _, _, Stands.first_set⟩
    · cases ht with
      | sect hk _ _ _ => exact ⟨hne _ hk _, _, _, Stands.first_sect⟩
    · cases ht with
      | sect hk _ _ _ => exact ⟨hne _ hk _, _, _, Stands.first_inside hi⟩

theorem Removed.left {o : Option Str} {its its' : List Item} {p : Path} (h : Removed o its p its') {as : List Str}
    (ht : Tidy as its) (l : Nat) (cs : List Str) : Left o l cs its p its' := by
  induction h generalizing as l cs with
  | @set pre post k s0 =>
    induction pre generalizing as l cs with
    | nil =>
      cases ht with
      | set hk _ _ =>
      refine ⟨l, cs ++ o.toList, _, 0, Stands.first_set, ?_, ?_, ?_, ?_⟩
      · cases o <;> simp [rows, noteItem, Item.rows]
      · simp [rows, Item.rows]; omega
      · intro q m ds s h hpq
        rcases Stands.cons h with h | ⟨k', s', o', e, rfl, _⟩ | ⟨_, _, _, _, e, _⟩ | ⟨_, _, _, _, _, e, _⟩
        · exact Stands.behind (r := 0) h
        · cases e
          exact absurd (List.prefix_refl _) hpq
        · cases e
        · cases e
      · intro q m ds s h
        obtain ⟨m', ds', h'⟩ := Stands.before (r := 0) h
        obtain ⟨k', q', rfl, hk'⟩ := Stands.head h'
        refine ⟨?_, m', ds', Stands.later h'⟩
        intro hp
        obtain ⟨rfl, _⟩ := List.cons_prefix_cons.mp hp
        exact hk hk'
    | cons it pre ih =>
      obtain ⟨as', ht'⟩ := Tidy.rest ht
      exact Left.cons ht (ih ht' _ _)
  | @sect pre post inner k n =>
    induction pre generalizing as l cs with
    | nil =>
      cases ht with
      | sect hk _ _ _ =>
      refine ⟨l, cs ++ o.toList, _, rows inner + 1, Stands.first_sect, ?_, ?_, ?_, ?_⟩
      · cases o <;> simp [rows, noteItem, Item.rows] <;> omega
      · simp [rows, Item.rows]; omega
      · intro q m ds s h hpq
        rcases Stands.cons h with h | ⟨_, _, _, e, _⟩ | ⟨k', _, _, _, e, rfl, _⟩ | ⟨k', _, _, _, q', e, rfl, _⟩
        · refine Stands.behind (r := rows inner + 1) ?_
          rw [Item.rows] at h
          rw [show 1 + (rows inner + 1) = rows inner + 2 by omega]
          exact h
        · cases e
        · cases e
          exact absurd (List.prefix_refl _) hpq
        · cases e
          exact absurd (List.cons_prefix_cons.mpr ⟨rfl, List.nil_prefix⟩) hpq
      · intro q m ds s h
        obtain ⟨m', ds', h'⟩ := Stands.before (r := rows inner + 1) h
        obtain ⟨k', q', rfl, hk'⟩ := Stands.head h'
        refine ⟨?_, m', ds', Stands.later (it := .sect k n inner o) ?_⟩
        · intro hp
          obtain ⟨rfl, _⟩ := List.cons_prefix_cons.mp hp
          exact hk hk'
        · rw [Item.rows, show rows inner + 2 = 1 + (rows inner + 1) by omega]
          exact h'
    | cons it pre ih =>
      obtain ⟨as', ht'⟩ := Tidy.rest ht
      exact Left.cons ht (ih ht' _ _)
  | @inside pre post inner inner' k p n n' hin ihin =>
    induction pre generalizing as l cs with
    | nil =>
      cases ht with
      | sect hk _ hti _ =>
      obtain ⟨m0, d0, s0, r, h0, hr, hm, h1, h2⟩ := ihin hti (l + 1) n.toList
      have hb := Stands.bounds h0
      refine ⟨m0, d0, s0, r, Stands.first_inside h0, ?_, ?_, ?_, ?_⟩
      · simp [rows, Item.rows]; omega
      · simp [rows, Item.rows]; omega
      · intro q m ds s h hpq
        rcases Stands.cons h with h | ⟨_, _, _, e, _⟩ | ⟨k', _, _, _, e, rfl, rfl, rfl, rfl⟩ | ⟨k', _, _, _, q', e, rfl, h⟩
        · have hbm := (Stands.bounds h).1
          rw [Item.rows] at hbm
          have := Stands.shift h (l + (Item.sect k n inner' n').rows)
          rw [Item.rows, Item.rows] at this
          rw [if_neg (by omega), show m - r = l + (rows inner' + 2) + (m - (l + (rows inner + 2))) by omega]
          exact ⟨[], Or.inl rfl, Stands.later (it := .sect k n inner' n') this⟩
        · cases e
        · cases e
          rw [if_pos (by omega)]
          exact ⟨[], Or.inl rfl, Stands.first_sect⟩
        · cases e
          obtain ⟨e, he, h⟩ := h1 q' m ds s h (fun hp => hpq (List.cons_prefix_cons.mpr ⟨rfl, hp⟩))
          exact ⟨e, he, Stands.first_inside h⟩
      · intro q m ds s h
        rcases Stands.cons h with h | ⟨_, _, _, e, _⟩ | ⟨k', _, _, _, e, rfl, rfl, rfl, rfl⟩ | ⟨k', _, _, _, q', e, rfl, h⟩
        · obtain ⟨k', q', rfl, hk'⟩ := Stands.head h
          have := Stands.shift h (l + (Item.sect k n inner n').rows)
          refine ⟨?_, _, _, Stands.later (it := .sect k n inner n') this⟩
          intro hp
          obtain ⟨rfl, _⟩ := List.cons_prefix_cons.mp hp
          exact hk hk'
        · cases e
        · cases e
          refine ⟨?_, _, _, Stands.first_sect⟩
          intro hp
          obtain ⟨_, _, rfl, _⟩ := Stands.head h0
          simp at hp
        · cases e
          obtain ⟨g1, m', ds', g2⟩ := h2 _ _ _ _ h
          exact ⟨fun hp => g1 (List.cons_prefix_cons.mp hp).2, m', ds', Stands.first_inside g2⟩
    | cons it pre ih =>
      obtain ⟨as', ht'⟩ := Tidy.rest ht
      exact Left.cons ht (ih ht' _ _)

/-- Without a comment behind the removed setting the lines stay tidy. -/
theorem Removed.tidy {its its' : List Item} {p : Path} (h : Removed none its p its') {cs : List Str}
    (ht : Tidy cs its) : Tidy cs its' := by
  have hkk : ∀ {a b : List Item}, (∀ k, k ∈ keysIn b → k ∈ keysIn a) → ∀ pre : List Item, ∀ k,
      k ∈ keysIn (pre ++ b) → k ∈ keysIn (pre ++ a) := by
    intro a b hk pre
    induction pre with
    | nil => exact hk
    | cons it pre ih => cases it <;> simp [keysIn] <;> grind
  have key : ∀ (pre : List Item) {a b : List Item}, (∀ k, k ∈ keysIn b → k ∈ keysIn a) →
      (∀ cs, Tidy cs a → Tidy cs b) → ∀ {cs}, Tidy cs (pre ++ a) → Tidy cs (pre ++ b) := by
    intro pre a b hk hab
    induction pre with
    | nil => exact hab _
    | cons it pre ih =>
      intro cs ht
      rw [List.cons_append] at ht ⊢
      cases ht with
      | blank h => exact .blank (ih h)
      | remark h => exact .remark (ih h)
      | set h1 h2 h3 => exact .set (fun h => h1 (hkk hk _ _ h)) h2 (ih h3)
      | sect h1 h2 h3 h4 => exact .sect (fun h => h1 (hkk hk _ _ h)) h2 h3 (ih h4)
  induction h generalizing cs with
  | set =>
    refine key _ ?_ ?_ ht
    · intro k hk
      exact List.mem_cons_of_mem _ hk
    · intro cs h
      cases h with
      | set h1 h2 h3 => exact .blank h3
  | sect =>
    refine key _ ?_ ?_ ht
    · intro k hk
      exact List.mem_cons_of_mem _ hk
    · intro cs h
      cases h with
      | sect h1 h2 h3 h4 => exact .blank h4
  | inside _ ih =>
    refine key _ (by intro k hk; simpa [keysIn] using hk) ?_ ht
    intro cs h
    cases h with
    | sect h1 h2 h3 h4 => exact .sect h1 h2 (ih h3) h4

end Lines
end Hocon
