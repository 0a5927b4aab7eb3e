import Verif.Lemmas.LinesSlot
import Verif.Lemmas.LinesRemove

/-!
# Adding a setting to a document made of lines
-/

set_option autoImplicit false

namespace Hocon
namespace Lines

open Spec DocParser HoconParse HoconLex Notes Tokenizer
open DocEdit (Doc Put dots Occurs)

/-- With newlines at all ends the lines may also end without one. -/
theorem HLines.weaken {env : Env} {N : Str → Scalar → Prop} {z start : Bool} {its : List Item} {t : Str}
    (h : HLines env N z start its t) : HLines env N true start its t := by
  induction h with
  | nil => exact .nil
  | eof => exact .eof
  | newline _ ih => exact .newline ih
  | note ho _ ih => exact .note ho ih
  | set hw hk hw1 hc hw2 ht hnt he _ ih => exact .set hw hk hw1 hc hw2 ht hnt he ih
  | sect hw hk hw1 hf hin hw2 he _ _ ih => exact .sect hw hk hw1 hf hin hw2 he ih

theorem Slot.weaken {env : Env} {N : Str → Scalar → Prop} {k : Str} {v : Scalar} {z start : Bool} {its its' : List Item}
    {p : Path} {A B : Str} (h : Slot env N k v z start its its' p A B) : Slot env N k v true start its its' p A B := by
  induction h with
  | newline _ ih => exact .newline ih
  | note ho _ ih => exact .note ho ih
  | set hw hk hw1 hc hw2 ht hnt he _ ih => exact .set hw hk hw1 hc hw2 ht hnt he ih
  | sect hw hk hw1 hf hin hw2 he _ ih => exact .sect hw hk hw1 hf hin hw2 he ih
  | into hw hk hw1 hf hin hw2 he hu hn => exact .into hw hk hw1 hf hin hw2 he (HLines.weaken hu) hn
  | inside hw hk hw1 hf h hw2 he hu _ => exact .inside hw hk hw1 hf h hw2 he (HLines.weaken hu)

/-- A document made of lines with a place for a new setting in a section. -/
theorem slot_doc {env : Env} (hx : HexOk env) {k : Str} {s : Scalar} {its its' : List Item} {p : Path} {A B : Str}
    (h : Slot env (Numeral env) k s true true its its' p A B) (hti : Tidy [] its) {pt : List Tok} {kt : Str}
    (hs : Spell p pt kt) (v : Node) :
    ∃ cs cs' w, Doc.parse env .conf (A ++ B) = .ok ⟨[.object cs], .conf⟩ ∧ Put v cs p pt cs' ∧ Blanks w ∧
      Node.renderList cs' = A ++ ((w ++ (kt ++ (ch " : " ++ (v.render ++ ['\n'])))) ++ B) := by
  have g := slot_lex hx h hti 1 [] (fun us => us = []) (fun _ => rfl) (fun m _ => G.end_)
  rw [List.append_nil] at g
  obtain ⟨us, l, hl, ⟨ts, ts', ns, pre, post, rfl, hr, hsh, e1, hpo, rfl, hput⟩, hp⟩ := g
  obtain ⟨w, hw, hwt, ht⟩ := hp [] Blanks.nil
  have ht := ht false (fun _ => rfl)
  rw [List.append_nil] at ht hl
  have hdoc := doc_nodes (tokenize_of_toks ht) hw hr
  have hpost : post = B := by simpa [Tok.textList] using hpo
  subst hpost
  obtain ⟨ns', w0, h1, h2, h3⟩ := hput v pt kt hs
  obtain ⟨k', q, rfl, hq, _⟩ := h.head
  refine ⟨gn w ++ ns, gn w ++ ns', w0, ?_, Put.prefix (Bits.occurs (Bits.gap hw.wts) _) hq h2, h1, ?_⟩
  · rw [Doc.parse, hdoc]
    rfl
  · have e3 : Tok.textList w ++ Node.renderList ns = A ++ post := by
      rw [hsh.1, hwt, ← hl.2]
      simp
    rw [e1, ← List.append_assoc] at e3
    have e4 := List.append_cancel_right e3
    rw [renderList_append, gn_text hw.wts, h3, ← List.append_assoc, e4]

/-- A document made of lines with a new setting at its end. -/
theorem end_doc {env : Env} (hx : HexOk env) {k : Str} {its : List Item} {t : Str}
    (h : HLines env (Numeral env) false true its t) (hne : its ≠ []) (hk : k ∉ keysIn its) {pt : List Tok} {kt : Str}
    (hs : Spell [k] pt kt) (v : Node) :
    ∃ cs cs' w, Doc.parse env .conf t = .ok ⟨[.object cs], .conf⟩ ∧ Put v cs [k] pt cs' ∧ Blanks w ∧
      Node.renderList cs' = t ++ (w ++ (kt ++ (ch " : " ++ (v.render ++ ['\n'])))) := by
  have g := lines_lex hx h 1 [] (fun us => us = []) (by simp) (fun m _ => G.end_)
  rw [List.append_nil] at g
  obtain ⟨us, l, hl, ⟨ts, ts', rfl, ⟨ns, hr, hsh, hflat⟩, rfl⟩, hp⟩ := g
  obtain ⟨w, hw, hwt, ht⟩ := hp [] Blanks.nil
  have ht := ht false (fun _ => rfl)
  rw [List.append_nil] at ht hl
  have hdoc := doc_nodes (tokenize_of_toks ht) hw hr
  have htext : Node.renderList (gn w ++ ns) = t := by
    rw [renderList_append, gn_text hw.wts, hsh.1, hwt, ← hl.2]
    simp
  obtain ⟨x, rfl⟩ := HLines.ends h rfl (Or.inr hne)
  have hns : ns ≠ [] := by
    rintro rfl
    rw [List.append_nil, gn_text hw.wts] at htext
    have := Blanks.noNl hw.blanks
    rw [htext] at this
    simp at this
  obtain ⟨a, l', w', rfl, hw'⟩ := hflat.2 rfl (Or.inr hns)
  have hnl : Node.renderList (gn w ++ a) = x ∧ Tok.textList w' = [] := by
    refine last_nl (Blanks.noNl hw'.blanks) (by simp) ?_
    rw [← htext, ← gn_text hw'.wts, ← List.append_assoc, renderList_append (gn w ++ a), renderList_cons]
    rfl
  have hw0 : w' = [] := by
    rcases hw' with rfl | ⟨a, b, rfl, ha, _⟩
    · rfl
    · exact absurd (by simpa [Tok.textList, Tok.text] using hnl.2) ha
  subst hw0
  cases hs with
  | cons _ h => cases h
  | last hd htk =>
  have hplain : ∀ nd ∈ gn w ++ a, Plain nd := by
    intro nd hn
    rcases List.mem_append.1 hn with hn | hn
    · rw [gn_bits hw.wts] at hn
      exact plain_map hw.plain nd hn
    · exact hflat.1 nd (by simp [hn])
  have ho : ¬ Occurs ((gn w ++ a) ++ [.single (.newline l')]) [k] := by
    have h2 := hsh.2 k [] hk
    intro h
    rw [List.append_assoc, Occurs.append] at h
    exact h.elim (Bits.occurs (Bits.gap hw.wts) _) h2
  obtain ⟨new, w0, h1, h2, h3⟩ := put_end hplain (l := l') (k := k) hd v ho
  refine ⟨_, _, w0, ?_, h1, h2, ?_⟩
  · rw [Doc.parse, hdoc]
    simp [gn]
  · rw [renderList_append, renderList_cons, hnl.1, h3, htk]
    simp [Node.renderList, Node.tokensList, Node.tokens, Tok.textList, Tok.text]

/-! ### What the new lines say -/

theorem rows_append (a b : List Item) : rows (a ++ b) = rows a + rows b := by
  induction a with
  | nil => simp [rows]
  | cons it a ih => rw [List.cons_append, rows_cons, rows_cons, ih]; omega

/-- What is shown of the lines with a new setting. -/
def Grown (v : Scalar) (l : Nat) (cs : List Str) (its : List Item) (p : Path) (its' : List Item) : Prop :=
  ∃ m0 d0, Stands l cs its' p m0 d0 (some v) ∧ rows its' = rows its + 1 ∧
    (∀ q m ds s, Stands l cs its q m ds s → q ≠ p ∧ Stands l cs its' q (if m < m0 then m else m + 1) ds s) ∧
    (∀ q m ds s, Stands l cs its' q m ds s → (q = p ∧ s = some v) ∨ ∃ m', Stands l cs its q m' ds s)

theorem Stands.append {l m : Nat} {cs ds : List Str} {its : List Item} {q : Path} {s : Option Scalar}
    (h : Stands l cs its q m ds s) (b : List Item) : Stands l cs (its ++ b) q m ds s := by
  cases h with
  | set => rw [List.append_assoc]; exact .set
  | sect => rw [List.append_assoc]; exact .sect
  | inside h => rw [List.append_assoc]; exact .inside h

theorem Stands.snoc {k : Str} {v : Scalar} {its : List Item} {l m : Nat} {cs ds : List Str} {q : Path} {s : Option Scalar}
    (h : Stands l cs (its ++ [.set k v none]) q m ds s) : (q = [k] ∧ s = some v) ∨ Stands l cs its q m ds s := by
  induction its generalizing l cs with
  | nil =>
    rcases Stands.cons h with h | ⟨k', s', o', e, rfl, _, _, rfl⟩ | ⟨_, _, _, _, e, _⟩ | ⟨_, _, _, _, _, e, _⟩
    · obtain ⟨_, _, _, h⟩ := Stands.head h
      cases h
    · cases e
      exact Or.inl ⟨rfl, rfl⟩
    · cases e
    · cases e
  | cons it its ih =>
    rcases Stands.cons h with h | ⟨k', s', o', rfl, rfl, rfl, rfl, rfl⟩ | ⟨k', _, _, _, rfl, rfl, rfl, rfl, rfl⟩ |
      ⟨k', _, inner, _, q', rfl, rfl, hi⟩
    · exact (ih h).imp id Stands.later
    · exact Or.inr Stands.first_set
    · exact Or.inr Stands.first_sect
    · exact Or.inr (Stands.first_inside hi)

/-- An item before the place of the new one. -/
theorem Grown.cons {v : Scalar} {l : Nat} {cs : List Str} {it : Item} {its its' : List Item} {p : Path}
    {as : List Str} (ht : Tidy as (it :: its)) (hp : ∃ k q, p = k :: q ∧ k ∈ keysIn its)
    (h : Grown v (l + it.rows) (above cs [it]) its p its') :
    Grown v l cs (it :: its) p (it :: its') := by
  obtain ⟨m0, d0, h0, hr, h1, h2⟩ := h
  have hb := (Stands.bounds h0).1
  obtain ⟨k0, p0, rfl, hk0⟩ := hp
  have hne : ∀ k' q', k' ∉ keysIn its → k' :: q' ≠ k0 :: p0 := by
    rintro k' q' hk' ⟨⟩
    exact hk' hk0
  refine ⟨m0, d0, Stands.later h0, by rw [rows_cons, rows_cons, hr]; omega, ?_, ?_⟩
  · intro q m ds s h
    rcases Stands.cons h with h | ⟨k', s', o', rfl, rfl, rfl, rfl, rfl⟩ | ⟨k', _, _, _, rfl, rfl, rfl, rfl, rfl⟩ |
      ⟨k', _, inner, _, q', rfl, rfl, hi⟩
    · exact ⟨(h1 q m ds s h).1, Stands.later (h1 q m ds s h).2⟩
    · rw [Item.rows] at hb
      rw [if_pos (by omega)]
      cases ht with
      | set hk _ _ => exact ⟨hne _ _ hk, Stands.first_set⟩
      · simp
    · rw [Item.rows] at hb
      rw [if_pos (by omega)]
      cases ht with
      | sect hk _ _ _ => exact ⟨hne _ _ hk, Stands.first_sect⟩
    · have := (Stands.bounds hi).2
      rw [Item.rows] at hb
      rw [if_pos (by omega)]
      cases ht with
      | sect hk _ _ _ => exact ⟨hne _ _ hk, Stands.first_inside hi⟩
  · intro q m ds s h
    rcases Stands.cons h with h | ⟨k', s', o', rfl, rfl, rfl, rfl, rfl⟩ | ⟨k', _, _, _, rfl, rfl, rfl, rfl, rfl⟩ |
      ⟨k', _, inner, _, q', rfl, rfl, hi⟩
    · rcases h2 q m ds s h with h | ⟨m', h⟩
      · exact Or.inl h
      · exact Or.inr ⟨m', Stands.later h⟩
    · exact Or.inr ⟨_, Stands.first_set⟩
    · exact Or.inr ⟨_, Stands.first_sect⟩
    · exact Or.inr ⟨_, Stands.first_inside hi⟩

theorem Added.grown {k : Str} {v : Scalar} {its its' : List Item} {p : Path} (h : Added k v its p its') {as : List Str}
    (ht : Tidy as its) (l : Nat) (cs : List Str) : Grown v l cs its p its' := by
  induction h generalizing as l cs with
  | @here its hk =>
    have h0 := Stands.set (l := l) (cs := cs) (pre := its) (post := []) (k := k) (s := v) (o := none)
    refine ⟨_, _, h0, by rw [rows_append]; rfl, ?_, ?_⟩
    · intro q m ds s h
      obtain ⟨k', q', rfl, hk'⟩ := Stands.head h
      have := (Stands.bounds h).2
      rw [if_pos this]
      exact ⟨(by rintro ⟨⟩; exact hk hk'), Stands.append h _⟩
    · intro q m ds s h
      exact (Stands.snoc h).imp id (fun h => ⟨_, h⟩)
  | @inside pre post inner inner' key p n n' hin ihin =>
    induction pre generalizing as l cs with
    | nil =>
      cases ht with
      | sect hk _ hti _ =>
      obtain ⟨m0, d0, h0, hr, h1, h2⟩ := ihin hti (l + 1) n.toList
      have hb := Stands.bounds h0
      obtain ⟨k0, p0, rfl, _⟩ := Stands.head h0
      refine ⟨m0, d0, Stands.first_inside h0, by simp [rows, Item.rows]; omega, ?_, ?_⟩
      · intro q m ds s h
        rcases Stands.cons h with h | ⟨_, _, _, e, _⟩ | ⟨k', _, _, _, e, rfl, rfl, rfl, rfl⟩ | ⟨k', _, _, _, q', e, rfl, h⟩
        · have hbm := (Stands.bounds h).1
          obtain ⟨k', q', rfl, hk'⟩ := Stands.head h
          rw [Item.rows] at hbm
          have := Stands.shift h (l + (Item.sect key n inner' n').rows)
          rw [Item.rows, Item.rows] at this
          rw [if_neg (by omega), show m + 1 = l + (rows inner' + 2) + (m - (l + (rows inner + 2))) by omega]
          exact ⟨(by rintro ⟨⟩; exact hk hk'), Stands.later (it := .sect key n inner' n') this⟩
        · cases e
        · cases e
          rw [if_pos (by omega)]
          exact ⟨by simp, Stands.first_sect⟩
        · cases e
          obtain ⟨g1, g2⟩ := h1 q' m ds s h
          exact ⟨(by rintro ⟨⟩; exact g1 rfl), Stands.first_inside g2⟩
      · intro q m ds s h
        rcases Stands.cons h with h | ⟨_, _, _, e, _⟩ | ⟨k', _, _, _, e, rfl, rfl, rfl, rfl⟩ | ⟨k', _, _, _, q', e, rfl, h⟩
        · have := Stands.shift h (l + (Item.sect key n inner n').rows)
          exact Or.inr ⟨_, Stands.later (it := .sect key n inner n') this⟩
        · cases e
        · cases e
          exact Or.inr ⟨_, Stands.first_sect⟩
        · cases e
          rcases h2 _ _ _ _ h with ⟨rfl, rfl⟩ | ⟨m', h⟩
          · exact Or.inl ⟨rfl, rfl⟩
          · exact Or.inr ⟨m', Stands.first_inside h⟩
    | cons it pre ih =>
      obtain ⟨as', ht'⟩ := Tidy.rest ht
      exact Grown.cons ht ⟨_, _, rfl, mem_keysIn _ _ _ rfl (by simp [keysIn])⟩ (ih ht' _ _)

/-- The lines stay tidy. -/
theorem Added.tidy {k : Str} {v : Scalar} {its its' : List Item} {p : Path} (h : Added k v its p its') {cs : List Str}
    (ht : Tidy cs its) : Tidy cs its' := by
  have hkeys : ∀ (a b : List Item), keysIn (a ++ b) = keysIn a ++ keysIn b := by
    intro a b
    induction a with
    | nil => rfl
    | cons it a ih => cases it <;> simp [keysIn, ih]
  induction h generalizing cs with
  | @here its hk =>
    induction its generalizing cs with
    | nil => exact .set (by simp [keysIn]) (by simp) .nil
    | cons it its ih =>
      have hsub : ∀ k', k' ≠ k → k' ∉ keysIn its → k' ∉ keysIn (its ++ [.set k v none]) := by
        intro k' h1 h2
        rw [hkeys, List.mem_append]
        rintro (h | h)
        · exact h2 h
        · simp [keysIn] at h
          exact h1 h
      cases ht with
      | blank h => exact .blank (ih hk h)
      | remark h => exact .remark (ih hk h)
      | set h1 h2 h3 =>
        simp [keysIn] at hk
        exact .set (hsub _ (fun e => hk.1 e.symm) h1) h2 (ih hk.2 h3)
      | sect h1 h2 h3 h4 =>
        simp [keysIn] at hk
        exact .sect (hsub _ (fun e => hk.1 e.symm) h1) h2 h3 (ih hk.2 h4)
  | @inside pre post inner inner' key p n n' hin ihin =>
    induction pre generalizing cs with
    | nil =>
      cases ht with
      | sect h1 h2 h3 h4 => exact .sect h1 h2 (ihin h3) h4
    | cons it pre ih =>
      have hkk : keysIn (pre ++ .sect key n inner' n' :: post) = keysIn (pre ++ .sect key n inner n' :: post) := by
        rw [hkeys, hkeys]; rfl
      rw [List.cons_append] at ht ⊢
      cases ht with
      | blank h => exact .blank (ih h)
      | remark h => exact .remark (ih h)
      | set h1 h2 h3 => exact .set (by rw [hkk]; exact h1) h2 (ih h3)
      | sect h1 h2 h3 h4 => exact .sect (by rw [hkk]; exact h1) h2 h3 (ih h4)

end Lines
end Hocon
