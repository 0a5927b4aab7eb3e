import Verif.Lemmas.LinesGap
import Verif.Lemmas.LinesPut

/-!
# Documents made of lines with a place for a new setting
-/

set_option autoImplicit false

namespace Hocon
namespace Lines

open Spec DocParser HoconParse HoconLex Notes Tokenizer
open DocEdit (Occurs Put dots)

/-! ### The grammar -/

/-- `Slot env N k v z start its its' p A B`: the lines `its` are the text `A ++ B`; between `A` and `B` there is the
place for a line with the setting `k`, in the section `p` without its last element; with it the lines are `its'`. -/
inductive Slot (env : Env) (N : Str → Scalar → Prop) (k : Str) (v : Scalar) :
    Bool → Bool → List Item → List Item → Path → Str → Str → Prop
  | newline {z : Bool} {its its' : List Item} {p : Path} {A B : Str} :
      Slot env N k v z true its its' p A B → Slot env N k v z false its its' p ('\n' :: A) B
  | note {z : Bool} {n : Option Str} {its its' : List Item} {p : Path} {A B nt : Str} :
      HNote n nt → Slot env N k v z false its its' p A B →
      Slot env N k v z true (noteItem n :: its) (noteItem n :: its') p (nt ++ A) B
  | set {z : Bool} {key kt w w1 w2 x t e : Str} {c : Char} {s : Scalar} {n : Option Str} {its its' : List Item} {p : Path}
      {A B : Str} :
      Blanks w → HKey env [key] kt → Blanks w1 → (c = ':' ∨ c = '=') → Blanks w2 → HAtom env N s x t → '\n' ∉ t →
      HTail n e → Slot env N k v z false its its' p A B →
      Slot env N k v z true (.set key s n :: its) (.set key s n :: its') p
        (w ++ (kt ++ (w1 ++ c :: (w2 ++ (t ++ (e ++ A)))))) B
  | sect {z : Bool} {key kt w w1 w2 f x e : Str} {n n' : Option Str} {inner its its' : List Item} {p : Path}
      {A B : Str} :
      Blanks w → HKey env [key] kt → Blanks w1 → HNote n f → HLines env N false false inner x → Blanks w2 →
      HTail n' e → Slot env N k v z false its its' p A B →
      Slot env N k v z true (.sect key n inner n' :: its) (.sect key n inner n' :: its') p
        (w ++ (kt ++ (w1 ++ '{' :: (f ++ (x ++ (w2 ++ '}' :: (e ++ A))))))) B
  | into {z : Bool} {key kt w w1 w2 f x e u : Str} {n n' : Option Str} {inner its : List Item} :
      Blanks w → HKey env [key] kt → Blanks w1 → HNote n f → HLines env N false false inner x → Blanks w2 →
      HTail n' e → HLines env N z false its u → k ∉ keysIn inner →
      Slot env N k v z true (.sect key n inner n' :: its) (.sect key n (inner ++ [.set k v none]) n' :: its) [key, k]
        (w ++ (kt ++ (w1 ++ '{' :: (f ++ x)))) (w2 ++ '}' :: (e ++ u))
  | inside {z : Bool} {key kt w w1 w2 f e u : Str} {n n' : Option Str} {inner inner' its : List Item} {p : Path}
      {A B : Str} :
      Blanks w → HKey env [key] kt → Blanks w1 → HNote n f → Slot env N k v false false inner inner' p A B → Blanks w2 →
      HTail n' e → HLines env N z false its u →
      Slot env N k v z true (.sect key n inner n' :: its) (.sect key n inner' n' :: its) (key :: p)
        (w ++ (kt ++ (w1 ++ '{' :: (f ++ A)))) (B ++ (w2 ++ '}' :: (e ++ u)))

section
variable {env : Env} {N : Str → Scalar → Prop} {k : Str} {v : Scalar}

theorem Slot.lines {z start : Bool} {its its' : List Item} {p : Path} {A B : Str}
    (h : Slot env N k v z start its its' p A B) : HLines env N z start its (A ++ B) := by
  induction h with
  | newline _ ih => exact .newline ih
  | note ho _ ih => rw [List.append_assoc]; exact .note ho ih
  | set hw hk hw1 hc hw2 ht hnt he _ ih => simpa using HLines.set hw hk hw1 hc hw2 ht hnt he ih
  | sect hw hk hw1 hf hin hw2 he _ ih => simpa using HLines.sect hw hk hw1 hf hin hw2 he ih
  | into hw hk hw1 hf hin hw2 he hu _ => simpa using HLines.sect hw hk hw1 hf hin hw2 he hu
  | inside hw hk hw1 hf _ hw2 he hu ih => simpa using HLines.sect hw hk hw1 hf ih hw2 he hu

/-- A new line at the end. -/
theorem HLines.snoc {z start : Bool} {its : List Item} {t : Str} (h : HLines env N z start its t) (hz : z = false)
    {kt w x u : Str} (hw : Blanks w) (hk : HKey env [k] kt) (hv : HAtom env N v x u) (hn : '\n' ∉ u) :
    HLines env N false start (its ++ [.set k v none]) (t ++ (w ++ (kt ++ (ch " : " ++ (u ++ ['\n']))))) := by
  induction h with
  | nil =>
    have hb : Blanks [' '] := by intro c hc; simp at hc; exact Or.inl hc
    exact HLines.set (w1 := [' ']) (c := ':') (w2 := [' ']) (e := []) hw hk hb (Or.inl rfl) hb hv hn
      (.plain (.none Blanks.nil)) (.newline .nil)
  | eof => cases hz
  | newline _ ih => exact .newline (ih hz)
  | note ho _ ih => subst hz; rw [List.append_assoc]; exact .note ho (ih rfl)
  | set hw hk hw1 hc hw2 ht hnt he _ ih => subst hz; simpa using HLines.set hw hk hw1 hc hw2 ht hnt he (ih rfl)
  | sect hw hk hw1 hf hin hw2 he _ _ ih => subst hz; simpa using HLines.sect hw hk hw1 hf hin hw2 he (ih rfl)

/-- The lines with the new setting. -/
theorem Slot.fill {z start : Bool} {its its' : List Item} {p : Path} {A B : Str}
    (h : Slot env N k v z start its its' p A B)
    {kt w x u : Str} (hw : Blanks w) (hk : HKey env [k] kt) (hv : HAtom env N v x u) (hn : '\n' ∉ u) :
    HLines env N z start its' (A ++ ((w ++ (kt ++ (ch " : " ++ (u ++ ['\n'])))) ++ B)) := by
  induction h with
  | newline _ ih => exact .newline ih
  | note ho _ ih => rw [List.append_assoc]; exact .note ho ih
  | set hw hk hw1 hc hw2 ht hnt he _ ih =>
    have := HLines.set hw hk hw1 hc hw2 ht hnt he ih
    simp only [List.append_assoc, List.cons_append] at this ⊢
    exact this
  | sect hw hk hw1 hf hin hw2 he _ ih =>
    have := HLines.sect hw hk hw1 hf hin hw2 he ih
    simp only [List.append_assoc, List.cons_append] at this ⊢
    exact this
  | into hw' hk' hw1 hf hin hw2 he hu _ =>
    have := HLines.sect hw' hk' hw1 hf (HLines.snoc hin rfl hw hk hv hn) hw2 he hu
    simp only [List.append_assoc, List.cons_append] at this ⊢
    exact this
  | inside hw hk hw1 hf _ hw2 he hu ih =>
    have := HLines.sect hw hk hw1 hf ih hw2 he hu
    simp only [List.append_assoc, List.cons_append] at this ⊢
    exact this

theorem Slot.head {z start : Bool} {its its' : List Item} {p : Path} {A B : Str}
    (h : Slot env N k v z start its its' p A B) : ∃ key q, p = key :: q ∧ q ≠ [] ∧ key ∈ keysIn its := by
  induction h with
  | newline _ ih => exact ih
  | @note z n _ _ _ _ _ _ _ _ ih =>
    obtain ⟨k, q, e, hq, hk⟩ := ih
    refine ⟨k, q, e, hq, ?_⟩
    cases n <;> exact hk
  | set _ _ _ _ _ _ _ _ _ ih =>
    obtain ⟨k, q, e, hq, hk⟩ := ih
    exact ⟨k, q, e, hq, .tail _ hk⟩
  | sect _ _ _ _ _ _ _ _ ih =>
    obtain ⟨k, q, e, hq, hk⟩ := ih
    exact ⟨k, q, e, hq, .tail _ hk⟩
  | into => exact ⟨_, _, rfl, by simp, .head _⟩
  | inside _ _ _ _ _ _ _ _ ih =>
    obtain ⟨k, q, rfl, hq, hk⟩ := ih
    exact ⟨_, _, rfl, by simp, .head _⟩

theorem Added.cons {it : Item} {its js : List Item} {p : Path} (h : Added k v (it :: its) p js) (hp : p ≠ [k]) :
    (∃ its', Added k v its p its' ∧ js = it :: its') ∨
    (∃ key n n' inner inner' q, it = .sect key n inner n' ∧ p = key :: q ∧ Added k v inner q inner' ∧
      js = .sect key n inner' n' :: its) := by
  generalize hj : it :: its = is at h
  cases h with
  | here => exact absurd rfl hp
  | @inside pre post inner inner' key p n n' h =>
    cases pre with
    | nil => cases hj; exact Or.inr ⟨key, n, n', inner, inner', p, rfl, rfl, h, rfl⟩
    | cons a pre => cases hj; exact Or.inl ⟨_, .inside h, rfl⟩

theorem Added.ne_nil {its' : List Item} {p : Path} (hp : p ≠ [k]) : ¬ Added k v [] p its' := by
  intro h
  generalize hj : ([] : List Item) = js at h
  cases h with
  | here => exact hp rfl
  | @inside pre => cases pre <;> cases hj

theorem Added.here_iff {its js : List Item} (h : Added k v its [k] js) :
    k ∉ keysIn its ∧ js = its ++ [.set k v none] := by
  generalize hq : [k] = q at h
  cases h with
  | here h => exact ⟨h, rfl⟩
  | @inside pre post inner inner' key p n n' h =>
    cases hq
    generalize hq : ([] : Path) = q at h
    cases h <;> cases hq

/-- The place for a setting. -/
theorem slot_of {z start : Bool} {its its' : List Item} {p : Path} {t : Str}
    (h : HLines env N z start its t) (hp : p ≠ [k]) (hc : Added k v its p its') :
    ∃ A B, Slot env N k v z start its its' p A B ∧ t = A ++ B := by
  induction h generalizing p its' with
  | nil => exact absurd hc (Added.ne_nil hp)
  | eof => exact absurd hc (Added.ne_nil hp)
  | newline _ ih =>
    obtain ⟨A, B, h1, rfl⟩ := ih hp hc
    exact ⟨_, _, .newline h1, rfl⟩
  | @note z n its t u ho hu ih =>
    rcases Added.cons hc hp with ⟨its1, hc', rfl⟩ | ⟨key, _, _, _, _, _, e, _⟩
    · obtain ⟨A, B, h1, rfl⟩ := ih hp hc'
      exact ⟨_, _, .note ho h1, by simp⟩
    · cases n <;> cases e
  | @set z key kt w w1 w2 x t e u c s n its hw hk hw1 hcc hw2 ht hn he hu ih =>
    rcases Added.cons hc hp with ⟨its1, hc', rfl⟩ | ⟨key, _, _, _, _, _, e, _⟩
    · obtain ⟨A, B, h1, rfl⟩ := ih hp hc'
      exact ⟨_, _, .set hw hk hw1 hcc hw2 ht hn he h1, by simp⟩
    · cases e
  | @sect z key kt w w1 w2 f x e u n n' inner its hw hk hw1 hf hin hw2 he hu ihi ih =>
    rcases Added.cons hc hp with ⟨its1, hc', rfl⟩ | ⟨key, _, _, _, _, q, e', rfl, hc', rfl⟩
    · obtain ⟨A, B, h1, rfl⟩ := ih hp hc'
      exact ⟨_, _, .sect hw hk hw1 hf hin hw2 he h1, by simp⟩
    · cases e'
      by_cases hq : q = [k]
      · subst hq
        obtain ⟨hki, rfl⟩ := Added.here_iff hc'
        exact ⟨_, _, .into hw hk hw1 hf hin hw2 he hu hki, by simp⟩
      · obtain ⟨A, B, h1, rfl⟩ := ihi hq hc'
        exact ⟨_, _, .inside hw hk hw1 hf h1 hw2 he hu, by simp⟩

/-- Lines that all end with a newline. -/
theorem HLines.ends {z start : Bool} {its : List Item} {t : Str} (h : HLines env N z start its t) (hz : z = false)
    (hs : start = false ∨ its ≠ []) : ∃ x, t = x ++ ['\n'] := by
  have key : ∀ {u : Str} (a : Str), (∃ x, u = x ++ ['\n']) → ∃ x, a ++ u = x ++ ['\n'] := by
    rintro u a ⟨x, rfl⟩
    exact ⟨a ++ x, by simp⟩
  induction h with
  | nil => simp at hs
  | eof => cases hz
  | @newline z its u h ih =>
    cases its with
    | nil => cases h; exact ⟨[], rfl⟩
    | cons => exact key ['\n'] (ih hz (Or.inr (by simp)))
  | note _ _ ih => exact key _ (ih hz (Or.inl rfl))
  | @set _ _ _ _ _ _ _ _ _ _ c _ _ _ _ _ _ _ _ _ _ _ _ ih =>
    exact key _ (key _ (key _ (key [c] (key _ (key _ (key _ (ih hz (Or.inl rfl))))))))
  | sect _ _ _ _ _ _ _ _ _ ih =>
    exact key _ (key _ (key _ (key ['{'] (key _ (key _ (key _ (key ['}'] (key _ (ih hz (Or.inl rfl))))))))))

end

theorem last_nl {a b w w' : Str} (hw : '\n' ∉ w) (hw' : '\n' ∉ w') (h : a ++ '\n' :: w = b ++ '\n' :: w') : a = b ∧ w = w' := by
  rcases List.append_eq_append_iff.1 h with ⟨c, e1, e2⟩ | ⟨c, e1, e2⟩
  · cases c with
    | nil => simp at e1 e2; exact ⟨e1.symm, e2⟩
    | cons d c =>
      cases e2
      exact absurd (by simp) hw
  · cases c with
    | nil => simp at e1 e2; exact ⟨e1, e2.symm⟩
    | cons d c =>
      cases e2
      exact absurd (by simp) hw'

theorem Blanks.noNl {w : Str} (h : Blanks w) : '\n' ∉ w := by
  intro hm
  rcases h _ hm with h | h | h <;> exact absurd h (by decide)

theorem Ws1.blanks {w : List Tok} (h : Ws1 w) : Blanks (Tok.textList w) := by
  rcases h with rfl | ⟨a, b, rfl, _, hb⟩
  · exact Blanks.nil
  · simpa [Tok.textList, Tok.text] using hb

/-! ### The nodes -/

/-- What is shown of the tokens of lines with a place for a new setting. -/
def SlotToks (env : Env) (z start : Bool) (line : Nat) (its : List Item) (p : Path) (B rest : Str)
    (Q : List Tok → Prop) (us : List Tok) : Prop :=
  ∃ ts ts' ns pre post, us = ts ++ ts' ∧ R env z start line its ts ns ∧ Shape its ts ns ∧
    Node.renderList ns = pre ++ post ∧ post ++ Tok.textList ts' = B ++ rest ∧ Q ts' ∧
    ∀ v pt kt, Spell p pt kt → ∃ ns' w0, Blanks w0 ∧ Put v ns p pt ns' ∧
      Node.renderList ns' = pre ++ ((w0 ++ (kt ++ (ch " : " ++ (v.render ++ ['\n'])))) ++ post)

theorem slot_lex {env : Env} (hx : HexOk env) {k : Str} {v : Scalar} {z start : Bool} {its its' : List Item} {p : Path}
    {A B : Str} (h : Slot env (Numeral env) k v z start its its' p A B) {cs : List Str} (hti : Tidy cs its)
    (line : Nat) (rest : Str) (Q : List Tok → Prop) (hz : z = true → rest = [])
    (hrest : ∀ m, (z = false → m = line + (if start then 0 else 1) + rows its) → G env true m rest Q) :
    G env (!start) line (A ++ (B ++ rest)) (SlotToks env z start line its p B rest Q) := by
  induction h generalizing line rest Q cs with
  | newline hu ih =>
    obtain ⟨k', q, rfl, hq', hk'⟩ := hu.head
    have := ih hti (line + 1) rest Q hz (fun m hm => hrest m (by simpa using hm))
    refine (G.newline this).mono ?_
    rintro us ⟨w, _, rfl, hw, ts, ts', ns, pre, post, rfl, hr, hsh, e1, hpo, hq, hput⟩
    refine ⟨.newline line :: (w ++ ts), ts', _, Node.renderList (.single (.newline line) :: gn w) ++ pre, post, by simp,
      R.newline hw.ws hr, Shape.newline hw.wts hsh, ?_, hpo, hq, ?_⟩
    · rw [List.append_assoc, ← e1, ← renderList_append, List.cons_append]
    · intro v pt kt hs
      obtain ⟨ns', w0, h1, h2, h3⟩ := hput v pt kt hs
      refine ⟨_, w0, h1, Put.prefix (a := .single (.newline line) :: gn w)
        ((Bits.single _).append (us := w) (hs := gn w) (Bits.gap hw.wts) |>.occurs _) hq' h2, ?_⟩
      rw [List.append_assoc, ← h3, ← renderList_append, List.cons_append]
  | @note z n its its' p A B nt ho hu ih =>
    have hti' : ∃ cs, Tidy cs its := by
      cases n with
      | none => cases hti with | blank h => exact ⟨_, h⟩
      | some c => cases hti with | remark h => exact ⟨_, h⟩
    obtain ⟨cs', hti'⟩ := hti'
    obtain ⟨k', q, rfl, hq', hk'⟩ := hu.head
    have := ih hti' line rest Q hz (fun m hm => hrest m (fun hz => by
      rw [hm hz]; cases n <;> simp [rows, noteItem, Item.rows] <;> omega))
    have hl := lines_next hu.lines hz
    simp only [List.append_assoc] at hl ⊢
    refine (G.note ho hl this).weaken.mono ?_
    rintro us ⟨f, _, rfl, hf, ts, ts', ns, pre, post, rfl, hr, hsh, e1, hpo, hq, hput⟩
    refine ⟨f ++ ts, ts', _, Node.renderList (gn f) ++ pre, post, by simp, R.note hf hr, Shape.note hf hsh,
      by rw [List.append_assoc, ← e1, ← renderList_append], hpo, hq, ?_⟩
    intro v pt kt hs
    obtain ⟨ns', w0, h1, h2, h3⟩ := hput v pt kt hs
    exact ⟨_, w0, h1, Put.prefix ((Bits.gap hf.wts).occurs _) hq' h2,
      by rw [List.append_assoc, ← h3, ← renderList_append]⟩
  | @set z key kt w w1 w2 x t e c s n its its' p A B hw hk hw1 hc hw2 ht hn he hu ih =>
    cases hti with
    | set hki _ hti =>
    obtain ⟨k', q, rfl, hq', hk'⟩ := hu.head
    have hl := lines_next hu.lines hz
    simp only [List.append_assoc] at hl
    have g := ih hti line rest Q hz (fun m hm => hrest m (fun hz => by
      rw [hm hz]; simp [rows, Item.rows]; omega))
    have g := G.atom hx ht hn (delim_tail he (delim_line hl)) (G.tail he hl g)
    have hpc : ∃ ct, punctuation c = some ct ∧ (ct = .colon ∨ ct = .equals) := by
      rcases hc with rfl | rfl
      · exact ⟨_, rfl, Or.inl rfl⟩
      · exact ⟨_, rfl, Or.inr rfl⟩
    obtain ⟨ct, hct, hct'⟩ := hpc
    have g := G.punct hct (g.blanks hw2)
    have hd : Delim (c :: (w2 ++ (t ++ (e ++ (A ++ (B ++ rest)))))) :=
      Delim.punct _ (by rcases hc with rfl | rfl <;> decide)
    have g := (G.key hx hk (delim_blanks hw1 hd).key (g.blanks hw1)).blanks hw
    simp only [List.append_assoc, List.cons_append]
    refine g.mono ?_
    rintro us ⟨kts, w3, _, rfl, hkt, htx, _, hw3, w4, _, rfl, hw4, tok, w5, _, rfl, h1, h2, h3, _, _, hw5, f, _, rfl, hf,
      ts, ts', ns, pre, post, rfl, hr, hsh, e1, hpo, hq, hput⟩
    obtain ⟨pt, gs, hpt, hgs, hR⟩ := R.set hkt hw3.ws hct' hw4.ws h1 h2 h3 hw5 hf hr
    refine ⟨kts ++ (w3 ++ ct :: (w4 ++ tok :: (w5 ++ (f ++ ts)))), ts', _, Node.renderList (_ :: gs) ++ pre, post,
      by simp, hR, htx.shape_set hpt hw3.wts hw4.wts hgs hsh,
      by rw [List.append_assoc, ← e1]; exact renderList_append (_ :: gs) ns, hpo, hq, ?_⟩
    intro v pt kt hs
    obtain ⟨ns', w0, h1, h2, h3⟩ := hput v pt kt hs
    refine ⟨_, w0, h1, Put.prefix (a := _ :: gs) (field_occurs hgs rfl (by rintro rfl; exact hki hk') q) hq' h2, ?_⟩
    rw [List.append_assoc, ← h3]
    exact renderList_append (_ :: gs) ns'
  | @sect z key kt w w1 w2 f x e n n' inner its its' p A B hw hk hw1 hf hin hw2 he hu ih =>
    cases hti with
    | sect hki _ _ hti =>
    obtain ⟨k', q, rfl, hq', hk'⟩ := hu.head
    have hl := lines_next hu.lines hz
    simp only [List.append_assoc] at hl
    have g := (G.punct (c := '}') (t := .closeCurly) rfl (G.tail he hl (ih hti (line + 1 + rows inner) rest Q hz
      (fun m' hm' => hrest m' (fun hz => by rw [hm' hz]; simp [rows, Item.rows]; omega)))).weaken).blanks hw2
    have hl2 := lines_next hin (rest := w2 ++ '}' :: (e ++ (A ++ (B ++ rest)))) (by simp)
    have g := G.note hf hl2 (lines_lex hx hin line _ _ (by simp) (fun m hm => by
      rw [show m = line + 1 + rows inner by simpa using hm]; exact g))
    have g := G.punct (c := '{') (t := .openCurly) rfl g.weaken
    have hd : Delim ('{' :: (f ++ (x ++ (w2 ++ '}' :: (e ++ (A ++ (B ++ rest))))))) := Delim.punct _ (by decide)
    have g := (G.key hx hk (delim_blanks hw1 hd).key (g.blanks hw1)).blanks hw
    simp only [List.append_assoc, List.cons_append]
    refine g.mono ?_
    rintro us ⟨kts, w3, _, rfl, hkt, htx, _, hw3, w4, _, rfl, hw4, f', _, rfl, hf', us', _, rfl, ⟨ni, hr', hsh', _⟩, w5, _, rfl,
      hw5, e', _, rfl, he', ts, ts', ns, pre, post, rfl, hr, hsh, e1, hpo, hq, hput⟩
    obtain ⟨pt, gs, hpt, hgs, hR⟩ := R.sect hkt hw3.ws hw4.ws hf' hr' Ws.nil hw5 he' hr
    refine ⟨kts ++ (w3 ++ .openCurly :: (w4 ++ (f' ++ (us' ++ ([] ++ .closeCurly :: (w5 ++ (e' ++ ts))))))), ts',
      _, Node.renderList (_ :: gs) ++ pre, post, by simp, hR,
      htx.shape_sect hpt hw3.wts (hw4.wts.append hf'.wts) hgs hsh' hsh,
      by rw [List.append_assoc, ← e1]; exact renderList_append (_ :: gs) ns, hpo, hq, ?_⟩
    intro v pt kt hs
    obtain ⟨ns', w0, h1, h2, h3⟩ := hput v pt kt hs
    refine ⟨_, w0, h1, Put.prefix (a := _ :: gs) (field_occurs hgs rfl (by rintro rfl; exact hki hk') q) hq' h2, ?_⟩
    rw [List.append_assoc, ← h3]
    exact renderList_append (_ :: gs) ns'
  | @into z key kt w w1 w2 f x e u n n' inner its hw hk hw1 hf hin hw2 he hu hkin =>
    cases hti with
    | sect hki _ htin hti =>
    have hl := lines_next hu hz
    have g := (G.punctText (c := '}') (t := .closeCurly) rfl (G.tail he hl (lines_lex hx hu (line + 1 + rows inner) rest Q hz
      (fun m' hm' => hrest m' (fun hz => by rw [hm' hz]; simp [rows, Item.rows]; omega)))).weaken).blanks hw2
    have hl2 := lines_next hin (rest := w2 ++ '}' :: (e ++ (u ++ rest))) (by simp)
    have g := G.note hf hl2 ((lines_lex hx hin line _ _ (by simp) (fun m hm => by
      rw [show m = line + 1 + rows inner by simpa using hm]; exact g)).whole hl2)
    have g := G.punct (c := '{') (t := .openCurly) rfl g.weaken
    have hd : Delim ('{' :: (f ++ (x ++ (w2 ++ '}' :: (e ++ (u ++ rest)))))) := Delim.punct _ (by decide)
    have g := (G.key hx hk (delim_blanks hw1 hd).key (g.blanks hw1)).blanks hw
    simp only [List.append_assoc, List.cons_append]
    refine g.mono ?_
    rintro us ⟨kts, w3, _, rfl, hkt, htx, _, hw3, w4, _, rfl, hw4, f', _, rfl, hf', hxt, us', _, rfl, ⟨ni, hr', hsh', hflat⟩, w5, _, rfl,
      h5, hw5, e', _, rfl, he', ts, ts', rfl, ⟨ns, hr, hsh, _⟩, hq⟩
    obtain ⟨pt, gs, hpt, hgs, hR⟩ := R.sect hkt hw3.ws hw4.ws hf' hr' Ws.nil hw5 he' hr
    have hb := Shape.bits hgs hsh
    have hw4f := hw4.wts.append hf'.wts
    obtain ⟨a, l, w', rfl, hw'⟩ := hflat.2 rfl (Or.inl rfl)
    obtain ⟨x', rfl⟩ := HLines.ends hin rfl (Or.inl rfl)
    have hus : Tok.textList us' = Node.renderList a ++ '\n' :: Tok.textList w' := by
      rw [← hsh'.1, renderList_append, renderList_cons, gn_text hw'.wts]
      rfl
    have hnl : Node.renderList a = x' ∧ Tok.textList w' = w2 := by
      refine last_nl (Blanks.noNl hw'.blanks) (Blanks.noNl hw2) ?_
      rw [← hus]
      rw [Tok.textList_append, Tok.textList, h5] at hxt
      have hxt : Tok.textList us' ++ ('}' :: (e ++ (u ++ rest))) = (x' ++ '\n' :: w2) ++ ('}' :: (e ++ (u ++ rest))) := by
        simpa [Tok.text] using hxt
      exact List.append_cancel_right hxt
    have hplain : ∀ nd ∈ gn (w4 ++ f') ++ a, Plain nd := by
      intro nd hn
      rcases List.mem_append.1 hn with hn | hn
      · rw [gn_bits hw4f] at hn
        refine plain_map ?_ nd hn
        intro t ht
        exact (List.mem_append.1 ht).elim (hw4.plain t) (hf'.plain t)
      · exact hflat.1 nd (by simp [hn])
    refine ⟨kts ++ (w3 ++ .openCurly :: (w4 ++ (f' ++ (us' ++ ([] ++ .closeCurly :: (w5 ++ (e' ++ ts))))))), ts',
      _, Node.renderList (.path [key] pt :: (gn w3 ++ .single .openCurly :: (gn (w4 ++ f') ++ (a ++ [.single (.newline l)])))),
      Tok.textList w' ++ ('}' :: Node.renderList (gs ++ ns)), by simp, hR, htx.shape_sect hpt hw3.wts hw4f hgs hsh' hsh,
      ?_, ?_, hq, ?_⟩
    · rw [← gn_text hw'.wts]
      simp [Node.renderList, Node.tokensList, Node.tokens, Node.tokensList_append, Tok.textList_append, Tok.textList, Tok.text]
    · rw [hnl.2, hb.1, List.append_assoc, List.cons_append, ← Tok.textList_append,
        show Tok.textList (w5 ++ e' ++ ts ++ ts') = e ++ (u ++ rest) by simpa using h5]
      simp
    · intro v pt' kt' hs
      cases hs with
      | cons hsub hs =>
      cases hs with
      | cons _ h => cases h
      | last hd ht =>
      have ho : ¬ Occurs (.single .openCurly :: ((gn (w4 ++ f') ++ a) ++ .single (.newline l) :: (gn w' ++ [.single .closeCurly]))) [k] := by
        have h1 := (Bits.single .openCurly).append (us := w4 ++ f') (hs := gn (w4 ++ f')) (Bits.gap hw4f) |>.occurs [k]
        have h2 := hsh'.2 k [] hkin
        have h3 := (Bits.single .closeCurly).occurs [k]
        intro h
        rw [show Node.single .openCurly :: ((gn (w4 ++ f') ++ a) ++ .single (.newline l) :: (gn w' ++ [.single .closeCurly]))
          = (.single .openCurly :: gn (w4 ++ f')) ++ ((a ++ .single (.newline l) :: gn w') ++ [.single .closeCurly]) by simp,
          Occurs.append, Occurs.append] at h
        exact h.elim h1 (fun h => h.elim h2 h3)
      obtain ⟨new, w0, h1, h2, h3⟩ := put_section hplain hw' (l := l) (k := k) hd v ho
      refine ⟨_, w0, h2, Put.inside (a := []) (fb := []) (by simp) Occurs.nil (hb.2 key _ hki) rfl ?_ hsub (by simpa using h1), ?_⟩
      · intro n hn
        rw [gn_ws hw3.ws] at hn
        simp at hn
        rcases hn with rfl | ⟨t, _, rfl⟩ <;> rfl
      · rw [ht] at h3
        simp only [Node.render] at h3
        rw [← gn_text hw'.wts]
        simp [Node.render, Node.renderList, Node.tokensList, Node.tokens, Node.tokensList_append, Tok.textList_append, Tok.textList, Tok.text, h3]
  | @inside z key kt w w1 w2 f e u n n' inner inner' its p A B hw hk hw1 hf hin hw2 he hu ih =>
    cases hti with
    | sect hki _ htin hti =>
    have hl := lines_next hu hz
    have g := (G.punct (c := '}') (t := .closeCurly) rfl (G.tail he hl (lines_lex hx hu (line + 1 + rows inner) rest Q hz
      (fun m' hm' => hrest m' (fun hz => by rw [hm' hz]; simp [rows, Item.rows]; omega)))).weaken).blanks hw2
    have hl2 := lines_next hin.lines (rest := w2 ++ '}' :: (e ++ (u ++ rest))) (by simp)
    simp only [List.append_assoc] at hl2
    have g := G.note hf hl2 (ih htin line _ _ (by simp) (fun m hm => by
      rw [show m = line + 1 + rows inner by simpa using hm]; exact g))
    have g := G.punct (c := '{') (t := .openCurly) rfl g.weaken
    have hd : Delim ('{' :: (f ++ (A ++ (B ++ (w2 ++ '}' :: (e ++ (u ++ rest))))))) := Delim.punct _ (by decide)
    have g := (G.key hx hk (delim_blanks hw1 hd).key (g.blanks hw1)).blanks hw
    simp only [List.append_assoc, List.cons_append]
    refine g.mono ?_
    rintro us ⟨kts, w3, _, rfl, hkt, htx, _, hw3, w4, _, rfl, hw4, f', _, rfl, hf', us', _, ni, pre, post, rfl, hr', hsh',
      e1, hpo, ⟨w5, _, rfl, hw5, e', _, rfl, he', ts, ts', rfl, ⟨ns, hr, hsh, _⟩, hq⟩, hput⟩
    obtain ⟨pt, gs, hpt, hgs, hR⟩ := R.sect hkt hw3.ws hw4.ws hf' hr' Ws.nil hw5 he' hr
    have hb := Shape.bits hgs hsh
    have hw4f := hw4.wts.append hf'.wts
    obtain ⟨k', q, rfl, hq', hk'⟩ := hin.head
    refine ⟨kts ++ (w3 ++ .openCurly :: (w4 ++ (f' ++ (us' ++ ([] ++ .closeCurly :: (w5 ++ (e' ++ ts))))))), ts',
      _, Node.renderList (.path [key] pt :: (gn w3 ++ .single .openCurly :: gn (w4 ++ f'))) ++ pre,
      post ++ ('}' :: Node.renderList (gs ++ ns)), by simp, hR, htx.shape_sect hpt hw3.wts hw4f hgs hsh' hsh,
      ?_, ?_, hq, ?_⟩
    · simp only [Node.renderList] at e1 ⊢
      simp [Node.tokensList, Node.tokens, Node.tokensList_append, Tok.textList_append, Tok.textList, Tok.text, e1]
    · rw [hb.1]
      simp only [Tok.textList_append, Tok.textList, Tok.text, List.append_assoc, List.cons_append, List.nil_append] at hpo ⊢
      simpa [Node.renderList, Node.tokensList, Tok.textList] using hpo
    · intro v pt' kt' hs
      cases hs with
      | @cons _ _ _ _ pt'' hsub hs =>
      obtain ⟨ni', w0, h1, h2, h3⟩ := hput v _ kt' hs
      have hin' : Put v (.single .openCurly :: (gn (w4 ++ f') ++ (ni ++ (gn [] ++ [.single .closeCurly])))) (k' :: q) pt''
          (.single .openCurly :: (gn (w4 ++ f') ++ (ni' ++ [.single .closeCurly]))) := by
        have := Put.suffix (b := [.single .closeCurly]) ((Bits.single .closeCurly).occurs [k']) hq' h2
        exact Put.prefix (a := .single .openCurly :: gn (w4 ++ f'))
          ((Bits.single _).append (us := w4 ++ f') (hs := gn (w4 ++ f')) (Bits.gap hw4f) |>.occurs _) hq' this
      refine ⟨_, w0, h1, Put.inside (a := []) (fb := []) (by simp) Occurs.nil (hb.2 key _ hki) rfl ?_ hsub hin', ?_⟩
      · intro n hn
        rw [gn_ws hw3.ws] at hn
        simp at hn
        rcases hn with rfl | ⟨t, _, rfl⟩ <;> rfl
      · simp only [Node.renderList] at h3 ⊢
        simp [Node.tokensList, Node.tokens, Node.tokensList_append, Tok.textList_append, Tok.textList, Tok.text, h3]

end Lines
end Hocon
