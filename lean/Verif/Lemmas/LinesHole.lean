import Verif.Spec.LinesEdit
import Verif.Lemmas.LinesLex

/-!
# Documents made of lines with a place for one value
-/

set_option autoImplicit false

namespace Hocon
namespace Lines

open Spec DocParser HoconParse HoconLex Notes Tokenizer

/-! ### The grammar -/

/-- `Hole env N z start its p A t B g`: the lines `its` are the text `A ++ t ++ B`, where `t` is the value of
the setting with the path `p`; with the scalar `v` in this place the lines are `g v`. -/
inductive Hole (env : Env) (N : Str → Scalar → Prop) :
    Bool → Bool → List Item → Path → Str → Str → Str → (Scalar → List Item) → Prop
  | newline {z : Bool} {its : List Item} {p : Path} {A t B : Str} {g : Scalar → List Item} :
      Hole env N z true its p A t B g → Hole env N z false its p ('\n' :: A) t B g
  | note {z : Bool} {o : Option Str} {its : List Item} {p : Path} {A t B n : Str} {g : Scalar → List Item} :
      HNote o n → Hole env N z false its p A t B g →
      Hole env N z true (noteItem o :: its) p (n ++ A) t B (fun v => noteItem o :: g v)
  | set {z : Bool} {k kt w w1 w2 x t e : Str} {c : Char} {s : Scalar} {o : Option Str} {its : List Item} {p : Path}
      {A t0 B : Str} {g : Scalar → List Item} :
      Blanks w → HKey env [k] kt → Blanks w1 → (c = ':' ∨ c = '=') → Blanks w2 → HAtom env N s x t → '\n' ∉ t →
      HTail o e → Hole env N z false its p A t0 B g →
      Hole env N z true (.set k s o :: its) p (w ++ (kt ++ (w1 ++ c :: (w2 ++ (t ++ (e ++ A)))))) t0 B
        (fun v => .set k s o :: g v)
  | sect {z : Bool} {k kt w w1 w2 f x e : Str} {o o' : Option Str} {inner its : List Item} {p : Path}
      {A t0 B : Str} {g : Scalar → List Item} :
      Blanks w → HKey env [k] kt → Blanks w1 → HNote o f → HLines env N false false inner x → Blanks w2 →
      HTail o' e → Hole env N z false its p A t0 B g →
      Hole env N z true (.sect k o inner o' :: its) p
        (w ++ (kt ++ (w1 ++ '{' :: (f ++ (x ++ (w2 ++ '}' :: (e ++ A))))))) t0 B (fun v => .sect k o inner o' :: g v)
  | here {z : Bool} {k kt w w1 w2 x t e u : Str} {c : Char} {s : Scalar} {o : Option Str} {its : List Item} :
      Blanks w → HKey env [k] kt → Blanks w1 → (c = ':' ∨ c = '=') → Blanks w2 → HAtom env N s x t → '\n' ∉ t →
      HTail o e → HLines env N z false its u →
      Hole env N z true (.set k s o :: its) [k] (w ++ (kt ++ (w1 ++ c :: w2))) t (e ++ u) (fun v => .set k v o :: its)
  | inside {z : Bool} {k kt w w1 w2 f e u : Str} {o o' : Option Str} {inner its : List Item} {p : Path}
      {A t0 B : Str} {g : Scalar → List Item} :
      Blanks w → HKey env [k] kt → Blanks w1 → HNote o f → Hole env N false false inner p A t0 B g → Blanks w2 →
      HTail o' e → HLines env N z false its u →
      Hole env N z true (.sect k o inner o' :: its) (k :: p) (w ++ (kt ++ (w1 ++ '{' :: (f ++ A)))) t0
        (B ++ (w2 ++ '}' :: (e ++ u))) (fun v => .sect k o (g v) o' :: its)

section
variable {env : Env} {N : Str → Scalar → Prop}

/-- Another value in the place. -/
theorem Hole.fill {z start : Bool} {its : List Item} {p : Path} {A t0 B : Str} {g : Scalar → List Item}
    (h : Hole env N z start its p A t0 B g) {v : Scalar} {x t : Str} (hv : HAtom env N v x t) (hn : '\n' ∉ t) :
    HLines env N z start (g v) (A ++ (t ++ B)) := by
  induction h with
  | newline _ ih => exact .newline ih
  | note ho _ ih => rw [List.append_assoc]; exact .note ho ih
  | set hw hk hw1 hc hw2 ht hnt he _ ih => simpa using HLines.set hw hk hw1 hc hw2 ht hnt he ih
  | sect hw hk hw1 hf hin hw2 he _ ih => simpa using HLines.sect hw hk hw1 hf hin hw2 he ih
  | here hw hk hw1 hc hw2 _ _ he hu => simpa using HLines.set hw hk hw1 hc hw2 hv hn he hu
  | inside hw hk hw1 hf _ hw2 he hu ih => simpa using HLines.sect hw hk hw1 hf ih hw2 he hu

theorem Change.cons {v : Scalar} {it : Item} {its its' : List Item} {p : Path} (h : Change v (it :: its) p its') :
    (∃ its1, Change v its p its1 ∧ its' = it :: its1) ∨
    (∃ k s o, it = .set k s o ∧ p = [k] ∧ its' = .set k v o :: its) ∨
    (∃ k o inner inner' o' q, it = .sect k o inner o' ∧ p = k :: q ∧ Change v inner q inner' ∧
      its' = .sect k o inner' o' :: its) := by
  generalize hj : it :: its = js at h
  cases h with
  | @here pre post k s o =>
    cases pre with
    | nil =>
      cases hj
      exact Or.inr (Or.inl ⟨k, s, o, rfl, rfl, rfl⟩)
    | cons a pre =>
      cases hj
      exact Or.inl ⟨_, .here, rfl⟩
  | @inside pre post inner inner' k q o o' hc =>
    cases pre with
    | nil =>
      cases hj
      exact Or.inr (Or.inr ⟨k, o, inner, inner', o', q, rfl, rfl, hc, rfl⟩)
    | cons a pre =>
      cases hj
      exact Or.inl ⟨_, .inside hc, rfl⟩

theorem Change.ne_nil {v : Scalar} {its' : List Item} {p : Path} : ¬ Change v [] p its' := by
  intro h
  generalize hj : ([] : List Item) = js at h
  cases h with
  | @here pre => cases pre <;> cases hj
  | @inside pre => cases pre <;> cases hj

/-- The place of a setting. -/
theorem hole_of {v : Scalar} {z start : Bool} {its its' : List Item} {p : Path} {t : Str}
    (h : HLines env N z start its t) (hc : Change v its p its') :
    ∃ A t0 B g, Hole env N z start its p A t0 B g ∧ g v = its' ∧ t = A ++ (t0 ++ B) := by
  induction h generalizing p its' with
  | nil => exact absurd hc Change.ne_nil
  | eof => exact absurd hc Change.ne_nil
  | newline _ ih =>
    obtain ⟨A, t0, B, g, h1, h2, rfl⟩ := ih hc
    exact ⟨_, _, _, _, .newline h1, h2, rfl⟩
  | @note z o its t u ho hu ih =>
    rcases Change.cons hc with ⟨its1, hc', rfl⟩ | ⟨k, s, o', e, _⟩ | ⟨k, o', _, _, _, _, e, _⟩
    · obtain ⟨A, t0, B, g, h1, rfl, rfl⟩ := ih hc'
      exact ⟨_, _, _, _, .note ho h1, rfl, by simp⟩
    · cases o <;> cases e
    · cases o <;> cases e
  | @set z k kt w w1 w2 x t e u c s o its hw hk hw1 hcc hw2 ht hn he hu ih =>
    rcases Change.cons hc with ⟨its1, hc', rfl⟩ | ⟨k, s, o', e, rfl, rfl⟩ | ⟨k, o', _, _, _, _, e, _⟩
    · obtain ⟨A, t0, B, g, h1, rfl, rfl⟩ := ih hc'
      exact ⟨_, _, _, _, .set hw hk hw1 hcc hw2 ht hn he h1, rfl, by simp⟩
    · cases e
      exact ⟨_, _, _, _, .here hw hk hw1 hcc hw2 ht hn he hu, rfl, by simp⟩
    · cases e
  | @sect z k kt w w1 w2 f x e u o o' inner its hw hk hw1 hf hin hw2 he hu ihi ih =>
    rcases Change.cons hc with ⟨its1, hc', rfl⟩ | ⟨k, s, o', e, rfl, rfl⟩ | ⟨k, o', _, _, _, _, e, rfl, hc', rfl⟩
    · obtain ⟨A, t0, B, g, h1, rfl, rfl⟩ := ih hc'
      exact ⟨_, _, _, _, .sect hw hk hw1 hf hin hw2 he h1, rfl, by simp⟩
    · cases e
    · cases e
      obtain ⟨A, t0, B, g, h1, rfl, rfl⟩ := ihi hc'
      exact ⟨_, _, _, _, .inside hw hk hw1 hf h1 hw2 he hu, rfl, by simp⟩

theorem Hole.lines {z start : Bool} {its : List Item} {p : Path} {A t0 B : Str} {g : Scalar → List Item}
    (h : Hole env N z start its p A t0 B g) : HLines env N z start its (A ++ (t0 ++ B)) := by
  induction h with
  | newline _ ih => exact .newline ih
  | note ho _ ih => rw [List.append_assoc]; exact .note ho ih
  | set hw hk hw1 hc hw2 ht hnt he _ ih => simpa using HLines.set hw hk hw1 hc hw2 ht hnt he ih
  | sect hw hk hw1 hf hin hw2 he _ ih => simpa using HLines.sect hw hk hw1 hf hin hw2 he ih
  | here hw hk hw1 hc hw2 ht hn he hu => simpa using HLines.set hw hk hw1 hc hw2 ht hn he hu
  | inside hw hk hw1 hf _ hw2 he hu ih => simpa using HLines.sect hw hk hw1 hf ih hw2 he hu

/-- The first key of the path is set by the lines. -/
theorem Hole.head {z start : Bool} {its : List Item} {p : Path} {A t0 B : Str} {g : Scalar → List Item}
    (h : Hole env N z start its p A t0 B g) : ∃ k q, p = k :: q ∧ k ∈ keysIn its := by
  induction h with
  | newline _ ih => exact ih
  | @note z o _ _ _ _ _ _ _ _ _ ih =>
    obtain ⟨k, q, e, hk⟩ := ih
    refine ⟨k, q, e, ?_⟩
    cases o <;> exact hk
  | set _ _ _ _ _ _ _ _ _ ih =>
    obtain ⟨k, q, e, hk⟩ := ih
    exact ⟨k, q, e, .tail _ hk⟩
  | sect _ _ _ _ _ _ _ _ ih =>
    obtain ⟨k, q, e, hk⟩ := ih
    exact ⟨k, q, e, .tail _ hk⟩
  | here => exact ⟨_, _, rfl, .head _⟩
  | inside => exact ⟨_, _, rfl, .head _⟩

end

/-! ### The nodes -/

open DocEdit (Occurs OnceAt)

/-- What is shown of the tokens of lines with a place for a value. -/
def HoleToks (env : Env) (z start : Bool) (line : Nat) (its : List Item) (p : Path) (t0 B rest : Str)
    (Q : List Tok → Prop) (us : List Tok) : Prop :=
  ∃ ts ts' ns pre v post, us = ts ++ ts' ∧ R env z start line its ts ns ∧ Shape its ts ns ∧
    OnceAt ns p pre (.simple v) post ∧ v.text = t0 ∧ post ++ Tok.textList ts' = B ++ rest ∧ Q ts'

theorem hole_lex {env : Env} (hx : HexOk env) {z start : Bool} {its : List Item} {p : Path} {A t0 B : Str}
    {g : Scalar → List Item} (h : Hole env (Numeral env) z start its p A t0 B g) {cs : List Str} (hti : Tidy cs its)
    (line : Nat) (rest : Str) (Q : List Tok → Prop) (hz : z = true → rest = [])
    (hrest : ∀ m, (z = false → m = line + (if start then 0 else 1) + rows its) → G env true m rest Q) :
    G env (!start) line (A ++ (t0 ++ (B ++ rest))) (HoleToks env z start line its p t0 B rest Q) := by
  induction h generalizing line rest Q cs with
  | newline _ ih =>
    have := ih hti (line + 1) rest Q hz (fun m hm => hrest m (by simpa using hm))
    refine (G.newline this).mono ?_
    rintro us ⟨w, _, rfl, hw, ts, ts', ns, pre, v, post, rfl, hr, hsh, ho, hv, hpo, hq⟩
    exact ⟨.newline line :: (w ++ ts), ts', _, _, v, post, by simp, R.newline hw.ws hr, Shape.newline hw.wts hsh,
      OnceAt.prefix (a := .single (.newline line) :: gn w)
        ((Bits.single _).append (us := w) (hs := gn w) (Bits.gap hw.wts) |>.occurs _) ho, hv, hpo, hq⟩
  | @note z o its p A t B n g ho hu ih =>
    have hti' : ∃ cs, Tidy cs its := by
      cases o with
      | none => cases hti with | blank h => exact ⟨_, h⟩
      | some c => cases hti with | remark h => exact ⟨_, h⟩
    obtain ⟨cs', hti'⟩ := hti'
    have := ih hti' line rest Q hz (fun m hm => hrest m (fun hz => by
      rw [hm hz]; cases o <;> simp [rows, noteItem, Item.rows] <;> omega))
    have hl := lines_next hu.lines hz
    simp only [List.append_assoc] at hl ⊢
    refine (G.note ho hl this).weaken.mono ?_
    rintro us ⟨f, _, rfl, hf, ts, ts', ns, pre, v, post, rfl, hr, hsh, ho, hv, hpo, hq⟩
    exact ⟨f ++ ts, ts', _, _, v, post, by simp, R.note hf hr, Shape.note hf hsh,
      OnceAt.prefix ((Bits.gap hf.wts).occurs _) ho, hv, hpo, hq⟩
  | @set z k kt w w1 w2 x t e c s o its p A t0 B g hw hk hw1 hc hw2 ht hn he hu ih =>
    cases hti with
    | set hki _ hti =>
    have hl := lines_next hu.lines hz
    simp only [List.append_assoc] at hl
    have g := ih hti line rest Q hz (fun m hm => hrest m (fun hz => by
      rw [hm hz]; simp [rows, Item.rows]; omega))
    have g := G.atom hx ht hn (delim_tail he (delim_line hl)) (G.tail he hl g)
    have hpc : ∃ ct, punctuation c = some ct ∧ (ct = .colon ∨ ct = .equals) := by
      rcases hc with rfl | rfl
      · exact ⟨_, rfl, Or.inl rfl⟩
      · exact ⟨_, rfl, Or.inr rfl⟩
    obtain ⟨ct, hct, hct'⟩ := hpc
    have g := G.punct hct (g.blanks hw2)
    have hd : Delim (c :: (w2 ++ (t ++ (e ++ (A ++ (t0 ++ (B ++ rest))))))) :=
      Delim.punct _ (by rcases hc with rfl | rfl <;> decide)
    have g := (G.key hx hk (delim_blanks hw1 hd).key (g.blanks hw1)).blanks hw
    simp only [List.append_assoc, List.cons_append]
    refine g.mono ?_
    rintro us ⟨kts, w3, _, rfl, hkt, htx, _, hw3, w4, _, rfl, hw4, tok, w5, _, rfl, h1, h2, h3, _, _, hw5, f, _, rfl, hf,
      ts, ts', ns, pre, v, post, rfl, hr, hsh, ho, hv, hpo, hq⟩
    obtain ⟨pt, gs, hpt, hgs, hR⟩ := R.set hkt hw3.ws hct' hw4.ws h1 h2 h3 hw5 hf hr
    refine ⟨kts ++ (w3 ++ ct :: (w4 ++ tok :: (w5 ++ (f ++ ts)))), ts', _, _, v, post, by simp, hR,
      htx.shape_set hpt hw3.wts hw4.wts hgs hsh, OnceAt.prefix (a := _ :: gs) ?_ ho, hv, hpo, hq⟩
    obtain ⟨k', q, rfl, hk'⟩ := hu.head
    exact field_occurs hgs rfl (by rintro rfl; exact hki hk') q
  | @sect z k kt w w1 w2 f x e o o' inner its p A t0 B g hw hk hw1 hf hin hw2 he hu ih =>
    cases hti with
    | sect hki _ _ hti =>
    have hl := lines_next hu.lines hz
    simp only [List.append_assoc] at hl
    have g := (G.punct (c := '}') (t := .closeCurly) rfl (G.tail he hl (ih hti (line + 1 + rows inner) rest Q hz
      (fun m' hm' => hrest m' (fun hz => by rw [hm' hz]; simp [rows, Item.rows]; omega)))).weaken).blanks hw2
    have hl2 := lines_next hin (rest := w2 ++ '}' :: (e ++ (A ++ (t0 ++ (B ++ rest))))) (by simp)
    have g := G.note hf hl2 (lines_lex hx hin line _ _ (by simp) (fun m hm => by
      rw [show m = line + 1 + rows inner by simpa using hm]; exact g))
    have g := G.punct (c := '{') (t := .openCurly) rfl g.weaken
    have hd : Delim ('{' :: (f ++ (x ++ (w2 ++ '}' :: (e ++ (A ++ (t0 ++ (B ++ rest)))))))) := Delim.punct _ (by decide)
    have g := (G.key hx hk (delim_blanks hw1 hd).key (g.blanks hw1)).blanks hw
    simp only [List.append_assoc, List.cons_append]
    refine g.mono ?_
    rintro us ⟨kts, w3, _, rfl, hkt, htx, _, hw3, w4, _, rfl, hw4, f', _, rfl, hf', us', _, rfl, ⟨ns', hr', hsh', _⟩, w5, _, rfl,
      hw5, e', _, rfl, he', ts, ts', ns, pre, v, post, rfl, hr, hsh, ho, hv, hpo, hq⟩
    obtain ⟨pt, gs, hpt, hgs, hR⟩ := R.sect hkt hw3.ws hw4.ws hf' hr' Ws.nil hw5 he' hr
    refine ⟨kts ++ (w3 ++ .openCurly :: (w4 ++ (f' ++ (us' ++ ([] ++ .closeCurly :: (w5 ++ (e' ++ ts))))))), ts',
      _, _, v, post, by simp, hR, htx.shape_sect hpt hw3.wts (hw4.wts.append hf'.wts) hgs hsh' hsh,
      OnceAt.prefix (a := _ :: gs) ?_ ho, hv, hpo, hq⟩
    obtain ⟨k', q, rfl, hk'⟩ := hu.head
    exact field_occurs hgs rfl (by rintro rfl; exact hki hk') q
  | @here z k kt w w1 w2 x t e u c s o its hw hk hw1 hc hw2 ht hn he hu =>
    cases hti with
    | set hki _ hti =>
    have hl := lines_next hu hz
    have g := lines_lex hx hu line rest Q hz (fun m hm => hrest m (fun hz => by
      rw [hm hz]; simp [rows, Item.rows]; omega))
    have g := G.atom hx ht hn (delim_tail he (delim_line hl)) (G.tail he hl g)
    have hpc : ∃ ct, punctuation c = some ct ∧ (ct = .colon ∨ ct = .equals) := by
      rcases hc with rfl | rfl
      · exact ⟨_, rfl, Or.inl rfl⟩
      · exact ⟨_, rfl, Or.inr rfl⟩
    obtain ⟨ct, hct, hct'⟩ := hpc
    have g := G.punct hct (g.blanks hw2)
    have hd : Delim (c :: (w2 ++ (t ++ (e ++ (u ++ rest))))) :=
      Delim.punct _ (by rcases hc with rfl | rfl <;> decide)
    have g := (G.key hx hk (delim_blanks hw1 hd).key (g.blanks hw1)).blanks hw
    simp only [List.append_assoc, List.cons_append]
    refine g.mono ?_
    rintro us ⟨kts, w3, _, rfl, hkt, htx, _, hw3, w4, _, rfl, hw4, tok, w5, _, rfl, h1, h2, h3, h4, h5, hw5, f, _, rfl, hf,
      ts, ts', rfl, ⟨ns, hr, hsh, _⟩, hq⟩
    obtain ⟨pt, gs, hpt, hgs, hR⟩ := R.set hkt hw3.ws hct' hw4.ws h1 h2 h3 hw5 hf hr
    have hb := Shape.bits hgs hsh
    refine ⟨kts ++ (w3 ++ ct :: (w4 ++ tok :: (w5 ++ (f ++ ts)))), ts', _, _, tok, _, by simp, hR,
      htx.shape_set hpt hw3.wts hw4.wts hgs hsh,
      OnceAt.here (a := []) (fb := []) Occurs.nil (hb.2 k [] hki) rfl ?_ rfl, h4, ?_, hq⟩
    · intro n hn
      rw [gn_ws hw3.ws, gn_ws hw4.ws] at hn
      simp at hn
      rcases hn with rfl | ⟨t, _, rfl⟩ | rfl | ⟨t, _, rfl⟩ <;> rfl
    · rw [hb.1]
      simpa [Node.renderList, Node.tokensList, Tok.textList_append, Tok.textList] using h5
  | @inside z k kt w w1 w2 f e u o o' inner its p A t0 B g hw hk hw1 hf hin hw2 he hu ih =>
    cases hti with
    | sect hki _ htin hti =>
    have hl := lines_next hu hz
    have g := (G.punct (c := '}') (t := .closeCurly) rfl (G.tail he hl (lines_lex hx hu (line + 1 + rows inner) rest Q hz
      (fun m' hm' => hrest m' (fun hz => by rw [hm' hz]; simp [rows, Item.rows]; omega)))).weaken).blanks hw2
    have hl2 := lines_next hin.lines (rest := w2 ++ '}' :: (e ++ (u ++ rest))) (by simp)
    simp only [List.append_assoc] at hl2
    have g := G.note hf hl2 (ih htin line _ _ (by simp) (fun m hm => by
      rw [show m = line + 1 + rows inner by simpa using hm]; exact g))
    have g := G.punct (c := '{') (t := .openCurly) rfl g.weaken
    have hd : Delim ('{' :: (f ++ (A ++ (t0 ++ (B ++ (w2 ++ '}' :: (e ++ (u ++ rest)))))))) := Delim.punct _ (by decide)
    have g := (G.key hx hk (delim_blanks hw1 hd).key (g.blanks hw1)).blanks hw
    simp only [List.append_assoc, List.cons_append]
    refine g.mono ?_
    rintro us ⟨kts, w3, _, rfl, hkt, htx, _, hw3, w4, _, rfl, hw4, f', _, rfl, hf', us', _, ns', pre, v, post, rfl, hr', hsh',
      ho, hv, hpo, w5, _, rfl, hw5, e', _, rfl, he', ts, ts', rfl, ⟨ns, hr, hsh, _⟩, hq⟩
    obtain ⟨pt, gs, hpt, hgs, hR⟩ := R.sect hkt hw3.ws hw4.ws hf' hr' Ws.nil hw5 he' hr
    have hb := Shape.bits hgs hsh
    have hw4f := hw4.wts.append hf'.wts
    have hin' : OnceAt (.single .openCurly :: (gn (w4 ++ f') ++ (ns' ++ (gn [] ++ [.single .closeCurly])))) p
        (Node.renderList (.single .openCurly :: gn (w4 ++ f')) ++ pre) (.simple v) (post ++ ['}']) := by
      have := OnceAt.suffix (b := [.single .closeCurly]) ((Bits.single .closeCurly).occurs p) ho
      exact OnceAt.prefix (a := .single .openCurly :: gn (w4 ++ f'))
        ((Bits.single _).append (us := w4 ++ f') (hs := gn (w4 ++ f')) (Bits.gap hw4f) |>.occurs _) this
    obtain ⟨k', q, rfl, hk'⟩ := hin.head
    refine ⟨kts ++ (w3 ++ .openCurly :: (w4 ++ (f' ++ (us' ++ ([] ++ .closeCurly :: (w5 ++ (e' ++ ts))))))), ts',
      _, _, v, _, by simp, hR, htx.shape_sect hpt hw3.wts hw4f hgs hsh' hsh,
      OnceAt.inside (a := []) (fb := []) (key := [k]) (by simp) Occurs.nil (hb.2 k _ hki) rfl ?_ hin', hv, ?_, hq⟩
    · intro n hn
      rw [gn_ws hw3.ws] at hn
      simp at hn
      rcases hn with rfl | ⟨t, _, rfl⟩ <;> rfl
    · rw [hb.1]
      simp only [Tok.textList_append, Tok.textList, Tok.text, List.append_assoc, List.cons_append, List.nil_append] at hpo ⊢
      simpa [Node.renderList, Node.tokensList, Tok.textList] using hpo

end Lines
end Hocon
