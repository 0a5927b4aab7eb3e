import Verif.Lemmas.LinesHole
import Verif.Lemmas.DocCut

/-!
# Documents made of lines with a setting to be removed
-/

set_option autoImplicit false

namespace Hocon
namespace Lines

open Spec DocParser HoconParse HoconLex Notes Tokenizer
open DocEdit (Occurs Cut isSep)

/-! ### The grammar -/

/-- The comment left of a line, without blanks before it. -/
inductive Rest : Option Str → Str → Prop
  | none : Rest none []
  | hash {c : Str} : '\n' ∉ c → Rest (some c) ('#' :: c)
  | slashes {c : Str} : '\n' ∉ c → Rest (some c) ('/' :: '/' :: c)

theorem Rest.note {o : Option Str} {x w : Str} (h : Rest o x) (hw : Blanks w) : HNote o (w ++ x) := by
  cases h with
  | none => rw [List.append_nil]; exact .none hw
  | hash hc => exact .hash hw hc
  | slashes hc => exact .slashes hw hc

/-- `Gap env N o z start its its' p A F X B`: the lines `its` are the text `A ++ F ++ B`, where `F` is the setting
or section with the path `p` and the rest of its last line; the lines `its'` are `A ++ X ++ B`, where `X` is the
comment of this rest. -/
inductive Gap (env : Env) (N : Str → Scalar → Prop) (o : Option Str) :
    Bool → Bool → List Item → List Item → Path → Str → Str → Str → Str → Prop
  | newline {z : Bool} {its its' : List Item} {p : Path} {A F X B : Str} :
      Gap env N o z true its its' p A F X B → Gap env N o z false its its' p ('\n' :: A) F X B
  | note {z : Bool} {n : Option Str} {its its' : List Item} {p : Path} {A F X B nt : Str} :
      HNote n nt → Gap env N o z false its its' p A F X B →
      Gap env N o z true (noteItem n :: its) (noteItem n :: its') p (nt ++ A) F X B
  | set {z : Bool} {k kt w w1 w2 x t e : Str} {c : Char} {s : Scalar} {n : Option Str} {its its' : List Item} {p : Path}
      {A F X B : Str} :
      Blanks w → HKey env [k] kt → Blanks w1 → (c = ':' ∨ c = '=') → Blanks w2 → HAtom env N s x t → '\n' ∉ t →
      HTail n e → Gap env N o z false its its' p A F X B →
      Gap env N o z true (.set k s n :: its) (.set k s n :: its') p
        (w ++ (kt ++ (w1 ++ c :: (w2 ++ (t ++ (e ++ A)))))) F X B
  | sect {z : Bool} {k kt w w1 w2 f x e : Str} {n n' : Option Str} {inner its its' : List Item} {p : Path}
      {A F X B : Str} :
      Blanks w → HKey env [k] kt → Blanks w1 → HNote n f → HLines env N false false inner x → Blanks w2 →
      HTail n' e → Gap env N o z false its its' p A F X B →
      Gap env N o z true (.sect k n inner n' :: its) (.sect k n inner n' :: its') p
        (w ++ (kt ++ (w1 ++ '{' :: (f ++ (x ++ (w2 ++ '}' :: (e ++ A))))))) F X B
  | hereSet {z : Bool} {k kt w w1 w2 x t e u X : Str} {c : Char} {s : Scalar} {its : List Item} :
      Blanks w → HKey env [k] kt → Blanks w1 → (c = ':' ∨ c = '=') → Blanks w2 → HAtom env N s x t → '\n' ∉ t →
      HTail o e → Rest o X → (∃ d, e = d ++ X) → HLines env N z false its u →
      Gap env N o z true (.set k s o :: its) (noteItem o :: its) [k] w
        (kt ++ (w1 ++ c :: (w2 ++ (t ++ e)))) X u
  | hereSect {z : Bool} {k kt w w1 w2 f x e u X : Str} {n : Option Str} {inner its : List Item} :
      Blanks w → HKey env [k] kt → Blanks w1 → HNote n f → HLines env N false false inner x → Blanks w2 →
      HTail o e → Rest o X → (∃ d, e = d ++ X) → HLines env N z false its u →
      Gap env N o z true (.sect k n inner o :: its) (noteItem o :: its) [k] w
        (kt ++ (w1 ++ '{' :: (f ++ (x ++ (w2 ++ '}' :: e))))) X u
  | inside {z : Bool} {k kt w w1 w2 f e u : Str} {n n' : Option Str} {inner inner' its : List Item} {p : Path}
      {A F X B : Str} :
      Blanks w → HKey env [k] kt → Blanks w1 → HNote n f → Gap env N o false false inner inner' p A F X B → Blanks w2 →
      HTail n' e → HLines env N z false its u →
      Gap env N o z true (.sect k n inner n' :: its) (.sect k n inner' n' :: its) (k :: p)
        (w ++ (kt ++ (w1 ++ '{' :: (f ++ A)))) F X (B ++ (w2 ++ '}' :: (e ++ u)))

/-- The comment of the rest of a line. -/
theorem HTail.rest {o : Option Str} {e : Str} (h : HTail o e) : ∃ X, Rest o X ∧ ∃ d, e = d ++ X := by
  have note : ∀ {t : Str}, HNote o t → ∃ X, Rest o X ∧ ∃ d, t = d ++ X := by
    intro t ht
    cases ht with
    | none hw => exact ⟨[], .none, t, by simp⟩
    | hash hw hc => exact ⟨_, .hash hc, _, rfl⟩
    | slashes hw hc => exact ⟨_, .slashes hc, _, rfl⟩
  cases h with
  | plain h => exact note h
  | comma hw h =>
    obtain ⟨X, h1, d, rfl⟩ := note h
    exact ⟨X, h1, _, by rw [← List.cons_append, ← List.append_assoc]⟩

section
variable {env : Env} {N : Str → Scalar → Prop} {o : Option Str}

theorem Gap.lines {z start : Bool} {its its' : List Item} {p : Path} {A F X B : Str}
    (h : Gap env N o z start its its' p A F X B) : HLines env N z start its (A ++ (F ++ B)) := by
  induction h with
  | newline _ ih => exact .newline ih
  | note ho _ ih => rw [List.append_assoc]; exact .note ho ih
  | set hw hk hw1 hc hw2 ht hnt he _ ih => simpa using HLines.set hw hk hw1 hc hw2 ht hnt he ih
  | sect hw hk hw1 hf hin hw2 he _ ih => simpa using HLines.sect hw hk hw1 hf hin hw2 he ih
  | hereSet hw hk hw1 hc hw2 ht hn he _ _ hu => simpa using HLines.set hw hk hw1 hc hw2 ht hn he hu
  | hereSect hw hk hw1 hf hin hw2 he _ _ hu => simpa using HLines.sect hw hk hw1 hf hin hw2 he hu
  | inside hw hk hw1 hf _ hw2 he hu ih => simpa using HLines.sect hw hk hw1 hf ih hw2 he hu

theorem Gap.left {z start : Bool} {its its' : List Item} {p : Path} {A F X B : Str}
    (h : Gap env N o z start its its' p A F X B) : HLines env N z start its' (A ++ (X ++ B)) := by
  induction h with
  | newline _ ih => exact .newline ih
  | note ho _ ih => rw [List.append_assoc]; exact .note ho ih
  | set hw hk hw1 hc hw2 ht hnt he _ ih => simpa using HLines.set hw hk hw1 hc hw2 ht hnt he ih
  | sect hw hk hw1 hf hin hw2 he _ ih => simpa using HLines.sect hw hk hw1 hf hin hw2 he ih
  | hereSet hw _ _ _ _ _ _ _ hX _ hu => rw [← List.append_assoc]; exact .note (hX.note hw) hu
  | hereSect hw _ _ _ _ _ _ hX _ hu => rw [← List.append_assoc]; exact .note (hX.note hw) hu
  | inside hw hk hw1 hf _ hw2 he hu ih => simpa using HLines.sect hw hk hw1 hf ih hw2 he hu

theorem Gap.head {z start : Bool} {its its' : List Item} {p : Path} {A F X B : Str}
    (h : Gap env N o z start its its' p A F X B) : ∃ k q, p = k :: q ∧ k ∈ keysIn its := by
  induction h with
  | newline _ ih => exact ih
  | @note z n _ _ _ _ _ _ _ _ _ _ ih =>
    obtain ⟨k, q, e, hk⟩ := ih
    refine ⟨k, q, e, ?_⟩
    cases n <;> exact hk
  | set _ _ _ _ _ _ _ _ _ ih =>
    obtain ⟨k, q, e, hk⟩ := ih
    exact ⟨k, q, e, .tail _ hk⟩
  | sect _ _ _ _ _ _ _ _ ih =>
    obtain ⟨k, q, e, hk⟩ := ih
    exact ⟨k, q, e, .tail _ hk⟩
  | hereSet => exact ⟨_, _, rfl, .head _⟩
  | hereSect => exact ⟨_, _, rfl, .head _⟩
  | inside => exact ⟨_, _, rfl, .head _⟩

theorem Removed.cons {it : Item} {its js : List Item} {p : Path} (h : Removed o (it :: its) p js) :
    (∃ its', Removed o its p its' ∧ js = it :: its') ∨
    (∃ k s, it = .set k s o ∧ p = [k] ∧ js = noteItem o :: its) ∨
    (∃ k n inner, it = .sect k n inner o ∧ p = [k] ∧ js = noteItem o :: its) ∨
    (∃ k n n' inner inner' q, it = .sect k n inner n' ∧ p = k :: q ∧ Removed o inner q inner' ∧
      js = .sect k n inner' n' :: its) := by
  generalize hj : it :: its = is at h
  cases h with
  | @set pre post k s =>
    cases pre with
    | nil => cases hj; exact Or.inr (Or.inl ⟨k, s, rfl, rfl, rfl⟩)
    | cons a pre => cases hj; exact Or.inl ⟨_, .set, rfl⟩
  | @sect pre post inner k o' =>
    cases pre with
    | nil => cases hj; exact Or.inr (Or.inr (Or.inl ⟨k, o', inner, rfl, rfl, rfl⟩))
    | cons a pre => cases hj; exact Or.inl ⟨_, .sect, rfl⟩
  | @inside pre post inner inner' k p n n' h =>
    cases pre with
    | nil => cases hj; exact Or.inr (Or.inr (Or.inr ⟨k, n, n', inner, inner', p, rfl, rfl, h, rfl⟩))
    | cons a pre => cases hj; exact Or.inl ⟨_, .inside h, rfl⟩

theorem Removed.ne_nil {its' : List Item} {p : Path} : ¬ Removed o [] p its' := by
  intro h
  generalize hj : ([] : List Item) = js at h
  cases h with
  | @set pre => cases pre <;> cases hj
  | @sect pre => cases pre <;> cases hj
  | @inside pre => cases pre <;> cases hj

/-- The place of a setting. -/
theorem gap_of {z start : Bool} {its its' : List Item} {p : Path} {t : Str}
    (h : HLines env N z start its t) (hc : Removed o its p its') :
    ∃ A F X B, Gap env N o z start its its' p A F X B ∧ t = A ++ (F ++ B) := by
  induction h generalizing p its' with
  | nil => exact absurd hc Removed.ne_nil
  | eof => exact absurd hc Removed.ne_nil
  | newline _ ih =>
    obtain ⟨A, F, X, B, h1, rfl⟩ := ih hc
    exact ⟨_, _, _, _, .newline h1, rfl⟩
  | @note z n its t u ho hu ih =>
    rcases Removed.cons hc with ⟨its1, hc', rfl⟩ | ⟨k, s, e, _⟩ | ⟨k, _, _, e, _⟩ | ⟨k, _, _, _, _, _, e, _⟩
    · obtain ⟨A, F, X, B, h1, rfl⟩ := ih hc'
      exact ⟨_, _, _, _, .note ho h1, by simp⟩
    · cases n <;> cases e
    · cases n <;> cases e
    · cases n <;> cases e
  | @set z k kt w w1 w2 x t e u c s n its hw hk hw1 hcc hw2 ht hn he hu ih =>
    rcases Removed.cons hc with ⟨its1, hc', rfl⟩ | ⟨k, s, e', rfl, rfl⟩ | ⟨k, _, _, e, _⟩ | ⟨k, _, _, _, _, _, e, _⟩
    · obtain ⟨A, F, X, B, h1, rfl⟩ := ih hc'
      exact ⟨_, _, _, _, .set hw hk hw1 hcc hw2 ht hn he h1, by simp⟩
    · cases e'
      obtain ⟨X, hX, hd⟩ := HTail.rest he
      exact ⟨_, _, _, _, .hereSet hw hk hw1 hcc hw2 ht hn he hX hd hu, by simp⟩
    · cases e
    · cases e
  | @sect z k kt w w1 w2 f x e u n n' inner its hw hk hw1 hf hin hw2 he hu ihi ih =>
    rcases Removed.cons hc with ⟨its1, hc', rfl⟩ | ⟨k, s, e, rfl, rfl⟩ | ⟨k, _, _, e', rfl, rfl⟩ |
      ⟨k, _, _, _, _, _, e', rfl, hc', rfl⟩
    · obtain ⟨A, F, X, B, h1, rfl⟩ := ih hc'
      exact ⟨_, _, _, _, .sect hw hk hw1 hf hin hw2 he h1, by simp⟩
    · cases e
    · cases e'
      obtain ⟨X, hX, hd⟩ := HTail.rest he
      exact ⟨_, _, _, _, .hereSect hw hk hw1 hf hin hw2 he hX hd hu, by simp⟩
    · cases e'
      obtain ⟨A, F, X, B, h1, rfl⟩ := ihi hc'
      exact ⟨_, _, _, _, .inside hw hk hw1 hf h1 hw2 he hu, by simp⟩

end

/-! ### The nodes -/

theorem sep_ws {w : List Tok} (h : Ws1 w) : ∀ n ∈ w.map bitNode, isSep n = true := by
  rcases h with rfl | ⟨a, b, rfl, _⟩
  · simp
  · intro n hn
    simp at hn
    subst hn
    rfl

/-- What is left behind a field that is removed. -/
theorem tail_cut {o : Option Str} {w f : List Tok} {X d : Str} (hw : Ws1 w) (hf : TailT o f) (hX : Rest o X)
    (ht : Tok.textList (w ++ f) = d ++ X) :
    ∃ g b, (w ++ f).map bitNode = g ++ b ∧ (∀ n ∈ g, isSep n = true) ∧ Node.renderList b = X ∧
      (b = [] ∨ ∃ n r, b = n :: r ∧ isSep n = false) := by
  have note : ∀ {g : List Node} {v e : List Tok}, NoteT o e → (∀ n ∈ g, isSep n = true) →
      Tok.textList (v ++ e) = d ++ X →
      ∃ g' b, g ++ e.map bitNode = g' ++ b ∧ (∀ n ∈ g', isSep n = true) ∧ Node.renderList b = X ∧
        (b = [] ∨ ∃ n r, b = n :: r ∧ isSep n = false) := by
    intro g v e he hg ht
    cases he with
    | none =>
      cases hX
      exact ⟨g, [], rfl, hg, rfl, Or.inl rfl⟩
    | @some sl c l w1 hw1 hw1t =>
      refine ⟨g, _, rfl, hg, ?_, Or.inr ⟨_, _, rfl, rfl⟩⟩
      have hw1n : Node.renderList (w1.map bitNode) = [] := by
        rw [← gn_bits hw1.wts, gn_text hw1.wts, hw1t]
      have hc : Node.renderList ((Tok.comment sl c l :: w1).map bitNode) = (Tok.comment sl c l).text := by
        rw [List.map_cons, renderList_cons, hw1n, List.append_nil]
        simp [bitNode, collectNode, Node.render, Node.tokens, Tok.textList]
      rw [hc]
      have hne : ∀ (x y : Str), x ++ '#' :: c ≠ y ++ '/' :: '/' :: c := by
        intro x y h
        have h : (x ++ ['#']) ++ c = (y ++ ['/'] ++ ['/']) ++ c := by simpa using h
        have h := List.append_cancel_right h
        have := (List.append_inj' h rfl).2
        exact absurd this (by decide)
      rw [Tok.textList_append, Tok.textList, hw1t, List.append_nil] at ht
      cases sl with
      | true =>
        cases hX with
        | hash => exact absurd ht.symm (hne _ _)
        | slashes => rfl
      | false =>
        cases hX with
        | hash => rfl
        | slashes => exact absurd ht (hne _ _)
  cases hf with
  | plain he =>
    obtain ⟨g, b, h1, h2, h3, h4⟩ := note he (sep_ws hw) ht
    exact ⟨g, b, by rw [List.map_append, h1], h2, h3, h4⟩
  | @comma w1 e hw1 he =>
    have hs : ∀ n ∈ (w ++ .comma :: w1).map bitNode, isSep n = true := by
      intro n hn
      rw [List.map_append, List.mem_append, List.map_cons, List.mem_cons] at hn
      rcases hn with h | rfl | h
      · exact sep_ws hw n h
      · rfl
      · exact sep_ws hw1 n h
    obtain ⟨g, b, h1, h2, h3, h4⟩ := note (v := w ++ .comma :: w1) he hs (by simpa using ht)
    exact ⟨g, b, by rw [← h1]; simp, h2, h3, h4⟩

/-- What is shown of the tokens of lines with a setting to be removed. -/
def GapToks (env : Env) (z start : Bool) (line : Nat) (its : List Item) (p : Path) (F X B rest : Str)
    (Q : List Tok → Prop) (us : List Tok) : Prop :=
  ∃ ts ts' ns ns' pre post, us = ts ++ ts' ∧ R env z start line its ts ns ∧ Shape its ts ns ∧ Cut z ns p ns' ∧
    Node.renderList ns = pre ++ (F ++ post) ∧ Node.renderList ns' = pre ++ (X ++ post) ∧
    post ++ Tok.textList ts' = B ++ rest ∧ Q ts'

/-- The removal of the first field. -/
theorem cut_here {env : Env} {z : Bool} {line : Nat} {its : List Item} {o : Option Str} {w e ts : List Tok}
    {X d : Str} {k : Str} {gs ns : List Node} (hR : R env z false line its ts ns) (hsh : Shape its ts ns)
    (hk : k ∉ keysIn its) (hg : Bits (w ++ e) gs) (hw : Ws1 w) (he : TailT o e) (hX : Rest o X)
    (ht : Tok.textList (w ++ e) = d ++ X) :
    ∃ ns', (∀ cs pt, Node.fieldPath cs = .ok ([k], pt) → Cut z (.field cs :: (gs ++ ns)) [k] ns') ∧ Node.renderList ns' = X ++ Node.renderList ns := by
  obtain ⟨g, b, h1, h2, h3, h4⟩ := tail_cut hw he hX ht
  have h5 := hg.2.2
  rw [h1] at h5
  subst h5
  refine ⟨b ++ ns, fun cs pt hcs => ?_, by rw [renderList_append, h3]⟩
  have hocc := (Shape.bits hg hsh).2 k [] hk
  rw [List.append_assoc] at hocc ⊢
  refine Cut.here (a := []) Occurs.nil hocc hcs h2 ?_
  rcases h4 with rfl | ⟨n, r, rfl, hn⟩
  · rcases hR.1 rfl with ⟨h, _, rfl⟩ | ⟨l, r, r', _, rfl⟩
    · exact Or.inl ⟨h, rfl⟩
    · exact Or.inr ⟨_, _, rfl, rfl⟩
  · exact Or.inr ⟨n, r ++ ns, rfl, hn⟩

theorem gap_lex {env : Env} (hx : HexOk env) {o : Option Str} {z start : Bool} {its its' : List Item} {p : Path}
    {A F X B : Str} (h : Gap env (Numeral env) o z start its its' p A F X B) {cs : List Str} (hti : Tidy cs its)
    (line : Nat) (rest : Str) (Q : List Tok → Prop) (hz : z = true → rest = [])
    (hrest : ∀ m, (z = false → m = line + (if start then 0 else 1) + rows its) → G env true m rest Q) :
    G env (!start) line (A ++ (F ++ (B ++ rest))) (GapToks env z start line its p F X B rest Q) := by
  induction h generalizing line rest Q cs with
  | newline _ ih =>
    have := ih hti (line + 1) rest Q hz (fun m hm => hrest m (by simpa using hm))
    refine (G.newline this).mono ?_
    rintro us ⟨w, _, rfl, hw, ts, ts', ns, ns', pre, post, rfl, hr, hsh, ho, e1, e2, hpo, hq⟩
    refine ⟨.newline line :: (w ++ ts), ts', _, _, Node.renderList (.single (.newline line) :: gn w) ++ pre, post, by simp,
      R.newline hw.ws hr, Shape.newline hw.wts hsh,
      Cut.prefix (a := .single (.newline line) :: gn w)
        ((Bits.single _).append (us := w) (hs := gn w) (Bits.gap hw.wts) |>.occurs _) ho, ?_, ?_, hpo, hq⟩
    · rw [List.append_assoc, ← e1, ← renderList_append, List.cons_append]
    · rw [List.append_assoc, ← e2, ← renderList_append, List.cons_append]
  | @note z n its its' p A F X B nt ho hu ih =>
    have hti' : ∃ cs, Tidy cs its := by
      cases n with
      | none => cases hti with | blank h => exact ⟨_, h⟩
      | some c => cases hti with | remark h => exact ⟨_, h⟩
    obtain ⟨cs', hti'⟩ := hti'
    have := ih hti' line rest Q hz (fun m hm => hrest m (fun hz => by
      rw [hm hz]; cases n <;> simp [rows, noteItem, Item.rows] <;> omega))
    have hl := lines_next hu.lines hz
    simp only [List.append_assoc] at hl ⊢
    refine (G.note ho hl this).weaken.mono ?_
    rintro us ⟨f, _, rfl, hf, ts, ts', ns, ns', pre, post, rfl, hr, hsh, ho, e1, e2, hpo, hq⟩
    exact ⟨f ++ ts, ts', _, _, Node.renderList (gn f) ++ pre, post, by simp, R.note hf hr, Shape.note hf hsh,
      Cut.prefix ((Bits.gap hf.wts).occurs _) ho, by rw [List.append_assoc, ← e1, ← renderList_append],
      by rw [List.append_assoc, ← e2, ← renderList_append], hpo, hq⟩
  | @set z k kt w w1 w2 x t e c s n its its' p A F X B hw hk hw1 hc hw2 ht hn he hu ih =>
    cases hti with
    | set hki _ hti =>
    have hl := lines_next hu.lines hz
    simp only [List.append_assoc] at hl
    have g := ih hti line rest Q hz (fun m hm => hrest m (fun hz => by
      rw [hm hz]; simp [rows, Item.rows]; omega))
    have g := G.atom hx ht hn (delim_tail he (delim_line hl)) (G.tail he hl g)
    have hpc : ∃ ct, punctuation c = some ct ∧ (ct = .colon ∨ ct = .equals) := by
      rcases hc with rfl | rfl
      · exact ⟨_, rfl, Or.inl rfl⟩
      · exact ⟨_, rfl, Or.inr rfl⟩
    obtain ⟨ct, hct, hct'⟩ := hpc
    have g := G.punct hct (g.blanks hw2)
    have hd : Delim (c :: (w2 ++ (t ++ (e ++ (A ++ (F ++ (B ++ rest))))))) :=
      Delim.punct _ (by rcases hc with rfl | rfl <;> decide)
    have g := (G.key hx hk (delim_blanks hw1 hd).key (g.blanks hw1)).blanks hw
    simp only [List.append_assoc, List.cons_append]
    refine g.mono ?_
    rintro us ⟨kts, w3, _, rfl, hkt, htx, _, hw3, w4, _, rfl, hw4, tok, w5, _, rfl, h1, h2, h3, _, _, hw5, f, _, rfl, hf,
      ts, ts', ns, ns', pre, post, rfl, hr, hsh, ho, e1, e2, hpo, hq⟩
    obtain ⟨pt, gs, hpt, hgs, hR⟩ := R.set hkt hw3.ws hct' hw4.ws h1 h2 h3 hw5 hf hr
    refine ⟨kts ++ (w3 ++ ct :: (w4 ++ tok :: (w5 ++ (f ++ ts)))), ts', _, _, Node.renderList (_ :: gs) ++ pre, post,
      by simp, hR, htx.shape_set hpt hw3.wts hw4.wts hgs hsh, Cut.prefix (a := _ :: gs) ?_ ho,
      by rw [List.append_assoc, ← e1]; exact renderList_append (_ :: gs) ns,
      by rw [List.append_assoc, ← e2]; exact renderList_append (_ :: gs) ns', hpo, hq⟩
    obtain ⟨k', q, rfl, hk'⟩ := hu.head
    exact field_occurs hgs rfl (by rintro rfl; exact hki hk') q
  | @sect z k kt w w1 w2 f x e n n' inner its its' p A F X B hw hk hw1 hf hin hw2 he hu ih =>
    cases hti with
    | sect hki _ _ hti =>
    have hl := lines_next hu.lines hz
    simp only [List.append_assoc] at hl
    have g := (G.punct (c := '}') (t := .closeCurly) rfl (G.tail he hl (ih hti (line + 1 + rows inner) rest Q hz
      (fun m' hm' => hrest m' (fun hz => by rw [hm' hz]; simp [rows, Item.rows]; omega)))).weaken).blanks hw2
    have hl2 := lines_next hin (rest := w2 ++ '}' :: (e ++ (A ++ (F ++ (B ++ rest))))) (by simp)
    have g := G.note hf hl2 (lines_lex hx hin line _ _ (by simp) (fun m hm => by
      rw [show m = line + 1 + rows inner by simpa using hm]; exact g))
    have g := G.punct (c := '{') (t := .openCurly) rfl g.weaken
    have hd : Delim ('{' :: (f ++ (x ++ (w2 ++ '}' :: (e ++ (A ++ (F ++ (B ++ rest)))))))) := Delim.punct _ (by decide)
    have g := (G.key hx hk (delim_blanks hw1 hd).key (g.blanks hw1)).blanks hw
    simp only [List.append_assoc, List.cons_append]
    refine g.mono ?_
    rintro us ⟨kts, w3, _, rfl, hkt, htx, _, hw3, w4, _, rfl, hw4, f', _, rfl, hf', us', _, rfl, ⟨ni, hr', hsh', _⟩, w5, _, rfl,
      hw5, e', _, rfl, he', ts, ts', ns, ns', pre, post, rfl, hr, hsh, ho, e1, e2, hpo, hq⟩
    obtain ⟨pt, gs, hpt, hgs, hR⟩ := R.sect hkt hw3.ws hw4.ws hf' hr' Ws.nil hw5 he' hr
    refine ⟨kts ++ (w3 ++ .openCurly :: (w4 ++ (f' ++ (us' ++ ([] ++ .closeCurly :: (w5 ++ (e' ++ ts))))))), ts',
      _, _, Node.renderList (_ :: gs) ++ pre, post, by simp, hR,
      htx.shape_sect hpt hw3.wts (hw4.wts.append hf'.wts) hgs hsh' hsh, Cut.prefix (a := _ :: gs) ?_ ho,
      by rw [List.append_assoc, ← e1]; exact renderList_append (_ :: gs) ns,
      by rw [List.append_assoc, ← e2]; exact renderList_append (_ :: gs) ns', hpo, hq⟩
    obtain ⟨k', q, rfl, hk'⟩ := hu.head
    exact field_occurs hgs rfl (by rintro rfl; exact hki hk') q
  | @hereSet z k kt w w1 w2 x t e u X c s its hw hk hw1 hc hw2 ht hn he hX hd0 hu =>
    cases hti with
    | set hki _ hti =>
    have hl := lines_next hu hz
    have g := (lines_lex hx hu line rest Q hz (fun m hm => hrest m (fun hz => by
      rw [hm hz]; simp [rows, Item.rows]; omega))).whole hl
    have g := G.atom hx ht hn (delim_tail he (delim_line hl)) (G.tail he hl g)
    have hpc : ∃ ct, punctuation c = some ct ∧ (ct = .colon ∨ ct = .equals) := by
      rcases hc with rfl | rfl
      · exact ⟨_, rfl, Or.inl rfl⟩
      · exact ⟨_, rfl, Or.inr rfl⟩
    obtain ⟨ct, hct, hct'⟩ := hpc
    have g := G.punct hct (g.blanks hw2)
    have hd : Delim (c :: (w2 ++ (t ++ (e ++ (u ++ rest))))) :=
      Delim.punct _ (by rcases hc with rfl | rfl <;> decide)
    have g := (G.key hx hk (delim_blanks hw1 hd).key (g.blanks hw1)).blanks hw
    simp only [List.append_assoc, List.cons_append]
    refine g.mono ?_
    rintro us ⟨kts, w3, _, rfl, hkt, htx, hall, hw3, w4, _, rfl, hw4, tok, w5, _, rfl, h1, h2, h3, h4, h5, hw5, f, _, rfl, hf,
      htail, ts, ts', rfl, ⟨ns, hr, hsh, _⟩, hq⟩
    obtain ⟨pt, gs, hpt, hgs, hR⟩ := R.set hkt hw3.ws hct' hw4.ws h1 h2 h3 hw5 hf hr
    have het : Tok.textList (w5 ++ f) = e := by
      rw [← List.append_assoc, Tok.textList_append, htail] at h5
      exact List.append_cancel_right h5
    obtain ⟨d, hd1⟩ := hd0
    obtain ⟨ns', hcut, hcr⟩ := cut_here (k := k) hr hsh hki hgs hw5 hf hX (het.trans hd1)
    have hshape := htx.shape_set (c := ct) (t := tok) (s := s) (o := o) hpt hw3.wts hw4.wts hgs hsh
    refine ⟨kts ++ (w3 ++ ct :: (w4 ++ tok :: (w5 ++ (f ++ ts)))), ts', _, _, [], Node.renderList ns, by simp, hR, hshape,
      hcut _ pt rfl, ?_, by simpa using hcr, by rw [hsh.1, ← Tok.textList_append, htail], hq⟩
    rw [hshape.1, hsh.1]
    apply List.append_cancel_right (bs := Tok.textList ts')
    have hk' : Tok.textList kts = kt := htx.1
    simp only [List.append_assoc, List.cons_append, List.nil_append, Tok.textList_append, Tok.textList] at hall htail ⊢
    rw [hk', hall, htail]
  | @hereSect z k kt w w1 w2 f x e u X n inner its hw hk hw1 hf hin hw2 he hX hd0 hu =>
    cases hti with
    | sect hki _ _ hti =>
    have hl := lines_next hu hz
    have g := (G.punctText (c := '}') (t := .closeCurly) rfl (G.tail he hl ((lines_lex hx hu (line + 1 + rows inner) rest Q hz
      (fun m' hm' => hrest m' (fun hz => by rw [hm' hz]; simp [rows, Item.rows]; omega))).whole hl)).weaken).blanks hw2
    have hl2 := lines_next hin (rest := w2 ++ '}' :: (e ++ (u ++ rest))) (by simp)
    have g := G.note hf hl2 (lines_lex hx hin line _ _ (by simp) (fun m hm => by
      rw [show m = line + 1 + rows inner by simpa using hm]; exact g))
    have g := G.punct (c := '{') (t := .openCurly) rfl g.weaken
    have hd : Delim ('{' :: (f ++ (x ++ (w2 ++ '}' :: (e ++ (u ++ rest)))))) := Delim.punct _ (by decide)
    have g := (G.key hx hk (delim_blanks hw1 hd).key (g.blanks hw1)).blanks hw
    simp only [List.append_assoc, List.cons_append]
    refine g.mono ?_
    rintro us ⟨kts, w3, _, rfl, hkt, htx, hall, hw3, w4, _, rfl, hw4, f', _, rfl, hf', us', _, rfl, ⟨ni, hr', hsh', _⟩, w5, _, rfl,
      h5, hw5, e', _, rfl, he', htail, ts, ts', rfl, ⟨ns, hr, hsh, _⟩, hq⟩
    obtain ⟨pt, gs, hpt, hgs, hR⟩ := R.sect hkt hw3.ws hw4.ws hf' hr' Ws.nil hw5 he' hr
    have het : Tok.textList (w5 ++ e') = e := by
      rw [← List.append_assoc, Tok.textList_append, htail] at h5
      exact List.append_cancel_right h5
    obtain ⟨d, hd1⟩ := hd0
    obtain ⟨ns', hcut, hcr⟩ := cut_here (k := k) hr hsh hki hgs hw5 he' hX (het.trans hd1)
    have hshape := htx.shape_sect (o := n) (o' := o) hpt hw3.wts (hw4.wts.append hf'.wts) hgs hsh' hsh
    refine ⟨kts ++ (w3 ++ .openCurly :: (w4 ++ (f' ++ (us' ++ ([] ++ .closeCurly :: (w5 ++ (e' ++ ts))))))), ts',
      _, _, [], Node.renderList ns, by simp, hR, hshape,
      hcut _ pt rfl, ?_, by simpa using hcr, by rw [hsh.1, ← Tok.textList_append, htail], hq⟩
    rw [hshape.1, hsh.1]
    apply List.append_cancel_right (bs := Tok.textList ts')
    have hk' : Tok.textList kts = kt := htx.1
    simp only [List.append_assoc, List.cons_append, List.nil_append, Tok.textList_append, Tok.textList] at hall htail ⊢
    rw [hk', hall, htail]
  | @inside z k kt w w1 w2 f e u n n' inner inner' its p A F X B hw hk hw1 hf hin hw2 he hu ih =>
    cases hti with
    | sect hki _ htin hti =>
    have hl := lines_next hu hz
    have g := (G.punct (c := '}') (t := .closeCurly) rfl (G.tail he hl (lines_lex hx hu (line + 1 + rows inner) rest Q hz
      (fun m' hm' => hrest m' (fun hz => by rw [hm' hz]; simp [rows, Item.rows]; omega)))).weaken).blanks hw2
    have hl2 := lines_next hin.lines (rest := w2 ++ '}' :: (e ++ (u ++ rest))) (by simp)
    simp only [List.append_assoc] at hl2
    have g := G.note hf hl2 (ih htin line _ _ (by simp) (fun m hm => by
      rw [show m = line + 1 + rows inner by simpa using hm]; exact g))
    have g := G.punct (c := '{') (t := .openCurly) rfl g.weaken
    have hd : Delim ('{' :: (f ++ (A ++ (F ++ (B ++ (w2 ++ '}' :: (e ++ (u ++ rest)))))))) := Delim.punct _ (by decide)
    have g := (G.key hx hk (delim_blanks hw1 hd).key (g.blanks hw1)).blanks hw
    simp only [List.append_assoc, List.cons_append]
    refine g.mono ?_
    rintro us ⟨kts, w3, _, rfl, hkt, htx, _, hw3, w4, _, rfl, hw4, f', _, rfl, hf', us', _, ni, ni', pre, post, rfl, hr', hsh',
      ho, e1, e2, hpo, w5, _, rfl, hw5, e', _, rfl, he', ts, ts', rfl, ⟨ns, hr, hsh, _⟩, hq⟩
    obtain ⟨pt, gs, hpt, hgs, hR⟩ := R.sect hkt hw3.ws hw4.ws hf' hr' Ws.nil hw5 he' hr
    have hb := Shape.bits hgs hsh
    have hw4f := hw4.wts.append hf'.wts
    have hin' : Cut true (.single .openCurly :: (gn (w4 ++ f') ++ (ni ++ (gn [] ++ [.single .closeCurly])))) p
        (.single .openCurly :: (gn (w4 ++ f') ++ (ni' ++ [.single .closeCurly]))) := by
      have := Cut.suffix (z := true) (b := [.single .closeCurly]) ((Bits.single .closeCurly).occurs p) ho
      exact Cut.prefix (a := .single .openCurly :: gn (w4 ++ f'))
        ((Bits.single _).append (us := w4 ++ f') (hs := gn (w4 ++ f')) (Bits.gap hw4f) |>.occurs _) this
    obtain ⟨k', q, rfl, hk'⟩ := hin.head
    refine ⟨kts ++ (w3 ++ .openCurly :: (w4 ++ (f' ++ (us' ++ ([] ++ .closeCurly :: (w5 ++ (e' ++ ts))))))), ts',
      _, _, Node.renderList (.path [k] pt :: (gn w3 ++ .single .openCurly :: gn (w4 ++ f'))) ++ pre,
      post ++ ('}' :: Node.renderList (gs ++ ns)), by simp, hR, htx.shape_sect hpt hw3.wts hw4f hgs hsh' hsh,
      Cut.inside (a := []) (fb := []) (key := [k]) (by simp) Occurs.nil (hb.2 k _ hki) rfl ?_ hin', ?_, ?_, ?_, hq⟩
    · intro n hn
      rw [gn_ws hw3.ws] at hn
      simp at hn
      rcases hn with rfl | ⟨t, _, rfl⟩ <;> rfl
    · simp only [Node.renderList] at e1 ⊢
      simp [Node.tokensList, Node.tokens, Node.tokensList_append, Tok.textList_append, Tok.textList, Tok.text, e1]
    · simp only [Node.renderList] at e2 ⊢
      simp [Node.tokensList, Node.tokens, Node.tokensList_append, Tok.textList_append, Tok.textList, Tok.text, e2]
    · rw [hb.1]
      simp only [Tok.textList_append, Tok.textList, Tok.text, List.append_assoc, List.cons_append, List.nil_append] at hpo ⊢
      simpa [Node.renderList, Node.tokensList, Tok.textList] using hpo

end Lines
end Hocon
