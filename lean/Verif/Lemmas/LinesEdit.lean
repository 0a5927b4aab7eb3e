import Verif.Lemmas.LinesHole
import Verif.Lemmas.LinesFind

/-!
# Editing a document made of lines
-/

set_option autoImplicit false

namespace Hocon
namespace Lines

open Spec DocParser HoconParse HoconLex Notes Tokenizer
open DocEdit (Occurs OnceAt Doc Reachable)
open JsonLex (Toks wsPre toks_end)

theorem consolidate_atom (env : Env) (f : Nat) {t : Tok} (hs : (scalarOf t).isSome = true) (hc : collectNode t = none) :
    consolidate env .conf (f + 4) [t, .end_] = .ok ([], some (.simple t), [.end_]) := by
  have hg := nextCollect_gap [] t [.end_] Wts.nil hc
  rw [List.nil_append] at hg
  rw [consolidate, hg]
  simp only [Res.ok_bind, gn_nil]
  rw [consLoop_value env _ t _ (startsValue_scalar hs), parseValue_scalar env _ _ hs]
  simp only [Res.ok_bind, nextToken]
  rw [consLoop]
  · simp [startsValue, consFinish, splitSingle, Node.isValue, putBackFrom]
  · intro _ _ h; cases h

/-- A scalar as the text of a value. -/
theorem atom_single {env : Env} (hx : HexOk env) {v : Scalar} {x t : Str} (h : HAtom env (Numeral env) v x t)
    (hn : '\n' ∉ t) : ∃ tok, t ≠ [] ∧ Tokenizer.tokenize env true t = .ok [.start, tok, .end_] ∧ tok.text = t ∧
      parseSingleValue env .conf [.start, tok, .end_] = .ok (some (.simple tok)) := by
  obtain ⟨c, b, rfl, h1, h2, hp⟩ := atom_line hx h hn
  obtain ⟨tok, hp, g1, g2, g3, g4, g5⟩ := hp [] 1 Delim.nil
  have ht := (Step.plain h1 h2 hp g1).toks_false (p := []) (toks_end [] true 1)
  have hs : (scalarOf tok).isSome = true := by rw [g2]; rfl
  rw [List.append_nil] at ht
  refine ⟨tok, by simp, tokenize_of_toks (by simpa [wsPre] using ht), g5, ?_⟩
  rw [parseSingleValue]
  simp only [nextToken, Res.ok_bind, g3]
  have hne : tok ≠ .end_ := by rintro rfl; simp [scalarOf] at g2
  have hfu : fuelFor [.start, tok, .end_] = 28 + 4 := rfl
  rw [hfu, consolidate_atom env 28 hs g3]
  cases tok <;> simp [scalarOf] at hs <;> simp [nextToken]

/-- Replacing a value that is set once. -/
theorem withValue_written {env : Env} {d : Doc} {path text : Str} (hd : Reachable env d) (hne : text ≠ [])
    {a cs b : List Node} (hf : DocEdit.findObject d.root = .ok (a, cs, b))
    {p : Path} {pt : List Tok} (hp : PathParser.parsePathNode env d.fl path = .ok (p, pt))
    {pre post : Str} {old : Node} (ho : OnceAt cs p pre old post) {toks : List Tok} {v : Node}
    (ht : Tokenizer.tokenize env (d.fl = .conf) text = .ok toks)
    (hpv : parseSingleValue env d.fl toks = .ok (some v)) :
    ∃ d' w, d.withValueText env path text = .ok d' ∧ DocEdit.Written (DocEdit.deep cs) v w ∧
      d'.render = Node.renderList a ++ (pre ++ (w.render ++ (post ++ Node.renderList b))) := by
  obtain ⟨w, e, hv⟩ := DocEdit.parseSingleValue_some hpv
  cases e
  have hwn : DocEdit.WfNode d.fl (.object cs) := by
    have := hd.wf
    unfold DocEdit.DocWf at this
    rw [(DocEdit.findObject_spec hf).1, DocEdit.WfList.iff] at this
    exact this _ (by simp)
  obtain ⟨hpne, _⟩ := DocEdit.parsePathNode_dots hp
  obtain ⟨r, w', vc, g1, g2, g3⟩ := DocEdit.change_once hv ho hpne hwn.2.2 hwn.2.1 (fun _ h => h) 0 none (by rintro _ ⟨⟩)
  have hwr : DocEdit.WfList d.fl r := by
    obtain ⟨r', _, _, k1, k2, _⟩ := DocEdit.changeLoop_spec hpne (value := some v)
      (by intro w hw; cases hw; exact hv) cs hwn.2.2 0 none
    rw [g1] at k1
    simp only [Res.ok.injEq, Prod.mk.injEq] at k1
    rw [k1.1]
    exact k2.wf
  obtain ⟨bb, k1, k2⟩ := DocEdit.hasValue_spec hpne r hwr
  rw [k2.2 g2.occurs] at k1
  have hset : DocEdit.rootSet env d.fl path (some v) d.root = .ok (a ++ .object r :: b) := by
    unfold DocEdit.rootSet
    rw [hf, Res.ok_bind]
    simp only
    rw [hp, Res.ok_bind]
    simp only [DocEdit.objectSet, DocEdit.setValue, DocEdit.changeValue]
    rw [g1]
    simp [k1]
  refine ⟨⟨a ++ .object r :: b, d.fl⟩, w', ?_, g3, ?_⟩
  · unfold Doc.withValueText
    rw [if_neg (by simpa using hne), ht]
    simp only [Res.ok_bind]
    rw [hpv]
    simp only [Res.ok_bind]
    rw [hset]
    rfl
  · have := g2.render
    simp only [Node.renderList, Node.render] at this
    simp [Doc.render, Node.renderList, Node.render, Node.tokensList_append, Node.tokensList, Node.tokens,
      Tok.textList_append, this]

/-- Replacing a value that is set once by a value on one line. -/
theorem withValue_once {env : Env} {d : Doc} {path text : Str} (hd : Reachable env d) (hne : text ≠ [])
    {a cs b : List Node} (hf : DocEdit.findObject d.root = .ok (a, cs, b))
    {p : Path} {pt : List Tok} (hp : PathParser.parsePathNode env d.fl path = .ok (p, pt))
    {pre post : Str} {old : Node} (ho : OnceAt cs p pre old post) {toks : List Tok} {v : Node}
    (ht : Tokenizer.tokenize env (d.fl = .conf) text = .ok toks)
    (hpv : parseSingleValue env d.fl toks = .ok (some v)) (hn : '\n' ∉ v.render) :
    ∃ d', d.withValueText env path text = .ok d' ∧
      d'.render = Node.renderList a ++ (pre ++ (v.render ++ (post ++ Node.renderList b))) := by
  obtain ⟨d', w, h1, h2, h3⟩ := withValue_written hd hne hf hp ho ht hpv
  rw [h2.oneLine hn] at h3
  exact ⟨d', h1, h3⟩

/-- A document made of lines with a place for a value. -/
theorem hole_doc {env : Env} (hx : HexOk env) {its : List Item} {p : Path} {A t0 B : Str} {g : Scalar → List Item}
    (h : Hole env (Numeral env) true true its p A t0 B g) (hti : Tidy [] its) :
    ∃ cs v, Doc.parse env .conf (A ++ (t0 ++ B)) = .ok ⟨[.object cs], .conf⟩ ∧ OnceAt cs p A (.simple v) B ∧
      v.text = t0 := by
  have g := hole_lex hx h hti 1 [] (fun us => us = []) (fun _ => rfl) (fun m _ => G.end_)
  rw [List.append_nil] at g
  obtain ⟨us, l, hl, ⟨ts, ts', ns, pre, v, post, rfl, hr, hsh, ho, hv, hpo, rfl⟩, hp⟩ := g
  obtain ⟨w, hw, hwt, ht⟩ := hp [] Blanks.nil
  have ht := ht false (fun _ => rfl)
  rw [List.append_nil] at ht hl
  have hdoc := doc_nodes (tokenize_of_toks ht) hw hr
  have hpost : post = B := by simpa [Tok.textList] using hpo
  subst hpost
  refine ⟨gn w ++ ns, v, ?_, ?_, hv⟩
  · rw [Doc.parse, hdoc]
    rfl
  · have ho' := OnceAt.prefix (Bits.occurs (Bits.gap hw.wts) p) ho
    have e1 := ho'.render
    have e2 : Node.renderList (gn w ++ ns) = A ++ (t0 ++ post) := by
      rw [renderList_append, gn_text hw.wts, hsh.1, hwt, ← hl.2]
      simp
    rw [e2, show (Node.simple v).render = t0 by simpa [Node.render, Node.tokens, Tok.textList] using hv,
      ← List.append_assoc] at e1
    have e3 := List.append_cancel_right (List.append_cancel_right e1)
    rw [← e3] at ho'
    exact ho'

/-! ### What the changed lines say -/

theorem Change.later {v : Scalar} {it : Item} {its its' : List Item} {p : Path} (h : Change v its p its') :
    Change v (it :: its) p (it :: its') := by
  cases h with
  | @here pre => exact .here (pre := it :: pre)
  | @inside pre post inner inner' k p o o' h => exact .inside (pre := it :: pre) h

theorem Change.keys {v : Scalar} {its its' : List Item} {p : Path} (h : Change v its p its') : keysIn its' = keysIn its := by
  have key : ∀ (pre : List Item) {a b : List Item}, keysIn a = keysIn b → keysIn (pre ++ a) = keysIn (pre ++ b) := by
    intro pre a b hab
    induction pre with
    | nil => exact hab
    | cons it pre ih => cases it <;> simp [keysIn, ih]
  cases h with
  | here => exact key _ rfl
  | inside => exact key _ rfl

theorem Change.rows_eq {v : Scalar} {its its' : List Item} {p : Path} (h : Change v its p its') : rows its' = rows its := by
  have key : ∀ (pre : List Item) {a b : List Item}, rows a = rows b → rows (pre ++ a) = rows (pre ++ b) := by
    intro pre a b hab
    induction pre with
    | nil => exact hab
    | cons it pre ih => simp [rows, ih]
  induction h with
  | here => exact key _ (by simp [rows, Item.rows])
  | inside _ ih => exact key _ (by simp [rows, Item.rows, ih])

theorem Change.tidy {v : Scalar} {its its' : List Item} {p : Path} (h : Change v its p its') {cs : List Str}
    (ht : Tidy cs its) : Tidy cs its' := by
  have key : ∀ (pre : List Item) {a b : List Item}, keysIn b = keysIn a → (∀ cs, Tidy cs a → Tidy cs b) →
      ∀ {cs}, Tidy cs (pre ++ a) → Tidy cs (pre ++ b) := by
    intro pre a b hk hab
    have hkk : ∀ pre : List Item, keysIn (pre ++ b) = keysIn (pre ++ a) := by
      intro pre
      induction pre with
      | nil => exact hk
      | cons it pre ih => cases it <;> simp [keysIn, ih]
    induction pre with
    | nil => exact hab _
    | cons it pre ih =>
      intro cs ht
      rw [List.cons_append] at ht ⊢
      cases ht with
      | blank h => exact .blank (ih h)
      | remark h => exact .remark (ih h)
      | set h1 h2 h3 => exact .set (by rw [hkk]; exact h1) h2 (ih h3)
      | sect h1 h2 h3 h4 => exact .sect (by rw [hkk]; exact h1) h2 h3 (ih h4)
  induction h generalizing cs with
  | here =>
    refine key _ (by rfl) ?_ ht
    intro cs h
    cases h with
    | set h1 h2 h3 => exact .set h1 h2 h3
  | inside _ ih =>
    refine key _ (by rfl) ?_ ht
    intro cs h
    cases h with
    | sect h1 h2 h3 h4 => exact .sect h1 h2 (ih h3) h4

theorem Stands.later {l m : Nat} {cs ds : List Str} {it : Item} {its : List Item} {q : Path} {s : Option Scalar}
    (h : Stands (l + it.rows) (above cs [it]) its q m ds s) : Stands l cs (it :: its) q m ds s := by
  generalize hl : l + it.rows = l' at h
  generalize hc : above cs [it] = cs' at h
  cases h with
  | @set _ _ pre post k s o =>
    have := Stands.set (l := l) (cs := cs) (pre := it :: pre) (post := post) (k := k) (s := s) (o := o)
    rw [above_cons, rows_cons, ← Nat.add_assoc, hl, hc] at this
    exact this
  | @sect _ _ pre post inner k o o' =>
    have := Stands.sect (l := l) (cs := cs) (pre := it :: pre) (post := post) (k := k) (inner := inner) (o := o) (o' := o')
    rw [above_cons, rows_cons, ← Nat.add_assoc, hl, hc] at this
    exact this
  | @inside _ _ _ _ pre post inner k o o' q s h =>
    refine Stands.inside (cs := cs) (pre := it :: pre) ?_
    rw [rows_cons, ← Nat.add_assoc, hl]
    exact h

theorem Stands.cons {l m : Nat} {cs ds : List Str} {it : Item} {its : List Item} {q : Path} {s : Option Scalar}
    (h : Stands l cs (it :: its) q m ds s) :
    Stands (l + it.rows) (above cs [it]) its q m ds s ∨
    (∃ k s' o, it = .set k s' o ∧ q = [k] ∧ m = l ∧ ds = cs ++ o.toList ∧ s = some s') ∨
    (∃ k o inner o', it = .sect k o inner o' ∧ q = [k] ∧ m = l ∧ ds = cs ++ o'.toList ∧ s = none) ∨
    (∃ k o inner o' q', it = .sect k o inner o' ∧ q = k :: q' ∧ Stands (l + 1) o.toList inner q' m ds s) := by
  generalize hj : it :: its = js at h
  cases h with
  | @set _ _ pre post k s o =>
    cases pre with
    | nil =>
      cases hj
      exact Or.inr (Or.inl ⟨k, s, o, rfl, rfl, by simp [rows], by simp [above], rfl⟩)
    | cons a pre =>
      cases hj
      rw [above_cons cs it pre, rows_cons, ← Nat.add_assoc]
      exact Or.inl .set
  | @sect _ _ pre post inner k o o' =>
    cases pre with
    | nil =>
      cases hj
      exact Or.inr (Or.inr (Or.inl ⟨k, o, inner, o', rfl, rfl, by simp [rows], by simp [above], rfl⟩))
    | cons a pre =>
      cases hj
      rw [above_cons cs it pre, rows_cons, ← Nat.add_assoc]
      exact Or.inl .sect
  | @inside _ _ _ _ pre post inner k o o' q s h =>
    cases pre with
    | nil =>
      cases hj
      exact Or.inr (Or.inr (Or.inr ⟨k, o, inner, o', q, rfl, rfl, by simpa [rows] using h⟩))
    | cons a pre =>
      cases hj
      rw [rows_cons, ← Nat.add_assoc] at h
      exact Or.inl (.inside h)

theorem Stands.first_set {l : Nat} {cs : List Str} {its : List Item} {k : Str} {s : Scalar} {o : Option Str} :
    Stands l cs (.set k s o :: its) [k] l (cs ++ o.toList) (some s) := by
  simpa [rows, above] using Stands.set (l := l) (cs := cs) (pre := []) (post := its) (k := k) (s := s) (o := o)

theorem Stands.first_sect {l : Nat} {cs : List Str} {inner its : List Item} {k : Str} {o o' : Option Str} :
    Stands l cs (.sect k o inner o' :: its) [k] l (cs ++ o'.toList) none := by
  simpa [rows, above] using Stands.sect (l := l) (cs := cs) (pre := []) (post := its) (k := k) (inner := inner) (o := o)
    (o' := o')

theorem Stands.first_inside {l m : Nat} {cs ds : List Str} {inner its : List Item} {k : Str} {o o' : Option Str} {q : Path}
    {s : Option Scalar} (h : Stands (l + 1) o.toList inner q m ds s) :
    Stands l cs (.sect k o inner o' :: its) (k :: q) m ds s := by
  refine Stands.inside (pre := []) ?_
  simpa [rows] using h

theorem Stands.head {l m : Nat} {cs ds : List Str} {its : List Item} {q : Path} {s : Option Scalar}
    (h : Stands l cs its q m ds s) : ∃ k q', q = k :: q' ∧ k ∈ keysIn its := by
  cases h with
  | set => exact ⟨_, _, rfl, mem_keysIn _ _ _ rfl (by simp [keysIn])⟩
  | sect => exact ⟨_, _, rfl, mem_keysIn _ _ _ rfl (by simp [keysIn])⟩
  | inside => exact ⟨_, _, rfl, mem_keysIn _ _ _ rfl (by simp [keysIn])⟩

theorem Change.head {v : Scalar} {its its' : List Item} {p : Path} (h : Change v its p its') :
    ∃ k q', p = k :: q' ∧ k ∈ keysIn its := by
  cases h with
  | here => exact ⟨_, _, rfl, mem_keysIn _ _ _ rfl (by simp [keysIn])⟩
  | inside => exact ⟨_, _, rfl, mem_keysIn _ _ _ rfl (by simp [keysIn])⟩

/-- Where the changed lines say what. -/
theorem Stands.changed {v : Scalar} {its its' : List Item} {p : Path} (hc : Change v its p its') :
    ∀ {l m : Nat} {cs ds as : List Str} {q : Path} {s : Option Scalar}, Tidy as its → Stands l cs its q m ds s →
      Stands l cs its' q m ds (if q = p then some v else s) := by
  induction hc with
  | @here pre post k s0 o =>
    induction pre with
    | nil =>
      intro l m cs ds as q s ht h
      cases ht with
      | set hk _ _ =>
      rcases Stands.cons h with h | ⟨k', s', o', e, rfl, rfl, rfl, rfl⟩ | ⟨_, _, _, _, e, _⟩ | ⟨_, _, _, _, _, e, _⟩
      · obtain ⟨k', q', rfl, hk'⟩ := Stands.head h
        rw [if_neg (by rintro e; cases e; exact hk hk')]
        exact Stands.later h
      · cases e
        rw [if_pos rfl]
        exact Stands.first_set
      · cases e
      · cases e
    | cons it pre ih =>
      intro l m cs ds as q s ht h
      have hkey : k ∈ keysIn (pre ++ .set k s0 o :: post) := mem_keysIn _ _ _ rfl (by simp [keysIn])
      rw [List.cons_append] at ht h ⊢
      have htl : ∃ as, Tidy as (pre ++ .set k s0 o :: post) := by
        cases ht with
        | blank h => exact ⟨_, h⟩
        | remark h => exact ⟨_, h⟩
        | set _ _ h => exact ⟨_, h⟩
        | sect _ _ _ h => exact ⟨_, h⟩
      obtain ⟨as', htl⟩ := htl
      rcases Stands.cons h with h | ⟨k', s', o', rfl, rfl, rfl, rfl, rfl⟩ | ⟨k', _, _, _, rfl, rfl, rfl, rfl, rfl⟩ |
        ⟨k', _, _, _, q', rfl, rfl, hi⟩
      · exact Stands.later (ih htl h)
      · cases ht with
        | set hk _ _ =>
        rw [if_neg (by rintro e; cases e; exact hk hkey)]
        exact Stands.first_set
      · cases ht with
        | sect hk _ _ _ =>
        rw [if_neg (by rintro e; cases e; exact hk hkey)]
        exact Stands.first_sect
      · cases ht with
        | sect hk _ _ _ =>
        rw [if_neg (by rintro e; cases e; exact hk hkey)]
        exact Stands.first_inside hi
  | @inside pre post inner inner' k p o o' hin ihin =>
    induction pre with
    | nil =>
      intro l m cs ds as q s ht h
      cases ht with
      | sect hk _ hti _ =>
      rcases Stands.cons h with h | ⟨_, _, _, e, _⟩ | ⟨_, _, _, _, e, rfl, rfl, rfl, rfl⟩ | ⟨_, _, _, _, q', e, rfl, h⟩
      · obtain ⟨k', q', rfl, hk'⟩ := Stands.head h
        rw [if_neg (by rintro e; cases e; exact hk hk')]
        exact Stands.later (it := .sect k o inner' o') (by
          have hr : rows inner' = rows inner := Change.rows_eq hin
          simpa [Item.rows, hr, above] using h)
      · cases e
      · cases e
        obtain ⟨_, _, rfl, _⟩ := Change.head hin
        rw [if_neg (by simp)]
        exact Stands.first_sect
      · cases e
        have := Stands.first_inside (its := post) (cs := cs) (k := k) (o' := o') (ihin hti h)
        simpa using this
    | cons it pre ih =>
      intro l m cs ds as q s ht h
      have hkey : k ∈ keysIn (pre ++ .sect k o inner o' :: post) := mem_keysIn _ _ _ rfl (by simp [keysIn])
      rw [List.cons_append] at ht h ⊢
      have htl : ∃ as, Tidy as (pre ++ .sect k o inner o' :: post) := by
        cases ht with
        | blank h => exact ⟨_, h⟩
        | remark h => exact ⟨_, h⟩
        | set _ _ h => exact ⟨_, h⟩
        | sect _ _ _ h => exact ⟨_, h⟩
      obtain ⟨as', htl⟩ := htl
      rcases Stands.cons h with h | ⟨k', s', o', rfl, rfl, rfl, rfl, rfl⟩ | ⟨k', _, _, _, rfl, rfl, rfl, rfl, rfl⟩ |
        ⟨k', _, _, _, q', rfl, rfl, hi⟩
      · exact Stands.later (ih htl h)
      · cases ht with
        | set hk _ _ =>
        rw [if_neg (by rintro e; cases e; exact hk hkey)]
        exact Stands.first_set
      · cases ht with
        | sect hk _ _ _ =>
        rw [if_neg (by rintro e; cases e; exact hk hkey)]
        exact Stands.first_sect
      · cases ht with
        | sect hk _ _ _ =>
        rw [if_neg (by rintro e; cases e; exact hk hkey)]
        exact Stands.first_inside hi

/-- Where the lines say what, from the changed lines. -/
theorem Stands.unchanged {v : Scalar} {its its' : List Item} {p : Path} (hc : Change v its p its') :
    ∀ {l m : Nat} {cs ds : List Str} {q : Path} {s : Option Scalar}, Stands l cs its' q m ds s →
      ∃ s', Stands l cs its q m ds s' := by
  induction hc with
  | @here pre post k s0 o =>
    induction pre with
    | nil =>
      intro l m cs ds q s h
      rcases Stands.cons h with h | ⟨k', s', o', e, rfl, rfl, rfl, rfl⟩ | ⟨_, _, _, _, e, _⟩ | ⟨_, _, _, _, _, e, _⟩
      · exact ⟨_, Stands.later h⟩
      · cases e
        exact ⟨_, Stands.first_set⟩
      · cases e
      · cases e
    | cons it pre ih =>
      intro l m cs ds q s h
      rcases Stands.cons h with h | ⟨k', s', o', rfl, rfl, rfl, rfl, rfl⟩ | ⟨k', _, _, _, rfl, rfl, rfl, rfl, rfl⟩ |
        ⟨k', _, _, _, q', rfl, rfl, hi⟩
      · obtain ⟨s', h⟩ := ih h
        exact ⟨s', Stands.later h⟩
      · exact ⟨_, Stands.first_set⟩
      · exact ⟨_, Stands.first_sect⟩
      · exact ⟨_, Stands.first_inside hi⟩
  | @inside pre post inner inner' k p o o' hin ihin =>
    induction pre with
    | nil =>
      intro l m cs ds q s h
      rcases Stands.cons h with h | ⟨_, _, _, e, _⟩ | ⟨_, _, _, _, e, rfl, rfl, rfl, rfl⟩ | ⟨_, _, _, _, q', e, rfl, h⟩
      · exact ⟨_, Stands.later (it := .sect k o inner o') (by
          have hr : rows inner' = rows inner := Change.rows_eq hin
          simpa [Item.rows, hr, above] using h)⟩
      · cases e
      · cases e
        exact ⟨_, Stands.first_sect⟩
      · cases e
        obtain ⟨s', h⟩ := ihin h
        exact ⟨s', Stands.first_inside h⟩
    | cons it pre ih =>
      intro l m cs ds q s h
      rcases Stands.cons h with h | ⟨k', s', o', rfl, rfl, rfl, rfl, rfl⟩ | ⟨k', _, _, _, rfl, rfl, rfl, rfl, rfl⟩ |
        ⟨k', _, _, _, q', rfl, rfl, hi⟩
      · obtain ⟨s', h⟩ := ih h
        exact ⟨s', Stands.later h⟩
      · exact ⟨_, Stands.first_set⟩
      · exact ⟨_, Stands.first_sect⟩
      · exact ⟨_, Stands.first_inside hi⟩

/-- A scalar setting can be changed. -/
theorem Stands.change {l m : Nat} {cs ds : List Str} {its : List Item} {p : Path} {s : Option Scalar} {s0 : Scalar}
    (h : Stands l cs its p m ds s) (hs : s = some s0) (v : Scalar) : ∃ its', Change v its p its' := by
  induction h with
  | set => exact ⟨_, .here⟩
  | sect => cases hs
  | inside _ ih =>
    obtain ⟨its', h⟩ := ih hs
    exact ⟨_, .inside h⟩

/-- The value that was in the place. -/
theorem Hole.old {env : Env} {N : Str → Scalar → Prop} {z start : Bool} {its : List Item} {p : Path} {A t0 B : Str}
    {g : Scalar → List Item} (h : Hole env N z start its p A t0 B g) :
    ∃ s x, HAtom env N s x t0 ∧ '\n' ∉ t0 ∧ g s = its ∧ Change s its p its := by
  induction h with
  | newline _ ih => exact ih
  | @note z o _ _ _ _ _ _ _ _ _ ih =>
    obtain ⟨s, x, h1, h2, h3, h4⟩ := ih
    exact ⟨s, x, h1, h2, by simp only [h3], Change.later h4⟩
  | set _ _ _ _ _ _ _ _ _ ih =>
    obtain ⟨s, x, h1, h2, h3, h4⟩ := ih
    exact ⟨s, x, h1, h2, by simp only [h3], Change.later h4⟩
  | sect _ _ _ _ _ _ _ _ ih =>
    obtain ⟨s, x, h1, h2, h3, h4⟩ := ih
    exact ⟨s, x, h1, h2, by simp only [h3], Change.later h4⟩
  | here _ _ _ _ _ ht hn => exact ⟨_, _, ht, hn, rfl, .here (pre := [])⟩
  | inside _ _ _ _ _ _ _ _ ih =>
    obtain ⟨s, x, h1, h2, h3, h4⟩ := ih
    exact ⟨s, x, h1, h2, by simp only [h3], .inside (pre := []) h4⟩

end Lines
end Hocon
