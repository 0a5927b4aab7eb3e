import Verif.Lemmas.DocParserLemmas

/-!
# Totality of the document parser

The recursion bound of the model is never reached, the parser never reads past the end token, and
the only undefined behaviour is the dereferenced null origin when a key is not a valid path.
-/

namespace Hocon

/-- `x` does not run out of fuel, is undefined only if `bad`, and a normal result satisfies `P`. -/
def Res.Sat {α : Type} (bad : Prop) (P : α → Prop) : Res α → Prop
  | .ok a => P a
  | .err _ => True
  | .ub => bad
  | .fuel => False

theorem Res.Sat.bind {α β : Type} {bad : Prop} {P : α → Prop} {Q : β → Prop} {x : Res α}
    {f : α → Res β} (hx : x.Sat bad P) (hf : ∀ a, x = .ok a → P a → (f a).Sat bad Q) :
    (x >>= f).Sat bad Q := by
  cases x with
  | ok a => exact hf a rfl hx
  | err e => trivial
  | ub => exact hx
  | fuel => exact hx

theorem Res.Sat.mono {α : Type} {bad : Prop} {P Q : α → Prop} {x : Res α} (hx : x.Sat bad P)
    (h : ∀ a, x = .ok a → P a → Q a) : x.Sat bad Q := by
  cases x with
  | ok a => exact h a rfl hx
  | err e => trivial
  | ub => exact hx
  | fuel => exact hx

namespace DocParser
open PathParser (Syntax)
open Tokenizer
open Node (tokensList)

/-- The token list ends with the end token, which occurs nowhere else. -/
def Tail (toks : List Tok) : Prop := ∃ mid, toks = mid ++ [.end_] ∧ .end_ ∉ mid

theorem Tail.ne_nil {toks : List Tok} (h : Tail toks) : toks ≠ [] := by
  obtain ⟨m, rfl, _⟩ := h; simp

theorem Tail.tail {t : Tok} {toks : List Tok} (h : Tail (t :: toks)) (ht : t ≠ .end_) : Tail toks := by
  obtain ⟨m, h1, h2⟩ := h
  cases m with
  | nil => simp at h1; exact absurd h1.1 ht
  | cons a m =>
    simp only [List.cons_append, List.cons.injEq] at h1
    exact ⟨m, h1.2, fun hm => h2 (by simp [hm])⟩

theorem Tail.suffix {a b : List Tok} (h : Tail (a ++ b)) (hb : b ≠ []) : Tail b := by
  induction a with
  | nil => exact h
  | cons t a ih =>
    refine ih (h.tail ?_)
    rintro rfl
    obtain ⟨m, h1, h2⟩ := h
    cases m with
    | nil => simp_all
    | cons x m =>
      simp only [List.cons_append, List.cons.injEq] at h1
      exact h2 (by simp [← h1.1])

/-- A key expression in the token list that is not a valid path. -/
def BadKey (env : Env) (toks : List Tok) : Prop :=
  ∃ a e b, toks = a ++ e ++ b ∧ e ≠ [] ∧
    (∀ t ∈ e, (∃ v s l, t = .value v s l) ∨ ∃ s l, t = .unquoted s l) ∧
    PathParser.parsePathNodeExpression env .conf true e = .err .badPath

/-- The invariant of the remaining tokens. -/
structure Inv (env : Env) (allow : Bool) (all toks : List Tok) : Prop where
  good : Good env allow toks
  tail : Tail toks
  suf : ∃ a, all = a ++ toks

theorem Inv.suffix {env : Env} {allow : Bool} {all a b : List Tok} (h : Inv env allow all (a ++ b))
    (hb : b ≠ []) : Inv env allow all b := by
  obtain ⟨p, hp⟩ := h.suf
  exact ⟨h.good.suffix, h.tail.suffix hb, p ++ a, by rw [hp]; simp⟩

theorem Inv.next {env : Env} {allow : Bool} {all : List Tok} {t : Tok} {b : List Tok}
    (h : Inv env allow all (t :: b)) (ht : t ≠ .end_) : Inv env allow all b :=
  Inv.suffix (a := [t]) h (h.tail.tail ht).ne_nil

theorem nextCollect_sat {env : Env} {allow : Bool} {all : List Tok} {fl : Syntax} {toks : List Tok}
    (h : Inv env allow all toks) (bad : Prop) :
    (nextCollect fl toks).Sat bad fun r => Inv env allow all (r.2.1 :: r.2.2) ∧
      r.2.2.length < toks.length := by
  induction toks with
  | nil => exact absurd rfl h.tail.ne_nil
  | cons t ts ih =>
    rw [nextCollect]
    refine Res.Sat.bind (P := fun _ => True) ?_ ?_
    · unfold nextToken
      repeat' split
      all_goals trivial
    · intro a _ _
      cases hc : collectNode t with
      | none => exact ⟨h, by simp⟩
      | some n =>
        have ht : t ≠ .end_ := by rintro rfl; simp [collectNode] at hc
        refine Res.Sat.bind (ih (h.next ht)) ?_
        rintro ⟨ns, t', ts'⟩ _ ⟨h1, h2⟩
        refine ⟨h1, ?_⟩
        simp only [List.length_cons] at h2 ⊢
        omega

theorem sepLoop_sat {env : Env} {allow : Bool} {all : List Tok} {saw : Bool} {toks : List Tok}
    (h : Inv env allow all toks) (bad : Prop) :
    (sepLoop saw toks).Sat bad fun r => Inv env allow all r.2.2 ∧
      r.2.2.length ≤ toks.length ∧ (saw = false → r.2.1 = true → r.2.2.length < toks.length) := by
  induction toks generalizing saw with
  | nil => exact absurd rfl h.tail.ne_nil
  | cons t ts ih =>
    rw [sepLoop.eq_def]
    simp only
    split
    · exact ⟨h.next (by simp), by simp, by simp⟩
    · cases hc : collectNode t with
      | none =>
        refine ⟨h, Nat.le_refl _, ?_⟩
        rintro rfl hb
        simp at hb
      | some n =>
        have ht : t ≠ .end_ := by rintro rfl; simp [collectNode] at hc
        refine Res.Sat.bind (ih (h.next ht)) ?_
        rintro ⟨ns, b, ts'⟩ _ ⟨h1, h2, _⟩
        simp only at h2
        exact ⟨h1, by simp only [List.length_cons]; omega, fun _ _ => by simp only [List.length_cons]; omega⟩

theorem checkSep_sat {env : Env} {allow : Bool} {all : List Tok} {fl : Syntax} {toks : List Tok}
    (h : Inv env allow all toks) (bad : Prop) :
    (checkSep fl toks).Sat bad fun r => Inv env allow all r.2.2 ∧
      r.2.2.length ≤ toks.length ∧ (r.2.1 = true → r.2.2.length < toks.length) := by
  unfold checkSep
  cases fl with
  | conf =>
    refine (sepLoop_sat h bad (saw := false)).mono ?_
    rintro r _ ⟨h1, h2, h3⟩
    exact ⟨h1, h2, h3 rfl⟩
  | json =>
    refine Res.Sat.bind (nextCollect_sat h bad) ?_
    rintro ⟨ns, t, ts⟩ _ ⟨h1, h2⟩
    simp only at h1 h2 ⊢
    split
    · exact ⟨h1.next (by simp), Nat.le_of_lt h2, fun _ => h2⟩
    · exact ⟨h1, h2, by simp⟩

theorem nextToken_sat {env : Env} {allow : Bool} {all : List Tok} {fl : Syntax} {toks : List Tok}
    (h : Inv env allow all toks) (bad : Prop) :
    (nextToken fl toks).Sat bad fun r => toks = r.1 :: r.2 := by
  cases hx : nextToken fl toks with
  | ok a => exact nextToken_spec hx
  | err e => trivial
  | ub =>
    unfold nextToken at hx
    split at hx
    · exact absurd rfl h.tail.ne_nil
    · repeat' split at hx
      all_goals simp at hx
  | fuel =>
    unfold nextToken at hx
    repeat' split at hx
    all_goals simp at hx

/-- `parse_path_expression` on well-formed value and unquoted tokens fails only with a bad path. -/
theorem exprLoop_run {env : Env} {allow : Bool} {fl : Syntax} {ho : Bool} {e : List Tok}
    (hwf : ∀ t ∈ e, WfTok env allow t)
    (hr : ∀ t ∈ e, (∃ v s l, t = .value v s l) ∨ ∃ s l, t = .unquoted s l)
    (es : PathParser.Elems) (pt : List Tok) :
    ∃ r, PathParser.exprLoop env fl ho es pt e = .ok r ∧
      ∀ ho', PathParser.exprLoop env fl ho' es pt e = .ok r := by
  induction e generalizing es pt with
  | nil => exact ⟨_, rfl, fun _ => rfl⟩
  | cons t e ih =>
    have ih' := ih (fun x hx => hwf x (by simp [hx])) (fun x hx => hr x (by simp [hx]))
    have hsplit : t.text ≠ [] → ∃ sp, PathParser.splitTokenOnPeriod fl t = .ok sp := by
      intro hne
      unfold PathParser.splitTokenOnPeriod
      simp only
      split
      · exact ⟨_, rfl⟩
      · rw [List.getLast?_eq_some_getLast hne]
        exact ⟨_, rfl⟩
    have hw := hwf t (by simp)
    rcases hr t (by simp) with ⟨v, s, l, rfl⟩ | ⟨s, l, rfl⟩
    · by_cases hs : ∃ x q, v = .str x q
      · obtain ⟨x, q, rfl⟩ := hs
        obtain ⟨r, h1, h2⟩ := ih' (PathParser.addQuoted es x) (pt ++ [.value (.str x q) s l])
        refine ⟨r, ?_, fun ho' => ?_⟩
        · rw [PathParser.exprLoop.eq_def]; exact h1
        · rw [PathParser.exprLoop.eq_def]; exact h2 ho'
      · have hne : s ≠ [] := by
          cases v <;> first | exact hw.2.1 | exact absurd ⟨_, _, rfl⟩ hs
        obtain ⟨sp, hsp⟩ := hsplit (by simpa [Tok.text] using hne)
        obtain ⟨r, h1, h2⟩ := ih' (PathParser.addUnquoted es (PathParser.scalarRender env v)) (pt ++ sp)
        refine ⟨r, ?_, fun ho' => ?_⟩
        · rw [PathParser.exprLoop.eq_def]
          cases v <;> first | (simp only [hsp, Res.ok_bind]; exact h1) | exact absurd ⟨_, _, rfl⟩ hs
        · rw [PathParser.exprLoop.eq_def]
          cases v <;> first | (simp only [hsp, Res.ok_bind]; exact h2 ho') | exact absurd ⟨_, _, rfl⟩ hs
    · obtain ⟨sp, hsp⟩ := hsplit (by simpa [Tok.text, WfTok] using hw)
      obtain ⟨r, h1, h2⟩ := ih' (PathParser.addUnquoted es s) (pt ++ sp)
      refine ⟨r, ?_, fun ho' => ?_⟩
      · rw [PathParser.exprLoop.eq_def]
        simp only [hsp, Res.ok_bind]; exact h1
      · rw [PathParser.exprLoop.eq_def]
        simp only [hsp, Res.ok_bind]; exact h2 ho'

/-- A key expression: accepted, or a bad path (which is undefined behaviour without origin). -/
theorem pathNode_cases {env : Env} {allow : Bool} {fl : Syntax} {e : List Tok} (hne : e ≠ [])
    (hwf : ∀ t ∈ e, WfTok env allow t)
    (hr : ∀ t ∈ e, (∃ v s l, t = .value v s l) ∨ ∃ s l, t = .unquoted s l) :
    (∃ r, ∀ ho, PathParser.parsePathNodeExpression env fl ho e = .ok r) ∨
    (PathParser.parsePathNodeExpression env fl true e = .err .badPath ∧
      PathParser.parsePathNodeExpression env fl false e = .ub) := by
  obtain ⟨⟨es, pt⟩, _, h⟩ := exprLoop_run (fl := fl) (ho := true) hwf hr PathParser.Elems.init []
  have hemp : e.isEmpty = false := by cases e <;> simp_all
  simp only [PathParser.parsePathNodeExpression, hemp, h, Res.ok_bind, Bool.false_eq_true, if_false,
    PathParser.finish]
  by_cases hb : es.all.any PathParser.Elem.bad = true
  · right; simp [hb, PathParser.badPath]
  · left; simp only [hb, Bool.false_eq_true, if_false, Res.ok_bind]; exact ⟨_, fun _ => rfl⟩

theorem keyRun_run (toks : List Tok) :
    ∀ t ∈ (keyRun toks).1, (∃ v s l, t = .value v s l) ∨ ∃ s l, t = .unquoted s l := by
  induction toks with
  | nil => simp [keyRun]
  | cons t ts ih =>
    rw [keyRun.eq_def]
    simp only
    split
    · intro x hx
      simp only [List.mem_cons] at hx
      rcases hx with rfl | hx
      · exact Or.inl ⟨_, _, _, rfl⟩
      · exact ih x hx
    · intro x hx
      simp only [List.mem_cons] at hx
      rcases hx with rfl | hx
      · exact Or.inr ⟨_, _, rfl⟩
      · exact ih x hx
    · simp

theorem parseKey_sat {env : Env} {allow : Bool} {all : List Tok} {fl : Syntax} {t : Tok}
    {toks : List Tok} (h : Inv env allow all (t :: toks)) :
    (parseKey env fl t toks).Sat (fl = .conf ∧ BadKey env all) fun r => Inv env allow all r.2.2 ∧
      r.2.2.length ≤ toks.length := by
  cases fl with
  | json =>
    rw [parseKey.eq_def]
    simp only
    split
    · rename_i s q tx l
      refine Res.Sat.bind (P := fun _ => True) ?_ ?_
      · rcases pathNode_cases (env := env) (allow := allow) (fl := .conf)
          (e := [.value (.str s q) tx l]) (by simp)
          (fun x hx => h.good.wf x (by simp only [List.mem_singleton] at hx; simp [hx]))
          (by simp) with ⟨r, hr⟩ | ⟨hb, _⟩
        · rw [hr]; trivial
        · simp [PathParser.parsePathNodeExpression, PathParser.exprLoop, PathParser.addQuoted,
            PathParser.finish, PathParser.Elems.all, PathParser.Elems.init, PathParser.Elem.bad,
            PathParser.badPath] at hb
      · rintro ⟨p, pt⟩ _ _
        exact ⟨h.next (by simp), Nat.le_refl _⟩
    · trivial
  | conf =>
    rw [parseKey]
    have hsplit := (keyRun_append (t :: toks)).symm
    have hrun := keyRun_run (t :: toks)
    cases hk : keyRun (t :: toks) with
    | mk e rest =>
    rw [hk] at hsplit hrun
    simp only at hsplit hrun
    cases e with
    | nil => trivial
    | cons a e =>
      cases rest with
      | nil =>
        exfalso
        obtain ⟨m, h1, h2⟩ := h.tail
        have : Tok.end_ ∈ a :: e := by
          rw [← List.append_nil (a :: e), ← hsplit, h1]; simp
        rcases hrun _ this with ⟨_, _, _, h⟩ | ⟨_, _, h⟩ <;> simp at h
      | cons b rest =>
        simp only
        have hwf : ∀ x ∈ a :: e, WfTok env allow x := fun x hx =>
          h.good.wf x (by rw [hsplit]; exact List.mem_append_left _ hx)
        refine Res.Sat.bind (P := fun _ => True) ?_ ?_
        · rcases pathNode_cases (fl := .conf) (by simp) hwf hrun with ⟨r, hr⟩ | ⟨hb, hu⟩
          · rw [hr]; trivial
          · rw [hu]
            obtain ⟨p, hp⟩ := h.suf
            exact ⟨trivial, p, a :: e, b :: rest, by rw [hp, hsplit]; simp, by simp, hrun, hb⟩
        · rintro ⟨p, pt⟩ _ _
          rw [hsplit] at h
          refine ⟨h.suffix (by simp), ?_⟩
          have := congrArg List.length hsplit
          simp only [List.length_cons, List.length_append] at this ⊢
          omega

theorem putBackFrom_ne_nil {vs : List Node} {toks : List Tok} (h : toks ≠ []) :
    putBackFrom vs toks ≠ [] := by
  induction vs generalizing toks with
  | nil => exact h
  | cons n ns ih => exact ih (by simp [h])

theorem splitSingle_ne_nil {vs : List Node} {toks : List Tok} (h : toks ≠ []) :
    (splitSingle vs toks).2.2 ≠ [] := by
  induction vs with
  | nil => exact h
  | cons n ns ih =>
    rw [splitSingle]
    split
    · exact putBackFrom_ne_nil h
    · exact ih

theorem dropTrailing_ne_nil {vs : List Node} {toks : List Tok} (h : toks ≠ []) :
    (dropTrailing vs toks).2 ≠ [] := by
  induction vs generalizing toks with
  | nil => exact h
  | cons n ns ih =>
    rw [dropTrailing]
    split
    · exact ih (by simp)
    · exact h

theorem consFinish_ne_nil {vs : List Node} {t : Tok} {toks toks' : List Tok} {pre : List Node}
    {v : Option Node} (h : consFinish vs t toks = (pre, v, toks')) : toks' ≠ [] := by
  have : toks' = (consFinish vs t toks).2.2 := by rw [h]
  rw [this, consFinish]
  split
  · exact splitSingle_ne_nil (by simp)
  · exact dropTrailing_ne_nil (by simp)

theorem isStringValue_ne {t : Tok} (h : isStringValue t = true) : t ≠ .end_ := by
  rintro rfl; simp [isStringValue] at h

theorem startsValue_ne {t : Tok} (h : startsValue t = true) : t ≠ .end_ := by
  rintro rfl; simp [startsValue] at h

theorem parseInclude_sat {env : Env} {allow : Bool} {all : List Tok} {pre : List Node}
    {toks : List Tok} (h : Inv env allow all toks) (bad : Prop) :
    (parseInclude pre toks).Sat bad fun r => Inv env allow all r.2 ∧ r.2.length < toks.length := by
  unfold parseInclude
  refine Res.Sat.bind (nextCollect_sat h bad) ?_
  rintro ⟨ws, t, ts⟩ _ ⟨h1, l1⟩
  simp only at h1 l1 ⊢
  split
  · split
    · trivial
    · refine Res.Sat.bind (nextCollect_sat (h1.next (by simp)) bad) ?_
      rintro ⟨ws2, t2, ts2⟩ _ ⟨h2, l2⟩
      simp only at h2 l2 ⊢
      split
      · rename_i hs
        refine Res.Sat.bind (nextCollect_sat (h2.next (isStringValue_ne hs)) bad) ?_
        rintro ⟨ws3, t3, ts3⟩ _ ⟨h3, l3⟩
        simp only at h3 l3 ⊢
        split
        · rename_i ht
          refine ⟨h3.next ?_, by simp only; omega⟩
          rintro rfl
          simp [Tok.text] at ht
        · trivial
      · trivial
  · split
    · rename_i hs
      exact ⟨h1.next (isStringValue_ne hs), l1⟩
    · trivial

theorem addKey_sat {fl : Syntax} {keys : List Str} {p : Path} (hp : p ≠ []) (bad : Prop) :
    (addKey fl keys p).Sat bad fun _ => True := by
  unfold addKey
  split
  · exact absurd rfl hp
  · split
    · trivial
    · repeat' split
      all_goals trivial

/-- Totality of the mutually recursive functions at a given fuel. -/
structure Total (env : Env) (fl : Syntax) (allow : Bool) (all : List Tok) (f : Nat) : Prop where
  value : ∀ t toks, Inv env allow all (t :: toks) → 8 * toks.length + 3 ≤ f →
    (parseValue env fl f t toks).Sat (fl = .conf ∧ BadKey env all) fun r =>
      Inv env allow all r.2 ∧ r.2.length ≤ toks.length
  loop : ∀ t toks, Inv env allow all (t :: toks) → 8 * toks.length + 4 ≤ f →
    (consLoop env fl f t toks).Sat (fl = .conf ∧ BadKey env all) fun r =>
      Inv env allow all (r.2.1 :: r.2.2) ∧ r.2.2.length ≤ toks.length
  cons : ∀ toks, Inv env allow all toks → 8 * toks.length + 1 ≤ f →
    (consolidate env fl f toks).Sat (fl = .conf ∧ BadKey env all) fun r =>
      Inv env allow all r.2.2 ∧ r.2.2.length ≤ toks.length ∧
        (r.2.1.isSome → r.2.2.length < toks.length)
  fval : ∀ toks, Inv env allow all toks → 8 * toks.length + 2 ≤ f →
    (fieldVal env fl f toks).Sat (fl = .conf ∧ BadKey env all) fun r =>
      Inv env allow all r.2.2 ∧ r.2.2.length < toks.length
  field : ∀ t toks, Inv env allow all (t :: toks) → 8 * toks.length + 1 ≤ f →
    (parseField env fl f t toks).Sat (fl = .conf ∧ BadKey env all) fun r =>
      Inv env allow all r.2.2 ∧ r.2.2.length ≤ toks.length
  obj : ∀ ho ac keys toks, Inv env allow all toks → 8 * toks.length + 1 ≤ f →
    (objectLoop env fl f ho ac keys toks).Sat (fl = .conf ∧ BadKey env all) fun r =>
      Inv env allow all r.2
  sep : ∀ ho keys toks, Inv env allow all toks → 8 * toks.length + 2 ≤ f →
    (objectSep env fl f ho keys toks).Sat (fl = .conf ∧ BadKey env all) fun r =>
      Inv env allow all r.2
  arr : ∀ toks, Inv env allow all (.openSquare :: toks) → 8 * toks.length + 2 ≤ f →
    (parseArray env fl f toks).Sat (fl = .conf ∧ BadKey env all) fun r =>
      Inv env allow all r.2 ∧ r.2.length ≤ toks.length
  aloop : ∀ toks, Inv env allow all toks → 8 * toks.length + 1 ≤ f →
    (arrayLoop env fl f toks).Sat (fl = .conf ∧ BadKey env all) fun r =>
      Inv env allow all r.2 ∧ r.2.length ≤ toks.length

theorem total_all (env : Env) (fl : Syntax) (allow : Bool) (all : List Tok) (f : Nat) :
    Total env fl allow all f := by
  induction f with
  | zero => constructor <;> intros <;> omega
  | succ f ih =>
    constructor
    · -- parseValue
      intro t toks h hf
      rw [parseValue.eq_def]
      simp only
      split
      · exact ⟨h.next (by simp), Nat.le_refl _⟩
      · exact ⟨h.next (by simp), Nat.le_refl _⟩
      · exact ⟨h.next (by simp), Nat.le_refl _⟩
      · refine Res.Sat.bind (ih.obj _ _ _ _ (h.next (by simp)) (by first | omega | (simp only; omega))) ?_
        rintro ⟨ns, ts1⟩ heq h1
        exact ⟨h1, ((spec_all env fl allow f).obj _ _ _ _ _ _ heq h.good.tail).le⟩
      · exact ih.arr _ h (by omega)
      · trivial
    · -- consLoop
      intro t toks h hf
      rw [consLoop.eq_def]
      simp only
      split
      · have h1 := h.next (by simp)
        refine Res.Sat.bind (nextToken_sat h1 _) ?_
        rintro ⟨t', ts'⟩ _ rfl
        simp only [List.length_cons] at hf ⊢
        refine Res.Sat.bind (ih.loop _ _ h1 (by first | omega | (simp only; omega))) ?_
        rintro ⟨vs, t2, ts2⟩ _ ⟨h2, l2⟩
        exact ⟨h2, by simp only at l2 ⊢; omega⟩
      · split
        · refine Res.Sat.bind (ih.value _ _ h (by first | omega | (simp only; omega))) ?_
          rintro ⟨v, ts0⟩ _ ⟨h0, l0⟩
          refine Res.Sat.bind (nextToken_sat h0 _) ?_
          rintro ⟨t', ts'⟩ _ hh
          simp only at hh h0 l0
          subst hh
          simp only [List.length_cons] at l0
          refine Res.Sat.bind (ih.loop _ _ h0 (by first | omega | (simp only; omega))) ?_
          rintro ⟨vs, t2, ts2⟩ _ ⟨h2, l2⟩
          exact ⟨h2, by simp only at l2 ⊢; omega⟩
        · exact ⟨h, Nat.le_refl _⟩
    · -- consolidate
      intro toks h hf
      rw [consolidate.eq_def]
      simp only
      split
      · exact ⟨h, Nat.le_refl _, by simp⟩
      · refine Res.Sat.bind (nextCollect_sat h _) ?_
        rintro ⟨ws, t, ts1⟩ h1e ⟨h1, l1⟩
        simp only at h1 l1
        refine Res.Sat.bind (ih.loop _ _ h1 (by first | omega | (simp only; omega))) ?_
        rintro ⟨vs, t2, ts2⟩ h2e ⟨h2, l2⟩
        simp only at h2 l2
        obtain ⟨g1, g2, g3⟩ := (spec_all env .conf allow f).loop _ _ _ _ _ h2e h1.good
        cases hc : consFinish vs t2 ts2 with
        | mk pre rest =>
        obtain ⟨v, ts3⟩ := rest
        obtain ⟨k1, k2, k3, _⟩ := consFinish_spec g1 h1.good.adj g2 hc
        obtain ⟨u, hu⟩ := k1.suffix
        have hne : ts3 ≠ [] := consFinish_ne_nil hc
        simp only [List.length_cons] at k2 k3
        refine ⟨?_, by simp only; omega, ?_⟩
        · rw [hu] at h1; exact h1.suffix hne
        · intro hv
          simp only at hv ⊢
          cases v with
          | none => simp at hv
          | some w => have := (k2 w rfl).2; omega
    · -- fieldVal
      intro toks h hf
      rw [fieldVal]
      refine Res.Sat.bind (ih.cons _ h (by first | omega | (simp only; omega))) ?_
      rintro ⟨ws, v, ts1⟩ _ ⟨h1, l1, l1'⟩
      simp only at h1 l1 l1' ⊢
      split
      · exact ⟨h1, l1' rfl⟩
      · refine Res.Sat.bind (nextCollect_sat h1 _) ?_
        rintro ⟨ws2, t, ts2⟩ _ ⟨h2, l2⟩
        simp only at h2 l2
        refine Res.Sat.bind (ih.value _ _ h2 (by first | omega | (simp only; omega))) ?_
        rintro ⟨v, ts3⟩ _ ⟨h3, l3⟩
        exact ⟨h3, by simp only at l3 ⊢; omega⟩
    · -- parseField
      intro t toks h hf
      rw [parseField]
      refine Res.Sat.bind (parseKey_sat h) ?_
      rintro ⟨p, pt, ts1⟩ _ ⟨h1, l1⟩
      refine Res.Sat.bind (nextCollect_sat h1 _) ?_
      rintro ⟨ws, ak, ts2⟩ _ ⟨h2, l2⟩
      simp only at h1 l1 h2 l2 ⊢
      split
      · refine Res.Sat.bind (ih.value _ _ h2 (by first | omega | (simp only; omega))) ?_
        rintro ⟨v, ts3⟩ _ ⟨h3, l3⟩
        exact ⟨h3, by simp only at l3 ⊢; omega⟩
      · split
        · rename_i hsep
          have : ak ≠ .end_ := by rintro rfl; simp [isKeyValueSeparator] at hsep
          refine Res.Sat.bind (ih.fval _ (h2.next this) (by first | omega | (simp only; omega))) ?_
          rintro ⟨ws2, v, ts3⟩ _ ⟨h3, l3⟩
          exact ⟨h3, by simp only at l3 ⊢; omega⟩
        · trivial
    · -- objectLoop
      intro ho ac keys toks h hf
      rw [objectLoop]
      refine Res.Sat.bind (nextCollect_sat h _) ?_
      rintro ⟨ws, t, ts1⟩ _ ⟨h1, l1⟩
      simp only at h1 l1 ⊢
      split
      · split
        · trivial
        · split
          · trivial
          · exact h1.next (by simp)
      · split
        · exact h1
        · split
          · rename_i hinc
            have : t ≠ .end_ := by rintro rfl; simp [isIncludeKeyword] at hinc
            refine Res.Sat.bind (parseInclude_sat (h1.next this) _) ?_
            rintro ⟨inc, ts2⟩ _ ⟨h2, l2⟩
            simp only at h2 l2
            refine Res.Sat.bind (ih.sep _ _ _ h2 (by first | omega | (simp only; omega))) ?_
            rintro ⟨ns, ts3⟩ _ h3
            exact h3
          · refine Res.Sat.bind (ih.field _ _ h1 (by first | omega | (simp only; omega))) ?_
            rintro ⟨p, fld, ts2⟩ hpe ⟨h2, l2⟩
            simp only at h2 l2
            have hp := ((spec_all env fl allow f).field _ _ _ _ _ hpe h1.good).2.2
            refine Res.Sat.bind (addKey_sat hp _) ?_
            intro keys' _ _
            refine Res.Sat.bind (ih.sep _ _ _ h2 (by first | omega | (simp only; omega))) ?_
            rintro ⟨ns, ts3⟩ _ h3
            exact h3
    · -- objectSep
      intro ho keys toks h hf
      rw [objectSep]
      refine Res.Sat.bind (checkSep_sat h _) ?_
      rintro ⟨ws, sep, ts1⟩ _ ⟨h1, l1, _⟩
      simp only at h1 l1 ⊢
      split
      · refine Res.Sat.bind (ih.obj _ _ _ _ h1 (by first | omega | (simp only; omega))) ?_
        rintro ⟨ns, ts2⟩ _ h2
        exact h2
      · refine Res.Sat.bind (nextCollect_sat h1 _) ?_
        rintro ⟨ws2, t, ts2⟩ _ ⟨h2, l2⟩
        simp only at h2 l2 ⊢
        split
        · split
          · exact h2.next (by simp)
          · trivial
        · split
          · trivial
          · exact h2
        · trivial
    · -- parseArray
      intro toks h hf
      rw [parseArray]
      refine Res.Sat.bind (ih.cons _ (h.next (by simp)) (by first | omega | (simp only; omega))) ?_
      rintro ⟨ws, v, ts1⟩ _ ⟨h1, l1, l1'⟩
      simp only at h1 l1 l1' ⊢
      split
      · have := l1' rfl
        refine Res.Sat.bind (ih.aloop _ h1 (by first | omega | (simp only; omega))) ?_
        rintro ⟨ns, ts2⟩ _ ⟨h2, l2⟩
        exact ⟨h2, by simp only at l2 ⊢; omega⟩
      · refine Res.Sat.bind (nextCollect_sat h1 _) ?_
        rintro ⟨ws2, t, ts2⟩ _ ⟨h2, l2⟩
        simp only at h2 l2 ⊢
        split
        · exact ⟨h2.next (by simp), by simp only; omega⟩
        · split
          · refine Res.Sat.bind (ih.value _ _ h2 (by first | omega | (simp only; omega))) ?_
            rintro ⟨v, ts3⟩ _ ⟨h3, l3⟩
            simp only at h3 l3
            refine Res.Sat.bind (ih.aloop _ h3 (by first | omega | (simp only; omega))) ?_
            rintro ⟨ns, ts4⟩ _ ⟨h4, l4⟩
            exact ⟨h4, by simp only at l4 ⊢; omega⟩
          · trivial
    · -- arrayLoop
      intro toks h hf
      rw [arrayLoop]
      refine Res.Sat.bind (checkSep_sat h _) ?_
      rintro ⟨ws, sep, ts1⟩ _ ⟨h1, l1, l1'⟩
      simp only at h1 l1 l1' ⊢
      split
      · rename_i hsep
        have l1' := l1' hsep
        refine Res.Sat.bind (ih.cons _ h1 (by first | omega | (simp only; omega))) ?_
        rintro ⟨ws2, v, ts2⟩ _ ⟨h2, l2, l2'⟩
        simp only at h2 l2 l2' ⊢
        split
        · refine Res.Sat.bind (ih.aloop _ h2 (by first | omega | (simp only; omega))) ?_
          rintro ⟨ns, ts3⟩ _ ⟨h3, l3⟩
          exact ⟨h3, by simp only at l3 ⊢; omega⟩
        · refine Res.Sat.bind (nextCollect_sat h2 _) ?_
          rintro ⟨ws3, t, ts3⟩ _ ⟨h3, l3⟩
          simp only at h3 l3 ⊢
          split
          · refine Res.Sat.bind (ih.value _ _ h3 (by first | omega | (simp only; omega))) ?_
            rintro ⟨v, ts4⟩ _ ⟨h4, l4⟩
            simp only at h4 l4
            refine Res.Sat.bind (ih.aloop _ h4 (by first | omega | (simp only; omega))) ?_
            rintro ⟨ns, ts5⟩ _ ⟨h5, l5⟩
            exact ⟨h5, by simp only at l5 ⊢; omega⟩
          · split
            · refine Res.Sat.bind (ih.aloop _ h3 (by simp only [List.length_cons]; omega)) ?_
              rintro ⟨ns, ts4⟩ _ ⟨h4, l4⟩
              exact ⟨h4, by simp only [List.length_cons] at l4 ⊢; omega⟩
            · trivial
      · refine Res.Sat.bind (nextCollect_sat h1 _) ?_
        rintro ⟨ws2, t, ts2⟩ _ ⟨h2, l2⟩
        simp only at h2 l2 ⊢
        split
        · exact ⟨h2.next (by simp), by simp only; omega⟩
        · trivial

end DocParser
end Hocon
