import Verif.Lemmas.EditCommute
import Verif.Props.DocEditProps

/-!
# Laws of edits: C95

The theorems range over all documents a user can have (`Reachable`) and all paths; they compare whole documents, so
also their texts. `SetAt` says that the path itself is set, not only paths inside it by longer keys.
-/

set_option autoImplicit false

namespace Hocon
namespace DocEdit
open PathParser (Syntax newPath parsePathNode)
open DocParser
open Node Tokenizer

/-- The value of a text without line break. -/
theorem flat_of_text {env : Env} {fl : Syntax} {text : Str} (hn : '\n' ∉ text) {toks : List Tok} {w : Node}
    (ht : tokenize env (decide (fl = .conf)) text = .ok toks) (hv : parseSingleValue env fl toks = .ok (some w)) : Flat fl w := by
  obtain ⟨w', hw', hok⟩ := parseSingleValue_some hv
  cases hw'
  obtain ⟨toks1, rest, rfl, used, hu, hsub, _, _⟩ := parseSingleValue_built hv (tokenize_good ht)
  refine ⟨hok, fun hm => ?_⟩
  have h1 : '\n' ∈ Tok.textList used := by
    refine hsub.subset ?_
    simpa [tokensList, Node.render] using hm
  have h2 := (C06_no_invention env _ text _ ht).subset (a := '\n') (by
    rw [hu]
    simp [Tok.textList, Tok.textList_append, h1])
  exact hn h2

/-- An edit of the root is an edit of its object. -/
theorem rootSet_object {env : Env} {fl : Syntax} {path : Str} {value : Option Node} {root r : List Node}
    (hw : WfList fl root) (h : rootSet env fl path value root = .ok r) :
    ∃ a cs b cs' p pt, findObject root = .ok (a, cs, b) ∧ parsePathNode env fl path = .ok (p, pt) ∧
      objectSet fl p pt value cs = .ok cs' ∧ findObject r = .ok (a, cs', b) ∧ r = a ++ .object cs' :: b ∧
      WfNode fl (.object cs) ∧ p ≠ [] ∧ dots pt + 1 = p.length := by
  unfold rootSet at h
  rw [Res.bind_eq_ok] at h
  obtain ⟨⟨a, cs, b⟩, h1, h⟩ := h
  rw [Res.bind_eq_ok] at h
  obtain ⟨⟨p, pt⟩, h2, h⟩ := h
  rw [Res.bind_eq_ok] at h
  obtain ⟨cs', h3, h⟩ := h
  simp only [Res.ok.injEq] at h
  subst h
  obtain ⟨hroot, hfind⟩ := findObject_spec h1
  obtain ⟨hne, hdots⟩ := parsePathNode_dots h2
  rw [hroot, WfList.iff] at hw
  exact ⟨a, cs, b, cs', p, pt, h1, h2, h3, hfind cs', rfl, hw _ (by simp), hne, hdots⟩

theorem rootSet_eq {env : Env} {fl : Syntax} {path : Str} {value : Option Node} {root a cs b : List Node}
    {p : Path} {pt : List Tok} (hf : findObject root = .ok (a, cs, b)) (hp : parsePathNode env fl path = .ok (p, pt)) :
    rootSet env fl path value root = objectSet fl p pt value cs >>= fun cs' => .ok (a ++ .object cs' :: b) := by
  unfold rootSet
  rw [hf, Res.ok_bind, hp]
  rfl

theorem withValueText_eq {env : Env} {d : Doc} {path text : Str} {toks : List Tok} {v : Node}
    (ht : tokenize env (decide (d.fl = .conf)) text = .ok toks) (hv : parseSingleValue env d.fl toks = .ok (some v)) (hne : text ≠ []) :
    d.withValueText env path text = rootSet env d.fl path (some v) d.root >>= fun r => .ok ⟨r, d.fl⟩ := by
  unfold Doc.withValueText
  rw [if_neg (by simpa using hne), ht, Res.ok_bind, hv]
  rfl

/-- **C95.** Removing a path a second time changes nothing. -/
theorem C95_remove_twice (env : Env) (d d' : Doc) (path : Str) (hd : Reachable env d)
    (h : d.withoutPath env path = .ok d') : d'.withoutPath env path = .ok d' := by
  obtain ⟨h1, h2⟩ := withoutPath_root h
  obtain ⟨a, cs, b, cs', p, pt, hf, hp, ho, hf', hr, hw, hne, _⟩ := rootSet_object hd.wf h1
  unfold Doc.withoutPath
  rw [h2, rootSet_eq hf' hp]
  simp only [objectSet] at ho ⊢
  rw [remove_twice hne hw.2.2 ho, Res.ok_bind, ← hr, Res.ok_bind, ← h2]

/-- **C95.** Removals can be made in any order, whether or not one of the paths lies inside the other one. -/
theorem C95_remove_commute (env : Env) (d d₁ d₂ : Doc) (path₁ path₂ : Str) (hd : Reachable env d)
    (h₁ : d.withoutPath env path₁ = .ok d₁) (h₂ : d.withoutPath env path₂ = .ok d₂) :
    d₁.withoutPath env path₂ = d₂.withoutPath env path₁ := by
  obtain ⟨h1, e1⟩ := withoutPath_root h₁
  obtain ⟨h2, e2⟩ := withoutPath_root h₂
  obtain ⟨a, cs, b, c1, p, pt, hf, hp, ho1, hf1, _, hw, hne1, _⟩ := rootSet_object hd.wf h1
  obtain ⟨_, _, _, c2, q, qt, hf', hq, ho2, hf2, _, _, hne2, _⟩ := rootSet_object hd.wf h2
  rw [hf] at hf'
  cases hf'
  have := objectSet_commute (ov := none) (ow := none) hne1 hne2 (by simp) (by simp) (Or.inr ⟨rfl, rfl⟩) hw.2.2 (by simp) (by simp) ho1 ho2
  unfold Doc.withoutPath
  rw [e1, e2, rootSet_eq hf1 hq, rootSet_eq hf2 hp, this]

/-- **C95 (partial).** Setting a path and then setting it to another value gives the document that the second edit
alone would have given - wherever the path was set before, or whether it was added. Missing: second values with
line breaks, see `C95_multiline_violated`. -/
theorem C95_set_twice_partial (env : Env) (d d' : Doc) (path v w : Str) (hd : Reachable env d) (hn : '\n' ∉ w)
    (h : d.withValueText env path v = .ok d') : d'.withValueText env path w = d.withValueText env path w := by
  obtain ⟨toks, x, ht, hpv, hx, h1, h2⟩ := withValueText_root h
  obtain ⟨a, cs, b, cs', p, pt, hf, hp, ho, hf', hr, hw, hne, hdots⟩ := rootSet_object hd.wf h1
  have hd' : d' = ⟨d'.root, d.fl⟩ := by rw [← h2]
  unfold Doc.withValueText
  rw [h2]
  by_cases he : w.isEmpty = true
  · rw [if_pos he, if_pos he]
  · rw [if_neg he, if_neg he]
    cases ht' : tokenize env (decide (d.fl = .conf)) w with
    | ok toks' =>
      rw [Res.ok_bind, Res.ok_bind]
      cases hv' : parseSingleValue env d.fl toks' with
      | ok ow =>
        rw [Res.ok_bind, Res.ok_bind]
        obtain ⟨y, rfl, _⟩ := parseSingleValue_some hv'
        rw [rootSet_eq hf' hp, rootSet_eq hf hp]
        simp only [objectSet] at ho ⊢
        rw [setValue_twice hx (flat_of_text hn ht' hv') hne hdots hw ho]
      | err e => rfl
      | ub => rfl
      | fuel => rfl
    | err e => rfl
    | ub => rfl
    | fuel => rfl

/-- **C95 (partial).** Setting a path that is set and then removing it gives what removing it at once gives. Missing:
paths that are not set themselves, for which the setting adds what the removal leaves, see
`C95_add_remove_violated`. -/
theorem C95_set_remove_partial (env : Env) (d d' : Doc) (path v : Str) (hd : Reachable env d)
    {a cs b : List Node} (hf : findObject d.root = .ok (a, cs, b)) {p : Path} {pt : List Tok}
    (hp : parsePathNode env d.fl path = .ok (p, pt)) (hs : SetAt cs p)
    (h : d.withValueText env path v = .ok d') : d'.withoutPath env path = d.withoutPath env path := by
  obtain ⟨toks, x, ht, hpv, hx, h1, h2⟩ := withValueText_root h
  obtain ⟨_, _, _, cs', _, _, hf0, hp0, ho, hf', hr, hw, hne, hdots⟩ := rootSet_object hd.wf h1
  rw [hf] at hf0
  cases hf0
  rw [hp] at hp0
  cases hp0
  unfold Doc.withoutPath
  rw [h2, rootSet_eq hf' hp, rootSet_eq hf hp]
  simp only [objectSet] at ho ⊢
  rw [setValue_remove hx hne hw.2.2 hs ho]

/-- **C95 (partial).** Changes of two settings that are there, at paths neither of which lies inside the other one,
can be made in either order. Missing: paths that are not set, for which the order decides where the new settings
stand (`C95_add_order`), and values with line breaks. -/
theorem C95_set_commute_partial (env : Env) (d d₁ d₂ : Doc) (path₁ path₂ v w : Str) (hd : Reachable env d)
    {a cs b : List Node} (hf : findObject d.root = .ok (a, cs, b)) {p q : Path} {pt qt : List Tok}
    (hp : parsePathNode env d.fl path₁ = .ok (p, pt)) (hq : parsePathNode env d.fl path₂ = .ok (q, qt))
    (hpq : ¬ p <+: q) (hqp : ¬ q <+: p) (hsp : SetAt cs p) (hsq : SetAt cs q) (hv : '\n' ∉ v) (hw : '\n' ∉ w)
    (h₁ : d.withValueText env path₁ v = .ok d₁) (h₂ : d.withValueText env path₂ w = .ok d₂) :
    d₁.withValueText env path₂ w = d₂.withValueText env path₁ v := by
  obtain ⟨t1, x, ht1, hx1, _, h1, e1⟩ := withValueText_root h₁
  obtain ⟨t2, y, ht2, hy1, _, h2, e2⟩ := withValueText_root h₂
  have hvne : v ≠ [] := by rintro rfl; simp [Doc.withValueText] at h₁
  have hwne : w ≠ [] := by rintro rfl; simp [Doc.withValueText] at h₂
  obtain ⟨_, _, _, c1, _, _, hf0, hp0, ho1, hf1, _, hwf, hne1, _⟩ := rootSet_object hd.wf h1
  rw [hf] at hf0
  cases hf0
  rw [hp] at hp0
  cases hp0
  obtain ⟨_, _, _, c2, _, _, hf0, hq0, ho2, hf2, _, _, hne2, _⟩ := rootSet_object hd.wf h2
  rw [hf] at hf0
  cases hf0
  rw [hq] at hq0
  cases hq0
  have hfx := flat_of_text hv ht1 hx1
  have hfy := flat_of_text hw ht2 hy1
  have := objectSet_commute (ov := some x) (ow := some y) hne1 hne2 (by intro u h; cases h; exact hfx)
    (by intro u h; cases h; exact hfy) (Or.inl ⟨hpq, hqp⟩) hwf.2.2 (fun _ => hsp) (fun _ => hsq) ho1 ho2
  rw [withValueText_eq (d := d₁) (by rw [e1]; exact ht2) (by rw [e1]; exact hy1) hwne,
    withValueText_eq (d := d₂) (by rw [e2]; exact ht1) (by rw [e2]; exact hx1) hvne, e1, e2, rootSet_eq hf1 hq, rootSet_eq hf2 hp, this]

/-- **C95 (partial).** Changing a setting that is there and removing an unrelated one can be done in either order.
Missing: paths that are not set, and values with line breaks. -/
theorem C95_set_remove_commute_partial (env : Env) (d d₁ d₂ : Doc) (path₁ path₂ v : Str) (hd : Reachable env d)
    {a cs b : List Node} (hf : findObject d.root = .ok (a, cs, b)) {p q : Path} {pt qt : List Tok}
    (hp : parsePathNode env d.fl path₁ = .ok (p, pt)) (hq : parsePathNode env d.fl path₂ = .ok (q, qt))
    (hpq : ¬ p <+: q) (hqp : ¬ q <+: p) (hsp : SetAt cs p) (hv : '\n' ∉ v)
    (h₁ : d.withValueText env path₁ v = .ok d₁) (h₂ : d.withoutPath env path₂ = .ok d₂) :
    d₁.withoutPath env path₂ = d₂.withValueText env path₁ v := by
  obtain ⟨t1, x, ht1, hx1, _, h1, e1⟩ := withValueText_root h₁
  obtain ⟨h2, e2⟩ := withoutPath_root h₂
  have hvne : v ≠ [] := by rintro rfl; simp [Doc.withValueText] at h₁
  obtain ⟨_, _, _, c1, _, _, hf0, hp0, ho1, hf1, _, hwf, hne1, _⟩ := rootSet_object hd.wf h1
  rw [hf] at hf0
  cases hf0
  rw [hp] at hp0
  cases hp0
  obtain ⟨_, _, _, c2, _, _, hf0, hq0, ho2, hf2, _, _, hne2, _⟩ := rootSet_object hd.wf h2
  rw [hf] at hf0
  cases hf0
  rw [hq] at hq0
  cases hq0
  have hfx := flat_of_text hv ht1 hx1
  have := objectSet_commute (ov := some x) (ow := none) hne1 hne2 (by intro u h; cases h; exact hfx)
    (by simp) (Or.inl ⟨hpq, hqp⟩) hwf.2.2 (fun _ => hsp) (by simp) ho1 ho2
  rw [withValueText_eq (d := d₂) (by rw [e2]; exact ht1) (by rw [e2]; exact hx1) hvne]
  unfold Doc.withoutPath
  rw [e1, e2, rootSet_eq hf1 hq, rootSet_eq hf2 hp, this]

/-! ### Cases -/

/-- Removing twice, the path being set three times. -/
example : (Doc.parse exEnv .conf (ch "b : 1, a { b : 2 }, b : 3\nc : 4") >>= fun d =>
    d.withoutPath exEnv (ch "b") >>= fun d₁ => d₁.withoutPath exEnv (ch "b") >>= fun d₂ => .ok (d₁.render, d₂.render)) =
    .ok (ch "a { b : 2 }, \nc : 4", ch "a { b : 2 }, \nc : 4") := by decide +kernel

/-- One path inside the other, in JSON. -/
example : (Doc.parse exEnv .json (ch "{\"a\" : {\"b\" : 1, \"c\" : 2}, \"d\" : 3, \"e\" : 4}") >>= fun d =>
    d.withoutPath exEnv (ch "a.c") >>= fun d₁ => d₁.withoutPath exEnv (ch "e") >>= fun d₂ =>
    d.withoutPath exEnv (ch "e") >>= fun d₃ => d₃.withoutPath exEnv (ch "a.c") >>= fun d₄ => .ok (d₂.render, d₄.render)) =
    .ok (ch "{\"a\" : {\"b\" : 1 }, \"d\" : 3 }", ch "{\"a\" : {\"b\" : 1 }, \"d\" : 3 }") := by decide +kernel

/-- An added setting changed: `a.b` is not set before. -/
example : (Doc.parse exEnv .conf (ch "x : 1\na {\n  c : 2\n}") >>= fun d =>
    d.withValueText exEnv (ch "a.b") (ch "[5]") >>= fun d₁ => d₁.withValueText exEnv (ch "a.b") (ch "{y : 6}") >>= fun d₂ =>
    d.withValueText exEnv (ch "a.b") (ch "{y : 6}") >>= fun d₃ => .ok (d₁.render, d₂.render, d₃.render)) =
    .ok (ch "x : 1\na {\n  c : 2\n  b : [5]\n}", ch "x : 1\na {\n  c : 2\n  b : {y : 6}\n}",
      ch "x : 1\na {\n  c : 2\n  b : {y : 6}\n}") := by decide +kernel

/-- A path that is set, twice: the hypotheses of `C95_set_remove_partial` and of the commutations. -/
example : ∃ d a cs b pt, Doc.parse exEnv .conf (ch "a { b : 1 }\nc : 2") = .ok d ∧ findObject d.root = .ok (a, cs, b) ∧
    parsePathNode exEnv .conf (ch "a.b") = .ok ([ch "a", ch "b"], pt) ∧ SetAt cs [ch "a", ch "b"] ∧ SetAt cs [ch "c"] := by
  refine ⟨_, _, _, _, _, rfl, rfl, rfl, ?_, ?_⟩
  · exact .inside (key := [ch "a"]) (rem := [ch "b"]) (List.mem_cons_self ..) rfl (by simp) rfl
      (.here (List.mem_cons_of_mem _ (List.mem_cons_of_mem _ (List.mem_cons_self ..))) rfl)
  · exact .here (List.mem_cons_of_mem _ (List.mem_cons_of_mem _ (List.mem_cons_self ..))) rfl

/-! ### Where the laws fail -/

/-- **C95 is violated for values of several lines.** The second edit replaces the value of the added setting and
indents the lines of the new one otherwise than the first edit would have done. -/
theorem C95_multiline_violated (env : Env) : ∃ d d₁ d₂ d₃, Doc.parse env .conf (ch "\"a\":true") = .ok d ∧
    d.withValueText env (ch "\"b\"") (ch "true") = .ok d₁ ∧
    d₁.withValueText env (ch "\"b\"") (ch "{\n \"x\":true\n}") = .ok d₂ ∧
    d.withValueText env (ch "\"b\"") (ch "{\n \"x\":true\n}") = .ok d₃ ∧
    d₂.render ≠ d₃.render := ⟨_, _, _, _, rfl, rfl, rfl, rfl, by decide +kernel⟩

/-- **C95 is violated for settings that are added.** Adding `a.b` and removing it leaves an empty object. -/
theorem C95_add_remove_violated (env : Env) : ∃ d d₁ d₂, Doc.parse env .conf [] = .ok d ∧
    d.withValueText env (ch "\"a\".\"b\"") (ch "true") = .ok d₁ ∧ d₁.withoutPath env (ch "\"a\".\"b\"") = .ok d₂ ∧
    d.withoutPath env (ch "\"a\".\"b\"") = .ok d ∧ d₂.render ≠ d.render :=
  ⟨_, _, _, rfl, rfl, rfl, rfl, by decide +kernel⟩

/-- **C95.** New settings stand in the order in which they were added. -/
theorem C95_add_order (env : Env) : ∃ d d₁ d₂ d₃ d₄, Doc.parse env .conf [] = .ok d ∧
    d.withValueText env (ch "\"a\"") (ch "true") = .ok d₁ ∧ d₁.withValueText env (ch "\"b\"") (ch "null") = .ok d₂ ∧
    d.withValueText env (ch "\"b\"") (ch "null") = .ok d₃ ∧ d₃.withValueText env (ch "\"a\"") (ch "true") = .ok d₄ ∧
    d₂.render = ch "\"a\" : true, \"b\" : null" ∧ d₄.render = ch "\"b\" : null, \"a\" : true" :=
  ⟨_, _, _, _, _, rfl, rfl, rfl, rfl, rfl, by decide +kernel, by decide +kernel⟩

end DocEdit
end Hocon
