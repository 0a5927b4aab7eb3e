import Verif.Lemmas.DocReplace

/-!
# Properties of document editing: C12, C13, C14, C15, C49

The theorems range over all documents a user can have (`Reachable`: parsed from any text, then edited
any number of times) and all paths and value texts. `hpd` is the fact about
`boost::lexical_cast<double>` used by C02. In JSON documents the edits read the path text without comments and
`has_path` with them, so that some texts are paths for the edits only (`C13_json_comment_path`): there the path text
has to be one that `has_path` accepts.
-/

set_option autoImplicit false

namespace Hocon
namespace DocEdit
open PathParser (Syntax newPath parsePathNode)
open DocParser
open Node Tokenizer

/-! ## C12: removing a path -/

/-- **C12.** After `without_path(p)`, `has_path(p)` is false. -/
theorem C12_removed (env : Env) (hpd : NoDigitNoNumber env) (d d' : Doc) (path : Str)
    (hd : Reachable env d) (hs : d.fl = .json → ∃ p, newPath env path = .ok p)
    (h : d.withoutPath env path = .ok d') : d'.hasPath env path = .ok false := by
  have hd' := (Reachable.removed hd h).wf
  obtain ⟨h1, h2⟩ := withoutPath_root h
  obtain ⟨a, cs, b, cs', p, pt, _, _, _, hf, _, hp, _, hg, _⟩ := rootSet_spec hd.wf (by simp) h1
  obtain ⟨r, g1, g2⟩ := hasPath_spec hd' (newPath_of_edit hpd hp hs) hf
  rw [g1]
  cases r with
  | false => rfl
  | true => exact absurd (g2.1 rfl) (hg rfl).1

/-- **C12.** If `has_path(p)` was already false, `without_path(p)` does not change the text. -/
theorem C12_absent_unchanged (env : Env) (hpd : NoDigitNoNumber env) (d d' : Doc) (path : Str)
    (hd : Reachable env d) (hno : d.hasPath env path = .ok false)
    (h : d.withoutPath env path = .ok d') : d'.render = d.render := by
  have hs : ∃ p, newPath env path = .ok p := by
    unfold Doc.hasPath at hno
    rw [Res.bind_eq_ok] at hno
    obtain ⟨p, hp, _⟩ := hno
    exact ⟨p, hp⟩
  obtain ⟨h1, h2⟩ := withoutPath_root h
  obtain ⟨a, cs, b, cs', p, pt, e1, e2, hf, _, _, hp, _, hg, _⟩ := rootSet_spec hd.wf (by simp) h1
  obtain ⟨r, g1, g2⟩ := hasPath_spec hd.wf (newPath_of_edit hpd hp fun _ => hs) hf
  rw [hno] at g1
  simp only [Res.ok.injEq] at g1
  subst g1
  have := (hg rfl).2 (fun ho => by simpa using g2.2 ho)
  unfold Doc.render
  rw [e2, e1, this]

/-- **C12.** `without_path` succeeds whenever the document has an object root and the path text is
accepted: there is no other failure and no undefined behaviour. -/
theorem C12_total (env : Env) (d : Doc) (path : Str) (hd : Reachable env d)
    {a cs b : List Node} (hf : findObject d.root = .ok (a, cs, b)) {p : Path} {pt : List Tok}
    (hp : parsePathNode env d.fl path = .ok (p, pt)) : ∃ d', d.withoutPath env path = .ok d' := by
  have hw : WfNode d.fl (.object cs) := by
    have := hd.wf
    unfold DocWf at this
    rw [(findObject_spec hf).1, WfList.iff] at this
    exact this _ (by simp)
  obtain ⟨r, seen, vc, g1, _⟩ := changeLoop_spec (parsePathNode_dots hp).1 (fl := d.fl) (value := none)
    (by simp) cs hw.2.2 0 none
  refine ⟨⟨a ++ .object r :: b, d.fl⟩, ?_⟩
  unfold Doc.withoutPath rootSet
  rw [hf, Res.ok_bind]
  simp only
  rw [hp, Res.ok_bind]
  simp only [objectSet, changeValue]
  rw [g1]
  rfl

/-- A concrete document and edit: `b` and `b.c` go, the rest stays. -/
example : (Doc.parse exEnv .conf (ch "a : 1, b : 2 \nb { c : 3 }\nd.b : 4") >>= fun d =>
    d.withoutPath exEnv (ch "b") >>= fun d' => .ok d'.render) = .ok (ch "a : 1, \n\nd.b : 4") := by
  decide +kernel

/-! ## C13: setting a path -/

/-- **C13.** If `with_value_text(p, text)` succeeds, `has_path(p)` is true on the result. -/
theorem C13_set_then_has (env : Env) (hpd : NoDigitNoNumber env) (d d' : Doc) (path text : Str)
    (hd : Reachable env d) (hs : d.fl = .json → ∃ p, newPath env path = .ok p)
    (h : d.withValueText env path text = .ok d') : d'.hasPath env path = .ok true := by
  have hd' := (Reachable.set hd h).wf
  obtain ⟨_, v, _, _, hv, h1, h2⟩ := withValueText_root h
  obtain ⟨a, cs, b, cs', p, pt, _, _, _, hf, _, hp, _, _, hg⟩ := rootSet_spec hd.wf
    (by intro w hw; cases hw; exact hv) h1
  obtain ⟨r, g1, g2⟩ := hasPath_spec hd' (newPath_of_edit hpd hp hs) hf
  rw [g1, g2.2 (hg v rfl)]

example : (Doc.parse exEnv .conf (ch "a { x : 1 }") >>= fun d =>
    d.withValueText exEnv (ch "a.b.c") (ch "[7]") >>= fun d' => .ok (d'.render)) =
      .ok (ch "a { x : 1, b : { c : [7] } }") := rfl

/-- Why the path text has to be one that `has_path` accepts: in a JSON document the path `a//b` is a key for `with_value_text` and
the start of a comment for `has_path`. -/
theorem C13_json_comment_path (env : Env) : ∃ d d', Doc.parse env .json (ch "{}") = .ok d ∧
    d.withValueText env (ch "a//b") (ch "true") = .ok d' ∧
    d'.hasPath env (ch "a//b") = .err .badPath := ⟨_, _, rfl, rfl, rfl⟩

/-! ## C15: frame -/

/-- **C15.** `without_path(p)` does not change `has_path(q)` for a path `q` unrelated to `p`. -/
theorem C15_remove_frame (env : Env) (hpd : NoDigitNoNumber env) (d d' : Doc) (path q : Str)
    (hd : Reachable env d)
    {p r : Path} (hp : newPath env path = .ok p) (hr : newPath env q = .ok r)
    (hpr : ¬ p <+: r) (hrp : ¬ r <+: p)
    (h : d.withoutPath env path = .ok d') : d'.hasPath env q = d.hasPath env q := by
  have hd' := (Reachable.removed hd h).wf
  obtain ⟨h1, h2⟩ := withoutPath_root h
  obtain ⟨a, cs, b, cs', p', pt, _, _, hf0, hf, _, hp', hfr, _, _⟩ := rootSet_spec hd.wf (by simp) h1
  have := newPath_of_edit hpd hp' fun _ => ⟨p, hp⟩
  rw [hp] at this
  simp only [Res.ok.injEq] at this
  subst this
  obtain ⟨x, g1, g2⟩ := hasPath_spec hd.wf hr hf0
  obtain ⟨y, g3, g4⟩ := hasPath_spec hd' hr hf
  rw [g1, g3]
  have := hfr r ⟨hpr, hrp⟩
  cases x <;> cases y <;> simp_all

/-- **C15.** `with_value_text(p, text)` does not change `has_path(q)` for a path `q` unrelated to
`p`. -/
theorem C15_set_frame (env : Env) (hpd : NoDigitNoNumber env) (d d' : Doc) (path text q : Str)
    (hd : Reachable env d)
    {p r : Path} (hp : newPath env path = .ok p) (hr : newPath env q = .ok r)
    (hpr : ¬ p <+: r) (hrp : ¬ r <+: p)
    (h : d.withValueText env path text = .ok d') : d'.hasPath env q = d.hasPath env q := by
  have hd' := (Reachable.set hd h).wf
  obtain ⟨_, v, _, _, hv, h1, h2⟩ := withValueText_root h
  obtain ⟨a, cs, b, cs', p', pt, _, _, hf0, hf, _, hp', hfr, _, _⟩ := rootSet_spec hd.wf
    (by intro w hw; cases hw; exact hv) h1
  have := newPath_of_edit hpd hp' fun _ => ⟨p, hp⟩
  rw [hp] at this
  simp only [Res.ok.injEq] at this
  subst this
  obtain ⟨x, g1, g2⟩ := hasPath_spec hd.wf hr hf0
  obtain ⟨y, g3, g4⟩ := hasPath_spec hd' hr hf
  rw [g1, g3]
  have := hfr r ⟨hpr, hrp⟩
  cases x <;> cases y <;> simp_all

example : (Doc.parse exEnv .conf (ch "a.b : 1, c : 2") >>= fun d =>
    d.withValueText exEnv (ch "a.x") (ch "5") >>= fun d' => d'.hasPath exEnv (ch "c")) = .ok true := rfl

/-! ## C14: replacing a value -/

/-- **C14.** If the path is set by exactly one field, `with_value_text` replaces the text of its value
and nothing else. The new text is the given one if that has no line break (a value with line breaks may
be re-indented: `Written`). The conditions on `text` are those of C10. -/
theorem C14_replace_only_value (env : Env) (d d' : Doc) (path text : Str) (hd : Reachable env d)
    {a cs b : List Node} (hf : findObject d.root = .ok (a, cs, b))
    {p : Path} {pt : List Tok} (hp : parsePathNode env d.fl path = .ok (p, pt))
    {pre post : Str} {old : Node} (ho : OnceAt cs p pre old post)
    (h : d.withValueText env path text = .ok d') :
    ∃ new, d.render = renderList a ++ pre ++ old.render ++ post ++ renderList b ∧
      d'.render = renderList a ++ pre ++ new ++ post ++ renderList b ∧
      ('\n' ∉ text → '\x00' ∉ text → '$' ∉ text → '(' ∉ text → new = text) := by
  obtain ⟨toks, v, ht, hpv, hv, h1, h2⟩ := withValueText_root h
  have hwn : WfNode d.fl (.object cs) := by
    have := hd.wf
    unfold DocWf at this
    rw [(findObject_spec hf).1, WfList.iff] at this
    exact this _ (by simp)
  obtain ⟨hne, _⟩ := parsePathNode_dots hp
  obtain ⟨r, w', vc, g1, g2, g3⟩ := change_once hv ho hne hwn.2.2 hwn.2.1 (fun _ h => h) 0 none (by rintro _ ⟨⟩)
  unfold rootSet at h1
  rw [hf, Res.ok_bind] at h1
  simp only at h1
  rw [hp, Res.ok_bind] at h1
  simp only [objectSet, setValue, changeValue] at h1
  rw [g1] at h1
  simp only [Res.ok_bind] at h1
  have hwr : WfList d.fl r := by
    obtain ⟨r', _, _, k1, k2, _⟩ := changeLoop_spec hne (value := some v)
      (by intro w hw; cases hw; exact hv) cs hwn.2.2 0 none
    rw [g1] at k1
    simp only [Res.ok.injEq, Prod.mk.injEq] at k1
    rw [k1.1]
    exact k2.wf
  obtain ⟨bb, k1, k2⟩ := hasValue_spec hne r hwr
  rw [k1, k2.2 g2.occurs] at h1
  simp only [Res.ok_bind, if_true, Res.ok.injEq] at h1
  refine ⟨w'.render, ?_, ?_, ?_⟩
  · unfold Doc.render
    rw [(findObject_spec hf).1]
    have := ho.render
    simp only [renderList, Node.render] at this ⊢
    simp [tokensList_append, tokensList, tokens, Tok.textList_append, this]
  · unfold Doc.render
    rw [← h1]
    have := g2.render
    simp only [renderList, Node.render] at this ⊢
    simp [tokensList_append, tokensList, tokens, Tok.textList_append, this]
  · intro t1 t2 t3 t4
    have hvt := singleValue_text t2 (Or.inl t3) t4 ht hpv
    have := g3.oneLine (by rw [hvt]; exact t1)
    rw [this, hvt]

example : OnceAt [.field [.path [ch "a"] [.unquoted (ch "a") 1], .single .equals,
      .simple (.value .null (ch "null") 1)]] [ch "a"] (ch "a=")
    (.simple (.value .null (ch "null") 1)) [] :=
  OnceAt.here (a := []) (b := []) (fa := [.path [ch "a"] [.unquoted (ch "a") 1], .single .equals])
    (fb := []) (ts := [.unquoted (ch "a") 1]) Occurs.nil Occurs.nil rfl
    (by intro n hn; simp at hn; rcases hn with rfl | rfl <;> rfl) rfl

example : (Doc.parse exEnv .conf (ch "# c\na { b = 1 // x\n }") >>= fun d =>
    d.withValueText exEnv (ch "a.b") (ch "[2, 3]") >>= fun d' => .ok d'.render) =
      .ok (ch "# c\na { b = [2, 3] // x\n }") := rfl

/-! ## C49: termination of editing -/

/-- The loop of `indent_text` as written (config_node_complex_value.cc 32-46): a work list in which the
inserted indentation is visited next. -/
def indentRaw (ind : Node) : Nat → List Node → Res (List Node)
  | 0, _ => .fuel
  | _ + 1, [] => .ok []
  | f + 1, n :: ns => do
    let n' ← indentNode ind n
    if n.hasTok Tok.isNewline then do
      let r ← indentRaw ind f (ind :: ns)
      .ok (n' :: r)
    else do
      let r ← indentRaw ind f ns
      .ok (n' :: r)

/-- The work list loop does not terminate when the indentation is a newline. -/
theorem indentRaw_diverges {ind : Node} (hi : ind.hasTok Tok.isNewline = true) (f : Nat)
    (ns : List Node) : indentRaw ind f (ind :: ns) = .fuel := by
  induction f with
  | zero => rfl
  | succ f ih =>
    have h1 : indentNode ind ind = .ok ind := by
      obtain ⟨t, ht, _⟩ := hasTok_iff.1 hi
      cases ind <;> first | rfl | simp [singleToken?] at ht
    rw [indentRaw, h1, Res.ok_bind, if_pos hi, ih]
    rfl

/-- Otherwise it computes what `indentList` says. -/
theorem indentRaw_eq {ind : Node} (hi : ind.hasTok Tok.isWs = true) (ns : List Node) (f : Nat)
    (hf : 2 * ns.length < f) : indentRaw ind f ns = indentList ind ns := by
  have hin : ind.hasTok Tok.isNewline = false :=
    hasTok_not hi (by intro t; cases t <;> simp [Tok.isWs, Tok.isNewline])
  have h1 : indentNode ind ind = .ok ind := by
    obtain ⟨t, ht, _⟩ := hasTok_iff.1 hi
    cases ind <;> first | rfl | simp [singleToken?] at ht
  induction ns generalizing f with
  | nil =>
    obtain ⟨f, rfl⟩ : ∃ g, f = g + 1 := ⟨f - 1, by omega⟩
    rw [indentRaw, indentList]
  | cons n ns ih =>
    simp only [List.length_cons] at hf
    obtain ⟨f, rfl⟩ : ∃ g, f = g + 2 := ⟨f - 2, by omega⟩
    rw [indentRaw, indentList]
    cases hn : indentNode ind n with
    | ok n' =>
      simp only [Res.ok_bind]
      by_cases h : n.hasTok Tok.isNewline = true
      · rw [if_pos h, if_pos h, hin, indentRaw, h1, Res.ok_bind, hin]
        simp only [Bool.false_eq_true, if_false]
        rw [ih f (by omega)]
        cases indentList ind ns <;> rfl
      · rw [if_neg h, if_neg h, ih (f + 1) (by omega)]
    | err e => rfl
    | ub => rfl
    | fuel => rfl

/-- The code violates C49: setting a multi-line value in a document whose entries are not indented does
not terminate. -/
theorem C49_set_diverges (env : Env) : ∃ d, Doc.parse env .conf (ch "a : x\n") = .ok d ∧
    d.withValueText env (ch "c") (ch "{\n y : z }") = .fuel := ⟨_, rfl, rfl⟩

/-- **C49 (partial).** Editing terminates for every value text without a line break. Missing: values
with line breaks, for which the code may loop (`C49_set_diverges`). -/
theorem C49_set_terminates_partial (env : Env) (d : Doc) (path text : Str) (hd : Reachable env d)
    (hn : '\n' ∉ text) : d.withValueText env path text ≠ .fuel := by
  unfold Doc.withValueText
  split
  · simp
  · cases ht : tokenize env (decide (d.fl = .conf)) text with
    | fuel => exact absurd ht (C07_tokenize_total env _ text).1
    | err e => simp
    | ub => simp
    | ok toks =>
      simp only [Res.ok_bind]
      refine Res.bind_ne_fuel ?_ ?_
      · intro hx
        have := singleValue_sat env d.fl _ text toks ht
        rw [hx] at this
        exact this
      · intro v hv
        obtain ⟨w, rfl, hw⟩ := parseSingleValue_some hv
        obtain ⟨toks1, rest, rfl, used, hu, hsub, _, _⟩ := parseSingleValue_built hv (tokenize_good ht)
        have hone : '\n' ∉ w.render := by
          intro hm
          have h1 : '\n' ∈ Tok.textList used := by
            refine hsub.subset ?_
            simpa [tokensList, Node.render] using hm
          have h2 := (C06_no_invention env _ text _ ht).subset (a := '\n') (by
            rw [hu]
            simp [Tok.textList, Tok.textList_append, h1])
          exact hn h2
        refine Res.bind_ne_fuel ?_ (by simp)
        unfold rootSet
        refine Res.bind_ne_fuel (findObject_ne_fuel _) ?_
        rintro ⟨a, cs, b⟩ hf
        refine Res.bind_ne_fuel (parsePathNode_ne_fuel _ _ _) ?_
        rintro ⟨p, pt⟩ hp
        refine Res.bind_ne_fuel ?_ (by simp)
        have hwn : WfNode d.fl (.object cs) := by
          have := hd.wf
          unfold DocWf at this
          rw [(findObject_spec hf).1, WfList.iff] at this
          exact this _ (by simp)
        exact setValue_ne_fuel hone hw (parsePathNode_dots hp).1 hwn

/-- **C49.** Removal always terminates. -/
theorem C49_remove_terminates (env : Env) (d : Doc) (path : Str) (hd : Reachable env d) :
    d.withoutPath env path ≠ .fuel := by
  intro h
  unfold Doc.withoutPath at h
  revert h
  refine Res.bind_ne_fuel ?_ (by simp)
  unfold rootSet
  refine Res.bind_ne_fuel (findObject_ne_fuel _) ?_
  rintro ⟨a, cs, b⟩ hf
  refine Res.bind_ne_fuel (parsePathNode_ne_fuel _ _ _) ?_
  rintro ⟨p, pt⟩ hp hx
  obtain ⟨d', h'⟩ := C12_total env d path hd hf hp
  unfold Doc.withoutPath rootSet at h'
  rw [hf, Res.ok_bind] at h'
  simp only at h'
  rw [hp, Res.ok_bind] at h'
  simp only at hx h'
  rw [hx] at h'
  simp at h'

/-! ## C50: the edited text is a document -/

/-- The code violates C50: adding a value behind a trailing comma gives a text that no longer parses. -/
theorem C50_reparse_fails (env : Env) : ∃ d d', Doc.parse env .conf (ch "a:x ,") = .ok d ∧
    d.withValueText env (ch "c") (ch "z") = .ok d' ∧
    d'.render = ch "a:x, , c : z" ∧
    Doc.parse env .conf d'.render = .err .parse := ⟨_, _, rfl, rfl, rfl, rfl⟩

/-- The code violates C50 a second time: a section written without a separator (`a { … }`) that is set to
a value gets no separator, and the text no longer parses. -/
theorem C50_section_violated (env : Env) : ∃ d d', Doc.parse env .conf (ch "a { b : 1 }\nc : 2\n") = .ok d ∧
    d.withValueText env (ch "a") (ch "x") = .ok d' ∧
    d'.render = ch "a x\nc : 2\n" ∧
    Doc.parse env .conf d'.render = .err .parse := ⟨_, _, rfl, rfl, rfl, rfl⟩

end DocEdit
end Hocon
