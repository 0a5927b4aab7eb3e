import Verif.Lemmas.ReparseEdit

/-!
# The text of an edited document parses again: C50

`C50_reparse_fails` and `C50_section_violated` (`Verif/Props/DocEditProps.lean`) show that the property fails when a value
is added and when a section without a separator is set. Here: it holds when the value of a path is replaced that is set
once, with a separator.
-/

set_option autoImplicit false

namespace Hocon
namespace DocEdit
open PathParser (Syntax newPath parsePathNode)
open DocParser
open Node Tokenizer

/-- The text of the document parses, with the syntax of the document, and gives the same tree (apart from the line numbers
recorded in tokens, which `Node.unlineList` removes). -/
def Reparses (env : Env) (d : Doc) : Prop :=
  ∃ d1, Doc.parse env d.fl d.render = .ok d1 ∧ unlineList d1.root = unlineList d.root

/-- A parsed document whose text is the one it was parsed from (C10). -/
theorem Reparses.parsed {env : Env} {fl : Syntax} {s : Str} {d : Doc} (h : Doc.parse env fl s = .ok d)
    (hr : d.render = s) : Reparses env d := by
  have hfl : d.fl = fl := by
    rw [Doc.parse, Res.bind_eq_ok] at h
    obtain ⟨_, _, h⟩ := h
    simp only [Res.ok.injEq] at h
    rw [← h]
  exact ⟨d, by rw [hr, hfl]; exact h, rfl⟩

/-- One value exchanged for the value of a text. -/
theorem reparses_swap {env : Env} {d : Doc} (hfl : d.fl = .conf) (hre : Reparses env d) {a cs b : List Node}
    (hf : findObject d.root = .ok (a, cs, b)) {text : Str} {toks : List Tok} {w' : Node}
    (ht : tokenize env (Syntax.conf = .conf) text = .ok toks) (hpv : parseSingleValue env .conf toks = .ok (some w'))
    (hvt : w'.render = text) (hslash : text.getLast? ≠ some '/') {v : Node} {r : List Node} (g2 : Swap v w' cs r) :
    Reparses env ⟨a ++ .object r :: b, .conf⟩ := by
  obtain ⟨d0, hp0, hu0⟩ := hre
  -- the tokens of the old text
  rw [hfl] at hp0
  rw [Doc.parse, Res.bind_eq_ok] at hp0
  obtain ⟨root0, hpd, hp0⟩ := hp0
  simp only [Res.ok.injEq] at hp0
  subst hp0
  simp only at hu0
  obtain ⟨a0, cs0, b0, f1, f2, f3, f4⟩ := findObject_unline hf hu0
  obtain ⟨v0, cs0', sw, f5⟩ := Swap.unline g2 f3
  have hinv := C10_nothing_invented env _ _ _ hpd
  have hr0 : renderList root0 = d.render := by
    rw [Doc.render, ← renderList_unline, hu0, renderList_unline]
  obtain ⟨_, hT, hP, used, rfl, u, e3, e4, _⟩ := parseDocument_split hpd
  have e5 : used = u := (List.append_inj' e3 rfl).1
  subst e5
  have hg := tokenize_good hT
  rw [tokenize, Res.bind_eq_ok] at hT
  obtain ⟨_, hL, hT⟩ := hT
  simp only [List.cons_append, Res.ok.injEq, List.cons.injEq, true_and] at hT
  subst hT
  obtain ⟨TA, sep, bl, To, TB, c1, c2, c3, c4, c5, c6, c7, c8⟩ := parse_swap hP hg.tail f1 sw
  change lexAll env ⟨[], false⟩ d.render 1 = _ at hL
  have htext : Tok.textList (used ++ [.end_]) = d.render := by
    have s1 := (tokenLoop_lexed hL).text_sub
    have s2 := e4.length_le
    have s3 := s1.length_le
    have s4 := congrArg List.length hr0
    simp only [List.nil_append] at s1 s3
    refine s1.eq_of_length ?_
    simp only [renderList, Tok.textList_append, Tok.textList, Tok.text, List.append_nil] at s2 s3 s4 ⊢
    omega
  change used ++ [.end_] = _ at c1
  rw [c1] at hL htext
  -- the tokens of the value
  have hgu := tokenize_good ht
  rw [tokenize, Res.bind_eq_ok] at ht
  obtain ⟨U, hU, ht⟩ := ht
  simp only [Res.ok.injEq] at ht
  subst ht
  obtain ⟨t, Tu, ru, n1, n2, n3, n4, n5⟩ := single_new hpv hgu.tail
  change lexAll env ⟨[], false⟩ text 1 = _ at hU
  have hru : ru = [] := by
    obtain ⟨mid, m1, m2⟩ := (tokenLoop_lexed hU).shape
    rw [n1] at m1
    rcases List.eq_nil_or_concat ru with rfl | ⟨x, y, rfl⟩
    · rfl
    · exfalso
      have : (t :: Tu ++ .end_ :: x) ++ [y] = mid ++ [.end_] := by rw [← m1]; simp
      have := (List.append_inj' this rfl).1
      exact (m2 .end_ (by rw [← this]; simp)).2 rfl
  subst hru
  rw [n1] at hU
  have ht0 : ∀ x k, t ≠ .ws x k := by rintro x k rfl; simp [collectNode] at n2
  obtain ⟨s', T', q1, q2, q3⟩ := lex_swap hL htext (by rw [← c1]; exact hg.tail.wf) c2 c3 c4 c5 hU hslash n4 ht0
  -- the parse of the new text
  have hle := c8 t Tu n2 (n5 TB c6)
  have hlines : (Tok.start :: (TA ++ sep :: (bl ++ t :: (Tu ++ TB)))).map Tok.unline = (Tok.start :: T').map Tok.unline := by
    rw [List.map_cons, List.map_cons, q2]
  have htok : tokenize env (Syntax.conf = .conf) s' = .ok (.start :: T') := by
    rw [tokenize]
    change lexAll env ⟨[], false⟩ s' 1 >>= _ = _
    rw [q1]
    rfl
  have hpars : parse env .conf (.start :: (TA ++ sep :: (bl ++ t :: (Tu ++ TB)))) = .ok (a0 ++ .object cs0' :: b0) := by
    rcases hle with hle | hle
    · exfalso
      have x1 := parse_unline env .conf (.start :: (TA ++ sep :: (bl ++ t :: (Tu ++ TB))))
      rw [hlines, hle, parse_unline] at x1
      have x2 := C48_parse_terminates env .conf s'
      rw [parseDocument, htok, Res.ok_bind] at x2
      cases hx : parse env .conf (.start :: T') with
      | fuel => exact x2 hx
      | _ => rw [hx] at x1; simp [mapRes] at x1
    · exact hle
  obtain ⟨root1, p1, p2⟩ := parse_sim hlines hpars
  have hdoc : parseDocument env .conf s' = .ok root1 := by rw [parseDocument, htok, Res.ok_bind, p1]
  have hroot : unlineList root1 = unlineList (a ++ .object r :: b) := by
    rw [p2]
    simp only [unlineList_append, unlineList, Node.unline, f2, f4, f5]
  have hrender : renderList (a ++ .object r :: b) = s' := by
    have s1 := C10_nothing_invented env _ _ _ hdoc
    rw [← renderList_unline, hroot, renderList_unline] at s1
    refine s1.eq_of_length ?_
    have s2 := s1.length_le
    have s3 := g2.len
    have s4 := sw.len
    have s5 : (renderList (a ++ .object r :: b)).length = (renderList d.root).length - (renderList cs).length + (renderList r).length ∧
        (renderList cs).length ≤ (renderList d.root).length := by
      rw [(findObject_spec hf).1]
      simp only [renderList, tokensList_append, tokensList, Node.tokens, Tok.textList_append, List.length_append]
      omega
    have s6 : (renderList cs0).length = (renderList cs).length := by
      rw [← renderList_unline, f3, renderList_unline]
    have s7 : (renderList cs0').length = (renderList r).length := by
      rw [← renderList_unline, f5, renderList_unline]
    have s8 : v0.render.length ≤ (Tok.textList To).length := c7
    have s9 : d.render.length = (renderList d.root).length := rfl
    rw [hvt] at s3 s4
    omega
  refine ⟨⟨root1, .conf⟩, ?_, hroot⟩
  rw [Doc.render, Doc.parse]
  simp only
  rw [hrender, hdoc]
  rfl

/-- **C50.** HOCON documents: if the text of a document parses to the document, and the path is set by exactly one field,
with a separator and the value on its line, then the text of `with_value_text(path, text)` parses to the result, for every
one-line value text. (`text` must not end with a slash, which could become part of a comment; the other conditions on `text`
are those of C10 under which the text is stored unchanged.) -/
theorem C50_replace_reparses_partial (env : Env) (d d' : Doc) (path text : Str) (hd : Reachable env d) (hfl : d.fl = .conf)
    (hre : Reparses env d)
    {a cs b : List Node} (hf : findObject d.root = .ok (a, cs, b))
    {p : Path} {pt : List Tok} (hp : parsePathNode env .conf path = .ok (p, pt)) {old : Node} (ho : OnceOn cs p old)
    (hnl : '\n' ∉ text) (hnul : '\x00' ∉ text)
    (hblank : '$' ∉ text ∨ ∀ a x b, text = a ++ x :: '}' :: b → isWhitespaceNotNewline x = false)
    (hparen : '(' ∉ text) (hslash : text.getLast? ≠ some '/')
    (h : d.withValueText env path text = .ok d') : Reparses env d' := by
  obtain ⟨toks, v, ht, hpv, hv, h1, h2⟩ := withValueText_root h
  have hvt := singleValue_text hnul hblank hparen ht hpv
  -- the new tree
  have hwn : WfNode d.fl (.object cs) := by
    have := hd.wf
    unfold DocWf at this
    rw [(findObject_spec hf).1, WfList.iff] at this
    exact this _ (by simp)
  obtain ⟨hne, _⟩ := parsePathNode_dots hp
  obtain ⟨r, w', vc, g1, g2, g2', g3⟩ := change_swap hv ho hne hwn.2.2 hwn.2.1 (fun _ h => h) 0 none (by rintro _ ⟨⟩)
  have hw' : w' = v := g3.oneLine (by rw [hvt]; exact hnl)
  subst hw'
  unfold rootSet at h1
  rw [hf, Res.ok_bind] at h1
  simp only at h1
  rw [hfl, hp, Res.ok_bind] at h1
  rw [hfl] at g1
  simp only [objectSet, setValue, changeValue] at h1
  rw [g1] at h1
  simp only [Res.ok_bind] at h1
  have hwr : WfList d.fl r := by
    obtain ⟨r', _, _, k1, k2, _⟩ := changeLoop_spec hne (value := some w')
      (by intro w hw; cases hw; exact hv) cs hwn.2.2 0 none
    rw [hfl, g1] at k1
    simp only [Res.ok.injEq, Prod.mk.injEq] at k1
    rw [k1.1]
    exact k2.wf
  obtain ⟨bb, k1, k2⟩ := hasValue_spec hne r hwr
  rw [k1, k2.2 g2'] at h1
  simp only [Res.ok_bind, if_true, Res.ok.injEq] at h1
  rw [hfl] at ht hpv h2
  have := reparses_swap hfl hre hf ht hpv hvt hslash g2
  rw [h1, ← h2] at this
  exact this

/-- A chain of such edits. -/
inductive Edited (env : Env) (d : Doc) : Doc → Prop
  | refl : Edited env d d
  | step {d1 d2 : Doc} {path text : Str} {a cs b : List Node} {p : Path} {pt : List Tok} {old : Node}
      (h0 : Edited env d d1) (hf : findObject d1.root = .ok (a, cs, b))
      (hp : parsePathNode env .conf path = .ok (p, pt)) (ho : OnceOn cs p old)
      (hc : ∀ c ∈ text, c ≠ '\n' ∧ c ≠ '\x00' ∧ c ≠ '$' ∧ c ≠ '(') (hslash : text.getLast? ≠ some '/')
      (h : d1.withValueText env path text = .ok d2) : Edited env d d2

/-- **C50.** Any number of such edits, starting with a parsed text. -/
theorem C50_edits_reparse_partial (env : Env) (s : Str) (d d' : Doc) (h : Doc.parse env .conf s = .ok d) (hr : d.render = s)
    (he : Edited env d d') : Reparses env d' := by
  have hfl : d.fl = .conf := by
    rw [Doc.parse, Res.bind_eq_ok] at h
    obtain ⟨_, _, h⟩ := h
    simp only [Res.ok.injEq] at h
    rw [← h]
  have key : Reparses env d' ∧ Reachable env d' ∧ d'.fl = .conf := by
    induction he with
    | refl => exact ⟨.parsed h hr, .parsed h, hfl⟩
    | step h0 hf hp ho hc hslash hs ih =>
      obtain ⟨i1, i2, i3⟩ := ih
      refine ⟨C50_replace_reparses_partial env _ _ _ _ i2 i3 i1 hf hp ho (fun hm => (hc _ hm).1 rfl)
        (fun hm => (hc _ hm).2.1 rfl) (Or.inl fun hm => (hc _ hm).2.2.1 rfl) (fun hm => (hc _ hm).2.2.2 rfl) hslash hs,
        .set i2 hs, ?_⟩
      obtain ⟨_, _, _, _, _, _, h2⟩ := withValueText_root hs
      rw [h2, i3]
  exact key.1

theorem not_occurs {ns : List Node} {p : Path} (h : ns.all (fun n => !n.isField) = true) : ¬ Occurs ns p := by
  rw [List.all_eq_true] at h
  intro ho
  cases ho with
  | here hm _ _ => simpa [isField] using h _ hm
  | inside hm _ _ _ _ => simpa [isField] using h _ hm

/-- Children of the section in the example. -/
def exInner : List Node :=
  [.single .openCurly, .single (.ws [' '] 1),
    .field ([.path [ch "b"] [.unquoted (ch "b") 1], .single (.ws [' '] 1), .single .equals, .single (.ws [' '] 1)] ++
      [.simple (.value (.int 1 ['1']) ['1'] 1)]),
    .single (.ws [' '] 1), .comment (.comment true (ch " x") 1), .single (.newline 1), .single (.ws [' '] 2),
    .single .closeCurly]

/-- Children of the root object in the example. -/
def exOuter : List Node :=
  [.field ([.path [ch "a"] [.unquoted (ch "a") 1], .single (.ws [' '] 1)] ++ [.object exInner]), .single (.newline 2)]

/-- The hypotheses are met: `a.b` in a document with a comment and a second line. -/
example : Doc.parse exEnv .conf (ch "a { b = 1 // x\n }\n") = .ok ⟨[.object exOuter], .conf⟩ ∧
    Doc.render ⟨[.object exOuter], .conf⟩ = ch "a { b = 1 // x\n }\n" ∧
    findObject [.object exOuter] = .ok ([], exOuter, []) ∧
    parsePathNode exEnv .conf (ch "a.b") =
      .ok ([ch "a"] ++ [ch "b"], [.unquoted (ch "a") 1, .unquoted (ch ".") 1, .unquoted (ch "b") 1, .end_]) ∧
    OnceOn exOuter ([ch "a"] ++ [ch "b"]) (.simple (.value (.int 1 ['1']) ['1'] 1)) ∧
    (Doc.withValueText exEnv ⟨[.object exOuter], .conf⟩ (ch "a.b") (ch "[2, { c : \"3\" }]") >>= fun d' => .ok d'.render)
      = .ok (ch "a { b = [2, { c : \"3\" }] // x\n }\n") := by
  refine ⟨rfl, rfl, rfl, rfl, ?_, rfl⟩
  refine OnceOn.inside (a := []) (b := [.single (.newline 2)]) (ts := [.unquoted (ch "a") 1]) (by simp) Occurs.nil ?_ rfl ?_
    (OnceOn.here (a := [.single .openCurly, .single (.ws [' '] 1)]) (ts := [.unquoted (ch "b") 1]) ?_ ?_ rfl ?_ rfl
      ⟨[.path [ch "b"] [.unquoted (ch "b") 1], .single (.ws [' '] 1)], .equals, [.ws [' '] 1], rfl, Or.inr ⟨_, _, rfl⟩, rfl⟩)
  · exact not_occurs (by decide)
  · intro n hn; simp at hn; rcases hn with rfl | rfl <;> rfl
  · exact not_occurs (by decide)
  · exact not_occurs (by decide)
  · intro n hn; simp at hn; rcases hn with rfl | rfl | rfl | rfl <;> rfl

/-- **C50.** The condition on the slash is needed: a text with a slash at its end that is put before a comment. The text of the
edited document parses, but to another document, where the value is `x` and not `x/`. -/
theorem C50_slash_violated :
    ∃ d d' d1, Doc.parse exEnv .conf (ch "a:1//c") = .ok d ∧ d.withValueText exEnv (ch "a") (ch "x/") = .ok d' ∧
      d'.render = ch "a:x///c" ∧ Doc.parse exEnv .conf d'.render = .ok d1 ∧
      d'.root = [.object [.field [.path [ch "a"] [.unquoted (ch "a") 1], .single .colon,
        .simple (.unquoted (ch "x/") 1)], .comment (.comment true (ch "c") 1)]] ∧
      d1.root = [.object [.field [.path [ch "a"] [.unquoted (ch "a") 1], .single .colon,
        .simple (.unquoted (ch "x") 1)], .comment (.comment true (ch "/c") 1)]] :=
  ⟨_, _, _, rfl, rfl, rfl, rfl, rfl, rfl⟩

end DocEdit
end Hocon
