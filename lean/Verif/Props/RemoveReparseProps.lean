import Verif.Lemmas.RemoveInline
import Verif.Props.ReparseProps
import Verif.Props.DocEditProps

/-!
# The text of a HOCON document from which a path is removed parses again: C81
-/

set_option autoImplicit false

namespace Hocon
namespace DocEdit
open PathParser (Syntax newPath parsePathNode)
open DocParser
open Node Tokenizer

/-- One field taken out. -/
theorem reparses_cut {env : Env} {d : Doc} (hfl : d.fl = .conf) (hre : Reparses env d) {a cs b cs' : List Node}
    (hf : findObject d.root = .ok (a, cs, b)) (hc : DocParser.Cut cs cs') : Reparses env ⟨a ++ .object cs' :: b, .conf⟩ := by
  obtain ⟨d0, hp0, hu0⟩ := hre
  rw [hfl] at hp0
  rw [Doc.parse, Res.bind_eq_ok] at hp0
  obtain ⟨root0, hpd, hp0⟩ := hp0
  simp only [Res.ok.injEq] at hp0
  subst hp0
  simp only at hu0
  obtain ⟨a0, cs0, b0, f1, f2, f3, f4⟩ := findObject_unline hf hu0
  obtain ⟨cs0', sw, f5⟩ := cut_unline hc f3
  have hr0 : renderList root0 = d.render := by
    rw [Doc.render, ← renderList_unline, hu0, renderList_unline]
  obtain ⟨_, hT, hP, used, rfl, u, e3, e4, _⟩ := parseDocument_split hpd
  have e5 : used = u := (List.append_inj' e3 rfl).1
  subst e5
  have hg := tokenize_good hT
  rw [tokenize, Res.bind_eq_ok] at hT
  obtain ⟨_, hL, hT⟩ := hT
  simp only [List.cons_append, Res.ok.injEq, List.cons.injEq, true_and] at hT
  subst hT
  change lexAll env ⟨[], false⟩ d.render 1 = _ at hL
  have hch := lexAll_chain _ (Nat.le_refl _) hL
  obtain ⟨TA, Td, TE, c1, c2, ⟨t, Tf, D, rfl, c4, c5, c6, c7⟩, c8, c9⟩ := parse_remove hP hg.tail hch f1 sw
  have htext : Tok.textList (used ++ [.end_]) = d.render := by
    have s1 := (tokenLoop_lexed hL).text_sub
    have s2 := e4.length_le
    have s3 := s1.length_le
    have s4 := congrArg List.length hr0
    simp only [List.nil_append] at s1 s3
    refine s1.eq_of_length ?_
    simp only [renderList, Tok.textList_append, Tok.textList, Tok.text, List.append_nil] at s2 s3 s4 ⊢
    omega
  change used ++ [.end_] = _ at c1
  rw [c1] at hL htext
  obtain ⟨s', T', q1, q2, q3⟩ := lex_cut hL htext (by rw [← c1]; exact hg.tail.wf) c2 c6 c7
  have hlines : (Tok.start :: (TA ++ TE)).map Tok.unline = (Tok.start :: T').map Tok.unline := by
    rw [List.map_cons, List.map_cons, q2]
  have htok : tokenize env (Syntax.conf = .conf) s' = .ok (.start :: T') := by
    rw [tokenize]
    change lexAll env ⟨[], false⟩ s' 1 >>= _ = _
    rw [q1]
    rfl
  have hpars : parse env .conf (.start :: (TA ++ TE)) = .ok (a0 ++ .object cs0' :: b0) := by
    rcases c9 with hle | hle
    · exfalso
      have x1 := parse_unline env .conf (.start :: (TA ++ TE))
      rw [hlines, hle, parse_unline] at x1
      have x2 := C48_parse_terminates env .conf s'
      rw [parseDocument, htok, Res.ok_bind] at x2
      cases hx : parse env .conf (.start :: T') with
      | fuel => exact x2 hx
      | _ => rw [hx] at x1; simp [mapRes] at x1
    · exact hle
  obtain ⟨root1, p1, p2⟩ := parse_sim hlines hpars
  have hdoc : parseDocument env .conf s' = .ok root1 := by rw [parseDocument, htok, Res.ok_bind, p1]
  have hroot : unlineList root1 = unlineList (a ++ .object cs' :: b) := by
    rw [p2]
    simp only [unlineList_append, unlineList, Node.unline, f2, f4, f5]
  have hrender : renderList (a ++ .object cs' :: b) = s' := by
    have s1 := C10_nothing_invented env _ _ _ hdoc
    rw [← renderList_unline, hroot, renderList_unline] at s1
    refine s1.eq_of_length ?_
    have s2 := s1.length_le
    have s5 : (renderList (a ++ .object cs' :: b)).length + (renderList cs).length
        = (renderList d.root).length + (renderList cs').length := by
      rw [(findObject_spec hf).1]
      simp only [renderList, tokensList_append, tokensList, Node.tokens, Tok.textList_append, List.length_append]
      omega
    have s6 : (renderList cs0).length = (renderList cs).length := by
      rw [← renderList_unline, f3, renderList_unline]
    have s7 : (renderList cs0').length = (renderList cs').length := by
      rw [← renderList_unline, f5, renderList_unline]
    have s9 : d.render.length = (renderList d.root).length := rfl
    omega
  refine ⟨⟨root1, .conf⟩, ?_, hroot⟩
  rw [Doc.render, Doc.parse]
  simp only
  rw [hrender, hdoc]
  rfl

theorem reparses_cuts {env : Env} {d : Doc} (hfl : d.fl = .conf) (hre : Reparses env d) {a cs b cs' : List Node}
    (hf : findObject d.root = .ok (a, cs, b)) (hc : Cuts cs cs') : Reparses env ⟨a ++ .object cs' :: b, .conf⟩ := by
  induction hc with
  | refl =>
    rw [← (findObject_spec hf).1, ← hfl]
    exact hre
  | step _ h1 ih => exact reparses_cut rfl ih ((findObject_spec hf).2 _) h1

/-- **C81.** HOCON documents in which every comma is on the line of the field it follows: if the text of the document parses
to the document, then so does the text of `without_path(path)`, for every path. The condition on the commas still holds. -/
theorem C81_remove_reparses_partial (env : Env) (d d' : Doc) (path : Str) (hfl : d.fl = .conf) (hre : Reparses env d)
    {a cs b : List Node} (hf : findObject d.root = .ok (a, cs, b)) (hin : InLine cs) (h : d.withoutPath env path = .ok d') :
    Reparses env d' ∧ d'.fl = .conf ∧ ∃ cs', findObject d'.root = .ok (a, cs', b) ∧ InLine cs' := by
  obtain ⟨h1, h2⟩ := withoutPath_root h
  unfold rootSet at h1
  rw [hf, Res.ok_bind] at h1
  simp only at h1
  rw [Res.bind_eq_ok] at h1
  obtain ⟨⟨p, toks⟩, hp, h1⟩ := h1
  simp only [objectSet, changeValue] at h1
  rw [hfl, Res.bind_eq_ok] at h1
  obtain ⟨cs', h3, h1⟩ := h1
  rw [Res.bind_eq_ok] at h3
  obtain ⟨⟨r, seen, vc⟩, h3, h4⟩ := h3
  simp only [Res.ok.injEq] at h1 h4
  subst h4
  obtain ⟨_, hr⟩ := changeLoop_cuts cs hin _ _ _ _ _ h3
  have hfl' : d'.fl = .conf := by rw [h2, hfl]
  refine ⟨?_, hfl', r, ?_, hr.line⟩
  · have := reparses_cuts hfl hre hf hr.cuts
    rw [h1, ← hfl'] at this
    exact this
  · rw [← h1]
    exact (findObject_spec hf).2 _

/-- No line of the text begins with a comma (blanks in front of it do not count). -/
def NoCommaFirst (s : Str) : Prop := ∀ w, AllBlank w → ¬ ('\n' :: (w ++ [','])) <:+: s

/-- If no line begins with a comma, every comma is on the line of the field it follows. -/
theorem inLine_of_text {env : Env} {s : Str} {d : Doc} (h : Doc.parse env .conf s = .ok d) (hr : d.render = s)
    (hs : NoCommaFirst s) {a cs b : List Node} (hf : findObject d.root = .ok (a, cs, b)) : InLine cs := by
  rw [Doc.parse, Res.bind_eq_ok] at h
  obtain ⟨root0, hpd, hp0⟩ := h
  simp only [Res.ok.injEq] at hp0
  subst hp0
  obtain ⟨_, hT, hP, used, rfl, u, e3, e4, _⟩ := parseDocument_split hpd
  have e5 : used = u := (List.append_inj' e3 rfl).1
  subst e5
  have hg := tokenize_good hT
  rw [tokenize, Res.bind_eq_ok] at hT
  obtain ⟨_, hL, hT⟩ := hT
  simp only [List.cons_append, Res.ok.injEq, List.cons.injEq, true_and] at hT
  subst hT
  change lexAll env ⟨[], false⟩ s 1 = _ at hL
  have hch := lexAll_chain _ (Nat.le_refl _) hL
  have htext : Tok.textList (used ++ [.end_]) = s := by
    have s1 := (tokenLoop_lexed hL).text_sub
    have s2 := e4.length_le
    have s3 := s1.length_le
    have s4 := congrArg List.length hr
    simp only [List.nil_append] at s1 s3
    refine s1.eq_of_length ?_
    simp only [Doc.render, renderList, Tok.textList_append, Tok.textList, Tok.text, List.append_nil] at s2 s3 s4 ⊢
    omega
  exact parse_inline hP hg.tail hch (noLine_text htext hg.tail.wf hs) hf

/-- Any number of removals. -/
inductive Removals (env : Env) (d : Doc) : Doc → Prop
  | refl : Removals env d d
  | step {d1 d2 : Doc} (path : Str) (h0 : Removals env d d1) (h : d1.withoutPath env path = .ok d2) : Removals env d d2

/-- **C81.** A HOCON text in which no line begins with a comma, parsed without loss: after any number of removals, of
any paths, the text of the document parses to the document. -/
theorem C81_removals_reparse_partial (env : Env) (s : Str) (d d' : Doc) (h : Doc.parse env .conf s = .ok d)
    (hr : d.render = s) (hs : NoCommaFirst s) (he : Removals env d d') : Reparses env d' := by
  have hfl : d.fl = .conf := by
    rw [Doc.parse, Res.bind_eq_ok] at h
    obtain ⟨_, _, h⟩ := h
    simp only [Res.ok.injEq] at h
    rw [← h]
  have key : Reparses env d' ∧ d'.fl = .conf ∧ ∀ a cs b, findObject d'.root = .ok (a, cs, b) → InLine cs := by
    induction he with
    | refl => exact ⟨.parsed h hr, hfl, fun a cs b hf => inLine_of_text h hr hs hf⟩
    | @step d1 d2 path h0 hw ih =>
      obtain ⟨i1, i2, i3⟩ := ih
      obtain ⟨w1, _⟩ := withoutPath_root hw
      unfold rootSet at w1
      rw [Res.bind_eq_ok] at w1
      obtain ⟨⟨a, cs, b⟩, hf, _⟩ := w1
      obtain ⟨k1, k2, cs', k3, k4⟩ := C81_remove_reparses_partial env d1 d2 path i2 i1 hf (i3 _ _ _ hf) hw
      refine ⟨k1, k2, fun a' x b' hx => ?_⟩
      rw [k3] at hx
      simp only [Res.ok.injEq, Prod.mk.injEq] at hx
      rw [← hx.2.1]
      exact k4
  exact key.1

/-- The document that is read back has the same settings. -/
theorem Reparses.hasPath {env : Env} {d : Doc} (h : Reparses env d) :
    ∃ d1, Doc.parse env d.fl d.render = .ok d1 ∧ d1.render = d.render ∧ ∀ q, d1.hasPath env q = d.hasPath env q := by
  obtain ⟨d1, h1, h2⟩ := h
  refine ⟨d1, h1, ?_, fun q => ?_⟩
  · rw [Doc.render, Doc.render, ← renderList_unline, h2, renderList_unline]
  · rw [Doc.hasPath, Doc.hasPath]
    cases newPath env q with
    | ok p => exact findObject_err h2
    | _ => rfl

/-- **C81.** The same, for the settings: the text left by a removal is read back without the path, and with every other
setting (C12 and C15 for the conditions on the path). -/
theorem C81_read_back_partial (env : Env) (hpd : NoDigitNoNumber env) (s : Str) (d d' : Doc) (path : Str)
    (h : Doc.parse env .conf s = .ok d) (hr : d.render = s) (hs : NoCommaFirst s)
    {p : Path} (hp : newPath env path = .ok p) (hw : d.withoutPath env path = .ok d') :
    ∃ d1, Doc.parse env .conf d'.render = .ok d1 ∧ d1.hasPath env path = .ok false ∧
      ∀ q r, newPath env q = .ok r → ¬ p <+: r → ¬ r <+: p → d1.hasPath env q = d.hasPath env q := by
  have hfl : d.fl = .conf := by
    rw [Doc.parse, Res.bind_eq_ok] at h
    obtain ⟨_, _, h⟩ := h
    simp only [Res.ok.injEq] at h
    rw [← h]
  obtain ⟨d1, h1, _, h3⟩ := (C81_removals_reparse_partial env s d d' h hr hs (.step path .refl hw)).hasPath
  rw [(withoutPath_root hw).2, hfl] at h1
  refine ⟨d1, h1, ?_, fun q r hq hpr hrp => ?_⟩
  · rw [h3, C12_removed env hpd d d' path (.parsed h) (fun _ => ⟨p, hp⟩) hw]
  · rw [h3, C15_remove_frame env hpd d d' path q (.parsed h) hp hq hpr hrp hw]

/-- A way to compute the condition. -/
def lineCheck : Str → Bool
  | [] => true
  | c :: r => (c != '\n' || (r.dropWhile isWhitespaceNotNewline).head? != some ',') && lineCheck r

theorem NoCommaFirst.check {s : Str} (h : lineCheck s = true) : NoCommaFirst s := by
  rintro w hw ⟨x, y, rfl⟩
  have hd : ∀ w, AllBlank w → ((w ++ ',' :: y).dropWhile isWhitespaceNotNewline).head? = some ',' := by
    intro w hw
    induction w with
    | nil => rfl
    | cons c w ih =>
      rw [List.cons_append, List.dropWhile_cons, if_pos (hw c (by simp))]
      exact ih fun z hz => hw z (by simp [hz])
  have : x ++ '\n' :: (w ++ [',']) ++ y = x ++ '\n' :: (w ++ ',' :: y) := by simp
  rw [this] at h
  clear this
  induction x with
  | nil =>
    rw [List.nil_append, lineCheck, hd w hw] at h
    simp at h
  | cons c x ih =>
    rw [List.cons_append, lineCheck, Bool.and_eq_true] at h
    exact ih h.2

/-- A document with a section, a comment, an array and commas at the end of lines. -/
def removeText : Str := ch "a {x:1, y:[] #n\n}\nb=2,\n a.y:3"

/-- The theorem applies: two removals, and the text that is left. -/
example : (Doc.parse exEnv .conf removeText >>= fun d => d.withoutPath exEnv (ch "a.y") >>= fun d1 =>
    d1.withoutPath exEnv (ch "b") >>= fun d2 => .ok (decide (d.render = removeText), d2.render))
    = .ok (true, ch "a {x:1, #n\n}\n\n ") := by decide +kernel

example : NoCommaFirst removeText := .check (by decide)

/-- The conditions on the path are met, and the other setting is there. -/
example : (Doc.parse exEnv .conf removeText >>= fun d => d.withoutPath exEnv (ch "a.y") >>= fun d1 =>
    Doc.parse exEnv .conf d1.render >>= fun d2 => d2.hasPath exEnv (ch "a.y") >>= fun x => d2.hasPath exEnv (ch "a.x") >>= fun y =>
    newPath exEnv (ch "a.y") >>= fun p => .ok (x, y, p)) = .ok (false, true, [ch "a", ch "y"]) := by decide +kernel

/-- **C81 fails without the condition.** A comma at the beginning of the next line is not removed, and no field stands
before it. -/
theorem C81_comma_violated (env : Env) : ∃ d d', Doc.parse env .conf (ch "a:1\n,b:2") = .ok d ∧
    d.withoutPath env (ch "a") = .ok d' ∧ d'.render = ch "\n,b:2" ∧ ¬ Reparses env d' := by
  refine ⟨_, _, rfl, rfl, rfl, ?_⟩
  rintro ⟨d1, h, _⟩
  change Doc.parse env .conf (ch "\n,b:2") = _ at h
  have : Doc.parse env .conf (ch "\n,b:2") = .err .parse := rfl
  rw [this] at h
  cases h

end DocEdit
end Hocon
