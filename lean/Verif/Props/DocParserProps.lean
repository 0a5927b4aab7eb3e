import Verif.Lemmas.JsonMode
import Verif.Lemmas.TokenizerUb
import Verif.Props.TokenizerProps

/-!
# Properties of the document parser: C10, C11, C48
-/

set_option autoImplicit false

namespace Hocon
namespace DocParser
open PathParser (Syntax)
open Tokenizer
open Node (renderList)

/-! ## Helper lemmas about `parse` -/

theorem parseEnd_ok {fl : Syntax} {mc : Bool} {cs : List Node} {toks : List Tok} {ns : List Node}
    (h : parseEnd fl mc cs toks = .ok ns) :
    ∃ ws rest, nextCollect fl toks = .ok (ws, .end_, rest) ∧
      ns = if mc then [.object (cs ++ ws)] else cs ++ ws := by
  rw [parseEnd, Res.bind_eq_ok] at h
  obtain ⟨⟨ws, t, rest⟩, h1, h⟩ := h
  simp only at h
  split at h
  · simp only [Res.ok.injEq] at h
    exact ⟨ws, rest, h1, h.symm⟩
  · simp at h

theorem parse_built {env : Env} {fl : Syntax} {allow : Bool} {toks : List Tok} {ns : List Node}
    (h : parse env fl toks = .ok ns) (hg : Good env allow toks) :
    ∃ toks1 rest, toks = .start :: toks1 ∧ Built toks1 ns (.end_ :: rest) := by
  rw [parse, Res.bind_eq_ok] at h
  obtain ⟨⟨t, toks1⟩, h1, h⟩ := h
  have := nextToken_spec h1
  subst this
  simp only at h
  split at h
  · rw [Res.bind_eq_ok] at h
    obtain ⟨⟨ws, t, toks2⟩, h2, h⟩ := h
    obtain ⟨b1, _, _⟩ := nextCollect_built h2
    have hg1 := b1.good hg.tail
    refine ⟨toks1, ?_⟩
    have root : ∀ t, Good env allow (t :: toks2) → Built toks1 ws (t :: toks2) →
        (parseValue env fl (fuelFor (.start :: toks1)) t toks2 >>= fun (v, toks3) =>
          parseEnd fl false (ws ++ [v]) toks3) = .ok ns →
        ∃ rest, Tok.start :: toks1 = .start :: toks1 ∧ Built toks1 ns (.end_ :: rest) := by
      intro t hg1 b1 h
      rw [Res.bind_eq_ok] at h
      obtain ⟨⟨v, toks3⟩, h3, h⟩ := h
      obtain ⟨ws2, rest, h4, rfl⟩ := parseEnd_ok h
      have b2 := ((spec_all env fl allow _).value _ _ _ _ h3 hg1).1
      obtain ⟨b3, _, _⟩ := nextCollect_built h4
      exact ⟨rest, rfl, (b1.trans b2).trans b3⟩
    simp only at h
    split at h
    · exact root _ hg1 b1 h
    · exact root _ hg1 b1 h
    · split at h
      · simp at h
      · rw [Res.bind_eq_ok] at h
        obtain ⟨⟨ns1, toks3⟩, h3, h⟩ := h
        obtain ⟨ws2, rest, h4, rfl⟩ := parseEnd_ok h
        have b2 := (spec_all env .conf allow _).obj _ _ _ _ _ _ h3 hg1
        obtain ⟨b3, _, _⟩ := nextCollect_built h4
        exact ⟨rest, rfl, ((b1.trans b2).trans b3).wrap (by simp)⟩
  · simp at h

theorem tokenize_good {env : Env} {allow : Bool} {s : Str} {toks : List Tok}
    (h : tokenize env allow s = .ok toks) : Good env allow toks :=
  ⟨(tokenize_wf h).1, (tokenize_wf h).2⟩

theorem parseDocument_split {env : Env} {fl : Syntax} {s : Str} {ns : List Node}
    (h : parseDocument env fl s = .ok ns) :
    ∃ toks, tokenize env (fl = .conf) s = .ok toks ∧ parse env fl toks = .ok ns ∧
      ∃ used, toks = .start :: used ++ [.end_] ∧ Built (used ++ [.end_]) ns [.end_] := by
  rw [parseDocument, Res.bind_eq_ok] at h
  obtain ⟨toks, h1, h2⟩ := h
  refine ⟨toks, h1, h2, ?_⟩
  obtain ⟨toks1, rest, rfl, hb⟩ := parse_built h2 (tokenize_good h1)
  obtain ⟨mid, hm, hne⟩ := (C07_tokenize_total env _ s).2 _ h1
  simp only [List.cons_append, List.cons.injEq, true_and] at hm
  subst hm
  refine ⟨mid, by simp, ?_⟩
  obtain ⟨u, hu⟩ := hb.suffix
  have : rest = [] := by
    rcases List.eq_nil_or_concat rest with h | ⟨r, x, rfl⟩
    · exact h
    · exfalso
      have h1 : mid = u ++ .end_ :: r := by
        have : mid ++ [.end_] = (u ++ .end_ :: r) ++ [x] := by rw [hu]; simp
        exact (List.append_inj' this rfl).1
      exact (hne .end_ (by rw [h1]; simp)).2 rfl
  subst this
  exact hb

/-! ## C10: the text is preserved -/

/-- Parsing and rendering a document never invents, reorders or changes text: the rendering is the
input with some characters possibly left out. -/
theorem C10_nothing_invented (env : Env) (fl : Syntax) (s : Str) (ns : List Node)
    (h : parseDocument env fl s = .ok ns) : (renderList ns).Sublist s := by
  obtain ⟨toks, h1, _, used, rfl, u, h3, h4, _⟩ := parseDocument_split h
  have hu : used = u := (List.append_inj' h3 rfl).1
  subst hu
  have := C06_no_invention env _ s _ h1
  refine List.Sublist.trans h4 ?_
  simpa [Tok.textList_append, Tok.textList, Tok.text] using this

/-- **C10 (partial).** Rendering the parsed document gives back the input. Missing: inputs with a NUL
or with a blank before the `}` of a substitution (the tokenizer loses them, see C06) and documents
with an include of the form `url(...)`, `file(...)` or `classpath(...)`, where the code drops the
closing parenthesis (`C10_include_parenthesis_lost`). -/
theorem C10_render_parse_partial (env : Env) (fl : Syntax) (s : Str) (ns : List Node)
    (hnul : '\x00' ∉ s)
    (hblank : '$' ∉ s ∨ ∀ a x b, s = a ++ x :: '}' :: b → isWhitespaceNotNewline x = false)
    (hparen : '(' ∉ s ∨ noParenList ns = true)
    (h : parseDocument env fl s = .ok ns) : renderList ns = s := by
  obtain ⟨toks, h1, _, used, rfl, u, h3, _, h5, h6⟩ := parseDocument_split h
  have hu : used = u := (List.append_inj' h3 rfl).1
  subst hu
  have ht := C06_tokens_cover_input_partial env _ s _ hnul hblank h1
  have ht : Tok.textList used = s := by
    simpa [Tok.textList_append, Tok.textList, Tok.text] using ht
  rw [ht] at h5 h6
  refine h5 ?_
  rcases hparen with hp | hp
  · rcases h6 with h6 | h6
    · exact h6
    · exact absurd h6 hp
  · exact hp

/-- The code violates the unrestricted C10: the `)` of `include file("x")` is lost. -/
theorem C10_include_parenthesis_lost (env : Env) :
    ∃ s ns, parseDocument env .conf s = .ok ns ∧ renderList ns ≠ s :=
  ⟨ch "include file(\"x\")",
    [.object [.incl [.single (.unquoted (ch "include") 1), .single (.unquoted (ch " ") 1),
      .single (.unquoted (ch "file(") 1), .simple (.value (.str (ch "x") true) (ch "\"x\"") 1)] .file]],
    rfl, by decide⟩

example : '\x00' ∉ ch "a.b { c = [1, x \"y\" ] } # end" ∧ '(' ∉ ch "a.b { c = [1, x \"y\" ] } # end" ∧
    '$' ∉ ch "a.b { c = [1, x \"y\" ] } # end" ∧
    (parseDocument exEnv .conf (ch "a.b { c = [1, x \"y\" ] } # end")).isOk = true :=
  ⟨by decide, by decide, by decide, rfl⟩

/-! ## C11: JSON mode -/

/-- **C11.** JSON mode accepts exactly the documents whose significant tokens form one JSON object or
array (with distinct keys in each object). -/
theorem C11_json_mode_exact (env : Env) (s : Str) :
    (∃ ns, parseDocument env .json s = .ok ns) ↔
    ∃ toks body, tokenize env false s = .ok toks ∧
      toks.filter (fun t => !Spec.blankTok t) = .start :: body ++ [.end_] ∧
      Spec.JGram .value body ∧ (body.head? = some .openCurly ∨ body.head? = some .openSquare) := by
  constructor
  · rintro ⟨ns, h⟩
    obtain ⟨toks, h1, h2, used, rfl, _⟩ := parseDocument_split h
    have hfl : decide (Syntax.json = Syntax.conf) = false := by decide
    rw [hfl] at h1
    obtain ⟨mid, hm, hne⟩ := (C07_tokenize_total env _ s).2 _ h1
    simp only [List.cons_append, List.cons.injEq, true_and] at hm
    have := (List.append_inj' hm rfl).1
    subst this
    rw [parse, Res.bind_eq_ok] at h2
    obtain ⟨⟨t, toks1⟩, h3, h2⟩ := h2
    have := nextToken_spec h3
    simp only [List.cons_append, List.cons.injEq] at this
    obtain ⟨rfl, rfl⟩ := this
    simp only at h2
    rw [Res.bind_eq_ok] at h2
    obtain ⟨⟨ws, t, toks2⟩, h4, h2⟩ := h2
    obtain ⟨g1, g2⟩ := nextCollect_json h4
    simp only at h2
    have fin : ∀ t, (t = .openCurly ∨ t = .openSquare) → sig (used ++ [.end_]) = t :: sig toks2 → JOk t →
        (parseValue env .json (fuelFor (.start :: used ++ [.end_])) t toks2 >>= fun (v, toks3) =>
          parseEnd .json false (ws ++ [v]) toks3) = .ok ns →
        ∃ toks body, tokenize env false s = .ok toks ∧
          toks.filter (fun t => !Spec.blankTok t) = .start :: body ++ [.end_] ∧
          Spec.JGram .value body ∧ (body.head? = some .openCurly ∨ body.head? = some .openSquare) := by
      intro t ht g1 g2 h
      rw [Res.bind_eq_ok] at h
      obtain ⟨⟨v, toks3⟩, h5, h⟩ := h
      obtain ⟨ws2, rest, h6, _⟩ := parseEnd_ok h
      obtain ⟨us, k1, k2⟩ := (jsound_all env _).value _ _ _ _ h5 g2
      obtain ⟨m1, _⟩ := nextCollect_json h6
      have hall : sig used ++ [.end_] = us ++ .end_ :: sig rest := by
        have : sig (used ++ [.end_]) = sig used ++ [.end_] := by simp [sig, Spec.blankTok]
        rw [← this, g1, k1]
        exact congrArg _ m1
      have hnil : sig rest = [] := by
        rcases List.eq_nil_or_concat (sig rest) with h | ⟨r, x, hr⟩
        · exact h
        · exfalso
          rw [hr] at hall
          have h1 : sig used = us ++ .end_ :: r := by
            have : sig used ++ [.end_] = (us ++ .end_ :: r) ++ [x] := by rw [hall]; simp
            exact (List.append_inj' this rfl).1
          have : Tok.end_ ∈ sig used := by rw [h1]; simp
          exact (hne .end_ (List.mem_filter.1 this).1).2 rfl
      rw [hnil] at hall
      have hused := (List.append_inj' hall rfl).1
      refine ⟨_, us, h1, ?_, k2, ?_⟩
      · have : (Tok.start :: used ++ [Tok.end_]).filter (fun t => !Spec.blankTok t) =
            .start :: sig used ++ [.end_] := by simp [sig, Spec.blankTok]
        rw [this, hused]
      · obtain ⟨t', us', rfl, _⟩ := JGram.head k2
        simp only [List.cons_append, List.cons.injEq] at k1
        rw [← k1.1]
        simpa using ht
    split at h2
    · exact fin _ (Or.inl rfl) g1 g2 h2
    · exact fin _ (Or.inr rfl) g1 g2 h2
    · simp at h2
  · rintro ⟨toks, body, h1, h2, h3, h4⟩
    have hg := tokenize_good h1
    obtain ⟨mid, rfl, hne⟩ := (C07_tokenize_total env _ s).2 _ h1
    have hsig : sig (mid ++ [.end_]) = body ++ [.end_] := by
      have : Tok.start :: sig (mid ++ [.end_]) = .start :: body ++ [.end_] := by
        rw [← h2]; simp [sig, Spec.blankTok]
      simpa using this
    have hfl : decide (Syntax.json = Syntax.conf) = false := by decide
    rw [parseDocument, hfl, h1]
    simp only [Res.ok_bind]
    have hinv : Inv env false (.start :: mid ++ [.end_]) (mid ++ [.end_]) :=
      ⟨hg.tail, ⟨mid, rfl, fun hm => (hne _ hm).2 rfl⟩, [.start], rfl⟩
    obtain ⟨t, us, rfl, k1, _⟩ := JGram.head h3
    obtain ⟨ws, ts, e1, e2⟩ := nextCollect_json_ok (by rw [hsig]; rfl) k1
    have hsat := nextCollect_sat (fl := .json) hinv True
    rw [e1] at hsat
    obtain ⟨hinv2, hlen⟩ := hsat
    have htot := (total_all env .json false (.start :: mid ++ [.end_])
      (fuelFor (.start :: mid ++ [.end_]))).value t ts hinv2 (by
        simp only [fuelFor, List.length_append, List.length_cons, List.length_nil] at hlen ⊢; omega)
    rcases jcomplete_all env h3 (fuelFor (.start :: mid ++ [.end_])) t ts [.end_] (by rw [e2]; rfl)
      with hx | ⟨v, toks', hx, hs⟩
    · rw [hx] at htot; exact htot.elim
    · obtain ⟨ws2, rest, e3, _⟩ := nextCollect_json_ok hs ⟨rfl, by simp, by simp⟩
      refine ⟨ws ++ [v] ++ ws2, ?_⟩
      rw [parse]
      simp only [List.cons_append, nextToken, Res.ok_bind, e1]
      simp only [List.cons_append] at hx
      simp only [List.head?_cons, Option.some.injEq] at h4
      rcases h4 with rfl | rfl
      · simp only [hx, Res.ok_bind, parseEnd, e3, Bool.false_eq_true, if_false]
      · simp only [hx, Res.ok_bind, parseEnd, e3, Bool.false_eq_true, if_false]

/-- The grammar only derives JSON tokens. -/
theorem JGram_tokens {k : Spec.JKind} {ts : List Tok} (h : Spec.JGram k ts) :
    ∀ t ∈ ts, Spec.jsonTok t = true := by
  induction h with
  | scalar => simp [Spec.jsonTok]
  | emptyObj => simp [Spec.jsonTok]
  | emptyArr => simp [Spec.jsonTok]
  | obj _ _ ih =>
    simp only [List.cons_append, List.mem_cons, List.mem_append, List.not_mem_nil, or_false]
    rintro t (rfl | h | rfl)
    · rfl
    · exact ih t h
    · rfl
  | arr _ ih =>
    simp only [List.cons_append, List.mem_cons, List.mem_append, List.not_mem_nil, or_false]
    rintro t (rfl | h | rfl)
    · rfl
    · exact ih t h
    · rfl
  | member _ ih =>
    simp only [List.mem_cons]
    rintro t (rfl | rfl | h)
    · rfl
    · rfl
    · exact ih t h
  | memberCons _ _ ih ih' =>
    simp only [List.cons_append, List.mem_cons, List.mem_append]
    rintro t (rfl | rfl | h | rfl | h)
    · rfl
    · rfl
    · exact ih t h
    · rfl
    · exact ih' t h
  | elem _ ih => exact ih
  | elemCons _ _ ih ih' =>
    simp only [List.mem_cons, List.mem_append]
    rintro t (h | rfl | h)
    · exact ih t h
    · rfl
    · exact ih' t h

/-- **C11.** A document accepted in JSON mode has no unquoted text (other than blanks), no
substitution, no comment and no `=` or `+=` anywhere. -/
theorem C11_no_extensions (env : Env) (s : Str) (ns : List Node)
    (h : parseDocument env .json s = .ok ns) :
    ∃ toks, tokenize env false s = .ok toks ∧ ∀ t ∈ toks,
      t ≠ .equals ∧ t ≠ .plusEquals ∧ (∀ o e l, t ≠ .subst o e l) ∧ (∀ b x l, t ≠ .comment b x l) ∧
      ∀ x l, t = .unquoted x l → ∀ c ∈ x, isWhitespace c = true := by
  obtain ⟨toks, body, h1, h2, h3, _⟩ := (C11_json_mode_exact env s).1 ⟨ns, h⟩
  refine ⟨toks, h1, ?_⟩
  intro t ht
  have hwf := (tokenize_good h1).wf t ht
  cases hb : Spec.blankTok t with
  | true =>
    cases t <;> simp_all [Spec.blankTok, WfTok]
  | false =>
    have hmem : t ∈ toks.filter (fun t => !Spec.blankTok t) := List.mem_filter.2 ⟨ht, by simp [hb]⟩
    rw [h2] at hmem
    simp only [List.cons_append, List.mem_cons, List.mem_append, List.not_mem_nil, or_false] at hmem
    rcases hmem with rfl | hmem | rfl
    · simp
    · have := JGram_tokens h3 t hmem
      cases t <;> simp_all [Spec.jsonTok]
    · simp

/-- JSON mode is not limited to JSON string literals: the tokenizer takes a triple-quoted string in
either mode. -/
theorem C11_triple_quotes_accepted (env : Env) :
    ∃ ns, parseDocument env .json (ch "[\"\"\"a\n\"\"\"]") = .ok ns := ⟨_, rfl⟩

example : ∃ ns, parseDocument exEnv .json (ch "{ \"a\" : [1, true] , \"b\" : {} }") = .ok ns := ⟨_, rfl⟩

example : parseDocument exEnv .json (ch "{ \"a\" : 1 , \"a\" : 2 }") = .err .parse := rfl

/-! ## C48: undefined behaviour -/

/-- Undefined behaviour of `parse` on the tokens of an input: only for a key that is no path, and not
in JSON mode. -/
theorem parse_sat (env : Env) (fl : Syntax) (allow : Bool) (s : Str) (toks : List Tok)
    (h : tokenize env allow s = .ok toks) :
    (parse env fl toks).Sat (fl = .conf ∧ BadKey env toks) (fun _ => True) := by
  have hg := tokenize_good h
  obtain ⟨mid, rfl, hne⟩ := (C07_tokenize_total env _ s).2 _ h
  have hinv : Inv env allow (.start :: mid ++ [.end_]) (mid ++ [.end_]) :=
    ⟨hg.tail, ⟨mid, rfl, fun hm => (hne _ hm).2 rfl⟩, [.start], rfl⟩
  rw [parse]
  have h0 : nextToken fl (.start :: mid ++ [.end_]) = .ok (.start, mid ++ [.end_]) := by
    cases fl <;> rfl
  rw [h0]
  simp only [Res.ok_bind]
  have hend : ∀ mc cs toks3, Inv env allow (.start :: mid ++ [.end_]) toks3 →
      (parseEnd fl mc cs toks3).Sat (fl = .conf ∧ BadKey env (.start :: mid ++ [.end_])) (fun _ => True) := by
    intro mc cs toks3 h3
    refine Res.Sat.bind (nextCollect_sat h3 _) ?_
    rintro ⟨ws, t, r⟩ _ _
    simp only
    split <;> trivial
  refine Res.Sat.bind (nextCollect_sat hinv _) ?_
  rintro ⟨ws, t, toks2⟩ _ ⟨h2, l2⟩
  simp only [List.length_append, List.length_cons, List.length_nil] at h2 l2 ⊢
  have htot := total_all env fl allow (.start :: mid ++ [.end_]) (fuelFor (.start :: mid ++ [.end_]))
  have hf : 8 * toks2.length + 3 ≤ fuelFor (.start :: mid ++ [.end_]) := by
    simp only [fuelFor, List.length_append, List.length_cons, List.length_nil]; omega
  split
  · refine Res.Sat.bind (htot.value _ _ h2 hf) ?_
    rintro ⟨v, toks3⟩ _ ⟨h3, _⟩
    exact hend _ _ _ h3
  · refine Res.Sat.bind (htot.value _ _ h2 hf) ?_
    rintro ⟨v, toks3⟩ _ ⟨h3, _⟩
    exact hend _ _ _ h3
  · split
    · trivial
    · refine Res.Sat.bind (htot.obj _ _ _ _ h2 (by
        simp only [fuelFor, List.length_append, List.length_cons, List.length_nil]; omega)) ?_
      rintro ⟨v, toks3⟩ _ h3
      exact hend _ _ _ h3

/-- Parsing always terminates: the model's recursion bound is never reached. -/
theorem C48_parse_terminates (env : Env) (fl : Syntax) (s : Str) : parseDocument env fl s ≠ .fuel := by
  intro h
  rw [parseDocument] at h
  cases ht : tokenize env (decide (fl = .conf)) s with
  | fuel => exact (C07_tokenize_total env _ s).1 ht
  | err e => rw [ht] at h; simp at h
  | ub => rw [ht] at h; simp at h
  | ok toks =>
    rw [ht] at h
    simp only [Res.ok_bind] at h
    have := parse_sat env fl _ s toks ht
    rw [h] at this
    exact this

/-- **C48 (partial), JSON.** In JSON mode the only undefined behaviour is in the tokenizer: a `\u`
escape `sscanf` cannot read, or a numeral outside the range of `int64_t`. -/
theorem C48_json_defined_partial (env : Env) (s : Str) (h : parseDocument env .json s = .ub) :
    UbCause env s := by
  rw [parseDocument] at h
  cases ht : tokenize env (decide (Syntax.json = .conf)) s with
  | fuel => rw [ht] at h; simp at h
  | err e => rw [ht] at h; simp at h
  | ub => exact tokenize_ub ht
  | ok toks =>
    rw [ht] at h
    simp only [Res.ok_bind] at h
    have := parse_sat env .json _ s toks ht
    rw [h] at this
    exact absurd this.1 (by simp)

/-- **C48 (partial), CONF.** Undefined behaviour needs one of these causes in the tokenizer, or a key
(a run of adjacent value and unquoted tokens) that is not a valid path expression. -/
theorem C48_conf_defined_partial (env : Env) (s : Str) (h : parseDocument env .conf s = .ub) :
    UbCause env s ∨
    ∃ toks a e b, tokenize env true s = .ok toks ∧ toks = a ++ e ++ b ∧ e ≠ [] ∧
      (∀ t ∈ e, (∃ v x l, t = .value v x l) ∨ ∃ x l, t = .unquoted x l) ∧
      PathParser.parsePathNodeExpression env .conf true e = .err .badPath := by
  rw [parseDocument] at h
  cases ht : tokenize env (decide (Syntax.conf = .conf)) s with
  | fuel => rw [ht] at h; simp at h
  | err e => rw [ht] at h; simp at h
  | ub => exact Or.inl (tokenize_ub ht)
  | ok toks =>
    rw [ht] at h
    simp only [Res.ok_bind] at h
    have := parse_sat env .conf _ s toks ht
    rw [h] at this
    obtain ⟨_, a, e, b, h1, h2, h3, h4⟩ := this
    exact Or.inr ⟨toks, a, e, b, ht, h1, h2, h3, h4⟩

/-- The code violates the unrestricted C48: an invalid path as a key dereferences the null origin
passed by `parse_key`. -/
theorem C48_bad_key_undefined (env : Env) : parseDocument env .conf (ch "a..b : x") = .ub := rfl

/-- The tokenizer step after `[`. -/
theorem bracket_ub (env : Env) (fl : Syntax) (r : Str)
    (h : ∀ allow, pullNext env allow (2 * r.length + 1) ⟨[], false⟩ r 1 = .ub) :
    parseDocument env fl ('[' :: r) = .ub := by
  have h2 : ∀ allow, tokenLoop env allow (r.length + 1) ⟨[], false⟩ r 1 = .ub := by
    intro allow; rw [tokenLoop, h allow]
  have h3 : ∀ allow, tokenize env allow ('[' :: r) = .ub := by
    intro allow
    have : tokenLoop env allow (('[' :: r).length + 1) Saver.init ('[' :: r) 1 =
        (tokenLoop env allow (r.length + 1) ⟨[], false⟩ r 1 >>= fun ts => .ok ([] ++ .openSquare :: ts)) := by
      cases allow <;> rfl
    rw [tokenize, this, h2]; rfl
  rw [parseDocument, h3]; rfl

/-- The code violates the unrestricted C48: unreadable digits after `\u` leave a variable
uninitialised (for every `sscanf` that stores nothing for `zzzz`, as the C standard says). -/
theorem C48_bad_escape_undefined (env : Env) (fl : Syntax) (h : env.scanHx (ch "zzzz") = none) :
    parseDocument env fl (ch "[\"\\uzzzz\"]") = .ub := by
  refine bracket_ub env fl _ ?_
  intro allow
  have hq : pullQuoted env (ch "\\uzzzz\"]") 1 = .ub := by
    simp [pullQuoted, quotedLoop, simpleEscape, cstr, h]
  have : pullNext env allow (2 * (ch "\"\\uzzzz\"]").length + 1) ⟨[], false⟩ (ch "\"\\uzzzz\"]") 1 =
      (pullQuoted env (ch "\\uzzzz\"]") 1 >>= fun (t, r', line') => .ok (t, ⟨[], false⟩, r', line')) := by
    cases allow <;> rfl
  rw [this, hq]; rfl

/-- The code violates the unrestricted C48: a numeral whose value does not fit into `int64_t` is
converted (for every reading of `1e30` as a double with no `int64_t` value). -/
theorem C48_large_numeral_undefined (env : Env) (fl : Syntax) (d : Dbl)
    (hd : env.parseDouble (ch "1e30") = some d) (h : env.doubleToI64 d = none) :
    parseDocument env fl (ch "[1e30]") = .ub := by
  refine bracket_ub env fl _ ?_
  intro allow
  have hq : pullNumber env '1' (ch "e30]") 1 = .ub := by
    simp [pullNumber, numberBody, numberChars, hd, newNumberDouble, h]
  have : pullNext env allow (2 * (ch "1e30]").length + 1) ⟨[], false⟩ (ch "1e30]") 1 =
      (pullNumber env '1' (ch "e30]") 1 >>= fun (t, r') => .ok (t, r', 1)) >>=
        fun (t, r', line') => .ok (t, ⟨[], false⟩, r', line') := by
    cases allow <;> rfl
  rw [this, hq]; rfl

end DocParser
end Hocon
