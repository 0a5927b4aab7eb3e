import Verif.Lemmas.IncludeMono
import Verif.Props.ConfigParserProps

/-!
# Properties of parse options, files and includes: C42, C43, C44, C56, C57, C58, C59
-/

set_option autoImplicit false

namespace Hocon

/-! ## C42: parse options -/

namespace ParseOptions

/-- **C42 (setters).** Every setter changes its own field to the given value and no other field. -/
theorem C42_setters {ι : Type} (o : ParseOptions ι) (s : SyntaxOpt) (d : Option Str) (b : Bool)
    (i : Option ι) :
    o.setSyntax s = { o with syn := s } ∧
    o.setOriginDescription d = { o with originDescription := d } ∧
    o.setAllowMissing b = { o with allowMissing := b } ∧
    o.setIncluder i = { o with includer := i } ∧
    o.withFallbackOriginDescription d =
      { o with originDescription := o.originDescription.or d } := by
  refine ⟨rfl, rfl, rfl, rfl, ?_⟩
  obtain ⟨a, c, e, f⟩ := o
  cases c <;> rfl

/-- **C42 (includers).** Prepending or appending an includer changes only the includer: to the given
one if there was none, otherwise to the combination in the right order; adding the includer that is
there already changes nothing, and a null includer throws. -/
theorem C42_add_includer {ι : Type} [DecidableEq ι] (wf : ι → ι → Res ι) (o : ParseOptions ι)
    (i : ι) :
    (o.includer = none → o.prependIncluder wf (some i) = .ok { o with includer := some i } ∧
      o.appendIncluder wf (some i) = .ok { o with includer := some i }) ∧
    (∀ j k, o.includer = some j → j ≠ i → wf i j = .ok k →
      o.prependIncluder wf (some i) = .ok { o with includer := some k }) ∧
    (∀ j k, o.includer = some j → j ≠ i → wf j i = .ok k →
      o.appendIncluder wf (some i) = .ok { o with includer := some k }) ∧
    (o.includer = some i → o.prependIncluder wf (some i) = .ok o ∧
      o.appendIncluder wf (some i) = .ok o) ∧
    o.prependIncluder wf none = .err .foreign ∧ o.appendIncluder wf none = .err .foreign := by
  obtain ⟨a, c, e, f⟩ := o
  refine ⟨?_, ?_, ?_, ?_, rfl, rfl⟩
  · rintro rfl
    exact ⟨by simp [prependIncluder, setIncluder], by simp [appendIncluder, setIncluder]⟩
  · rintro j k rfl hj hk
    simp [prependIncluder, setIncluder, hj, hk]
  · rintro j k rfl hj hk
    simp [appendIncluder, setIncluder, hj, hk]
  · rintro rfl
    exact ⟨by simp [prependIncluder], by simp [appendIncluder]⟩

example : (ParseOptions.new (ι := Nat)).prependIncluder (fun a b => .ok (10 * a + b)) (some 1) =
    .ok ⟨.conf, none, true, some 1⟩ := by decide
example : (ParseOptions.mk (ι := Nat) .json (some (ch "x")) false (some 2)).appendIncluder
    (fun a b => .ok (10 * a + b)) (some 1) = .ok ⟨.json, some (ch "x"), false, some 21⟩ := by decide

end ParseOptions

namespace Files

open Value Spec PathParser ConfigParser DocParser Tokenizer

/-- **C42 (documents, partial).** `config_document_factory::parse_string` accepts with JSON syntax
exactly the JSON texts (in the sense of C11) and depends on no other option. Only part of the claim:
`config::parse_string` does not use its options (`C42_options_ignored`). -/
theorem C42_document_syntax_partial {ι : Type} (env : Env) (s : Str) (o : ParseOptions ι) :
    ((∃ ns, documentParseString env s (o.setSyntax .json) = .ok ns) ↔
      ∃ toks body, tokenize env false s = .ok toks ∧
        toks.filter (fun t => !Spec.blankTok t) = .start :: body ++ [.end_] ∧
        Spec.JGram .value body ∧ (body.head? = some .openCurly ∨ body.head? = some .openSquare)) ∧
    (∀ o' : ParseOptions ι, o'.syn = o.syn →
      documentParseString env s o' = documentParseString env s o) := by
  refine ⟨C11_json_mode_exact env s, fun o' h => ?_⟩
  rw [documentParseString, documentParseString, h]

/-- **C42 (documents from files).** The syntax of a document read from a file is the one of the options; if they leave it
open it is JSON for a name that ends in `.json` and HOCON for every other one. -/
theorem C42_document_file_syntax {ι : Type} (env : Env) (fs : FS) (f : Str) (o : ParseOptions ι) :
    (o.syn = .json → documentParseFile env fs f o = DocParser.parseDocument env .json ((fs f).getD [])) ∧
    (o.syn = .conf → documentParseFile env fs f o = DocParser.parseDocument env .conf ((fs f).getD [])) ∧
    (o.syn = .unspecified → (∃ base, f = base ++ ch ".json") →
      documentParseFile env fs f o = DocParser.parseDocument env .json ((fs f).getD [])) ∧
    (o.syn = .unspecified → (¬ ∃ base, f = base ++ ch ".json") →
      documentParseFile env fs f o = DocParser.parseDocument env .conf ((fs f).getD [])) := by
  refine ⟨fun h => ?_, fun h => ?_, fun h hb => ?_, fun h hb => ?_⟩
  · rw [documentParseFile, h]; rfl
  · rw [documentParseFile, h]; rfl
  · obtain ⟨base, rfl⟩ := hb
    rw [documentParseFile, h, syntaxFromExtension, if_pos (List.isSuffixOf_iff_suffix.2 ⟨base, rfl⟩)]; rfl
  · have : ¬ (ch ".json").isSuffixOf f = true := by
      intro h
      rw [List.isSuffixOf_iff_suffix] at h
      obtain ⟨t, ht⟩ := h
      exact hb ⟨t, ht.symm⟩
    rw [documentParseFile, h, syntaxFromExtension, if_neg this]
    by_cases hc : (ch ".conf").isSuffixOf f = true
    · rw [if_pos hc]; rfl
    · rw [if_neg hc]; rfl

example : ∃ base, ch "a.json" = base ++ ch ".json" := ⟨ch "a", rfl⟩

/-- The code violates C42: the options of `config::parse_string` have no effect. -/
theorem C42_options_ignored {ι : Type} (env : Env) (fs : FS) (res : Value → Res Value) (fuel : Nat)
    (s : Str) (o o' : ParseOptions ι) :
    parseString env fs res fuel s o = parseString env fs res fuel s o' := rfl

/-- The code violates C42: with JSON syntax requested, `a : 1` is accepted by `parse_string`, though
it is not JSON. -/
theorem C42_json_accepts_conf {ι : Type} (fs : FS) (res : Value → Res Value) (fuel : Nat)
    (o : ParseOptions ι) :
    parseString exEnv fs res fuel (ch "a : 1") (o.setSyntax .json) =
      .ok (newObj [(ch "a", .scalar (.int 1 (ch "1")))]) ∧
    documentParseString exEnv (ch "a : 1") (o.setSyntax .json) = .err .parse :=
  ⟨rfl, rfl⟩

/-! ## C43: nested includes -/

/-- The file `f` includes the file `g`. -/
def Includes (env : Env) (fs : FS) (f g : Str) : Prop :=
  ∃ syn ns kind cs n name m, parseDocument env syn (contents fs f) = .ok ns ∧ hasInclL kind cs ns ∧
    ConfigParser.includeName env cs n = .ok (name, m) ∧ g ∈ targets (dirOf f) name

theorem loadFile_sat (bad : Prop) (env : Env) (fs : FS) (res : Value → Res Value) (rank : Str → Nat)
    (hrank : ∀ f g, Includes env fs f g → rank g < rank f)
    (hr : ∀ v, v.isObject = true → (res v).Sat bad (fun w => bad ∨ w.isObject = true))
    (hd : ∀ f syn, parseDocument env syn (contents fs f) = .ub → bad) (fuel : Nat) (f : Str)
    (hf : rank f < fuel) (syn : Syntax) (n : Nat) :
    (loadFile env fs res fuel f syn n).Sat bad (fun x => x.1.isObject = true) := by
  induction fuel generalizing f syn n with
  | zero => omega
  | succ fuel ih =>
    rw [loadFile]
    refine (parseText_sat bad env _ syn (contents fs f) n (hd f syn) ?_).bind ?_
    · intro ns hns kind cs hi
      refine includer_sat hr ?_
      intro n name m hn g hg s n'
      exact ih g (by have := hrank f g ⟨syn, ns, kind, cs, n, name, m, hns, hi, hn, hg⟩; omega) s n'
    · rintro ⟨v, m⟩ _ _
      exact (forceObject_sat bad v).bind fun w _ hw => hw

/-- **C43 (partial).** If the files can be ranked such that every file includes only files of lower
rank (so no file includes itself, directly or indirectly), parsing a file ends, with nesting at most
its rank: the result is the same for every larger bound. Only part of the claim: a cycle of includes
is not reported, see `C43_cycle_diverges`. -/
theorem C43_acyclic_partial (env : Env) (fs : FS) (res : Value → Res Value)
    (hr : ∀ v, res v ≠ .fuel) (rank : Str → Nat)
    (hrank : ∀ f g, Includes env fs f g → rank g < rank f) (f : Str) (syn : Syntax) (n : Nat) :
    ∃ r, r ≠ .fuel ∧ ∀ fuel, rank f < fuel → loadFile env fs res fuel f syn n = r := by
  have h := loadFile_sat True env fs res rank hrank
    (fun v _ => .of_ne (hr v) trivial fun _ => .inl trivial) (fun _ _ _ => trivial) (rank f + 1) f
    (by omega) syn n
  refine ⟨_, h.ne_fuel, fun fuel hf => ?_⟩
  obtain ⟨d, rfl⟩ : ∃ d, fuel = rank f + 1 + d := ⟨fuel - (rank f + 1), by omega⟩
  rcases loadFile_le_add env fs res (rank f + 1) d f syn n with h' | h'
  · exact absurd h' h.ne_fuel
  · exact h'.symm

/-- The files of the examples. -/
def exFS : FS := fun f =>
  if f = ch "d/main.conf" then some (ch "include \"x.conf\", k = 2")
  else if f = ch "d/x.conf" then some (ch "j = 1, k = 1")
  else none

/-- The hypothesis of `C43_acyclic_partial` holds for these files. -/
example : ∀ f g, Includes exEnv exFS f g →
    (fun f => if f = ch "d/main.conf" then 1 else 0) g <
      (fun f => if f = ch "d/main.conf" then 1 else 0) f := by
  rintro f g ⟨syn, ns, kind, cs, n, name, m, h1, h2, h3, h4⟩
  by_cases hf : f = ch "d/main.conf"
  · subst hf
    have hc : contents exFS (ch "d/main.conf") = ch "include \"x.conf\", k = 2" := by decide
    rw [hc] at h1
    cases syn with
    | json =>
      have : parseDocument exEnv .json (ch "include \"x.conf\", k = 2") = .err .parse := rfl
      rw [this] at h1
      cases h1
    | conf =>
      have : parseDocument exEnv .conf (ch "include \"x.conf\", k = 2") = .ok _ := rfl
      rw [this] at h1
      simp only [Res.ok.injEq] at h1
      subst h1
      simp [hasInclL, hasIncl] at h2
      obtain ⟨rfl, rfl⟩ := h2
      simp [ConfigParser.includeName, ConfigParser.getValue, toText, Scalar.transformToString] at h3
      obtain ⟨rfl, rfl⟩ := h3
      have : targets (dirOf (ch "d/main.conf")) (ch "x.conf") = [ch "d/x.conf"] := by decide
      rw [this] at h4
      rw [List.mem_singleton.1 h4]
      decide
  · exfalso
    by_cases hx : f = ch "d/x.conf"
    · subst hx
      have hc : contents exFS (ch "d/x.conf") = ch "j = 1, k = 1" := by decide
      rw [hc] at h1
      cases syn with
      | json =>
        have : parseDocument exEnv .json (ch "j = 1, k = 1") = .err .parse := rfl
        rw [this] at h1
        cases h1
      | conf =>
        have : parseDocument exEnv .conf (ch "j = 1, k = 1") = .ok _ := rfl
        rw [this] at h1
        simp only [Res.ok.injEq] at h1
        subst h1
        simp [hasInclL, hasIncl] at h2
    · have hc : contents exFS f = [] := by simp [contents, exFS, hf, hx]
      rw [hc] at h1
      cases syn with
      | json => cases h1
      | conf =>
        have : parseDocument exEnv .conf [] = .ok _ := rfl
        rw [this] at h1
        simp only [Res.ok.injEq] at h1
        subst h1
        simp [hasInclL, hasIncl] at h2

/-- A file that includes itself. -/
def selfFS : FS := fun f => if f = ch "a.conf" then some (ch "include \"a.conf\"") else none

/-- The code violates C43: a file that includes itself is included again and again; no bound on the
nesting is ever reached. -/
theorem C43_cycle_diverges (env : Env) (res : Value → Res Value) (fuel n : Nat) :
    loadFile env selfFS res fuel (ch "a.conf") .conf n = .fuel := by
  induction fuel generalizing n with
  | zero => rfl
  | succ fuel ih =>
    have key : ∀ load : Loader, (∀ n, load (ch "a.conf") .conf n = .fuel) →
        parseText env (includer load res []) .conf (ch "include \"a.conf\"") n = .fuel := by
      intro load h
      have hd : parseDocument env .conf (ch "include \"a.conf\"") = .ok _ := rfl
      rw [parseText, hd, Res.ok_bind]
      have e1 : syntaxFromExtension (ch "a.conf") = .conf := by decide
      simp [parseRoot, ConfigParser.parseValue, Node.isComplex, parseFields, ConfigParser.parseInclude,
        callIncluder, ConfigParser.includeName, ConfigParser.getValue, includer, Files.includeName, toText,
        Scalar.transformToString, e1, relativeTo, fixupSyntax, h]
    have := key (loadFile env selfFS res fuel) (fun n => ih n)
    rw [loadFile]
    have e1 : dirOf (ch "a.conf") = [] := by decide
    have e2 : contents selfFS (ch "a.conf") = ch "include \"a.conf\"" := by decide
    rw [e1, e2, this]
    rfl

/-! ## C59: defined behaviour when values are built -/

/-- `loadFile` with an exception in place of the end of fuel. -/
def loadFileE (env : Env) (fs : FS) (res : Value → Res Value) : Nat → Loader
  | 0, _, _, _ => .err .bug
  | fuel + 1, f, syn, n => do
    let (v, n) ← parseText env (includer (loadFileE env fs res fuel) res (dirOf f)) syn
      (contents fs f) n
    let v ← forceObject v
    .ok (v, n)

theorem loadFile_leE (env : Env) (fs : FS) (res : Value → Res Value) (fuel : Nat) (f : Str)
    (s : Syntax) (n : Nat) : (loadFile env fs res fuel f s n).Le (loadFileE env fs res fuel f s n) := by
  induction fuel generalizing f s n with
  | zero => exact .inl rfl
  | succ fuel ih => exact (parseText_le (includer_le ih res _) s _ n).bind fun _ => .rfl

theorem loadFileE_sat (env : Env) (fs : FS) (res : Value → Res Value)
    (hr : ∀ v, v.isObject = true → (res v).Sat False (fun w => False ∨ w.isObject = true))
    (hd : ∀ f syn, parseDocument env syn (contents fs f) ≠ .ub) (fuel : Nat) (f : Str) (syn : Syntax)
    (n : Nat) : (loadFileE env fs res fuel f syn n).Sat False (fun x => x.1.isObject = true) := by
  induction fuel generalizing f syn n with
  | zero => trivial
  | succ fuel ih =>
    rw [loadFileE]
    refine (parseText_sat False env _ syn (contents fs f) n (fun h => hd f syn h) ?_).bind ?_
    · intro ns hns kind cs hi
      exact includer_sat hr fun _ _ _ _ g _ s n' => ih g s n'
    · rintro ⟨v, m⟩ _ _
      exact (forceObject_sat False v).bind fun w _ hw => hw

/-- The resolver is defined on objects and returns objects. -/
def ResObj (res : Value → Res Value) : Prop :=
  ∀ v, v.isObject = true → res v ≠ .ub ∧ res v ≠ .fuel ∧ ∀ w, res v = .ok w → w.isObject = true

theorem ResObj.sat {res : Value → Res Value} (h : ResObj res) (v : Value) (hv : v.isObject = true) :
    (res v).Sat False (fun w => False ∨ w.isObject = true) := by
  obtain ⟨h1, h2, h3⟩ := h v hv
  cases hr : res v with
  | ok w => exact .inr (h3 w hr)
  | err e => trivial
  | ub => exact h1 hr
  | fuel => exact h2 hr

/-- **C59.** If turning the text and the files into syntax trees has no undefined behaviour, then
turning them into values has none either (in `parse_string` and `parse_file_any_syntax`), whatever is
included from where. -/
theorem C59_values_defined {ι : Type} (env : Env) (fs : FS) (res : Value → Res Value)
    (hr : ResObj res) (hd : ∀ f syn, parseDocument env syn (contents fs f) ≠ .ub) (fuel : Nat)
    (o : ParseOptions ι) :
    (∀ s, parseDocument env .conf s ≠ .ub → parseString env fs res fuel s o ≠ .ub) ∧
    (∀ name, parseFileAnySyntax env fs res fuel name o ≠ .ub) := by
  have hle := loadFile_leE env fs res fuel
  have hsat := loadFileE_sat env fs res hr.sat hd fuel
  constructor
  · intro s hs h
    have h1 : (parseText env (includer (loadFileE env fs res fuel) res []) .conf s 0).Sat False
        (fun _ => True) :=
      parseText_sat False env _ .conf s 0 (fun h => hs h) fun ns _ kind cs _ =>
        includer_sat hr.sat fun _ _ _ _ g _ s n' => hsat g s n'
    have h2 : (parseText env (includer (loadFileE env fs res fuel) res []) .conf s 0 >>=
        fun x => forceObject x.1).Sat False (fun _ => True) :=
      h1.bind fun x _ _ => (forceObject_sat False x.1).mono fun _ _ _ => trivial
    have h3 : (parseString env fs res fuel s o).Le
        (parseText env (includer (loadFileE env fs res fuel) res []) .conf s 0 >>=
          fun x => forceObject x.1) :=
      (parseText_le (includer_le hle res []) .conf s 0).bind fun _ => .rfl
    rcases h3 with h3 | h3
    · rw [h] at h3; cases h3
    · rw [← h3, h] at h2
      exact h2
  · intro name h
    have h2 : (if syntaxFromExtension name ≠ .unspecified then
        loadFileE env fs res fuel name (fixupSyntax o.syn (syntaxFromExtension name)) 0
      else
        mergeFound o.syn o.allowMissing (loadFileE env fs res fuel (name ++ ch ".conf") .conf)
          (loadFileE env fs res fuel (name ++ ch ".json") .json) 0).Sat False
            (fun x => x.1.isObject = true) := by
      split
      · exact hsat _ _ _
      · exact mergeFound_sat (hsat _ _) (hsat _ _) 0
    have h3 := (Res.Le.ite (c := syntaxFromExtension name ≠ .unspecified)
      (hle name (fixupSyntax o.syn (syntaxFromExtension name)) 0)
      (mergeFound_le (s := o.syn) (am := o.allowMissing) (hle (name ++ ch ".conf") .conf)
        (hle (name ++ ch ".json") .json) 0))
    rw [parseFileAnySyntax] at h
    rcases h3 with h3 | h3
    · rw [h3] at h; cases h
    · rw [h3] at h
      revert h h2
      generalize (ite (syntaxFromExtension name ≠ .unspecified)
        (loadFileE env fs res fuel name (fixupSyntax o.syn (syntaxFromExtension name)) 0)
        (mergeFound o.syn o.allowMissing (loadFileE env fs res fuel (name ++ ch ".conf") .conf)
          (loadFileE env fs res fuel (name ++ ch ".json") .json) 0)) = r
      intro h h2
      cases r with
      | ok a => cases h
      | err e => cases h
      | ub => exact h2
      | fuel => cases h

example : (loadFile exEnv exFS .ok 2 (ch "d/main.conf") .conf 0 >>= fun x =>
    Res.ok [look x.1 [ch "j"], look x.1 [ch "k"]]) =
    .ok [some (.leaf (.scalar (.int 1 (ch "1")))), some (.leaf (.scalar (.int 2 (ch "2"))))] := by decide +kernel

example : ResObj .ok := fun v h => ⟨by simp, by simp, by rintro w ⟨⟩; exact h⟩


/-! ## C44: files without extension -/

theorem through_two {c j r : Value} (hc : c.Plain) (hj : j.Plain) (h : withFallback c j = .ok r)
    (p : Path) : Through [c, j] p (look r p) := by
  rw [(withFallback_plain c j hc hj).1] at h
  simp only [Res.ok.injEq] at h
  subst h
  have base : Through [j] p (look j p) := by
    cases hl : look j p with
    | some s => exact .here hl
    | none =>
      by_cases hh : Hidden j p
      · exact .hidden hl hh
      · exact .lower hl hh (.bottom p)
  obtain ⟨c1, c2, c3⟩ := pmerge_look p c j hc hj
  cases hl : look c p with
  | some s => rw [c1 s hl]; exact .here hl
  | none =>
    by_cases hh : Hidden c p
    · rw [c2 hl hh]; exact .hidden hl hh
    · rw [c3 hl hh]; exact .lower hl hh base

/-- **C44 (partial).** A name without extension, with the syntax left open: if both files parse, to
values without substitutions, one sees at every path what `base.conf` shows, unless it shows nothing
there, and then what `base.json` shows. This holds whether or not missing files are allowed. Only part
of the claim, see the violations below. -/
theorem C44_both_partial {ι : Type} (env : Env) (fs : FS) (res : Value → Res Value) (fuel : Nat)
    (base : Str) (o : ParseOptions ι) (c j : Value) (m m' : Nat)
    (hb : syntaxFromExtension base = .unspecified) (ho : o.syn = .unspecified)
    (hc : loadFile env fs res fuel (base ++ ch ".conf") .conf 0 = .ok (c, m))
    (hj : loadFile env fs res fuel (base ++ ch ".json") .json m = .ok (j, m'))
    (hcp : c.Plain) (hjp : j.Plain) :
    ∃ r, parseFileAnySyntax env fs res fuel base o = .ok r ∧ r.Plain ∧
      ∀ p, Through [c, j] p (look r p) := by
  obtain ⟨h1, h2⟩ := withFallback_plain c j hcp hjp
  refine ⟨pmerge c j, ?_, h2, through_two hcp hjp h1⟩
  simp [parseFileAnySyntax, hb, mergeFound, ho, hc, tryParse, hj, h1]

/-- **C44 (JSON only, partial).** If `base.conf` does not exist and `base.json` parses, the result
is that of `base.json`. -/
theorem C44_json_only_partial {ι : Type} (env : Env) (fs : FS) (res : Value → Res Value) (fuel : Nat)
    (base : Str) (o : ParseOptions ι) (j : Value) (m : Nat)
    (hb : syntaxFromExtension base = .unspecified) (ho : o.syn = .unspecified)
    (hc : fs (base ++ ch ".conf") = none)
    (hj : loadFile env fs res (fuel + 1) (base ++ ch ".json") .json 0 = .ok (j, m)) (hjp : j.Plain) :
    parseFileAnySyntax env fs res (fuel + 1) base o = .ok j := by
  have he : loadFile env fs res (fuel + 1) (base ++ ch ".conf") .conf 0 = .ok (Value.empty, 0) := by
    have e : contents fs (base ++ ch ".conf") = [] := by rw [contents, hc]; rfl
    rw [loadFile, e]
    rfl
  have hjo : j.isObject = true := by
    have hj' := hj
    simp only [loadFile, Res.bind_eq_ok] at hj'
    obtain ⟨⟨v, k⟩, _, w, h4, h5⟩ := hj'
    simp only [Res.ok.injEq, Prod.mk.injEq] at h5
    have := forceObject_sat False v
    rw [h4] at this
    exact h5.1 ▸ this
  simp [parseFileAnySyntax, hb, mergeFound, ho, he, tryParse, hj, C18_empty_left j hjp hjo]

/-- **C44 (`.conf` only, partial).** If `base.json` does not exist, `base.conf` parses and missing
files are allowed, the result is that of `base.conf`. -/
theorem C44_conf_only_partial {ι : Type} (env : Env) (fs : FS) (res : Value → Res Value) (fuel : Nat)
    (base : Str) (o : ParseOptions ι) (c : Value) (m : Nat)
    (hb : syntaxFromExtension base = .unspecified) (ho : o.syn = .unspecified)
    (hm : o.allowMissing = true) (hj : fs (base ++ ch ".json") = none)
    (hc : loadFile env fs res (fuel + 1) (base ++ ch ".conf") .conf 0 = .ok (c, m)) :
    parseFileAnySyntax env fs res (fuel + 1) base o = .ok c := by
  have he : ∀ n, loadFile env fs res (fuel + 1) (base ++ ch ".json") .json n = .err .parse := by
    intro n
    have e : contents fs (base ++ ch ".json") = [] := by rw [contents, hj]; rfl
    rw [loadFile, e]
    rfl
  simp [parseFileAnySyntax, hb, mergeFound, ho, hc, tryParse, he, hm, caught]

/-- **C44 (nothing there).** With the default options, nothing but missing files gives the empty config. -/
theorem C44_default_missing (env : Env) (fs : FS) (res : Value → Res Value) (fuel : Nat) (base : Str)
    (hb : syntaxFromExtension base = .unspecified) (hc : fs (base ++ ch ".conf") = none)
    (hj : fs (base ++ ch ".json") = none) :
    parseFileAnySyntax env fs res (fuel + 1) base (.defaults (ι := Unit)) = .ok (newObj []) := by
  have he : ∀ n, loadFile env fs res (fuel + 1) (base ++ ch ".json") .json n = .err .parse := by
    intro n
    have e : contents fs (base ++ ch ".json") = [] := by rw [contents, hj]; rfl
    rw [loadFile, e]
    rfl
  have hk : loadFile env fs res (fuel + 1) (base ++ ch ".conf") .conf 0 = .ok (newObj [], 0) := by
    have e : contents fs (base ++ ch ".conf") = [] := by rw [contents, hc]; rfl
    rw [loadFile, e]
    rfl
  exact C44_conf_only_partial env fs res fuel base _ _ _ hb rfl rfl hj hk

/-- **C44 (other exceptions).** An exception that is not one of the library's, thrown while one of the two files is parsed,
is not swallowed. -/
theorem C44_foreign_comes_out {ι : Type} (env : Env) (fs : FS) (res : Value → Res Value) (fuel : Nat)
    (base : Str) (o : ParseOptions ι) (hb : syntaxFromExtension base = .unspecified) (ho : o.syn = .unspecified)
    (h : loadFile env fs res fuel (base ++ ch ".conf") .conf 0 = .err .foreign ∨
      ∃ c m, loadFile env fs res fuel (base ++ ch ".conf") .conf 0 = .ok (c, m) ∧
        loadFile env fs res fuel (base ++ ch ".json") .json m = .err .foreign) :
    parseFileAnySyntax env fs res fuel base o = .err .foreign := by
  rcases h with h | ⟨c, m, hc, h⟩
  · simp [parseFileAnySyntax, hb, mergeFound, ho, h, tryParse, caught]
  · simp [parseFileAnySyntax, hb, mergeFound, ho, hc, h, tryParse, caught]

/-- Such a case: resolving an included file throws. -/
example : loadFile exEnv (fun f => if f = ch "a.conf" then some (ch "include file(\"b\")") else none) (fun _ => .err .foreign) 2
    (ch "a.conf") .conf 0 = .err .foreign := by decide +kernel

/-- The code violates C44: if only `base.conf` exists and missing files are not allowed,
`parse_file_any_syntax` throws although `base.conf` parses. -/
theorem C44_conf_alone_refused {ι : Type} (env : Env) (fs : FS) (res : Value → Res Value) (fuel : Nat)
    (base : Str) (o : ParseOptions ι) (c : Value) (m : Nat)
    (hb : syntaxFromExtension base = .unspecified) (ho : o.syn = .unspecified)
    (hm : o.allowMissing = false) (hj : fs (base ++ ch ".json") = none)
    (hc : loadFile env fs res (fuel + 1) (base ++ ch ".conf") .conf 0 = .ok (c, m)) :
    parseFileAnySyntax env fs res (fuel + 1) base o = .err .config := by
  have he : ∀ n, loadFile env fs res (fuel + 1) (base ++ ch ".json") .json n = .err .parse := by
    intro n
    have e : contents fs (base ++ ch ".json") = [] := by rw [contents, hj]; rfl
    rw [loadFile, e]
    rfl
  simp [parseFileAnySyntax, hb, mergeFound, ho, hc, tryParse, he, hm, caught]

/-- The code violates C44: a syntax error in `base.conf` goes unnoticed; the result is that of
`base.json`, or the empty object. -/
theorem C44_malformed_conf_ignored {ι : Type} (o : ParseOptions ι) (ho : o.syn = .unspecified)
    (hm : o.allowMissing = true) :
    parseFileAnySyntax exEnv (fun f => if f = ch "a.conf" then some (ch "x = }") else none) .ok 1
      (ch "a") o = .ok (newObj []) := by
  have h1 : loadFile exEnv (fun f => if f = ch "a.conf" then some (ch "x = }") else none) .ok 1
      (ch "a.conf") .conf 0 = .err .parse := by decide +kernel
  have h2 : loadFile exEnv (fun f => if f = ch "a.conf" then some (ch "x = }") else none) .ok 1
      (ch "a.json") .json 0 = .err .parse := by decide +kernel
  have h3 : syntaxFromExtension (ch "a") = .unspecified := by decide
  simp only [List.cons_append, List.nil_append, parseFileAnySyntax, h3, mergeFound, ho, h1, tryParse, caught, hm]
  rfl

/-- The code violates C44: a missing file with an extension is accepted as an empty file even if
missing files are not allowed. -/
theorem C44_missing_accepted {ι : Type} (env : Env) (res : Value → Res Value) (fuel : Nat) (base : Str)
    (o : ParseOptions ι) (ho : o.syn ≠ .json) :
    parseFileAnySyntax env (fun _ => none) res (fuel + 1) (base ++ ch ".conf") o = .ok (newObj []) := by
  have h1 : syntaxFromExtension (base ++ ch ".conf") = .conf := by
    have : ¬ (ch ".json").isSuffixOf (base ++ ch ".conf") = true := by
      intro h
      rw [List.isSuffixOf_iff_suffix] at h
      obtain ⟨t, ht⟩ := h
      have := congrArg List.reverse ht
      simp at this
    rw [syntaxFromExtension, if_neg this, if_pos (List.isSuffixOf_iff_suffix.2 ⟨base, rfl⟩)]
  have h2 : fixupSyntax o.syn .conf = .conf := by
    cases hs : o.syn with
    | json => exact absurd hs ho
    | _ => rfl
  rw [parseFileAnySyntax, if_pos (by rw [h1]; decide), h1, h2]
  rfl

/-- The files of the examples for C44. -/
def bothFS : FS := fun f =>
  if f = ch "a.conf" then some (ch "x = 1, o { p = 1 }")
  else if f = ch "a.json" then some (ch "{\"x\" : 2, \"o\" : {\"q\" : 2}}")
  else none

example : (parseFileAnySyntax exEnv bothFS .ok 1 (ch "a") (.defaults (ι := Unit)) >>= fun r =>
    Res.ok [look r [ch "x"], look r [ch "o", ch "p"], look r [ch "o", ch "q"]]) =
    .ok [some (.leaf (.scalar (.int 1 (ch "1")))), some (.leaf (.scalar (.int 1 (ch "1")))),
      some (.leaf (.scalar (.int 2 (ch "2"))))] := by decide +kernel

end Files

/-! ## C56: an include is a layer -/

namespace ConfigParser

open Value Spec Tokenizer

/-- What the members of an object contribute, in order: a field its value nested under its path, an
include the included object. -/
inductive Contributes (env : Env) (inc : Includer) (arr : Nat) (outer : Option Path) :
    List Node → List Value → Prop where
  | nil : Contributes env inc arr outer [] []
  | field {ds cs : List Node} {p : Path} {ts : List Tok} {v : Value} {n m : Nat} {ls : List Value} :
      Node.fieldPath ds = .ok (p, ts) →
      parseFieldValue env inc false arr (some (pushPath outer p)) ds n = .ok (v, m) →
      Contributes env inc arr outer cs ls →
      Contributes env inc arr outer (.field ds :: cs) (nest p v :: ls)
  | incl {ds cs : List Node} {kind : IncludeKind} {w : Value} {n m : Nat} {ls : List Value} :
      callIncluder env inc kind ds n = .ok (w, m) →
      Contributes env inc arr outer cs ls →
      Contributes env inc arr outer (.incl ds kind :: cs) (w :: ls)
  | other {c : Node} {cs : List Node} {ls : List Value} :
      (∀ ds, c ≠ .field ds) → (∀ ds k, c ≠ .incl ds k) → Contributes env inc arr outer cs ls →
      Contributes env inc arr outer (c :: cs) ls

/-- Storing all fields of an object puts that object on top of what was there. -/
theorem putAll_layer {fs gs fs' : Fields} (hf : PlainF fs) (hg : PlainF gs)
    (h : putAll fs gs = .ok fs') (below : List Value)
    (hb : ∀ q, q ≠ [] → Through below q (look (newObj fs) q)) :
    ∀ q, q ≠ [] → Through (.obj gs true false :: below) q (look (newObj fs') q) := by
  obtain ⟨_, h2⟩ := putAll_plain gs fs fs' hf hg h
  intro q hq
  cases q with
  | nil => exact absurd rfl hq
  | cons k q =>
    have hb' := hb (k :: q) (by simp)
    have eo : ∀ gs : Fields, ∀ r i, look (.obj gs r i) (k :: q) = (findKey gs k).bind fun v => look v q := by
      intro gs r i; simp [look_cons, child_obj]
    rw [newObj, eo] at hb' ⊢
    have h2k := h2 k
    cases hgk : findKey gs k with
    | none =>
      rw [hgk] at h2k
      simp only at h2k
      rw [h2k]
      exact .lower (by rw [eo, hgk]; rfl) (not_hidden_of_none rfl (by simp [child_obj, hgk])) hb'
    | some v =>
      have hhid : Hidden (.obj gs true false) (k :: q) ↔ Hidden v q :=
        hidden_cons (w := v) rfl (by simp [child_obj, hgk])
      have hlk : look (.obj gs true false) (k :: q) = look v q := by rw [eo, hgk]; rfl
      rw [hgk] at h2k
      cases hfk : findKey fs k with
      | none =>
        rw [hfk] at h2k hb'
        simp only at h2k
        rw [h2k]
        simp only [Option.bind_some]
        cases hl : look v q with
        | some s => exact .here (by rw [hlk, hl])
        | none =>
          by_cases hh : Hidden v q
          · exact .hidden (by rw [hlk, hl]) (hhid.2 hh)
          · exact .lower (by rw [hlk, hl]) (fun hx => hh (hhid.1 hx)) hb'
      | some w =>
        rw [hfk] at h2k hb'
        simp only [Option.bind_some] at h2k hb'
        rw [h2k]
        simp only [Option.bind_some]
        obtain ⟨c1, c2, c3⟩ := pmerge_look q v w (hg.find hgk) (hf.find hfk)
        cases hl : look v q with
        | some s => rw [c1 s hl]; exact .here (by rw [hlk, hl])
        | none =>
          by_cases hh : Hidden v q
          · rw [c2 hl hh]; exact .hidden (by rw [hlk, hl]) (hhid.2 hh)
          · rw [c3 hl hh]; exact .lower (by rw [hlk, hl]) (fun hx => hh (hhid.1 hx)) hb'

theorem parseInclude_call (env : Env) (inc : Includer) (hi : IncPlain inc) (arr : Nat)
    (k : IncludeKind) (ds : List Node) (fs fs' : Fields) (n m : Nat)
    (h : parseInclude env inc arr k ds fs n = .ok (fs', m)) :
    ∃ gs, PlainF gs ∧ putAll fs gs = .ok fs' ∧
      callIncluder env inc k ds n = .ok (.obj gs true false, m) := by
  simp only [parseInclude, Res.bind_eq_ok] at h
  obtain ⟨⟨o, n1⟩, h1, gs', h2, h4⟩ := h
  simp only [Res.ok.injEq, Prod.mk.injEq] at h4
  obtain ⟨rfl, rfl⟩ := h4
  have key : ∃ name n', inc.file name n' = .ok (o, n1) ∨ inc.heuristic name n' = .ok (o, n1) := by
    cases k with
    | file =>
      simp only [callIncluder, Res.bind_eq_ok] at h1
      obtain ⟨⟨name, n'⟩, _, h1⟩ := h1
      exact ⟨name, n', .inl h1⟩
    | heuristic =>
      simp only [callIncluder, Res.bind_eq_ok] at h1
      obtain ⟨⟨name, n'⟩, _, h1⟩ := h1
      exact ⟨name, n', .inr h1⟩
    | _ => cases h1
  obtain ⟨name, n', hn⟩ := key
  obtain ⟨hp, ho, hc⟩ := hi name n' o n1 hn
  simp only at h2
  cases o with
  | obj gs r i =>
    obtain ⟨rfl, hg⟩ := plain_obj.1 hp
    simp only [closed] at hc
    subst hc
    rw [putIncluded] at h2
    split at h2
    · cases h2
    · exact ⟨gs, hg, h2, h1⟩
  | dmo st => exact absurd hp.res (by simp [resolved])
  | _ => simp [isObject] at ho

theorem parseFields_contributes (env : Env) (inc : Includer) (hi : IncPlain inc) (arr : Nat)
    (outer : Option Path) (cs : List Node) (fs fs' : Fields) (n m : Nat) (below : List Value)
    (hs : staticL true cs = true) (hf : PlainF fs)
    (hb : ∀ q, q ≠ [] → Through below q (look (newObj fs) q))
    (h : parseFields env inc false arr outer cs fs n = .ok (fs', m)) :
    ∃ ls, Contributes env inc arr outer cs ls ∧
      ∀ q, q ≠ [] → Through (ls.reverse ++ below) q (look (newObj fs') q) := by
  induction cs generalizing fs n below with
  | nil =>
    simp only [parseFields, Res.ok.injEq, Prod.mk.injEq] at h
    exact ⟨[], .nil, h.1 ▸ hb⟩
  | cons c cs ih =>
    simp only [staticL, Bool.and_eq_true] at hs
    by_cases h1 : ∃ ds, c = .field ds
    · obtain ⟨ds, rfl⟩ := h1
      simp only [static, Bool.and_eq_true, Bool.not_eq_true'] at hs
      rw [parseFields_field _ _ _ _ _ _ _ _ _ hs.1.1] at h
      simp only [Res.bind_eq_ok] at h
      obtain ⟨⟨p, ts⟩, e1, ⟨v, n1⟩, e2, gs, e3, e4⟩ := h
      have hv := parseFieldValue_plain env inc (fun _ => hi) false arr _ ds n n1 v hs.1.2 e2
      obtain ⟨ls, a1, a3⟩ := ih gs n1 (nest p v :: below) hs.2 (putField_plain hf hv e3)
        (putField_layer hf hv e3 below hb) e4
      exact ⟨nest p v :: ls, .field e1 e2 a1, by simpa using a3⟩
    · by_cases h2 : ∃ ds k, c = .incl ds k
      · obtain ⟨ds, k, rfl⟩ := h2
        simp only [parseFields, Bool.false_eq_true, if_false, Res.bind_eq_ok] at h
        obtain ⟨⟨gs', n1⟩, e1, e2⟩ := h
        obtain ⟨gs, hg, e3, e4⟩ := parseInclude_call env inc hi arr k ds fs gs' n n1 e1
        obtain ⟨ls, a1, a3⟩ := ih gs' n1 (.obj gs true false :: below) hs.2
          (putAll_plain gs fs gs' hf hg e3).1 (putAll_layer hf hg e3 below hb) e2
        exact ⟨.obj gs true false :: ls, .incl e4 a1, by simpa using a3⟩
      · have e1 : ∀ ds, c ≠ .field ds := fun ds e => h1 ⟨ds, e⟩
        have e2 : ∀ ds k, c ≠ .incl ds k := fun ds k e => h2 ⟨ds, k, e⟩
        rw [parseFields_skip _ _ _ _ _ _ _ _ _ e1 e2] at h
        obtain ⟨ls, a1, a3⟩ := ih fs n below hs.2 hf hb h
        exact ⟨ls, .other e1 e2 a1, a3⟩

/-- **C56.** In an object without substitutions, with includes of such objects, the fields of an
included object act as if they were written at the place of the include statement: they are merged
over what is written before it, and what is written after it is merged over them. -/
theorem C56_include_is_layer (env : Env) (inc : Includer) (hi : IncPlain inc) (arr : Nat)
    (outer : Option Path) (cs : List Node) (n m : Nat) (o : Value)
    (hs : static true (.object cs) = true)
    (h : parseValue env inc false arr outer (.object cs) n = .ok (o, m)) :
    ∃ ls, Contributes env inc arr outer cs ls ∧ o.Plain ∧ o.isObject = true ∧
      ∀ q, q ≠ [] → Through ls.reverse q (look o q) := by
  have hp := parseValue_plain env inc (fun _ => hi) false arr outer (.object cs) n m o hs h
  simp only [parseValue, Res.bind_eq_ok] at h
  obtain ⟨⟨fs, n'⟩, h1, h2⟩ := h
  simp only [Res.ok.injEq, Prod.mk.injEq] at h2
  rw [static] at hs
  obtain ⟨ls, a1, a3⟩ := parseFields_contributes env inc hi arr outer cs [] fs n n' [] hs
    ⟨by simp [keysOf], by simp⟩ (by
      intro q hq
      cases q with
      | nil => exact absurd rfl hq
      | cons k q =>
        have : look (newObj []) (k :: q) = none := by simp [look_cons, newObj, child_obj]
        rw [this]; exact .bottom _) h1
  exact ⟨ls, a1, hp, h2.1 ▸ rfl, by simpa [h2.1] using a3⟩

/-- An includer for the examples: every file contains `j = 1, k = 1`. -/
def exInc : Includer :=
  let o := newObj [(ch "j", exInt 1), (ch "k", exInt 1)]
  ⟨fun _ n => .ok (o, n), fun _ n => .ok (o, n)⟩

example : IncPlain exInc := by
  intro name n v m h
  have : v = newObj [(ch "j", exInt 1), (ch "k", exInt 1)] := by
    rcases h with h | h <;>
    · simp only [exInc, Res.ok.injEq, Prod.mk.injEq] at h
      exact h.1.symm
  subst this
  exact ⟨⟨by simp [newObj, Wf, WfF, keysOf, resolvedFields, exInt, resolved], by decide⟩, rfl, rfl⟩

example : (parseText exEnv exInc .conf (ch "j = 0, include \"x\", k = 2") 0 >>= fun x =>
    Res.ok [look x.1 [ch "j"], look x.1 [ch "k"]]) =
    .ok [some (.leaf (exInt 1)), some (.leaf (.scalar (.int 2 (ch "2"))))] := by decide +kernel

end ConfigParser

namespace Files

open Value Spec PathParser ConfigParser DocParser Tokenizer

/-! ## C57: substitutions in included files -/

theorem putAll_nil (gs fs : Fields) (hg : (keysOf gs).Nodup) (hd : ∀ k ∈ keysOf gs, k ∉ keysOf fs) :
    putAll fs gs = .ok (fs ++ gs) := by
  induction gs generalizing fs with
  | nil => simp [putAll]
  | cons g gs ih =>
    obtain ⟨k, v⟩ := g
    have hk : k ∉ keysOf fs := hd k (by simp [keysOf])
    have hnd : (k :: keysOf gs).Nodup := hg
    rw [List.nodup_cons] at hnd
    rw [putAll, putMerged, findKey_none.2 hk]
    simp only [Res.ok_bind]
    rw [putKey_not_mem hk, ih _ hnd.2]
    · simp
    · intro k' hk' hm
      simp only [keysOf, List.map_append, List.map_cons, List.map_nil, List.mem_append,
        List.mem_singleton] at hm
      rcases hm with hm | rfl
      · exact hd k' (by simp [keysOf] at hk' ⊢; exact .inr hk') hm
      · exact hnd.1 hk'

/-- **C57 (partial).** In an object that consists of an include statement, the fields are those of
the included object, with their substitutions unchanged: right at the root, where no path has to be
prepended. Only part of the claim: below a path the code does not prepend it
(`C57_not_relativized`). -/
theorem C57_root_partial (env : Env) (inc : Includer) (kind : IncludeKind) (ds : List Node)
    (n m : Nat) (gs : Fields) (r i : Bool) (hg : (keysOf gs).Nodup)
    (h : callIncluder env inc kind ds n = .ok (.obj gs r i, m)) :
    ConfigParser.parseValue env inc false 0 none (.object [.incl ds kind]) n = .ok (newObj gs, m) := by
  simp [ConfigParser.parseValue, parseFields, ConfigParser.parseInclude, h, putIncluded,
    putAll_nil gs [] hg (by simp [keysOf])]

/-- The files of the counterexample to C57. -/
def relFS : FS := fun f =>
  if f = ch "main.conf" then some (ch "a { include \"f.conf\" }")
  else if f = ch "f.conf" then some (ch "x = 1, y = ${x}")
  else none

/-- The code violates C57: the substitution `${x}` in a file that is included below `a` still refers
to `x`, not to `a.x`. -/
theorem C57_not_relativized :
    (loadFile exEnv relFS .ok 2 (ch "main.conf") .conf 0 >>= fun x =>
      Res.ok (at? x.1 [ch "a", ch "y"])) = .ok (some (.ref 0 [ch "x"] false 0)) := by decide +kernel

/-! ## C58: the directory of an include -/

theorem dirOf_spec (f : Str) : ∃ base, f = dirOf f ++ base ∧ '/' ∉ base ∧
    (dirOf f = [] ∨ ∃ d, dirOf f = d ++ ['/']) := by
  refine ⟨(f.reverse.takeWhile (· ≠ '/')).reverse, ?_, ?_, ?_⟩
  · rw [dirOf, ← List.reverse_append, List.takeWhile_append_dropWhile, List.reverse_reverse]
  · intro h
    have := List.all_takeWhile (p := fun c : Char => decide (c ≠ '/')) (l := f.reverse)
    rw [List.all_eq_true] at this
    simpa using this _ (List.mem_reverse.1 h)
  · rw [dirOf]
    cases h : f.reverse.dropWhile (· ≠ '/') with
    | nil => exact .inl rfl
    | cons c r =>
      right
      have hc := List.head_dropWhile_not (p := fun c : Char => decide (c ≠ '/')) (l := f.reverse) (by rw [h]; simp)
      simp only [h, List.head_cons] at hc
      refine ⟨r.reverse, ?_⟩
      simp at hc
      simp [hc]

/-- **C58 (partial).** The name in an include statement, if it ends in `.conf` or `.json` and is not
absolute, is taken relative to the directory of the including file: including it is parsing the file
of that name in that directory (with the syntax of its extension). Only part of the claim: a name
without extension is taken relative to the working directory (`C58_basename_not_relative`). -/
theorem C58_relative_partial (env : Env) (load : Loader) (res : Value → Res Value) (f name : Str)
    (cs : List Node) (n m : Nat) (hn : ConfigParser.includeName env cs n = .ok (name, m))
    (ha : name.head? ≠ some '/') :
    ∃ dir base, f = dir ++ base ∧ '/' ∉ base ∧ (dir = [] ∨ ∃ d, dir = d ++ ['/']) ∧
      (ch ".json" <:+ name → callIncluder env (includer load res (dirOf f)) .heuristic cs n =
        load (dir ++ name) .json m) ∧
      (ch ".conf" <:+ name → callIncluder env (includer load res (dirOf f)) .heuristic cs n =
        load (dir ++ name) .conf m) := by
  obtain ⟨base, h1, h2, h3⟩ := dirOf_spec f
  have hrel : relativeTo (dirOf f) name = dirOf f ++ name := by
    unfold relativeTo
    split
    · simp at ha
    · rfl
  have hne : ∀ x : Str, ch ".json" <:+ x → ¬ ch ".conf" <:+ x := by
    rintro x ⟨s, rfl⟩ ⟨t, ht⟩
    have := congrArg List.reverse ht
    simp at this
  refine ⟨dirOf f, base, h1, h2, h3, ?_, ?_⟩
  · intro hj
    have e : ∀ d : Str, syntaxFromExtension (d ++ name) = .json := by
      intro d
      rw [syntaxFromExtension, if_pos (List.isSuffixOf_iff_suffix.2 (hj.trans (List.suffix_append d name)))]
    rw [callIncluder, hn, Res.ok_bind]
    simp only [includer, Files.includeName]
    rw [if_pos (by have := e []; simp only [List.nil_append] at this; rw [this]; decide), hrel, e]
    rfl
  · intro hc
    have e : ∀ d : Str, syntaxFromExtension (d ++ name) = .conf := by
      intro d
      have hs := hc.trans (List.suffix_append d name)
      rw [syntaxFromExtension, if_neg (fun h => hne _ (List.isSuffixOf_iff_suffix.1 h) hs),
        if_pos (List.isSuffixOf_iff_suffix.2 hs)]
    rw [callIncluder, hn, Res.ok_bind]
    simp only [includer, Files.includeName]
    rw [if_pos (by have := e []; simp only [List.nil_append] at this; rw [this]; decide), hrel, e]
    rfl

/-- The files of the counterexample to C58: two files `x.conf`. -/
def dirFS : FS := fun f =>
  if f = ch "d/main.conf" then some (ch "include \"x\"")
  else if f = ch "d/x.conf" then some (ch "k = 1")
  else if f = ch "x.conf" then some (ch "k = 2")
  else none

/-- The code violates C58: `include "x"` in `d/main.conf` reads `x.conf`, not `d/x.conf`. -/
theorem C58_basename_not_relative :
    loadFile exEnv dirFS .ok 2 (ch "d/main.conf") .conf 0 =
      .ok (newObj [(ch "k", .scalar (.int 2 (ch "2")))], 0) := by decide +kernel

end Files
end Hocon
