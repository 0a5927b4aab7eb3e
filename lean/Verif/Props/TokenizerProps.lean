import Verif.Lemmas.TokenizerLocal

/-!
# Properties of the tokenizer: C05 - C09
-/

namespace Hocon
namespace Tokenizer

/-- An environment for the concrete examples. -/
def exEnv : Env where
  parseDouble _ := none
  doubleToI64 _ := none
  i64ToDouble i := i
  doubleEq a b := a == b
  showDouble _ := []
  scanHx _ := some 0
  narrow _ := []
  getenv _ := none

/-! ## C05: JSON string rendering round-trips -/

/-- The characters a JSON string can carry: printable ASCII (and DEL) or one of the controls that
have a short escape. -/
def Renderable (c : Char) : Prop :=
  (0x20 ≤ c.toNat ∧ c.toNat ≤ 0x7f) ∨ c = '\n' ∨ c = '\x08' ∨ c = '\x0c' ∨ c = '\r' ∨ c = '\t'

theorem quotedLoop_render (env : Env) (s : Str) (hs : ∀ c ∈ s, Renderable c) (res o rest : Str) :
    quotedLoop env res o (s.flatMap escapeChar ++ '"' :: rest)
      = .ok (res ++ s, o ++ s.flatMap escapeChar ++ ['"'], rest) := by
  induction s generalizing res o with
  | nil => simpa using quotedLoop_close rest
  | cons c s ih =>
    have hc := hs c (by simp)
    have ih' := fun res o => ih (fun x hx => hs x (by simp [hx])) res o
    have step : ∀ e, escapeChar c = ['\\', e] → simpleEscape e = some c →
        quotedLoop env res o ((c :: s).flatMap escapeChar ++ '"' :: rest)
          = .ok (res ++ c :: s, o ++ (c :: s).flatMap escapeChar ++ ['"'], rest) := by
      intro e he hse
      simp only [List.flatMap_cons, he, List.cons_append, List.nil_append]
      rw [quotedLoop_escape _ hse, ih']
      simp
    by_cases h1 : c = '"'
    · subst h1; exact step '"' rfl rfl
    by_cases h2 : c = '\\'
    · subst h2; exact step '\\' rfl rfl
    by_cases h3 : c = '\n'
    · subst h3; exact step 'n' rfl rfl
    by_cases h4 : c = '\x08'
    · subst h4; exact step 'b' rfl rfl
    by_cases h5 : c = '\x0c'
    · subst h5; exact step 'f' rfl rfl
    by_cases h6 : c = '\r'
    · subst h6; exact step 'r' rfl rfl
    by_cases h7 : c = '\t'
    · subst h7; exact step 't' rfl rfl
    have he : escapeChar c = [c] := by simp [escapeChar, h1, h2, h3, h4, h5, h6, h7]
    have hctl : isC0Control c = false := by
      rcases hc with hc | hc | hc | hc | hc | hc
      · simp [isC0Control]; omega
      all_goals contradiction
    simp only [List.flatMap_cons, he, List.cons_append, List.nil_append]
    rw [quotedLoop_char _ h2 h1 hctl, ih']
    simp

/-- **C05.** Reading the rendering of `s` (after any blanks, in any tokenizer state, with anything
after it except a quote directly after an empty string) yields one quoted-string token with value
`s` and text the rendering, and leaves the rest of the input unread. -/
theorem C05_render_then_token (env : Env) (allow : Bool) (s blanks rest : Str)
    (hs : ∀ c ∈ s, Renderable c) (hb : ∀ c ∈ blanks, c = ' ' ∨ c = '\t')
    (hr : s = [] → rest.head? ≠ some '"') (fuel : Nat) (sv : Saver) (line : Nat) :
    pullNext env allow (fuel + 1) sv (blanks ++ renderJsonString s ++ rest) line
      = .ok (.value (.str s true) (renderJsonString s) line,
          { sv with ws := sv.ws ++ blanks }, rest, line) := by
  have hab : AllBlank blanks := by
    intro x hx
    rcases hb x hx with h | h <;> subst h <;> rfl
  have hq : pullQuoted env (s.flatMap escapeChar ++ '"' :: rest) line
      = .ok (.value (.str s true) (renderJsonString s) line, rest, line) := by
    unfold pullQuoted
    rw [quotedLoop_render env s hs]
    simp only [Res.ok_bind, List.nil_append]
    by_cases he : s.length = 0
    · rw [if_pos he]
      have hs0 : s = [] := by simpa using he
      have hr' := hr hs0
      split
      · rename_i r' _
        simp at hr'
      · simp [renderJsonString]
    · rw [if_neg he]
      simp [renderJsonString]
  rw [pullNext, List.append_assoc, nextChar_blank hab]
  simp only [renderJsonString, List.cons_append, List.append_assoc, List.nil_append]
  have : isWhitespaceNotNewline '"' = false := by decide
  simp only [nextCharAfterWhitespace, this, Bool.false_eq_true, if_false]
  rw [if_neg (by decide), if_neg (by decide)]
  have hp : pullPlain env allow '"' (s.flatMap escapeChar ++ '"' :: rest) line
      = .ok (.value (.str s true) (renderJsonString s) line, rest, line) := by
    unfold pullPlain
    rw [if_neg (by simp [startOfComment]), if_pos rfl, hq]
  rw [hp]
  simp [renderJsonString]

/-- **C05**, whole input: the rendering alone tokenizes to exactly one token between START and
END. -/
theorem C05_render_tokenize (env : Env) (allow : Bool) (s : Str) (hs : ∀ c ∈ s, Renderable c) :
    tokenize env allow (renderJsonString s)
      = .ok [.start, .value (.str s true) (renderJsonString s) 1, .end_] := by
  have h := C05_render_then_token env allow s [] [] hs (by simp) (by simp)
    (2 * (renderJsonString s).length) Saver.init 1
  simp only [List.nil_append, List.append_nil] at h
  unfold tokenize
  rw [tokenLoop, h]
  have hl : ∃ k, (renderJsonString s).length = k + 1 := by
    unfold renderJsonString
    exact ⟨_, by rw [List.cons_append, List.length_cons]⟩
  obtain ⟨k, hk⟩ := hl
  rw [hk]
  simp [Saver.init, Saver.check, Saver.create, Tok.isSimple, tokenLoop, pullNext,
    nextCharAfterWhitespace]

/-- Restriction of C05 to ASCII is needed: a byte outside ASCII is rendered as is but rejected by
the tokenizer (`is_C0_control` compares a signed `char`), and so is a control without escape. -/
theorem C05_non_ascii_rejected (env : Env) (allow : Bool) :
    tokenize env allow (renderJsonString ['\xe9']) = .err .config ∧
    tokenize env allow (renderJsonString ['\x01']) = .err .config := by
  constructor <;> cases allow <;> rfl

example : ∀ c ∈ ch "a\"b\\\n$ {}", Renderable c := by
  intro c hc
  simp only [List.mem_cons, List.not_mem_nil, or_false] at hc
  rcases hc with h | h | h | h | h | h | h | h | h <;> subst h <;> simp [Renderable]

example : tokenize exEnv true (renderJsonString (ch "a\"b\n"))
    = .ok [.start, .value (.str (ch "a\"b\n") true) (ch "\"a\\\"b\\n\"") 1, .end_] := rfl

/-! ## C06: the tokens cover the input -/

theorem Lexed.text_sub {sv : Saver} {s : Str} {line : Nat} {ts : List Tok}
    (h : Lexed sv s line ts) : (Tok.textList ts).Sublist (sv.ws ++ s) := by
  induction h with
  | done hw hsv hls =>
    simp [Tok.textList_append, Saver.check_text, hsv, Tok.textList, Tok.text]
  | @step sv w u r line line' sv' t ts hw hsv hls ht htl ih =>
    rw [Saver.check_ws] at ih
    have := (List.Sublist.refl (sv.ws ++ w)).append (ht.sub.append ih)
    rw [Tok.textList_append, Saver.check_text, hsv, Tok.textList]
    simpa using this

theorem Lexed.text_eq {sv : Saver} {s : Str} {line : Nat} {ts : List Tok}
    (h : Lexed sv s line ts) (hf : Faithful s) : Tok.textList ts = sv.ws ++ s := by
  induction h with
  | done hw hsv hls =>
    simp [Tok.textList_append, Saver.check_text, hsv, Tok.textList, Tok.text]
  | step hw hsv hls ht htl ih =>
    rw [Saver.check_ws] at ih
    rw [Tok.textList_append, Saver.check_text, hsv, Tok.textList, ih hf.right,
      ht.exact (hf.left.right)]
    simp

/-- **C06, no invention.** Whatever the input, the concatenated token texts are a subsequence of
the input: tokenizing never invents, duplicates or reorders text. -/
theorem C06_no_invention (env : Env) (allow : Bool) (s : Str) (toks : List Tok)
    (h : tokenize env allow s = .ok toks) : (Tok.textList toks).Sublist s := by
  unfold tokenize at h
  rw [Res.bind_eq_ok] at h
  obtain ⟨ts, ht, h⟩ := h
  simp only [Res.ok.injEq] at h
  subst h
  simpa [Tok.textList, Tok.text, Saver.init] using (tokenLoop_lexed ht).text_sub

/-- **C06 (partial).** If the input has no NUL, and has no blank directly before a `}` or no `$`
at all, concatenating the token texts gives back the input. The full statement (every input) is
false, see `C06_blank_in_substitution_lost` and `C06_nul_in_escape_lost`. -/
theorem C06_tokens_cover_input_partial (env : Env) (allow : Bool) (s : Str) (toks : List Tok)
    (hnul : '\x00' ∉ s)
    (hblank : '$' ∉ s ∨ ∀ a x b, s = a ++ x :: '}' :: b → isWhitespaceNotNewline x = false)
    (h : tokenize env allow s = .ok toks) : Tok.textList toks = s := by
  unfold tokenize at h
  rw [Res.bind_eq_ok] at h
  obtain ⟨ts, ht, h⟩ := h
  simp only [Res.ok.injEq] at h
  subst h
  simpa [Tok.textList, Tok.text, Saver.init] using (tokenLoop_lexed ht).text_eq ⟨hnul, hblank⟩

/-- The code violates the unrestricted C06: a blank before the `}` of a substitution is lost. -/
theorem C06_blank_in_substitution_lost (env : Env) :
    ∃ s toks, tokenize env true s = .ok toks ∧ Tok.textList toks ≠ s :=
  ⟨ch "${a }", [.start, .subst false [.unquoted (ch "a") 1] 1, .end_], rfl, by decide⟩

/-- The code violates the unrestricted C06: a NUL inside a `\u` escape cuts the token text. -/
theorem C06_nul_in_escape_lost :
    ∃ (env : Env) (s : Str) (toks : List Tok), tokenize env true s = .ok toks ∧ Tok.textList toks ≠ s :=
  ⟨exEnv, ch "\"\\u1\x0023\"", [.start, .value (.str [] true) (ch "\"\\u1\"") 1, .end_], rfl,
    by decide⟩

example : '\x00' ∉ ch "a : ${b} c" ∧ tokenize exEnv true (ch "a : ${b} c")
    = .ok [.start, .unquoted (ch "a") 1, .ws (ch " ") 1, .colon, .ws (ch " ") 1,
        .subst false [.unquoted (ch "b") 1] 1, .unquoted (ch " ") 1, .unquoted (ch "c") 1, .end_] :=
  ⟨by decide, rfl⟩

/-! ## C07: termination and shape -/

theorem Saver.check_kind {s : Saver} {simple : Bool} {line : Nat} {t : Tok}
    (h : t ∈ (s.check simple line).1.toList) : t ≠ .start ∧ t ≠ .end_ := by
  unfold Saver.check Saver.create at h
  cases simple <;> by_cases hl : s.ws.length > 0 <;> simp [hl] at h
  · subst h; simp
  · cases hs : s.lastSimple <;> rw [hs] at h <;> simp at h <;> subst h <;> simp

theorem Lexed.shape {sv : Saver} {s : Str} {line : Nat} {ts : List Tok} (h : Lexed sv s line ts) :
    ∃ mid, ts = mid ++ [.end_] ∧ ∀ t ∈ mid, t ≠ .start ∧ t ≠ .end_ := by
  induction h with
  | done hw hsv hls =>
    exact ⟨_, rfl, fun t ht => Saver.check_kind ht⟩
  | @step _ _ _ _ line line' sv' t ts hw hsv hls ht htl ih =>
    obtain ⟨mid, h1, h2⟩ := ih
    refine ⟨(sv'.check t.isSimple line').1.toList ++ t :: mid, by simp [h1], ?_⟩
    intro x hx
    rcases List.mem_append.1 hx with hx | hx
    · exact Saver.check_kind hx
    · rcases List.mem_cons.1 hx with rfl | hx
      · exact ⟨ht.notStart, ht.notEnd⟩
      · exact h2 x hx

/-- **C07.** Tokenizing terminates for every input (the model's recursion bound is never reached),
and a successful result is START, tokens that are neither START nor END, END. -/
theorem C07_tokenize_total (env : Env) (allow : Bool) (s : Str) :
    tokenize env allow s ≠ .fuel ∧
    ∀ toks, tokenize env allow s = .ok toks →
      ∃ mid, toks = .start :: mid ++ [.end_] ∧ ∀ t ∈ mid, t ≠ .start ∧ t ≠ .end_ := by
  constructor
  · unfold tokenize
    exact Res.bind_ne_fuel (tokenLoop_ne_fuel (Nat.le_refl _)) (by simp)
  · intro toks h
    unfold tokenize at h
    rw [Res.bind_eq_ok] at h
    obtain ⟨ts, ht, h⟩ := h
    simp only [Res.ok.injEq] at h
    subst h
    obtain ⟨mid, h1, h2⟩ := (tokenLoop_lexed ht).shape
    exact ⟨mid, by simp [h1], h2⟩

example : tokenize exEnv true (ch "${${x}") = .err .config ∧ (tokenize exEnv true (ch "{}")).isOk = true :=
  ⟨rfl, rfl⟩

/-! ## C08: line numbers -/

/-- Whitespace tokens: ignored whitespace, or the blank unquoted text between two simple values. -/
def isBlankTok : Tok → Bool
  | .ws .. => true
  | .unquoted t _ => t.all isWhitespaceNotNewline
  | _ => false

/-- What C08 says about token `t` coming after the text `before`. -/
def LineOk (before : Str) (t : Tok) : Prop :=
  (∀ l, t = .newline l → l = 1 + (before.count '\n' : Int)) ∧
  (∀ l, (∀ l', t ≠ .newline l') → t.originLine = some l →
    l = 1 + ((before ++ t.text).count '\n' : Int))

theorem isBlankTok_check {s : Saver} {simple : Bool} {line : Nat} {t : Tok}
    (hb : AllBlank s.ws) (h : t ∈ (s.check simple line).1.toList) : isBlankTok t = true := by
  unfold Saver.check Saver.create at h
  have hall : s.ws.all isWhitespaceNotNewline = true := by
    rw [List.all_eq_true]; exact hb
  cases simple <;> by_cases hl : s.ws.length > 0 <;> simp [hl] at h
  · subst h; rfl
  · cases hs : s.lastSimple <;> rw [hs] at h <;> simp at h <;> subst h
    · rfl
    · exact hall

theorem Lexed.lines {sv : Saver} {s : Str} {line : Nat} {ts : List Tok} (h : Lexed sv s line ts)
    (hsv : sv.ws = []) (hn : NoEscapedNewline s) (before : Str)
    (hline : line = 1 + before.count '\n') (a : List Tok) (t : Tok) (b : List Tok)
    (hts : ts = a ++ t :: b) (hnb : isBlankTok t = false) : LineOk (before ++ Tok.textList a) t := by
  induction h generalizing before a with
  | @done _ w line sv' hw hsv' hls =>
    -- only END is not blank here
    have ht : t ∈ (sv'.check false line).1.toList ++ [Tok.end_] := by rw [hts]; simp
    rcases List.mem_append.1 ht with ht | ht
    · have := isBlankTok_check (by rw [hsv', hsv]; simpa using hw) ht
      rw [this] at hnb; simp at hnb
    · simp only [List.mem_singleton] at ht
      subst ht
      exact ⟨by simp, by simp [Tok.originLine]⟩
  | @step _ w u r line line' sv' t0 ts hw hsv' hls ht htl ih =>
    have hu : NoEscapedNewline u := hn.left.right
    have hl := ht.lines hu
    have hwt : Tok.textList (sv'.check t0.isSimple line').1.toList = w := by
      rw [Saver.check_text, hsv', hsv]; simp
    have hbl : ∀ x ∈ (sv'.check t0.isSimple line').1.toList, isBlankTok x = true :=
      fun x hx => isBlankTok_check (by rw [hsv', hsv]; simpa using hw) hx
    generalize (sv'.check t0.isSimple line').1.toList = pre at hts hwt hbl
    -- position of t: in pre, at t0, or later
    rw [List.append_eq_append_iff] at hts
    rcases hts with ⟨a', h1, h2⟩ | ⟨c', h1, h2⟩
    · cases a' with
      | nil =>
        simp only [List.nil_append, List.cons.injEq] at h2
        obtain ⟨rfl, rfl⟩ := h2
        simp only [List.append_nil] at h1
        subst h1
        have hbw : (before ++ w).count '\n' = before.count '\n' := by
          rw [List.count_append, hw.count_newline]; rfl
        refine ⟨?_, ?_⟩
        · intro l hl'
          have := ht.originNl l hl'
          rw [hwt, hbw]
          omega
        · intro l hne ho
          have := ht.origin l hne ho
          rw [hwt, List.count_append, hbw, ht.nl hu]
          omega
      | cons x a' =>
        simp only [List.cons_append, List.cons.injEq] at h2
        obtain ⟨rfl, h2⟩ := h2
        have := ih (Saver.check_ws _ _ _) hn.right (before ++ w ++ t0.text) (by
          rw [List.count_append, List.count_append, hw.count_newline, ht.nl hu]; omega) a' h2
        rw [h1, Tok.textList_append, hwt, Tok.textList]
        simpa using this
    · cases c' with
      | nil =>
        simp only [List.nil_append, List.cons.injEq] at h2
        obtain ⟨rfl, rfl⟩ := h2
        simp only [List.append_nil] at h1
        subst h1
        have hbw : (before ++ w).count '\n' = before.count '\n' := by
          rw [List.count_append, hw.count_newline]; rfl
        refine ⟨?_, ?_⟩
        · intro l hl'
          have := ht.originNl l hl'
          rw [hwt, hbw]
          omega
        · intro l hne ho
          have := ht.origin l hne ho
          rw [hwt, List.count_append, hbw, ht.nl hu]
          omega
      | cons x c' =>
        simp only [List.cons_append, List.cons.injEq] at h2
        obtain ⟨rfl, h2⟩ := h2
        have := hbl t (by rw [h1]; simp)
        rw [this] at hnb; simp at hnb

/-- **C08 (partial).** For an input without a newline inside a `\u` escape: a newline token carries
one plus the number of newlines in the text before it, and every other token with an origin that
is not a blank carries one plus the number of newlines up to its own end. Missing: whitespace
tokens, whose line number is off by one when a newline follows
(`C08_blank_before_newline_off_by_one`). -/
theorem C08_line_numbers_partial (env : Env) (allow : Bool) (s : Str) (toks : List Tok)
    (hesc : ∀ a b, s = a ++ '\\' :: 'u' :: b → '\n' ∉ b.take 4)
    (h : tokenize env allow s = .ok toks) (a : List Tok) (t : Tok) (b : List Tok)
    (ht : toks = a ++ t :: b) (hnb : isBlankTok t = false) :
    (∀ l, t = .newline l → l = 1 + ((Tok.textList a).count '\n' : Int)) ∧
    (∀ l, (∀ l', t ≠ .newline l') → t.originLine = some l →
      l = 1 + ((Tok.textList (a ++ [t])).count '\n' : Int)) := by
  unfold tokenize at h
  rw [Res.bind_eq_ok] at h
  obtain ⟨ts, hts, h⟩ := h
  simp only [Res.ok.injEq] at h
  subst h
  cases a with
  | nil =>
    simp only [List.nil_append, List.cons.injEq] at ht
    obtain ⟨rfl, _⟩ := ht
    exact ⟨by simp, by simp [Tok.originLine]⟩
  | cons x a =>
    simp only [List.cons_append, List.cons.injEq] at ht
    obtain ⟨rfl, ht⟩ := ht
    have := (tokenLoop_lexed hts).lines rfl hesc [] (by simp) a t b ht hnb
    unfold LineOk at this
    simpa [Tok.textList, Tok.text, Tok.textList_append] using this

/-- The code violates C08 for blanks: the blank before a newline is reported on the next line. -/
theorem C08_blank_before_newline_off_by_one (env : Env) :
    tokenize env true (ch " \n") = .ok [.start, .ws (ch " ") 2, .newline 1, .end_] := rfl

/-- The code violates C08 without the escape hypothesis: a newline swallowed by `\u` is not
counted. -/
theorem C08_newline_in_escape_not_counted :
    ∃ env, tokenize env true (ch "\"\\u12\n3\"\n") =
      .ok [.start, .value (.str [] true) (ch "\"\\u12\n3\"") 1, .newline 1, .end_] := ⟨exEnv, rfl⟩

example : tokenize exEnv true (ch "a\n\"\"\"x\ny\"\"\"\n#c")
    = .ok [.start, .unquoted (ch "a") 1, .newline 1,
        .value (.str (ch "x\ny") true) (ch "\"\"\"x\ny\"\"\"") 3, .newline 3,
        .comment false (ch "c") 4, .end_] := rfl

/-! ## C09: blanks after punctuation -/

/-- The tokens the parser acts on: everything except ignored whitespace. -/
def significant : List Tok → List Tok
  | [] => []
  | .ws _ _ :: ts => significant ts
  | t :: ts => t :: significant ts

theorem significant_append (a b : List Tok) :
    significant (a ++ b) = significant a ++ significant b := by
  induction a with
  | nil => rfl
  | cons t a ih => cases t <;> simp [significant, ih]

/-- The significant tokens of an outcome. -/
def sig : Res (List Tok) → Res (List Tok)
  | .ok ts => .ok (significant ts)
  | .err e => .err e
  | .ub => .ub
  | .fuel => .fuel

theorem check_significant {s : Saver} (hs : s.lastSimple = false) (simple : Bool) (line : Nat) :
    significant (s.check simple line).1.toList = [] ∧
      (s.check simple line).2 = ⟨[], simple⟩ := by
  obtain ⟨ws, ls⟩ := s
  simp only at hs
  subst hs
  unfold Saver.check Saver.create
  cases simple <;> by_cases h : ws.length > 0 <;> simp [h, significant] <;> simpa using h

/-- Blanks saved in the saver do not matter when the last token was not simple. -/
theorem pullNext_blank (env : Env) (allow : Bool) (fuel : Nat) (ws w s : Str) (line : Nat)
    (hw : AllBlank w) :
    pullNext env allow fuel ⟨ws, false⟩ (w ++ s) line =
      pullNext env allow fuel ⟨ws ++ w, false⟩ s line := by
  cases fuel with
  | zero => simp [pullNext]
  | succ fuel =>
    rw [pullNext, pullNext, nextChar_blank hw]

/-- Replacing the saved blanks only changes the saved blanks of the result. -/
theorem nextChar_ws (ws s : Str) :
    ∃ w o, nextCharAfterWhitespace ws s = (ws ++ w, o) ∧
      ∀ ws', nextCharAfterWhitespace ws' s = (ws' ++ w, o) := by
  induction s generalizing ws with
  | nil => exact ⟨[], none, by simp [nextCharAfterWhitespace], by simp [nextCharAfterWhitespace]⟩
  | cons c s ih =>
    by_cases hc : isWhitespaceNotNewline c = true
    · obtain ⟨w, o, h1, h2⟩ := ih (ws ++ [c])
      refine ⟨c :: w, o, ?_, ?_⟩
      · simp [nextCharAfterWhitespace, hc, h1]
      · intro ws'
        simp [nextCharAfterWhitespace, hc, h2]
    · exact ⟨[], some (c, s), by simp [nextCharAfterWhitespace, hc],
        by simp [nextCharAfterWhitespace, hc]⟩

theorem pullNext_ws (env : Env) (allow : Bool) (fuel : Nat) (ws ws' s : Str) (ls : Bool)
    (line : Nat) :
    (∃ t w r l, pullNext env allow fuel ⟨ws, ls⟩ s line = .ok (t, ⟨ws ++ w, ls⟩, r, l) ∧
      pullNext env allow fuel ⟨ws', ls⟩ s line = .ok (t, ⟨ws' ++ w, ls⟩, r, l)) ∨
    ((∀ x, pullNext env allow fuel ⟨ws, ls⟩ s line ≠ .ok x) ∧
      pullNext env allow fuel ⟨ws, ls⟩ s line = pullNext env allow fuel ⟨ws', ls⟩ s line) := by
  cases fuel with
  | zero => right; simp [pullNext]
  | succ fuel =>
    obtain ⟨w, o, h1, h2⟩ := nextChar_ws ws s
    rw [pullNext, pullNext, h1, h2 ws']
    cases o with
    | none => left; exact ⟨_, _, _, _, rfl, rfl⟩
    | some cr =>
      obtain ⟨c, r⟩ := cr
      simp only
      by_cases hc : c = '\n'
      · left; simp only [if_pos hc]; exact ⟨_, _, _, _, rfl, rfl⟩
      · simp only [if_neg hc]
        by_cases hd : c = '$'
        · simp only [if_pos hd]
          cases pullSubst env allow fuel r line with
          | ok x => left; exact ⟨_, _, _, _, rfl, rfl⟩
          | err => right; simp
          | ub => right; simp
          | fuel => right; simp
        · simp only [if_neg hd]
          cases pullPlain env allow c r line with
          | ok x => left; exact ⟨_, _, _, _, rfl, rfl⟩
          | err => right; simp
          | ub => right; simp
          | fuel => right; simp

theorem tokenLoop_blank (env : Env) (allow : Bool) (f f' : Nat) (ws w s : Str) (line : Nat)
    (hw : AllBlank w) (hf : s.length + 1 ≤ f) (hf' : (w ++ s).length + 1 ≤ f') :
    sig (tokenLoop env allow f' ⟨ws, false⟩ (w ++ s) line) =
      sig (tokenLoop env allow f ⟨ws, false⟩ s line) := by
  cases f with
  | zero => omega
  | succ f =>
  cases f' with
  | zero => omega
  | succ f' =>
    rw [tokenLoop, tokenLoop, pullNext_blank _ _ _ _ _ _ _ hw]
    have hfu : pullNext env allow (2 * s.length + 1) ⟨ws ++ w, false⟩ s line ≠ .fuel :=
      (pull_fuel env allow _).1 _ _ _ (Nat.le_refl _)
    rw [pullNext_mono (f := 2 * s.length + 1) (by simp; omega) hfu]
    rcases pullNext_ws env allow (2 * s.length + 1) (ws ++ w) ws s false line with
      ⟨t, w', r, l, h1, h2⟩ | ⟨h1, h2⟩
    · rw [h1, h2]
      have hspec := pullNext_spec h2
      simp only
      obtain ⟨e1, e2⟩ := check_significant (s := ⟨ws ++ w ++ w', false⟩) rfl t.isSimple l
      obtain ⟨e3, e4⟩ := check_significant (s := ⟨ws ++ w', false⟩) rfl t.isSimple l
      rw [e2, e4]
      by_cases hend : t = .end_
      · subst hend
        simp only [sig, significant_append]
        rw [e1, e3]
      · have hr : r.length + 1 ≤ s.length := by
          obtain ⟨w2, _, _, _, h4⟩ := hspec
          rcases h4 with ⟨h4, _⟩ | ⟨u, h4, h5⟩
          · exact absurd h4 hend
          have hu : 0 < u.length := List.length_pos_iff.2 h5.nonempty
          rw [h4]
          simp only [List.length_append]
          omega
        have heq : tokenLoop env allow f' ⟨[], t.isSimple⟩ r l
            = tokenLoop env allow f ⟨[], t.isSimple⟩ r l := by
          have hb : ∀ g, r.length + 1 ≤ g → tokenLoop env allow g ⟨[], t.isSimple⟩ r l
              = tokenLoop env allow (r.length + 1) ⟨[], t.isSimple⟩ r l := by
            intro g hg
            obtain ⟨k, rfl⟩ := Nat.exists_eq_add_of_le hg
            exact tokenLoop_mono k (tokenLoop_ne_fuel (Nat.le_refl _))
          rw [hb f (by omega), hb f' (by simp at hf'; omega)]
        have key : ∀ pre pre' : List Tok, significant pre = [] → significant pre' = [] →
            sig (tokenLoop env allow f' ⟨[], t.isSimple⟩ r l >>= fun ts => .ok (pre ++ t :: ts))
            = sig (tokenLoop env allow f ⟨[], t.isSimple⟩ r l >>= fun ts => .ok (pre' ++ t :: ts)) := by
          intro pre pre' hp hp'
          rw [heq]
          cases tokenLoop env allow f ⟨[], t.isSimple⟩ r l with
          | ok ts => simp [sig, significant_append, hp, hp']
          | err => rfl
          | ub => rfl
          | fuel => rfl
        cases t <;> first | exact key _ _ e1 e3 | exact absurd rfl hend
    · rw [← h2]
      cases hx : pullNext env allow (2 * s.length + 1) ⟨ws ++ w, false⟩ s line with
      | ok x => exact absurd hx (h1 x)
      | err => rfl
      | ub => rfl
      | fuel => rfl

theorem Lexed.nonempty {sv : Saver} {s : Str} {line : Nat} {ts : List Tok} (h : Lexed sv s line ts) :
    ts ≠ [] := by
  cases h <;> simp

theorem Lexed.just_end {sv : Saver} {s : Str} {line : Nat} {ts : List Tok} (h : Lexed sv s line ts)
    (hts : ts = [.end_]) : sv.ws ++ s = [] := by
  cases h with
  | @done _ _ _ sv' hw hsv hls =>
    have h1 : (sv'.check false line).1.toList = [] := by simpa using hts
    have h2 := Saver.check_text sv' false line
    rw [h1, hsv] at h2
    simpa [Tok.textList] using h2.symm
  | step hw hsv hls ht htl =>
    exfalso
    have hl := congrArg List.length hts
    have := List.length_pos_iff.2 htl.nonempty
    simp at hl
    omega

theorem tokenLoop_nil (env : Env) (allow : Bool) (f : Nat) (ls : Bool) (line : Nat) :
    tokenLoop env allow (f + 1) ⟨[], ls⟩ [] line = .ok [.end_] := by
  simp [tokenLoop, pullNext, nextCharAfterWhitespace, Saver.check, Saver.create, Tok.isSimple]

theorem Saver.eq_of_ws {s : Saver} (h : s.ws = []) : s = ⟨[], s.lastSimple⟩ := by
  cases s; simp_all

/-- A text that tokenizes on its own and ends in a token `p` with a definite end: what follows it is
tokenized independently. -/
theorem tokenLoop_prefix (env : Env) (allow : Bool) (p : Tok) (hp : closedTok p = true)
    (hps : p.isSimple = false) (f : Nat) (sv : Saver) (x : Str) (line : Nat) (ts : List Tok)
    (h : tokenLoop env allow f sv x line = .ok (ts ++ [p, .end_])) :
    ∃ line', ∀ y g, (x ++ y).length + 1 ≤ g →
      tokenLoop env allow g sv (x ++ y) line =
        (tokenLoop env allow (y.length + 1) ⟨[], false⟩ y line' >>=
          fun ts' => .ok (ts ++ p :: ts')) := by
  induction f generalizing sv x line ts with
  | zero => simp [tokenLoop] at h
  | succ f ih =>
    rw [tokenLoop] at h
    cases hx : pullNext env allow (2 * x.length + 1) sv x line with
    | err => rw [hx] at h; simp at h
    | ub => rw [hx] at h; simp at h
    | fuel => rw [hx] at h; simp at h
    | ok res =>
      obtain ⟨t, sv1, r, l1⟩ := res
      rw [hx] at h
      simp only at h
      have hspec := pullNext_spec hx
      by_cases hend : t = .end_
      · subst hend
        simp only [Res.ok.injEq] at h
        exfalso
        have h' : (sv1.check Tok.end_.isSimple l1).1.toList = ts ++ [p] := by
          have : (sv1.check Tok.end_.isSimple l1).1.toList ++ [Tok.end_] = (ts ++ [p]) ++ [Tok.end_] := by
            simpa using h
          exact List.append_cancel_right this
        have hpm : p ∈ (sv1.check Tok.end_.isSimple l1).1.toList := by rw [h']; simp
        simp only [Tok.isSimple, Saver.check, Saver.create] at hpm
        by_cases hl : sv1.ws.length > 0
        · simp [hl] at hpm; subst hpm; simp [closedTok] at hp
        · simp [hl] at hpm
      · have h2 : (tokenLoop env allow f (sv1.check t.isSimple l1).2 r l1 >>= fun ts1 =>
            Res.ok ((sv1.check t.isSimple l1).1.toList ++ t :: ts1)) = .ok (ts ++ [p, .end_]) := by
          cases t <;> first | exact h | exact absurd rfl hend
        rw [Res.bind_eq_ok] at h2
        obtain ⟨ts1, h3, h4⟩ := h2
        simp only [Res.ok.injEq] at h4
        -- what one step does on the longer input
        have hstep : (r ≠ [] ∨ closedTok t = true) → ∀ y g, (x ++ y).length + 1 ≤ g →
            ∃ g', (r ++ y).length + 1 ≤ g' ∧ tokenLoop env allow g sv (x ++ y) line =
              (tokenLoop env allow g' (sv1.check t.isSimple l1).2 (r ++ y) l1 >>= fun ts1 =>
                Res.ok ((sv1.check t.isSimple l1).1.toList ++ t :: ts1)) := by
          intro hr y g hg
          cases g with
          | zero => omega
          | succ g =>
            refine ⟨g, ?_, ?_⟩
            · obtain ⟨w, _, _, _, h5⟩ := hspec
              rcases h5 with ⟨h5, _⟩ | ⟨u, h5, h6⟩
              · exact absurd h5 hend
              have hu : 0 < u.length := List.length_pos_iff.2 h6.nonempty
              rw [h5] at hg
              simp only [List.length_append] at hg ⊢
              omega
            · rw [tokenLoop]
              have hloc := (pull_local env allow (2 * x.length + 1) y).1 _ _ _ _ _ _ _ hx hr
              rw [pullNext_mono (f := 2 * x.length + 1) (by simp; omega) (by rw [hloc]; simp), hloc]
              simp only
        have hsv' : (sv1.check t.isSimple l1).2 = ⟨[], t.isSimple⟩ := by
          have hw := Saver.check_ws sv1 t.isSimple l1
          rw [Saver.eq_of_ws hw]
          congr 1
          unfold Saver.check Saver.create
          cases t.isSimple <;> by_cases hl : sv1.ws.length > 0 <;> simp [hl]
        by_cases hts1 : ts1 = [.end_]
        · -- `t` is the last token `p`
          subst hts1
          have h4' : (sv1.check t.isSimple l1).1.toList = ts ∧ t = p := by
            have h' : ((sv1.check t.isSimple l1).1.toList ++ [t]) ++ [Tok.end_]
                = (ts ++ [p]) ++ [Tok.end_] := by simpa using h4
            have := List.append_inj' (List.append_cancel_right h') rfl
            exact ⟨this.1, by simpa using this.2⟩
          obtain ⟨e1, rfl⟩ := h4'
          have hr : r = [] := by
            have := (tokenLoop_lexed h3).just_end rfl
            simp at this
            exact this.2
          subst hr
          refine ⟨l1, fun y g hg => ?_⟩
          obtain ⟨g', hg', e⟩ := hstep (Or.inr hp) y g hg
          simp only [List.nil_append] at hg' e
          rw [e, hsv', e1, hps]
          obtain ⟨k, rfl⟩ := Nat.exists_eq_add_of_le hg'
          rw [tokenLoop_mono k (tokenLoop_ne_fuel (Nat.le_refl _))]
        · -- a later token is the last one
          obtain ⟨mid, hm, _⟩ := (tokenLoop_lexed h3).shape
          have hmid : mid ≠ [] := by
            rintro rfl
            exact hts1 (by simpa using hm)
          obtain ⟨mid', q, rfl⟩ : ∃ m q, mid = m ++ [q] := by
            rcases List.eq_nil_or_concat mid with h | ⟨m, q, h⟩
            · exact absurd h hmid
            · exact ⟨m, q, by simpa using h⟩
          have h4' : (sv1.check t.isSimple l1).1.toList ++ t :: mid' = ts ∧ q = p := by
            rw [hm] at h4
            have h' : ((sv1.check t.isSimple l1).1.toList ++ t :: mid' ++ [q]) ++ [Tok.end_]
                = (ts ++ [p]) ++ [Tok.end_] := by simpa using h4
            have := List.append_inj' (List.append_cancel_right h') rfl
            exact ⟨this.1, by simpa using this.2⟩
          obtain ⟨e1, rfl⟩ := h4'
          have hr : r ≠ [] := by
            rintro rfl
            rw [hsv'] at h3
            cases f with
            | zero => simp [tokenLoop] at h3
            | succ f =>
              rw [tokenLoop_nil] at h3
              simp only [Res.ok.injEq] at h3
              exact hts1 h3.symm
          obtain ⟨l2, ih'⟩ := ih (sv1.check t.isSimple l1).2 r l1 mid' (by rw [h3, hm]; simp)
          refine ⟨l2, fun y g hg => ?_⟩
          obtain ⟨g', hg', e⟩ := hstep (Or.inl hr) y g hg
          rw [e, ih' y g' hg', ← e1]
          cases tokenLoop env allow (y.length + 1) ⟨[], false⟩ y l2 <;> simp

/-- **C09.** Let `x` be empty or a text that tokenizes by itself and whose last token is structural
(`{ } [ ] : = , +=`) or a newline. Then inserting blanks after `x`, whatever follows, does not
change the significant tokens (kind, text, value and line number of every token other than ignored
whitespace), nor whether tokenizing fails. -/
theorem C09_blanks_insignificant (env : Env) (allow : Bool) (x w y : Str)
    (hw : ∀ c ∈ w, isWhitespaceNotNewline c = true)
    (hx : x = [] ∨ ∃ ts p, tokenize env allow x = .ok (ts ++ [p, .end_]) ∧
      (p = .openCurly ∨ p = .closeCurly ∨ p = .openSquare ∨ p = .closeSquare ∨ p = .colon ∨
        p = .equals ∨ p = .comma ∨ p = .plusEquals ∨ ∃ l, p = .newline l)) :
    sig (tokenize env allow (x ++ w ++ y)) = sig (tokenize env allow (x ++ y)) := by
  have hstart : ∀ r : Res (List Tok), sig (r >>= fun ts => .ok (Tok.start :: ts)) =
      (sig r >>= fun ts => .ok (Tok.start :: ts)) := by
    intro r; cases r <;> rfl
  rcases hx with rfl | ⟨ts, p, ht, hpk⟩
  · simp only [List.nil_append]
    unfold tokenize
    rw [hstart, hstart]
    exact congrArg (· >>= _) (tokenLoop_blank env allow _ _ [] w y 1 hw (Nat.le_refl _) (Nat.le_refl _))
  · have hp : closedTok p = true ∧ p.isSimple = false := by
      rcases hpk with h | h | h | h | h | h | h | h | ⟨l, h⟩ <;> subst h <;> exact ⟨rfl, rfl⟩
    unfold tokenize at ht
    rw [Res.bind_eq_ok] at ht
    obtain ⟨ts1, h1, h2⟩ := ht
    simp only [Res.ok.injEq] at h2
    cases ts with
    | nil =>
      simp only [List.nil_append, List.cons.injEq] at h2
      rw [← h2.1] at hp
      simp [closedTok] at hp
    | cons s ts =>
      simp only [List.cons_append, List.cons.injEq] at h2
      obtain ⟨rfl, rfl⟩ := h2
      obtain ⟨l', h3⟩ := tokenLoop_prefix env allow p hp.1 hp.2 _ _ _ _ _ h1
      unfold tokenize
      rw [hstart, hstart, List.append_assoc, h3 (w ++ y) _ (Nat.le_refl _), h3 y _ (Nat.le_refl _)]
      have hb := tokenLoop_blank env allow (y.length + 1) ((w ++ y).length + 1) [] w y l' hw
        (Nat.le_refl _) (Nat.le_refl _)
      have hk : ∀ r : Res (List Tok), sig (r >>= fun ts' => .ok (ts ++ p :: ts')) =
          (sig r >>= fun ts' => .ok (significant ts ++ significant [p] ++ ts')) := by
        intro r
        cases r with
        | ok a =>
          have : ts ++ p :: a = ts ++ [p] ++ a := by simp
          simp only [Res.ok_bind, sig, this, significant_append]
        | err => rfl
        | ub => rfl
        | fuel => rfl
      rw [hk, hk, hb]

example : tokenize exEnv true (ch "a = {") =
    .ok ([.start, .unquoted (ch "a") 1, .ws (ch " ") 1, .equals, .ws (ch " ") 1] ++ [.openCurly, .end_]) ∧
    sig (tokenize exEnv true (ch "a = { 	 b}")) = sig (tokenize exEnv true (ch "a = {b}")) :=
  ⟨rfl, rfl⟩

end Tokenizer
end Hocon
