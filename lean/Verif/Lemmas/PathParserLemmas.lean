import Verif.PathParser
import Verif.Props.TokenizerProps

/-!
# Facts about path expressions
-/

namespace Hocon
namespace PathParser
open Tokenizer

/-- Characters that path rendering leaves unquoted, and the separator. -/
def RawChar (c : Char) : Prop := isAlnum c = true ∨ c = '-' ∨ c = '_' ∨ c = '.'

theorem RawChar.plain {c : Char} (h : RawChar c) :
    notInUnquotedText.contains c = false ∧ isWhitespace c = false ∧ c ≠ '#' ∧ c ≠ '/' ∧ c ≠ '"' ∧
      c ≠ '+' ∧ c ≠ '$' ∧ c ≠ '\n' ∧ punctuation c = none := by
  have key : ∀ d : Char, c = d → (isAlnum d = false ∧ d ≠ '-' ∧ d ≠ '_' ∧ d ≠ '.') → False := by
    rintro d rfl ⟨h1, h2, h3, h4⟩
    rcases h with h | h | h | h
    · rw [h1] at h; simp at h
    all_goals contradiction
  refine ⟨?_, ?_, ?_, ?_, ?_, ?_, ?_, ?_, ?_⟩
  · rw [Bool.eq_false_iff]
    intro hc
    rw [List.contains_iff_mem] at hc
    simp only [notInUnquotedText, List.mem_cons, List.not_mem_nil, or_false] at hc
    rcases hc with h | h | h | h | h | h | h | h | h | h | h | h | h | h | h | h | h | h | h <;>
      exact key _ h (by decide)
  · rw [Bool.eq_false_iff]
    intro hc
    simp only [isWhitespace, isSpace, Bool.or_eq_true, beq_iff_eq] at hc
    rcases hc with (h | h) | ((((h | h) | h) | h) | h) | h <;> exact key _ h (by decide)
  · intro h; exact key _ h (by decide)
  · intro h; exact key _ h (by decide)
  · intro h; exact key _ h (by decide)
  · intro h; exact key _ h (by decide)
  · intro h; exact key _ h (by decide)
  · intro h; exact key _ h (by decide)
  · unfold punctuation
    rw [if_neg (fun h => key _ h (by decide)), if_neg (fun h => key _ h (by decide)),
      if_neg (fun h => key _ h (by decide)), if_neg (fun h => key _ h (by decide)),
      if_neg (fun h => key _ h (by decide)), if_neg (fun h => key _ h (by decide)),
      if_neg (fun h => key _ h (by decide))]

/-- Tokens that contribute their text to a path expression. -/
def Texty (env : Env) (t : Tok) : Prop :=
  (∃ u l, t = .unquoted u l) ∨
  (∃ v u l, t = .value v u l ∧ (∀ s q, v ≠ .str s q) ∧ scalarRender env v = u)

theorem Texty.plainLoop {env : Env} {t : Tok} (h : Texty env t) (ho : Bool) (es : Elems)
    (ts : List Tok) :
    plainLoop env ho es (t :: ts) = plainLoop env ho (addUnquoted es t.text) ts := by
  rcases h with ⟨u, l, rfl⟩ | ⟨v, u, l, rfl, hv, hr⟩
  · rfl
  · cases v <;> first
      | (simp only [PathParser.plainLoop, Tok.text]; rw [hr])
      | exact absurd rfl (hv _ _)

theorem Texty.simple {env : Env} {t : Tok} (h : Texty env t) : t.isSimple = true := by
  rcases h with ⟨u, l, rfl⟩ | ⟨v, u, l, rfl, hv, hr⟩ <;> rfl

theorem Texty.ne_end {env : Env} {t : Tok} (h : Texty env t) : t ≠ .end_ := by
  rintro rfl
  have := h.simple
  simp [Tok.isSimple] at this

theorem Texty.kind {env : Env} {t : Tok} (h : Texty env t) : t ≠ .start ∧ t ≠ .end_ := by
  refine ⟨?_, h.ne_end⟩
  rintro rfl
  have := h.simple
  simp [Tok.isSimple] at this

/-- What may follow a run of raw characters. -/
def StopsRaw (rest : Str) : Prop :=
  rest = [] ∨ ∃ c r, rest = c :: r ∧ (c = '"' ∨ isWhitespaceNotNewline c = true)

theorem StopsRaw.number {rest : Str} (h : StopsRaw rest) : numberBody rest = ([], rest) := by
  rcases h with rfl | ⟨c, r, rfl, hc⟩
  · rfl
  · have : numberChars.contains c = false := by
      rw [Bool.eq_false_iff]
      intro hm
      rw [List.contains_iff_mem] at hm
      simp only [numberChars, List.mem_cons, List.not_mem_nil, or_false] at hm
      rcases hm with h | h | h | h | h | h | h | h | h | h | h | h | h | h | h <;> subst h <;>
        revert hc <;> decide
    simp [numberBody, (by simpa using this)]

theorem StopsRaw.stop {rest : Str} (h : StopsRaw rest) (allow : Bool) (line : Nat) (acc : Str) :
    pullUnquoted allow line acc rest = (.unquoted acc line, rest) := by
  rcases h with rfl | ⟨c, r, rfl, hc⟩
  · rfl
  · rw [pullUnquoted, if_pos]
    rcases hc with hc | hc
    · subst hc; rfl
    · have : isWhitespace c = true := by
        simp only [isWhitespaceNotNewline, Bool.and_eq_true] at hc
        exact hc.2
      simp [this]

theorem numberBody_raw (x rest : Str) (hr : StopsRaw rest) :
    ∃ b v, x = b ++ v ∧ (∀ c ∈ b, c ∈ numberChars) ∧ numberBody (x ++ rest) = (b, v ++ rest) := by
  induction x with
  | nil => exact ⟨[], [], rfl, by simp, by simpa using hr.number⟩
  | cons c x ih =>
    obtain ⟨b, v, h1, hb, h2⟩ := ih
    by_cases hc : numberChars.contains c = true
    · refine ⟨c :: b, v, by simp [h1], ?_, ?_⟩
      · intro d hd
        rcases List.mem_cons.1 hd with rfl | hd
        · exact List.contains_iff_mem.1 hc
        · exact hb d hd
      rw [List.cons_append, numberBody, if_pos hc, h2]
    · refine ⟨[], c :: x, by simp, by simp, ?_⟩
      rw [List.cons_append, numberBody, if_neg hc]

theorem pullUnquoted_raw (env : Env) (allow : Bool) (line : Nat) (x rest acc : Str)
    (hx : ∀ c ∈ x, RawChar c) (hr : StopsRaw rest) :
    ∃ t u v, pullUnquoted allow line acc (x ++ rest) = (t, v ++ rest) ∧ x = u ++ v ∧
      Texty env t ∧ t.text = acc ++ u := by
  induction x generalizing acc with
  | nil =>
    refine ⟨.unquoted acc line, [], [], ?_, rfl, Or.inl ⟨_, _, rfl⟩, by simp [Tok.text]⟩
    simpa using hr.stop allow line acc
  | cons c x ih =>
    have hc := (hx c (by simp)).plain
    have hcm : startOfComment allow c (x ++ rest) = false := by
      have h1 : (c == '#') = false := by simpa using hc.2.2.1
      have h2 : (c == '/') = false := by simpa using hc.2.2.2.1
      simp [startOfComment, h1, h2]
    rw [List.cons_append, pullUnquoted, if_neg (by rw [hc.1, hc.2.1, hcm]; decide)]
    simp only
    by_cases h1 : (acc ++ [c]).length = 4 ∧ acc ++ [c] = ch "true"
    · rw [if_pos h1]
      exact ⟨_, [c], x, rfl, rfl, Or.inr ⟨_, _, _, rfl, by simp, rfl⟩, by simp [Tok.text, h1.2]⟩
    · rw [if_neg h1]
      by_cases h2 : (acc ++ [c]).length = 4 ∧ acc ++ [c] = ch "null"
      · rw [if_pos h2]
        exact ⟨_, [c], x, rfl, rfl, Or.inr ⟨_, _, _, rfl, by simp, rfl⟩, by simp [Tok.text, h2.2]⟩
      · rw [if_neg h2]
        by_cases h3 : (acc ++ [c]).length = 5 ∧ acc ++ [c] = ch "false"
        · rw [if_pos h3]
          exact ⟨_, [c], x, rfl, rfl, Or.inr ⟨_, _, _, rfl, by simp, rfl⟩, by simp [Tok.text, h3.2]⟩
        · rw [if_neg h3]
          obtain ⟨t, u, v, g1, g2, g3, g4⟩ := ih (acc ++ [c]) (fun d hd => hx d (by simp [hd]))
          exact ⟨t, c :: u, v, g1, by simp [g2], g3, by simp [g4]⟩

/-- A numeral inside `x` whose conversion to an integer is undefined. -/
def BadNumeral (env : Env) (x : Str) : Prop :=
  ∃ a t b d, x = a ++ t ++ b ∧ (∀ c ∈ t, c ∈ numberChars) ∧ env.parseDouble t = some d ∧
    env.doubleToI64 d = none

theorem newNumberDouble_cases (env : Env) (d : Dbl) (text : Str) (ht : text ≠ []) :
    (newNumberDouble env d text = .ub ∧ env.doubleToI64 d = none) ∨
    ∃ v, newNumberDouble env d text = .ok v ∧ (∀ s q, v ≠ .str s q) ∧ scalarRender env v = text := by
  cases text with
  | nil => exact absurd rfl ht
  | cons c cs =>
    unfold newNumberDouble
    split
    · rename_i h; exact Or.inl ⟨rfl, h⟩
    · right
      split
      · refine ⟨_, rfl, ?_⟩
        unfold newNumberI64
        split <;> exact ⟨by simp, by simp [scalarRender, Scalar.transformToString]⟩
      · exact ⟨_, rfl, by simp, by simp [scalarRender, Scalar.transformToString]⟩

theorem pullWord_raw (env : Env) (allow : Bool) (line : Nat) (c : Char) (x rest : Str)
    (hc : RawChar c) (hx : ∀ c ∈ x, RawChar c) (hr : StopsRaw rest) :
    (pullWord env allow c (x ++ rest) line = .ub ∧ BadNumeral env (c :: x)) ∨
    ∃ t u v, pullWord env allow c (x ++ rest) line = .ok (t, v ++ rest) ∧ c :: x = u ++ v ∧ u ≠ [] ∧
      Texty env t ∧ t.text = u := by
  have hcp := hc.plain
  unfold pullWord
  by_cases hn : firstNumberChars.contains c = true
  · rw [if_pos hn]
    obtain ⟨b, v, h1, hnb, h2⟩ := numberBody_raw x rest hr
    have hncs : ∀ d ∈ c :: b, d ∈ numberChars := by
      intro d hd
      rcases List.mem_cons.1 hd with rfl | hd
      · have hs : ∀ e ∈ firstNumberChars, e ∈ numberChars := by decide
        exact hs d (List.contains_iff_mem.1 hn)
      · exact hnb d hd
    have hplain : ∀ l : Nat, notANumber (c :: b) l = .ok (.unquoted (c :: b) l) := by
      intro l
      unfold notANumber
      rw [if_neg]
      rw [Bool.not_eq_true, List.any_eq_false]
      intro d hd
      rw [Bool.not_eq_true]
      rcases List.mem_cons.1 hd with rfl | hd
      · exact hcp.1
      · exact (hx d (by rw [h1]; simp [hd])).plain.1
    unfold pullNumber
    rw [h2]
    simp only
    split
    · cases hp : env.parseDouble (c :: b) with
      | some d =>
        simp only
        rcases newNumberDouble_cases env d (c :: b) (by simp) with ⟨h3, h4⟩ | ⟨w, h3, h4, h5⟩
        · left
          exact ⟨by rw [h3]; rfl, [], c :: b, v, d, by simp [h1], hncs, hp, h4⟩
        · right
          have h6 : w.transformToString env = c :: b := by
            cases w <;> first | exact h5 | exact absurd rfl (h4 _ _)
          refine ⟨.value w (c :: b) line, c :: b, v, ?_, by simp [h1], by simp,
            Or.inr ⟨w, _, _, rfl, h4, h5⟩, rfl⟩
          rw [h3]
          simp [h6]
      | none =>
        right
        simp only
        rw [hplain line]
        exact ⟨_, c :: b, v, rfl, by simp [h1], by simp, Or.inl ⟨_, _, rfl⟩, rfl⟩
    · cases hp : lexCastI64 (c :: b) with
      | some i =>
        right
        simp only
        refine ⟨.value (newNumberI64 i (c :: b)) (c :: b) line, c :: b, v, ?_, by simp [h1], by simp,
          Or.inr ⟨_, _, _, rfl, ?_, ?_⟩, rfl⟩
        · rw [transform_newNumberI64 _ _ _ (by simp)]
        · unfold newNumberI64; split <;> simp
        · unfold newNumberI64; split <;> simp [scalarRender, Scalar.transformToString]
      | none =>
        right
        simp only
        rw [hplain line]
        exact ⟨_, c :: b, v, rfl, by simp [h1], by simp, Or.inl ⟨_, _, rfl⟩, rfl⟩
  · rw [if_neg hn, if_neg (by rw [hcp.1]; decide)]
    right
    have hcm : startOfComment allow c (x ++ rest) = false := by
      have h1 : (c == '#') = false := by simpa using hcp.2.2.1
      have h2 : (c == '/') = false := by simpa using hcp.2.2.2.1
      simp [startOfComment, h1, h2]
    rw [pullUnquoted_first (by rw [hcp.1, hcp.2.1, hcm]; decide)]
    obtain ⟨t, u, v, g1, g2, g3, g4⟩ := pullUnquoted_raw env allow line x rest [c] hx hr
    exact ⟨t, c :: u, v, by rw [g1], by simp [g2], by simp, g3, by simp [g4]⟩

/-- Reading a token at the start of a run of raw characters. -/
theorem pullNext_raw (env : Env) (allow : Bool) (fuel line : Nat) (sv : Saver) (c : Char)
    (x rest : Str) (hc : RawChar c) (hx : ∀ c ∈ x, RawChar c) (hr : StopsRaw rest) :
    (pullNext env allow (fuel + 1) sv (c :: x ++ rest) line = .ub ∧ BadNumeral env (c :: x)) ∨
    ∃ t u v, pullNext env allow (fuel + 1) sv (c :: x ++ rest) line = .ok (t, sv, v ++ rest, line) ∧
      c :: x = u ++ v ∧ u ≠ [] ∧ Texty env t ∧ t.text = u := by
  obtain ⟨p1, p2, p3, p4, p5, p6, p7, p8, p9⟩ := hc.plain
  have hnb : isWhitespaceNotNewline c = false := by simp [isWhitespaceNotNewline, p2]
  have hcm : startOfComment allow c (x ++ rest) = false := by
    have h1 : (c == '#') = false := by simpa using p3
    have h2 : (c == '/') = false := by simpa using p4
    simp [startOfComment, h1, h2]
  have hnext : pullNext env allow (fuel + 1) sv (c :: x ++ rest) line =
      (pullWord env allow c (x ++ rest) line >>= fun tr => .ok (tr.1, sv, tr.2, line)) := by
    rw [pullNext, List.cons_append, nextCharAfterWhitespace, if_neg (by rw [hnb]; decide)]
    simp only [if_neg p8, if_neg p7]
    unfold pullPlain
    rw [if_neg (by rw [hcm]; decide), if_neg p5, p9]
    simp only [if_neg p6]
    cases pullWord env allow c (x ++ rest) line <;> rfl
  rcases pullWord_raw env allow line c x rest hc hx hr with ⟨h, hb⟩ | ⟨t, u, v, h1, h2, h3, h4, h5⟩
  · left
    rw [hnext, h]
    exact ⟨rfl, hb⟩
  · right
    exact ⟨t, u, v, by rw [hnext, h1]; rfl, h2, h3, h4, h5⟩

/-! ## Path texts as pieces -/

/-- A path text consists of raw characters (including separators) and JSON strings. -/
inductive Piece where
  | raw (c : Char)
  | quoted (s : Str)

def Piece.text : Piece → Str
  | .raw c => [c]
  | .quoted s => renderJsonString s

def piecesText (ps : List Piece) : Str := ps.flatMap Piece.text

/-- The effect of a piece on the elements. -/
def feedPiece (es : Elems) : Piece → Elems
  | .raw c => addUnquotedChar es c
  | .quoted s => addQuoted es s

def feed (es : Elems) (ps : List Piece) : Elems := ps.foldl feedPiece es

def PiecesOk : List Piece → Prop
  | [] => True
  | .raw c :: ps => RawChar c ∧ PiecesOk ps
  | .quoted s :: ps => (∀ c ∈ s, Renderable c) ∧ (∀ s', ps.head? ≠ some (.quoted s')) ∧ PiecesOk ps

theorem feed_raw (es : Elems) (x : Str) (ps : List Piece) :
    feed es (x.map Piece.raw ++ ps) = feed (addUnquoted es x) ps := by
  induction x generalizing es with
  | nil => rfl
  | cons c x ih => simpa [feed, feedPiece, addUnquoted] using ih (addUnquotedChar es c)

theorem piecesText_raw (x : Str) (ps : List Piece) :
    piecesText (x.map Piece.raw ++ ps) = x ++ piecesText ps := by
  induction x with
  | nil => rfl
  | cons c x ih => simpa [piecesText, Piece.text] using ih

/-- The raw prefix of a list of pieces. -/
theorem raw_prefix (ps : List Piece) (h : PiecesOk ps) :
    ∃ (x : Str) (ps' : List Piece), ps = x.map Piece.raw ++ ps' ∧ (∀ c ∈ x, RawChar c) ∧ PiecesOk ps' ∧
      (ps' = [] ∨ ∃ s q, ps' = .quoted s :: q) := by
  induction ps with
  | nil => exact ⟨[], [], rfl, by simp, trivial, Or.inl rfl⟩
  | cons p ps ih =>
    cases p with
    | raw c =>
      obtain ⟨x, ps', h1, h2, h3, h4⟩ := ih h.2
      refine ⟨c :: x, ps', by simp [h1], ?_, h3, h4⟩
      intro d hd
      rcases List.mem_cons.1 hd with rfl | hd
      · exact h.1
      · exact h2 d hd
    | quoted s => exact ⟨[], _, rfl, by simp, h, Or.inr ⟨_, _, rfl⟩⟩

theorem PiecesOk.append_raw {x : Str} {ps : List Piece} (hx : ∀ c ∈ x, RawChar c)
    (h : PiecesOk ps) : PiecesOk (x.map Piece.raw ++ ps) := by
  induction x with
  | nil => exact h
  | cons c x ih => exact ⟨hx c (by simp), ih (fun d hd => hx d (by simp [hd]))⟩

theorem BadNumeral.infix {env : Env} {x a b : Str} (h : BadNumeral env x) :
    BadNumeral env (a ++ x ++ b) := by
  obtain ⟨a', t, b', d, rfl, h0, h1, h2⟩ := h
  exact ⟨a ++ a', t, b' ++ b, d, by simp, h0, h1, h2⟩

/-- Tokenizing a path text and feeding the tokens to the path parser is the same as feeding the
pieces; blanks around it do not matter. -/
theorem tokenLoop_pieces (env : Env) (allow ho : Bool) (tr : Str) (htr : AllBlank tr) (n : Nat) :
    ∀ (ps : List Piece), ps.length ≤ n → PiecesOk ps → ∀ (f line : Nat) (sv : Saver),
      (sv.ws = [] ∨ sv.lastSimple = false) → (piecesText ps ++ tr).length + 1 ≤ f →
      (tokenLoop env allow f sv (piecesText ps ++ tr) line = .ub ∧ BadNumeral env (piecesText ps)) ∨
      ∃ ts, tokenLoop env allow f sv (piecesText ps ++ tr) line = .ok ts ∧
        ∀ es, plainLoop env ho es ts = .ok (feed es ps) := by
  induction n with
  | zero =>
    intro ps hl _ f line sv hsv hf
    have : ps = [] := by simpa using hl
    subst this
    right
    cases f with
    | zero => omega
    | succ f =>
      have hn : nextCharAfterWhitespace sv.ws tr = (sv.ws ++ tr, none) := by
        have := nextChar_blank (ws := sv.ws) htr []
        simpa [nextCharAfterWhitespace] using this
      simp only [piecesText, List.flatMap_nil, List.nil_append]
      rw [tokenLoop, pullNext, hn]
      refine ⟨(Saver.check ⟨sv.ws ++ tr, sv.lastSimple⟩ false line).1.toList ++ [.end_], rfl,
        fun es => ?_⟩
      simp only [Saver.check, Saver.create]
      by_cases hl : (sv.ws ++ tr).length > 0 <;> rw [if_neg (by decide)] <;> simp only [hl] <;>
        simp [plainLoop, feed]
  | succ n ih =>
    intro ps hl hok f line sv hsv hf
    cases f with
    | zero => omega
    | succ f =>
    -- the whitespace token before a simple token is always ignored whitespace
    have hcheck : ∀ l, ∃ w : List Tok, (sv.check true l).1.toList = w ∧
        (∀ es ts, plainLoop env ho es (w ++ ts) = plainLoop env ho es ts) := by
      intro l
      refine ⟨_, rfl, ?_⟩
      intro es ts
      simp only [Saver.check, Saver.create]
      by_cases hl : sv.ws.length > 0
      · rcases hsv with h | h
        · rw [h] at hl; simp at hl
        · simp [hl, h, plainLoop]
      · simp [hl]
    have hcheck2 : ∀ l, (sv.check true l).2.ws = [] := fun l => Saver.check_ws _ _ _
    cases ps with
    | nil => exact ih [] (by simp) trivial (f + 1) line sv hsv hf
    | cons p ps =>
      cases p with
      | quoted s =>
        obtain ⟨hs, hnext, hok'⟩ := hok
        have hhead : s = [] → (piecesText ps ++ tr).head? ≠ some '"' := by
          intro _
          cases ps with
          | nil =>
            simp only [piecesText, List.flatMap_nil, List.nil_append]
            cases tr with
            | nil => simp
            | cons c tr =>
              have := htr c (by simp)
              intro h
              simp at h
              subst h
              simp [isWhitespaceNotNewline, isWhitespace, isSpace] at this
          | cons q ps =>
            cases q with
            | quoted s' => exact absurd rfl (hnext s')
            | raw c =>
              have := hok'.1.plain.2.2.2.2.1
              simpa [piecesText, Piece.text] using this
        have h5 := C05_render_then_token env allow s [] (piecesText ps ++ tr) hs (by simp) hhead
          (2 * (renderJsonString s ++ (piecesText ps ++ tr)).length) sv line
        simp only [List.nil_append, List.append_nil] at h5
        have htext : piecesText (.quoted s :: ps) ++ tr = renderJsonString s ++ (piecesText ps ++ tr) := by
          simp [piecesText, Piece.text]
        rw [htext] at hf ⊢
        rw [tokenLoop, h5]
        simp only [Tok.isSimple]
        have hlen : (piecesText ps ++ tr).length + 1 ≤ f := by
          simp [renderJsonString] at hf ⊢
          omega
        obtain ⟨w, hw1, hw2⟩ := hcheck line
        rw [hw1]
        rcases ih ps (by simpa using hl) hok' f line (sv.check true line).2 (Or.inl (hcheck2 line)) hlen with
          ⟨h6, h7⟩ | ⟨ts, h6, h7⟩
        · left
          have hb : BadNumeral env (piecesText (.quoted s :: ps)) := by
            have := BadNumeral.infix (a := renderJsonString s) (b := []) h7
            simpa [piecesText, Piece.text] using this
          refine ⟨?_, hb⟩
          rw [h6]; rfl
        · right
          refine ⟨w ++ .value (.str s true) (renderJsonString s) line :: ts, ?_, ?_⟩
          · rw [h6]; rfl
          · intro es
            rw [hw2]
            simpa [plainLoop, feed, feedPiece] using h7 (addQuoted es s)
      | raw c =>
        obtain ⟨x, ps', h1, h2, h3, h4⟩ := raw_prefix ps hok.2
        have hps : (Piece.raw c :: ps) = (c :: x).map Piece.raw ++ ps' := by simp [h1]
        have htext : piecesText (Piece.raw c :: ps) ++ tr = c :: x ++ (piecesText ps' ++ tr) := by
          rw [hps, piecesText_raw]; simp
        have hstop : StopsRaw (piecesText ps' ++ tr) := by
          rcases h4 with rfl | ⟨s, q, rfl⟩
          · cases tr with
            | nil => exact Or.inl rfl
            | cons d tr => exact Or.inr ⟨d, tr, rfl, Or.inr (htr d (by simp))⟩
          · exact Or.inr ⟨'"', _, rfl, Or.inl rfl⟩
        rw [htext] at hf ⊢
        rw [tokenLoop]
        rcases pullNext_raw env allow (2 * (c :: x ++ (piecesText ps' ++ tr)).length) line sv c x
          (piecesText ps' ++ tr) hok.1 h2 hstop with ⟨g, hb⟩ | ⟨t, u, v, g1, g2, g3, g4, g5⟩
        · left
          rw [g]
          refine ⟨rfl, ?_⟩
          rw [hps, piecesText_raw]
          simpa using BadNumeral.infix (a := []) (b := piecesText ps') hb
        · rw [g1]
          simp only
          rw [g4.simple]
          have hvr : ∀ d ∈ v, RawChar d := by
            intro d hd
            have : d ∈ c :: x := by rw [g2]; simp [hd]
            rcases List.mem_cons.1 this with rfl | this
            · exact hok.1
            · exact h2 d this
          have hul : 0 < u.length := List.length_pos_iff.2 g3
          have hlen1 : (c :: x).length = u.length + v.length := by rw [g2]; simp
          have hok2 : PiecesOk (v.map Piece.raw ++ ps') := PiecesOk.append_raw hvr h3
          have hlen2 : (v.map Piece.raw ++ ps').length ≤ n := by
            have := congrArg List.length hps
            simp only [List.length_cons, List.length_append, List.length_map] at this hl hlen1 ⊢
            omega
          have hlen3 : (piecesText (v.map Piece.raw ++ ps') ++ tr).length + 1 ≤ f := by
            rw [piecesText_raw]
            simp only [List.length_append, List.length_cons] at hf hlen1 ⊢
            omega
          obtain ⟨w, hw1, hw2⟩ := hcheck line
          rw [hw1]
          have hrec := ih _ hlen2 hok2 f line (sv.check true line).2 (Or.inl (hcheck2 line)) hlen3
          rw [piecesText_raw, List.append_assoc] at hrec
          have hne := g4.ne_end
          rcases hrec with ⟨h6, h7⟩ | ⟨ts, h6, h7⟩
          · left
            refine ⟨?_, ?_⟩
            · rw [h6]
              cases t <;> first | rfl | exact absurd rfl hne
            · rw [hps, piecesText_raw, g2]
              have := BadNumeral.infix (a := u) (b := []) h7
              simpa using this
          · right
            refine ⟨w ++ t :: ts, ?_, ?_⟩
            · rw [h6]
              cases t <;> first | rfl | exact absurd rfl hne
            · intro es
              rw [hw2, g4.plainLoop, h7, g5, hps, g2]
              rw [List.map_append, List.append_assoc, feed_raw, feed_raw, feed_raw]

/-! ## The fast parser -/

theorem splitDots_ne_nil (s : Str) : splitDots s ≠ [] := by
  induction s with
  | nil => simp [splitDots]
  | cons c s ih =>
    rw [splitDots]
    split
    · simp
    · split <;> simp

theorem splitDots_noDot {s : Str} (h : '.' ∉ s) : splitDots s = [s] := by
  induction s with
  | nil => rfl
  | cons c s ih =>
    have hc : c ≠ '.' := fun hc => h (by simp [hc])
    rw [splitDots, if_neg hc, ih (fun hm => h (by simp [hm]))]

theorem splitDots_append (a b : Str) (hb : '.' ∉ b) :
    splitDots (a ++ '.' :: b) = splitDots a ++ [b] := by
  induction a with
  | nil => simp [splitDots, splitDots_noDot hb]
  | cons c a ih =>
    rw [List.cons_append, splitDots, splitDots]
    by_cases hc : c = '.'
    · rw [if_pos hc, if_pos hc, ih]; rfl
    · rw [if_neg hc, if_neg hc, ih]
      cases h : splitDots a with
      | nil => exact absurd h (splitDots_ne_nil a)
      | cons p ps => simp

theorem splitLastDot_none {s : Str} (h : splitLastDot s = none) : '.' ∉ s := by
  induction s with
  | nil => simp
  | cons c s ih =>
    rw [splitLastDot] at h
    split at h
    · simp at h
    · rename_i hn
      split at h
      · simp at h
      · rename_i hc
        simp only [List.mem_cons, not_or]
        exact ⟨fun h => hc h.symm, ih hn⟩

theorem splitLastDot_some {s a b : Str} (h : splitLastDot s = some (a, b)) :
    s = a ++ '.' :: b ∧ '.' ∉ b := by
  induction s generalizing a b with
  | nil => simp [splitLastDot] at h
  | cons c s ih =>
    rw [splitLastDot] at h
    split at h
    · rename_i a' b' hn
      simp only [Option.some.injEq, Prod.mk.injEq] at h
      obtain ⟨rfl, rfl⟩ := h
      obtain ⟨h1, h2⟩ := ih hn
      exact ⟨by rw [h1]; rfl, h2⟩
    · rename_i hn
      split at h
      · rename_i hc
        simp only [Option.some.injEq, Prod.mk.injEq] at h
        obtain ⟨rfl, rfl⟩ := h
        exact ⟨by simp [hc], splitLastDot_none hn⟩
      · simp at h

theorem fastPathBuild_eq (f : Nat) (tail : Path) (s : Str) (hf : s.length + 1 ≤ f) :
    fastPathBuild f tail s = .ok (splitDots s ++ tail) := by
  induction f generalizing tail s with
  | zero => omega
  | succ f ih =>
    rw [fastPathBuild]
    split
    · rename_i h
      rw [splitDots_noDot (splitLastDot_none h)]
      rfl
    · rename_i a b h
      obtain ⟨h1, h2⟩ := splitLastDot_some h
      rw [ih, h1, splitDots_append _ _ h2]
      · simp
      · rw [h1] at hf
        simp at hf
        omega

/-- `add_path_text` on unquoted text splits at periods. -/
theorem addUnquoted_all (done : List Elem) (v s : Str) :
    ∃ p ps, splitDots s = p :: ps ∧
      (addUnquoted ⟨done, ⟨v, false⟩⟩ s).all = done ++ ⟨v ++ p, false⟩ :: ps.map (⟨·, false⟩) := by
  induction s generalizing done v with
  | nil => exact ⟨[], [], rfl, by simp [addUnquoted, Elems.all]⟩
  | cons c s ih =>
    rw [splitDots]
    by_cases hc : c = '.'
    · rw [if_pos hc]
      obtain ⟨p, ps, h1, h2⟩ := ih (done ++ [⟨v, false⟩]) []
      refine ⟨[], splitDots s, rfl, ?_⟩
      have : addUnquoted ⟨done, ⟨v, false⟩⟩ (c :: s) = addUnquoted ⟨done ++ [⟨v, false⟩], ⟨[], false⟩⟩ s := by
        simp [addUnquoted, addUnquotedChar, hc]
      rw [this, h2, h1]
      simp
    · rw [if_neg hc]
      obtain ⟨p, ps, h1, h2⟩ := ih done (v ++ [c])
      rw [h1]
      refine ⟨c :: p, ps, rfl, ?_⟩
      have : addUnquoted ⟨done, ⟨v, false⟩⟩ (c :: s) = addUnquoted ⟨done, ⟨v ++ [c], false⟩⟩ s := by
        simp [addUnquoted, addUnquotedChar, hc]
      rw [this, h2]
      simp

theorem addUnquoted_init (s : Str) :
    (addUnquoted Elems.init s).all = (splitDots s).map (⟨·, false⟩) := by
  obtain ⟨p, ps, h1, h2⟩ := addUnquoted_all [] [] s
  rw [Elems.init, h2, h1]
  simp

/-- Texts accepted by the fast parser: raw characters without digits, and no empty element. -/
theorem unsafeLoop_elems {lwd : Bool} {s : Str} (h : unsafeLoop lwd s = false) (es : Elems)
    (hd : ∀ e ∈ es.done, e.value ≠ []) (hc : lwd = false → es.cur.value ≠ []) :
    ∀ e ∈ (addUnquoted es s).all, e.value ≠ [] := by
  induction s generalizing lwd es with
  | nil =>
    simp only [unsafeLoop] at h
    intro e he
    simp only [addUnquoted, List.foldl_nil, Elems.all, List.mem_append, List.mem_singleton] at he
    rcases he with he | rfl
    · exact hd e he
    · exact hc h
  | cons c s ih =>
    rw [unsafeLoop] at h
    have hstep : addUnquoted es (c :: s) = addUnquoted (addUnquotedChar es c) s := rfl
    rw [hstep]
    split at h
    · rename_i hca
      have hdot : c ≠ '.' := by rintro rfl; simp [isAlpha] at hca
      exact ih h _ (by simpa [addUnquotedChar, hdot] using hd)
        (by simp [addUnquotedChar, hdot])
    · split at h
      · rename_i hdot
        have hdot : c = '.' := by simpa using hdot
        split at h
        · simp at h
        · rename_i hl
          refine ih h _ ?_ (by simp)
          intro e he
          simp only [addUnquotedChar, hdot, if_true, List.mem_append, List.mem_singleton] at he
          rcases he with he | rfl
          · exact hd e he
          · exact hc (by simpa using hl)
      · rename_i hdot
        have hdot : c ≠ '.' := by simpa using hdot
        split at h
        · split at h
          · simp at h
          · exact ih h _ (by simpa [addUnquotedChar, hdot] using hd)
              (by simp [addUnquotedChar, hdot])
        · simp at h

theorem unsafeLoop_chars {lwd : Bool} {s : Str} (h : unsafeLoop lwd s = false) :
    ∀ c ∈ s, RawChar c ∧ isDigit c = false := by
  induction s generalizing lwd with
  | nil => simp
  | cons c s ih =>
    rw [unsafeLoop] at h
    have hdig : ∀ c : Char, isAlpha c = true → isDigit c = false := by
      intro c hc
      simp only [isAlpha, Bool.or_eq_true, Bool.and_eq_true, decide_eq_true_eq] at hc
      have ha : ('a'.toNat = 97 ∧ 'z'.toNat = 122 ∧ 'A'.toNat = 65 ∧ 'Z'.toNat = 90 ∧
        '0'.toNat = 48 ∧ '9'.toNat = 57) := by decide
      simp only [isDigit, Bool.and_eq_false_iff, decide_eq_false_iff_not]
      omega
    have main : (RawChar c ∧ isDigit c = false) ∧ ∃ l, unsafeLoop l s = false := by
      split at h
      · rename_i hc
        refine ⟨?_, _, h⟩
        rw [Bool.or_eq_true, beq_iff_eq] at hc
        rcases hc with hc | rfl
        · exact ⟨Or.inl (by simp [isAlnum, hc]), hdig c hc⟩
        · exact ⟨Or.inr (Or.inr (Or.inl rfl)), by decide⟩
      · split at h
        · rename_i hc
          have : c = '.' := by simpa using hc
          subst this
          split at h
          · simp at h
          · exact ⟨⟨Or.inr (Or.inr (Or.inr rfl)), by decide⟩, _, h⟩
        · split at h
          · rename_i hc
            have : c = '-' := by simpa using hc
            subst this
            split at h
            · simp at h
            · exact ⟨⟨Or.inr (Or.inl rfl), by decide⟩, _, h⟩
          · simp at h
    obtain ⟨h1, l, h2⟩ := main
    intro d hd
    rcases List.mem_cons.1 hd with rfl | hd
    · exact h1
    · exact ih h2 d hd

theorem dropWhile_split (p : Char → Bool) (s : Str) :
    ∃ w, s = w ++ s.dropWhile p ∧ ∀ c ∈ w, p c = true := by
  induction s with
  | nil => exact ⟨[], rfl, by simp⟩
  | cons c s ih =>
    by_cases hc : p c = true
    · obtain ⟨w, h1, h2⟩ := ih
      refine ⟨c :: w, ?_, ?_⟩
      · rw [List.dropWhile_cons_of_pos hc, List.cons_append, ← h1]
      · intro d hd
        rcases List.mem_cons.1 hd with rfl | hd
        · exact hc
        · exact h2 d hd
    · exact ⟨[], by rw [List.dropWhile_cons_of_neg hc]; rfl, by simp⟩

theorem trim_split (s : Str) :
    ∃ l r, s = l ++ trim s ++ r ∧ (∀ c ∈ l, isSpace c = true) ∧ (∀ c ∈ r, isSpace c = true) := by
  obtain ⟨l, h1, h2⟩ := dropWhile_split isSpace s
  obtain ⟨r, h3, h4⟩ := dropWhile_split isSpace (s.dropWhile isSpace).reverse
  refine ⟨l, r.reverse, ?_, h2, by simpa using h4⟩
  have h5 := congrArg List.reverse h3
  simp only [List.reverse_reverse, List.reverse_append] at h5
  unfold trim
  rw [List.append_assoc, ← h5]
  exact h1

theorem tokenLoop_lead (env : Env) (allow : Bool) (f : Nat) (w s : Str) (line : Nat)
    (hw : AllBlank w) :
    tokenLoop env allow f ⟨[], false⟩ (w ++ s) line = tokenLoop env allow f ⟨w, false⟩ s line := by
  cases f with
  | zero => rfl
  | succ f =>
    rw [tokenLoop, tokenLoop, pullNext_blank _ _ _ _ _ _ _ hw, List.nil_append]
    rw [pullNext_mono (f := 2 * s.length + 1) (by simp; omega)
      ((pull_fuel env allow _).1 _ _ _ (Nat.le_refl _))]

/-- The final loop on good elements. -/
theorem finish_good (ho : Bool) (es : Elems) (h : ∀ e ∈ es.all, e.bad = false) :
    finish ho es = .ok (es.all.map Elem.value) := by
  unfold finish
  rw [if_neg]
  · congr 1
    have : ∀ (l : List Elem) (b : PathM.Builder),
        l.foldl (fun b e => PathM.Builder.appendKey b e.value) b = (l.map Elem.value).reverse ++ b := by
      intro l
      induction l with
      | nil => intro b; rfl
      | cons e l ih => intro b; simp [ih, PathM.Builder.appendKey]
    rw [this]
    have h2 : ∀ (b : PathM.Builder) (acc : Path), PathM.Builder.resultFrom b acc = b.reverse ++ acc := by
      intro b
      induction b with
      | nil => intro acc; rfl
      | cons k b ih => intro acc; simp [PathM.Builder.resultFrom, ih]
    simp [PathM.Builder.result, h2]
  · rw [Bool.not_eq_true, List.any_eq_false]
    intro e he
    rw [h e he]
    decide

theorem finish_ok {ho : Bool} {es : Elems} {p : Path} (h : finish ho es = .ok p) :
    (∀ e ∈ es.all, e.bad = false) ∧ p = es.all.map Elem.value := by
  have hb : ∀ e ∈ es.all, e.bad = false := by
    intro e he
    unfold finish at h
    split at h
    · cases ho <;> simp [badPath] at h
    · rename_i hn
      rw [Bool.not_eq_true, List.any_eq_false] at hn
      simpa using hn e he
  refine ⟨hb, ?_⟩
  rw [finish_good ho es hb] at h
  simpa using h.symm

end PathParser
end Hocon
