import Verif.Lemmas.PathParserLemmas

/-!
# Properties of path expressions: C01, C02, C04
-/

namespace Hocon
namespace PathParser
open Tokenizer

/-! ## C02: the fast parser agrees with the full parser -/

/-- **C02 (partial).** If the fast parser accepts `s` (and `s` has no newline), the tokenizer-based
parser returns the same path. Texts made of the characters `eE+-.` alone are not numbers (`hpd`, a
fact about `boost::lexical_cast<double>`). Missing: texts with a newline around the path, on which the two
parsers disagree (`C02_newline_disagrees`). -/
theorem C02_fast_agrees_partial (env : Env) (s : Str) (p : Path)
    (hpd : ∀ t, (∀ c ∈ t, c ∈ numberChars ∧ isDigit c = false) → env.parseDouble t = none)
    (hnl : '\n' ∉ s) (h : fastParse s = .ok p) (hp : p ≠ []) :
    parsePathSlow env s = .ok p := by
  unfold fastParse at h
  simp only at h
  split at h
  · simp only [Res.ok.injEq] at h
    exact absurd h.symm hp
  · rename_i hsafe
    rw [fastPathBuild_eq _ _ _ (Nat.le_refl _)] at h
    simp only [List.append_nil, Res.ok.injEq] at h
    obtain ⟨l, r, hs, hl, hr⟩ := trim_split s
    generalize hcore : trim s = core at hs h hsafe
    have hblank : ∀ w : Str, (∀ c ∈ w, isSpace c = true) → (∀ c ∈ w, c ∈ s) → AllBlank w := by
      intro w h1 h2 c hc
      have hne : c ≠ '\n' := by rintro rfl; exact hnl (h2 _ hc)
      have hne' : (c != '\n') = true := by simpa using hne
      simp [isWhitespaceNotNewline, isWhitespace, h1 c hc, hne']
    have hlb : AllBlank l := hblank l hl (fun c hc => by rw [hs]; simp [hc])
    have hrb : AllBlank r := hblank r hr (fun c hc => by rw [hs]; simp [hc])
    have hloop : unsafeLoop true core = false := by
      unfold looksUnsafe at hsafe
      cases core with
      | nil => simp at hsafe
      | cons c core =>
        simp only [Bool.or_eq_true, not_or] at hsafe
        simpa using hsafe.2
    have hchars := unsafeLoop_chars hloop
    have hok : PiecesOk (core.map Piece.raw) := by
      have := PiecesOk.append_raw (x := core) (ps := []) (fun c hc => (hchars c hc).1) trivial
      simpa using this
    have htext : piecesText (core.map Piece.raw) = core := by
      have := piecesText_raw core []
      simpa [piecesText] using this
    have hfeed : feed Elems.init (core.map Piece.raw) = addUnquoted Elems.init core := by
      have := feed_raw Elems.init core []
      simpa [feed] using this
    have hloop2 : tokenLoop env true (s.length + 1) Saver.init s 1
        = tokenLoop env true (s.length + 1) ⟨l, false⟩ (core ++ r) 1 := by
      have := tokenLoop_lead env true (s.length + 1) l (core ++ r) 1 hlb
      rw [← List.append_assoc, ← hs] at this
      exact this
    have hlen : (core ++ r).length + 1 ≤ s.length + 1 := by rw [hs]; simp
    have hmain := tokenLoop_pieces env true true r hrb _ (core.map Piece.raw) (Nat.le_refl _) hok
      (s.length + 1) 1 ⟨l, false⟩ (Or.inr rfl) (by rw [htext]; exact hlen)
    rw [htext] at hmain
    rcases hmain with ⟨_, hbad⟩ | ⟨ts, h1, h2⟩
    · exfalso
      obtain ⟨a, t, b, d, h3, h5, h4, _⟩ := hbad
      rw [hpd t (fun c hc => ⟨h5 c hc, (hchars c (by rw [h3]; simp [hc])).2⟩)] at h4
      simp at h4
    · unfold parsePathSlow tokenize
      rw [hloop2, h1]
      simp only [Res.ok_bind, List.tail_cons]
      unfold parsePathExpression
      have hne : ts.isEmpty = false := by
        have := (tokenLoop_lexed h1).nonempty
        cases ts <;> simp_all
      rw [hne, h2, hfeed]
      simp only [Bool.false_eq_true, if_false, Res.ok_bind]
      have hel := unsafeLoop_elems hloop Elems.init (by simp [Elems.init]) (by simp)
      rw [finish_good true _ (by
        intro e he
        have := hel e he
        simp [Elem.bad, this])]
      rw [addUnquoted_init, ← h]
      simp [Function.comp_def]

/-- The unrestricted C02 is false: the fast parser trims newlines, the full parser rejects them. -/
theorem C02_newline_disagrees (env : Env) :
    fastParse (ch "a\n") = .ok [ch "a"] ∧ parsePathSlow env (ch "a\n") = .err .badPath :=
  ⟨rfl, rfl⟩

example : fastParse (ch " true-e.b_c ") = .ok [ch "true-e", ch "b_c"] ∧
    parsePathSlow exEnv (ch " true-e.b_c ") = .ok [ch "true-e", ch "b_c"] := ⟨rfl, rfl⟩

/-! ## C01: rendered paths parse back -/

/-- The rendering of one element as pieces. -/
def elemPieces (k : Str) : List Piece :=
  if hasFunkyChars k || k.isEmpty then [.quoted k] else k.map Piece.raw

def pathPieces : Path → List Piece
  | [] => []
  | [k] => elemPieces k
  | k :: ks => elemPieces k ++ .raw '.' :: pathPieces ks

theorem elemPieces_text (k : Str) :
    piecesText (elemPieces k) = if hasFunkyChars k || k.isEmpty then renderJsonString k else k := by
  unfold elemPieces
  split
  · simp [piecesText, Piece.text]
  · have := piecesText_raw k []
    simpa [piecesText] using this

theorem pathPieces_text (p : Path) : piecesText (pathPieces p) = renderPath p := by
  induction p with
  | nil => rfl
  | cons k ks ih =>
    cases ks with
    | nil => simpa [pathPieces, renderPath] using elemPieces_text k
    | cons k2 ks =>
      have h1 : piecesText (elemPieces k ++ .raw '.' :: pathPieces (k2 :: ks))
          = piecesText (elemPieces k) ++ '.' :: piecesText (pathPieces (k2 :: ks)) := by
        simp [piecesText, Piece.text]
      rw [pathPieces.eq_3 k (k2 :: ks) (by simp), h1, elemPieces_text, ih]
      exact (renderPath.eq_3 k (k2 :: ks) (by simp)).symm

theorem elemPieces_ok (k : Str) (hk : ∀ c ∈ k, Renderable c) (ps : List Piece) (hps : PiecesOk ps)
    (hh : ∀ s', ps.head? ≠ some (.quoted s')) : PiecesOk (elemPieces k ++ ps) := by
  unfold elemPieces
  split
  · exact ⟨hk, hh, hps⟩
  · rename_i hf
    simp only [Bool.or_eq_true, not_or, Bool.not_eq_true] at hf
    refine PiecesOk.append_raw ?_ hps
    intro c hc
    have := hf.1
    unfold hasFunkyChars at this
    rw [List.any_eq_false] at this
    have hc' := this c hc
    simp only [Bool.not_eq_true, Bool.not_eq_false', Bool.or_eq_true, beq_iff_eq] at hc'
    rcases hc' with (h | h) | h
    · exact Or.inl h
    · exact Or.inr (Or.inl h)
    · exact Or.inr (Or.inr (Or.inl h))

theorem pathPieces_ok (p : Path) (hp : ∀ k ∈ p, ∀ c ∈ k, Renderable c) : PiecesOk (pathPieces p) := by
  induction p with
  | nil => trivial
  | cons k ks ih =>
    cases ks with
    | nil =>
      have := elemPieces_ok k (hp k (by simp)) [] trivial (by simp)
      simpa [pathPieces] using this
    | cons k2 ks =>
      rw [pathPieces]
      · refine elemPieces_ok k (hp k (by simp)) _ ⟨Or.inr (Or.inr (Or.inr rfl)), ?_⟩ (by simp)
        exact ih (fun k' hk' => hp k' (by simp [List.mem_cons.1 hk']))
      · simp

/-- The element the parser builds for a rendered key. -/
def elemOf (k : Str) : Elem := ⟨k, k.isEmpty⟩

theorem feed_append (es : Elems) (a b : List Piece) : feed es (a ++ b) = feed (feed es a) b := by
  simp [feed]

theorem feed_elem (done : List Elem) (k : Str) :
    feed ⟨done, ⟨[], false⟩⟩ (elemPieces k) = ⟨done, elemOf k⟩ := by
  unfold elemPieces
  split
  · simp only [feed, feedPiece, List.foldl_cons, List.foldl_nil, addQuoted, List.nil_append, elemOf]
    cases k <;> simp
  · rename_i hf
    simp only [Bool.or_eq_true, not_or, Bool.not_eq_true] at hf
    have hnodot : '.' ∉ k := by
      intro hm
      have := hf.1
      unfold hasFunkyChars at this
      rw [List.any_eq_false] at this
      exact absurd (this '.' hm) (by decide)
    have : ∀ v : Str, feed ⟨done, ⟨v, false⟩⟩ (k.map Piece.raw) = ⟨done, ⟨v ++ k, false⟩⟩ := by
      clear hf
      induction k with
      | nil => intro v; simp [feed]
      | cons c k ih =>
        intro v
        have hc : c ≠ '.' := fun hc => hnodot (by simp [hc])
        have h1 : feed ⟨done, ⟨v, false⟩⟩ ((c :: k).map Piece.raw)
            = feed ⟨done, ⟨v ++ [c], false⟩⟩ (k.map Piece.raw) := by
          simp [feed, feedPiece, addUnquotedChar, hc]
        rw [h1, ih (fun hm => hnodot (by simp [hm]))]
        simp
    rw [this, List.nil_append, elemOf, hf.2]

theorem feed_path (done : List Elem) (p : Path) (hp : p ≠ []) :
    (feed ⟨done, ⟨[], false⟩⟩ (pathPieces p)).all = done ++ p.map elemOf := by
  induction p generalizing done with
  | nil => exact absurd rfl hp
  | cons k ks ih =>
    cases ks with
    | nil =>
      rw [pathPieces, feed_elem]
      simp [Elems.all]
    | cons k2 ks =>
      rw [pathPieces]
      · rw [feed_append, feed_elem]
        have h1 : feed ⟨done, elemOf k⟩ (.raw '.' :: pathPieces (k2 :: ks))
            = feed ⟨done ++ [elemOf k], ⟨[], false⟩⟩ (pathPieces (k2 :: ks)) := by
          simp [feed, feedPiece, addUnquotedChar]
        rw [h1, ih _ (by simp)]
        simp
      · simp

/-- The full parser on a rendered path. -/
theorem slow_render (env : Env) (p : Path) (hp : p ≠ [])
    (hk : ∀ k ∈ p, ∀ c ∈ k, Renderable c) :
    (parsePathSlow env (renderPath p) = .ub ∧ BadNumeral env (renderPath p)) ∨
      parsePathSlow env (renderPath p) = .ok p := by
  have hmain := tokenLoop_pieces env true true [] (by simp [AllBlank]) _ (pathPieces p)
    (Nat.le_refl _) (pathPieces_ok p hk) ((renderPath p).length + 1) 1 Saver.init (Or.inl rfl)
    (by rw [pathPieces_text]; simp)
  rw [pathPieces_text, List.append_nil] at hmain
  rcases hmain with ⟨h1, h2⟩ | ⟨ts, h1, h2⟩
  · left
    refine ⟨?_, h2⟩
    unfold parsePathSlow tokenize
    rw [h1]
    rfl
  · right
    unfold parsePathSlow tokenize
    rw [h1]
    simp only [Res.ok_bind, List.tail_cons]
    unfold parsePathExpression
    have hne : ts.isEmpty = false := by
      have := (tokenLoop_lexed h1).nonempty
      cases ts <;> simp_all
    rw [hne, h2]
    simp only [Bool.false_eq_true, if_false, Res.ok_bind]
    have hall := feed_path [] p hp
    have hinit : (⟨[], ⟨[], false⟩⟩ : Elems) = Elems.init := rfl
    rw [hinit, List.nil_append] at hall
    rw [finish_good]
    · rw [hall]
      simp [elemOf, Function.comp_def]
    · intro e he
      rw [hall, List.mem_map] at he
      obtain ⟨k, _, rfl⟩ := he
      cases hke : k.isEmpty <;> simp [Elem.bad, elemOf, hke]

theorem render_no_newline (p : Path) : '\n' ∉ renderPath p := by
  have hj : ∀ k, '\n' ∉ renderJsonString k := by
    intro k hm
    simp only [renderJsonString, List.cons_append, List.mem_cons, List.mem_append, List.mem_flatMap,
      List.not_mem_nil, or_false] at hm
    rcases hm with hm | ⟨c, _, hc⟩ | hm
    · exact absurd hm (by decide)
    · unfold escapeChar at hc
      repeat' split at hc
      all_goals first
        | (simp at hc; done)
        | (simp only [List.mem_singleton] at hc; subst hc; simp_all)
    · exact absurd hm (by decide)
  have he : ∀ k, '\n' ∉ (if hasFunkyChars k || k.isEmpty then renderJsonString k else k) := by
    intro k
    split
    · exact hj k
    · rename_i hf
      simp only [Bool.or_eq_true, not_or, Bool.not_eq_true] at hf
      intro hm
      have := hf.1
      unfold hasFunkyChars at this
      rw [List.any_eq_false] at this
      exact absurd (this '\n' hm) (by decide)
  induction p with
  | nil => simp [renderPath]
  | cons k ks ih =>
    cases ks with
    | nil => simpa [renderPath] using he k
    | cons k2 ks =>
      rw [renderPath]
      · intro hm
        rcases List.mem_append.1 hm with hm | hm
        · exact he k hm
        · rcases List.mem_cons.1 hm with hm | hm
          · exact absurd hm (by decide)
          · exact ih hm
      · simp

/-- **C01 (partial).** For every non-empty path whose elements consist of renderable characters, parsing the
rendered path returns the path. `hnum` excludes renderings that contain a numeral whose
conversion `static_cast<int64_t>(double)` is undefined (such as the element `1e30`, which is
rendered unquoted and read back as a number). -/
theorem C01_render_parse_partial (env : Env) (p : Path) (hp : p ≠ [])
    (hk : ∀ k ∈ p, ∀ c ∈ k, Renderable c)
    (hpd : ∀ t, (∀ c ∈ t, c ∈ numberChars ∧ isDigit c = false) → env.parseDouble t = none)
    (hnum : ∀ a t b d, renderPath p = a ++ t ++ b → (∀ c ∈ t, c ∈ numberChars) →
      env.parseDouble t = some d →
      env.doubleToI64 d ≠ none) :
    newPath env (renderPath p) = .ok p := by
  have hslow : parsePathSlow env (renderPath p) = .ok p := by
    rcases slow_render env p hp hk with ⟨_, a, t, b, d, h1, h0, h2, h3⟩ | h
    · exact absurd h3 (hnum a t b d h1 h0 h2)
    · exact h
  unfold newPath
  have hfast : ∃ q, fastParse (renderPath p) = .ok q := by
    unfold fastParse
    simp only
    split
    · exact ⟨_, rfl⟩
    · exact ⟨_, fastPathBuild_eq _ _ _ (Nat.le_refl _)⟩
  obtain ⟨q, hq⟩ := hfast
  rw [hq, Res.ok_bind]
  cases q with
  | nil => simpa [PathM.beq] using hslow
  | cons k q =>
    have := C02_fast_agrees_partial env _ _ hpd (render_no_newline p) hq (by simp)
    rw [hslow] at this
    simpa [PathM.beq] using this.symm

example : newPath exEnv (renderPath [ch "a b", [], ch "x\"y", ch "10", ch "true"])
    = .ok [ch "a b", [], ch "x\"y", ch "10", ch "true"] := rfl

/-- Why `hnum` is needed: the element `1e30` is rendered without quotes and re-reading it converts
the number to an integer out of range. -/
theorem C01_large_numeral_ub (env : Env) (d : Dbl) (h1 : env.parseDouble (ch "1e30") = some d)
    (h2 : env.doubleToI64 d = none) : newPath env (renderPath [ch "1e30"]) = .ub := by
  have h3 : renderPath [ch "1e30"] = ch "1e30" := rfl
  rw [h3]
  have h4 : fastParse (ch "1e30") = .ok [] := rfl
  unfold newPath
  rw [h4]
  simp only [Res.ok_bind]
  have h5 : PathM.beq [] [] = true := rfl
  rw [h5]
  simp only [Bool.not_true, Bool.false_eq_true, if_false]
  unfold parsePathSlow tokenize
  have h6 : pullNumber env '1' (ch "e30") 1 = .ub := by
    unfold pullNumber
    have : numberBody (ch "e30") = (ch "e30", []) := rfl
    rw [this]
    simp only
    rw [if_pos (by decide), h1]
    simp [newNumberDouble, h2]
  rw [tokenLoop, pullNext]
  have h7 : nextCharAfterWhitespace Saver.init.ws (ch "1e30") = ([], some ('1', ch "e30")) := rfl
  rw [h7]
  simp only
  have h8 : pullPlain env true '1' (ch "e30") 1 = .ub := by
    unfold pullPlain pullWord
    rw [h6]
    rfl
  rw [h8]
  rfl

/-! ## C04: accepted expressions have no empty unquoted element -/

theorem plainLoop_canBeEmpty {env : Env} {ho : Bool} {es es' : Elems} {ts : List Tok}
    (h : plainLoop env ho es ts = .ok es') (e : Elem) (he : e ∈ es'.all) (hce : e.canBeEmpty = true) :
    (∃ e0 ∈ es.all, e0.canBeEmpty = true) ∨ ∃ q u l, Tok.value (.str [] q) u l ∈ ts := by
  have hunq : ∀ (es : Elems) (s : Str) (e : Elem), e ∈ (addUnquoted es s).all → e.canBeEmpty = true →
      ∃ e0 ∈ es.all, e0.canBeEmpty = true := by
    intro es s
    induction s generalizing es with
    | nil => intro e he hce; exact ⟨e, he, hce⟩
    | cons c s ih =>
      intro e he hce
      have hstep : addUnquoted es (c :: s) = addUnquoted (addUnquotedChar es c) s := rfl
      rw [hstep] at he
      obtain ⟨e0, h0, h1⟩ := ih _ e he hce
      unfold addUnquotedChar at h0
      by_cases hc : c = '.'
      · rw [if_pos hc] at h0
        simp only [Elems.all, List.mem_append, List.mem_singleton] at h0
        rcases h0 with (h0 | rfl) | rfl
        · exact ⟨e0, by simp [Elems.all, h0], h1⟩
        · exact ⟨_, by simp [Elems.all], h1⟩
        · simp at h1
      · rw [if_neg hc] at h0
        simp only [Elems.all, List.mem_append, List.mem_singleton] at h0
        rcases h0 with h0 | rfl
        · exact ⟨e0, by simp [Elems.all, h0], h1⟩
        · exact ⟨es.cur, by simp [Elems.all], h1⟩
  induction ts generalizing es with
  | nil =>
    simp only [plainLoop, Res.ok.injEq] at h
    subst h
    exact Or.inl ⟨e, he, hce⟩
  | cons t ts ih =>
    have lift : ∀ es1 : Elems, plainLoop env ho es1 ts = .ok es' →
        ((∃ e0 ∈ es1.all, e0.canBeEmpty = true) →
          (∃ e0 ∈ es.all, e0.canBeEmpty = true) ∨ ∃ q u l, Tok.value (.str [] q) u l ∈ t :: ts) →
        (∃ e0 ∈ es.all, e0.canBeEmpty = true) ∨ ∃ q u l, Tok.value (.str [] q) u l ∈ t :: ts := by
      intro es1 h1 h2
      rcases ih h1 with h3 | ⟨q, u, l, h3⟩
      · exact h2 h3
      · exact Or.inr ⟨q, u, l, List.mem_cons_of_mem _ h3⟩
    rw [plainLoop.eq_def] at h
    simp only at h
    split at h
    · exact lift _ h Or.inl
    · rename_i s q u l
      refine lift _ h ?_
      rintro ⟨e0, h0, h1⟩
      simp only [addQuoted, Elems.all, List.mem_append, List.mem_singleton] at h0
      rcases h0 with h0 | rfl
      · exact Or.inl ⟨e0, by simp [Elems.all, h0], h1⟩
      · by_cases hemp : (es.cur.value ++ s).isEmpty = true
        · right
          have : s = [] := by
            simp only [List.isEmpty_iff, List.append_eq_nil_iff] at hemp
            exact hemp.2
          subst this
          exact ⟨q, u, l, by simp⟩
        · left
          rw [if_neg hemp] at h1
          exact ⟨es.cur, by simp [Elems.all], h1⟩
    · exact lift _ h Or.inl
    · refine lift _ h ?_
      rintro ⟨e0, h0, h1⟩
      exact Or.inl (hunq _ _ e0 h0 h1)
    · refine lift _ h ?_
      rintro ⟨e0, h0, h1⟩
      exact Or.inl (hunq _ _ e0 h0 h1)
    · cases ho <;> simp [badPath] at h

/-- **C04.** `path::new_path` never returns an empty path, and an element of the result is empty
only if the expression contains an empty quoted string. -/
theorem C04_accepted_paths (env : Env) (s : Str) (p : Path) (h : newPath env s = .ok p) :
    p ≠ [] ∧ ([] ∈ p → ∃ toks q u l, tokenize env true s = .ok toks ∧
      Tok.value (.str [] q) u l ∈ toks) := by
  unfold newPath at h
  rw [Res.bind_eq_ok] at h
  obtain ⟨sp, hf, h⟩ := h
  split at h
  · rename_i hb
    simp only [Res.ok.injEq] at h
    subst h
    have hne : sp ≠ [] := by rintro rfl; simp [PathM.beq] at hb
    refine ⟨hne, fun hm => ?_⟩
    exfalso
    unfold fastParse at hf
    simp only at hf
    split at hf
    · simp only [Res.ok.injEq] at hf
      exact hne hf.symm
    · rename_i hsafe
      rw [fastPathBuild_eq _ _ _ (Nat.le_refl _)] at hf
      simp only [List.append_nil, Res.ok.injEq] at hf
      have hloop : unsafeLoop true (trim s) = false := by
        unfold looksUnsafe at hsafe
        split at hsafe
        · simp at hsafe
        · simp only [Bool.or_eq_true, not_or] at hsafe
          simpa using hsafe.2
      have hel := unsafeLoop_elems hloop Elems.init (by simp [Elems.init]) (by simp)
      rw [addUnquoted_init] at hel
      rw [← hf] at hm
      exact hel ⟨[], false⟩ (List.mem_map.2 ⟨[], hm, rfl⟩) rfl
  · unfold parsePathSlow at h
    rw [Res.bind_eq_ok] at h
    obtain ⟨toks, ht, h⟩ := h
    unfold parsePathExpression at h
    split at h
    · simp [badPath] at h
    · rw [Res.bind_eq_ok] at h
      obtain ⟨es, he, h⟩ := h
      obtain ⟨h1, h2⟩ := finish_ok h
      refine ⟨by rw [h2]; simp [Elems.all], fun hm => ?_⟩
      rw [h2, List.mem_map] at hm
      obtain ⟨e, hme, hv⟩ := hm
      have hce : e.canBeEmpty = true := by
        have := h1 e hme
        simpa [Elem.bad, hv] using this
      rcases plainLoop_canBeEmpty he e hme hce with ⟨e0, h3, h4⟩ | ⟨q, u, l, h3⟩
      · simp [Elems.init, Elems.all] at h3
        subst h3
        simp at h4
      · exact ⟨toks, q, u, l, ht, List.mem_of_mem_tail h3⟩

example : newPath exEnv (ch "a.\"\".b") = .ok [ch "a", [], ch "b"] ∧
    newPath exEnv (ch "a..b") = .err .badPath ∧ newPath exEnv [] = .err .badPath := ⟨rfl, rfl, rfl⟩

end PathParser
end Hocon
