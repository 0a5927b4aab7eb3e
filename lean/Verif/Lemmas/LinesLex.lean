import Verif.Lemmas.LinesShape
import Verif.Lemmas.HoconLex
import Verif.Props.DocParserProps

/-!
# The tokens of lines, and documents made of lines
-/

set_option autoImplicit false

namespace Hocon
namespace Lines

open Spec DocParser HoconParse HoconLex Notes Tokenizer
open JsonLex (Toks wsPre toks_newline toks_end toks_other)

theorem wsPre1 {p : Str} (hp : Blanks p) (line : Nat) : Ws1 (wsPre p line) := by
  rw [wsPre]
  split
  · exact Or.inr ⟨_, _, rfl, by rintro rfl; simp at *, hp⟩
  · exact Or.inl rfl

theorem pulls_wf {env : Env} {line : Nat} {s r : Str} {ts : List Tok} (h : Pulls env line s ts r) :
    ∀ t ∈ ts, Tokenizer.WfTok env true t := by
  induction h with
  | nil => simp
  | cons h1 h2 h3 _ _ _ ih =>
    intro t ht
    rcases List.mem_cons.1 ht with rfl | ht
    · exact (Tokenizer.pullPlain_wf h1 h3).1
    · exact ih t ht

theorem wsPre_text (p : Str) (line : Nat) : Tok.textList (wsPre p line) = p := by
  rw [wsPre]
  split
  · simp [Tok.textList, Tok.text]
  · rename_i h
    cases p with
    | nil => rfl
    | cons c p => simp at h

/-- On this line the text gives tokens satisfying `Q`, up to a leading whitespace token; in any state
(`a`), or if the previous token was not a simple value. The tokens have the text `s`, of which `l` belongs to
the leading whitespace. -/
def G (env : Env) (a : Bool) (line : Nat) (s : Str) (Q : List Tok → Prop) : Prop :=
  ∃ ts l, (Blanks l ∧ l ++ Tok.textList ts = s) ∧ Q ts ∧ ∀ p, Blanks p → ∃ pre, Ws1 pre ∧ Tok.textList pre = p ++ l ∧
    ∀ b, (a = false → b = false) → Toks env true ⟨p, b⟩ line s (pre ++ ts)

theorem Blanks.nil : Blanks [] := by intro c hc; cases hc

theorem Blanks.append {a b : Str} (ha : Blanks a) (hb : Blanks b) : Blanks (a ++ b) := by
  intro c hc
  rcases List.mem_append.1 hc with h | h
  · exact ha c h
  · exact hb c h

/-- No blank stands before the end of the line here. -/
theorem Blanks.none {l t s : Str} (hl : Blanks l) (h : l ++ t = s) (hs : s = [] ∨ ∃ r, s = '\n' :: r) : l = [] := by
  cases l with
  | nil => rfl
  | cons c l =>
    subst h
    rcases hs with h | ⟨r, h⟩
    · cases h
    · cases h
      have := hl '\n' (.head _)
      unfold HBlank at this
      exact absurd this (by decide)

section
variable {env : Env} {a : Bool} {line : Nat} {s : Str} {Q : List Tok → Prop}

/-- At the end of a line all of the text is in the tokens. -/
theorem G.whole (hs : s = [] ∨ ∃ r, s = '\n' :: r) (h : G env a line s Q) :
    G env a line s (fun ts => Tok.textList ts = s ∧ Q ts) := by
  obtain ⟨ts, l, hl, hq, h⟩ := h
  obtain rfl := Blanks.none hl.1 hl.2 hs
  exact ⟨ts, [], hl, ⟨hl.2, hq⟩, h⟩

theorem G.mono {R : List Tok → Prop} (h : G env a line s Q) (hR : ∀ ts, Q ts → R ts) : G env a line s R := by
  obtain ⟨ts, l, hl, hq, h⟩ := h
  exact ⟨ts, l, hl, hR _ hq, h⟩

theorem G.weaken (h : G env true line s Q) : G env a line s Q := by
  obtain ⟨ts, l, hl, hq, h⟩ := h
  refine ⟨ts, l, hl, hq, fun p hb => ?_⟩
  obtain ⟨pre, hp, hpt, h⟩ := h p hb
  exact ⟨pre, hp, hpt, fun b _ => h b (by simp)⟩

theorem G.blanks {w : Str} (hw : Blanks w) (h : G env a line s Q) : G env a line (w ++ s) Q := by
  obtain ⟨ts, l, hl, hq, h⟩ := h
  refine ⟨ts, w ++ l, ⟨Blanks.append hw hl.1, by simp [hl.2]⟩, hq, fun p hpb => ?_⟩
  obtain ⟨pre, hp, hpt, h⟩ := h (p ++ w) (Blanks.append hpb hw)
  exact ⟨pre, hp, by simp [hpt], fun b hb => toks_blanks hw (h b hb)⟩

/-- The tokens behind one with the text `x`. -/
theorem G.after {x : Str} {t : Tok} (hx : t.text = x) (h : G env a line s Q) :
    ∃ w ts, Tok.textList (t :: (w ++ ts)) = x ++ s ∧ Tok.textList (w ++ ts) = s ∧ Ws1 w ∧ Q ts ∧
      ∀ b, (a = false → b = false) → Toks env true ⟨[], b⟩ line s (w ++ ts) := by
  obtain ⟨ts, l, hl, hq, h⟩ := h
  obtain ⟨pre, hp, hpt, h⟩ := h [] Blanks.nil
  have e : Tok.textList (pre ++ ts) = s := by simp [Tok.textList_append, hpt, hl.2]
  exact ⟨pre, ts, by rw [Tok.textList, hx, e], e, hp, hq, h⟩

theorem G.newline (h : G env false (line + 1) s Q) :
    G env true line ('\n' :: s) (fun us => ∃ w ts, us = .newline line :: (w ++ ts) ∧ Ws1 w ∧ Q ts) := by
  obtain ⟨pre, ts, ht, _, hp, hq, h⟩ := h.after (t := .newline line) rfl
  exact ⟨.newline line :: (pre ++ ts), [], ⟨Blanks.nil, ht⟩, ⟨pre, ts, rfl, hp, hq⟩,
    fun p hp => ⟨wsPre p (line + 1), wsPre1 hp _, by simp [wsPre_text], fun b _ => toks_newline (h false (by simp))⟩⟩

theorem G.comment {o c : Str} (ho : CommentStart o) (hb : '\n' ∉ c) (hr : s = [] ∨ ∃ r', s = '\n' :: r')
    (h : G env false line s Q) :
    G env true line (o ++ c ++ s) (fun us => ∃ e ts, us = e ++ ts ∧ NoteT (some c) e ∧ Q ts) := by
  obtain ⟨x, y, d, e, h1, h2, h3, h4⟩ := comment_pull (env := env) ho hb hr
  obtain ⟨pre, ts, ht, hts, hp, ⟨htx, hq⟩, h⟩ := (h.whole hr).after (h4 line)
  have hpe : Tok.textList pre = [] := by
    rw [Tok.textList_append, htx] at hts
    simpa using hts
  rw [e] at ht ⊢
  exact ⟨.comment d c line :: (pre ++ ts), [], ⟨Blanks.nil, ht⟩, ⟨.comment d c line :: pre, ts, rfl, NoteT.some hp hpe, hq⟩,
    fun p hp => ⟨wsPre p line, wsPre1 hp _, by simp [wsPre_text],
      fun b _ => toks_other h1 h2 (h3 line) (by simp) rfl (h false (by simp))⟩⟩

theorem G.end_ : G env true line [] (fun us => us = []) :=
  ⟨[], [], ⟨Blanks.nil, rfl⟩, rfl, fun p hp => ⟨wsPre p line, wsPre1 hp _, by simp [wsPre_text], fun b _ => by simpa using toks_end p b line⟩⟩

theorem G.punctText {c : Char} {t : Tok} (hc : punctuation c = some t) (h : G env false line s Q) :
    G env true line (c :: s) (fun us => ∃ w ts, us = t :: (w ++ ts) ∧
      Tok.textList (w ++ ts) = s ∧ Ws1 w ∧ Q ts) := by
  have hfacts : isWhitespace c = false ∧ c ≠ '$' ∧ t ≠ .end_ ∧ t.isSimple = false ∧ t.text = [c] ∧
      ∀ line, pullPlain env true c s line = .ok (t, s, line) := by
    have hp : ∀ line, c ≠ '"' → c ≠ '#' → c ≠ '/' → pullPlain env true c s line = .ok (t, s, line) := by
      intro line h1 h2 h3
      rw [pullPlain, if_neg (by simp [startOfComment, h2, h3]), if_neg h1, hc]
    rw [punctuation] at hc
    repeat' split at hc
    all_goals first
      | (simp at hc; done)
      | (rename_i hcc
         subst hcc
         simp at hc
         subst hc
         exact ⟨by decide, by decide, by simp, rfl, rfl, fun line => hp line (by decide) (by decide) (by decide)⟩)
  obtain ⟨h1, h2, h3, h4, h6, h5⟩ := hfacts
  obtain ⟨pre, ts, ht, hts, hpre, hq, h⟩ := h.after h6
  refine ⟨t :: (pre ++ ts), [], ⟨Blanks.nil, ht⟩, ⟨pre, ts, rfl, hts, hpre, hq⟩,
    fun p hp => ⟨wsPre p line, wsPre1 hp _, by simp [wsPre_text], fun b _ => ?_⟩⟩
  exact toks_other h1 h2 (h5 line) h3 h4 (h false (by simp))

theorem G.punct {c : Char} {t : Tok} (hc : punctuation c = some t) (h : G env false line s Q) :
    G env true line (c :: s) (fun us => ∃ w ts, us = t :: (w ++ ts) ∧ Ws1 w ∧ Q ts) := by
  refine (G.punctText hc h).mono ?_
  rintro us ⟨w, ts, e, _, hw, hq⟩
  exact ⟨w, ts, e, hw, hq⟩

/-- The tokens of a key have its text, before and after the split at periods. -/
def KText (env : Env) (t : Str) (kts : List Tok) : Prop :=
  Tok.textList kts = t ∧
  ∀ q pt, PathParser.parsePathNodeExpression env .conf false kts = .ok (q, pt) → Tok.textList pt = t

theorem KText.shape_set {kt : Str} {kts w1 w2 pt w ts : List Tok} {c t : Tok} {k : Str} {s : Scalar} {o : Option Str}
    {its : List Item} {e : List Tok} {gs ns : List Node} (h : KText env kt kts)
    (hpt : PathParser.parsePathNodeExpression env .conf false kts = .ok ([k], pt)) (h1 : Wts w1) (h2 : Wts w2)
    (hg : Bits (w ++ e) gs) (hn : Shape its ts ns) :
    Shape (.set k s o :: its) (kts ++ (w1 ++ c :: (w2 ++ t :: (w ++ (e ++ ts)))))
      (.field (.path [k] pt :: (gn w1 ++ .single c :: gn w2) ++ [.simple t]) :: (gs ++ ns)) := by
  have := Shape.field (it := .set k s o) rfl (set_text (c := c) (t := t) (k := k) h1 h2 ((h.2 _ _ hpt).trans h.1.symm)) rfl
    (Shape.bits hg hn)
  simpa using this

theorem KText.shape_sect {kt : Str} {kts w1 w2 f pt w ts us : List Tok} {k : Str} {o o' : Option Str}
    {inner its : List Item} {e : List Tok} {gs ns ns' : List Node} (h : KText env kt kts)
    (hpt : PathParser.parsePathNodeExpression env .conf false kts = .ok ([k], pt)) (h1 : Wts w1) (h2 : Wts (w2 ++ f))
    (hg : Bits (w ++ e) gs) (hi : Shape inner us ns') (hn : Shape its ts ns) :
    Shape (.sect k o inner o' :: its)
      (kts ++ (w1 ++ .openCurly :: (w2 ++ (f ++ (us ++ ([] ++ .closeCurly :: (w ++ (e ++ ts))))))))
      (.field (.path [k] pt :: gn w1 ++
        [.object (.single .openCurly :: (gn (w2 ++ f) ++ (ns' ++ (gn [] ++ [.single .closeCurly]))))]) :: (gs ++ ns)) := by
  have := Shape.field (it := .sect k o inner o') rfl (sect_text (k := k) (w3 := []) h1 h2 Wts.nil
    ((h.2 _ _ hpt).trans h.1.symm) hi.1) rfl (Shape.bits hg hn)
  simpa using this

theorem G.key (hx : HexOk env) {p : Path} {t : Str} (h : HKey env p t) (hd : KDelim s) (hA : G env true line s Q) :
    G env false line (t ++ s) (fun us => ∃ kts w ts, us = kts ++ (w ++ ts) ∧ KeyToks env p kts ∧ KText env t kts ∧
      Tok.textList (w ++ ts) = s ∧ Ws1 w ∧ Q ts) := by
  obtain ⟨w, ts, _, hts, g1, g2, hA⟩ := hA.after (t := .comma) rfl
  obtain ⟨k, kts, g3, g4, g5, g6, g7⟩ :=
    segs_lex hx h.segs [] (by simp) (Or.inl rfl) (by simpa using h.start) s hd.1 hd.2 line
  have htext : Tok.textList (k :: kts) = t := by
    have := g7.text
    rw [List.nil_append] at this
    exact (List.append_cancel_right this).symm
  refine ⟨k :: kts ++ (w ++ ts), [], ?_, ⟨k :: kts, w, ts, rfl, ⟨g3, ⟨k, kts, rfl, g4, ?_⟩, ?_, ?_⟩, ⟨htext, ?_⟩, hts, g1, g2⟩,
    fun q hq => ⟨wsPre q line, wsPre1 hq _, by simp [wsPre_text], ?_⟩⟩
  · exact ⟨Blanks.nil, by rw [Tok.textList_append, htext, hts, List.nil_append]⟩
  · cases k with
    | unquoted x l =>
      rw [DocParser.isIncludeKeyword]
      rw [decide_eq_false_iff_not]
      rintro rfl
      rcases g5 _ l rfl with h1 | h1
      · exact h.notInclude (by simpa using h1.symm)
      · revert h1; decide
    | _ => rfl
  · obtain ⟨es', pt', e1, els, e2, e3, e4⟩ := g6 PathParser.Elems.init [] rfl
    have e2 : es'.all = els := e2
    refine ⟨pt', ?_⟩
    rw [PathParser.parsePathNodeExpression]
    simp only [List.isEmpty_cons, Bool.false_eq_true, if_false, e1, Res.ok_bind]
    rw [PathParser.finish_good false es' (by rw [e2]; exact e4), e2, e3]
    rfl
  · have := h.segs
    cases this <;> simp
  · intro q pt hpt
    rw [(DocParser.pathNode_text (allow := true) hpt (pulls_wf g7)).1, htext]
  · intro b hb
    rw [hb rfl]
    simpa using g7.toks_false (hA true (by simp)) q

/-- A scalar on one line is one token with the number of the line. -/
theorem atom_line (hx : HexOk env) {v : Scalar} {x t : Str} (h : HAtom env (Numeral env) v x t) (hn : '\n' ∉ t) :
    ∃ c b, t = c :: b ∧ isWhitespace c = false ∧ c ≠ '$' ∧ ∀ rest line, Delim rest →
      ∃ tok, pullPlain env true c (b ++ rest) line = .ok (tok, rest, line) ∧ tok.isSimple = true ∧
        scalarOf tok = some v ∧ collectNode tok = none ∧ lineOf tok = line ∧ tok.text = t := by
  cases h with
  | null =>
    exact ⟨'n', ch "ull", rfl, by decide, by decide, fun rest line _ =>
      ⟨_, JsonLex.null_pull env true rest line, rfl, rfl, rfl, rfl, rfl⟩⟩
  | true_ =>
    exact ⟨'t', ch "rue", rfl, by decide, by decide, fun rest line _ =>
      ⟨_, JsonLex.true_pull env true rest line, rfl, rfl, rfl, rfl, rfl⟩⟩
  | false_ =>
    exact ⟨'f', ch "alse", rfl, by decide, by decide, fun rest line _ =>
      ⟨_, JsonLex.false_pull env true rest line, rfl, rfl, rfl, rfl, rfl⟩⟩
  | num hnum =>
    obtain ⟨c, b, rfl, hc, hp⟩ := JsonLex.numeral_lex env _ _ hnum
    have hws := JsonLex.numStart_ws hc
    refine ⟨c, b, rfl, hws.1, hws.2, fun rest line hd => ⟨.value v (c :: b) line, ?_, rfl, rfl, rfl, rfl, rfl⟩⟩
    · rw [JsonLex.pullPlain_number hc, hp rest line hd.json]; rfl
  | @str t _ h =>
    refine ⟨'"', t ++ ['"'], rfl, by decide, by decide,
      fun rest line hd => ⟨.value (.str x true) ('"' :: t ++ ['"']) line, ?_, rfl, rfl, rfl, rfl, rfl⟩⟩
    · have := JsonLex.jstr_pull hx h true rest line hd.json
      simpa using this
  | triple h =>
    refine ⟨'"', ch "\"\"" ++ x ++ ch "\"\"\"", rfl, by decide, by decide, fun rest line hd => ?_⟩
    have e := triple_pull env h rest line (by rintro r rfl; exact hd.json.quote rfl)
    have h0 : x.count '\n' = 0 := by
      rw [List.count_eq_zero]
      intro hm
      exact hn (by simp [hm])
    rw [h0] at e
    exact ⟨_, e, rfl, rfl, rfl, rfl, by simp [Tok.text]⟩
  | @word t h =>
    obtain ⟨c, b, rfl, h1, h2, hp⟩ := word_pull env h.ne h.chars ⟨h.noComment, h.last⟩ h.start
    refine ⟨c, b, rfl, h1, h2, fun rest line hd => ⟨_, hp rest line hd.stops, rfl, rfl, ?_, rfl, rfl⟩⟩
    simp [DocParser.collectNode, DocParser.isUnquotedWs, h1]

theorem G.atom (hx : HexOk env) {v : Scalar} {x t : Str} (h : HAtom env (Numeral env) v x t) (hn : '\n' ∉ t)
    (hd : Delim s) (hA : G env true line s Q) :
    G env false line (t ++ s) (fun us => ∃ tok w ts, us = tok :: (w ++ ts) ∧ scalarOf tok = some v ∧
      collectNode tok = none ∧ lineOf tok = line ∧ tok.text = t ∧ Tok.textList (w ++ ts) = s ∧ Ws1 w ∧ Q ts) := by
  obtain ⟨c, b, rfl, h1, h2, hp⟩ := atom_line hx h hn
  obtain ⟨tok, hp, g1, g2, g3, g4, g5⟩ := hp s line hd
  obtain ⟨w, ts, ht, hts, hw, hq, hA⟩ := hA.after g5
  refine ⟨tok :: (w ++ ts), [], ⟨Blanks.nil, ht⟩, ⟨tok, w, ts, rfl, g2, g3, g4, g5, hts, hw, hq⟩,
    fun q hq => ⟨wsPre q line, wsPre1 hq _, by simp [wsPre_text], ?_⟩⟩
  intro b' hb
  rw [hb rfl]
  exact (Step.plain h1 h2 hp g1).toks_false (hA true (by simp))

theorem G.note {o : Option Str} {e : Str} (he : HNote o e) (hr : s = [] ∨ ∃ r, s = '\n' :: r)
    (h : G env true line s Q) :
    G env true line (e ++ s) (fun us => ∃ f ts, us = f ++ ts ∧ NoteT o f ∧ Q ts) := by
  cases he with
  | none hw => exact (h.blanks hw).mono fun ts hq => ⟨[], ts, rfl, .none, hq⟩
  | hash hw hc =>
    have := (G.comment (Or.inl rfl) hc hr h.weaken).blanks hw
    simpa using this
  | slashes hw hc =>
    have := (G.comment (Or.inr rfl) hc hr h.weaken).blanks hw
    simpa using this

theorem G.tail {o : Option Str} {e : Str} (he : HTail o e) (hr : s = [] ∨ ∃ r, s = '\n' :: r)
    (h : G env true line s Q) :
    G env true line (e ++ s) (fun us => ∃ f ts, us = f ++ ts ∧ TailT o f ∧ Q ts) := by
  cases he with
  | plain he =>
    refine (G.note he hr h).mono ?_
    rintro us ⟨f, ts, rfl, hf, hq⟩
    exact ⟨f, ts, rfl, .plain hf, hq⟩
  | @comma w t hw he =>
    have := (G.punct (c := ',') (t := .comma) rfl (G.note he hr h).weaken).blanks hw
    rw [List.append_assoc]
    refine this.mono ?_
    rintro us ⟨w1, ts, rfl, hw1, f, ts', rfl, hf, hq⟩
    exact ⟨.comma :: (w1 ++ f), ts', by simp, .comma hw1 hf, hq⟩

end

/-! ### What follows -/

theorem delim_blanks {w r : Str} (hw : Blanks w) (hr : Delim r) : Delim (w ++ r) := by
  by_cases h : w = []
  · subst h; exact hr
  · exact Delim.blanks r h hw

theorem delim_line {s : Str} (h : s = [] ∨ ∃ r, s = '\n' :: r) : Delim s := by
  rcases h with rfl | ⟨r, rfl⟩
  · exact Delim.nil
  · exact Or.inr ⟨_, _, rfl, Or.inr (Or.inr (Or.inl rfl))⟩

theorem delim_note {o : Option Str} {e s : Str} (he : HNote o e) (hs : Delim s) : Delim (e ++ s) := by
  cases he with
  | none hw => exact delim_blanks hw hs
  | hash hw hc =>
    rw [List.append_assoc]
    exact delim_blanks hw (Delim.punct _ (by decide))
  | slashes hw hc =>
    rw [List.append_assoc]
    exact delim_blanks hw (Or.inr ⟨'/', _, rfl, Or.inr (Or.inr (Or.inr ⟨rfl, _, rfl⟩))⟩)

theorem delim_tail {o : Option Str} {e s : Str} (he : HTail o e) (hs : Delim s) : Delim (e ++ s) := by
  cases he with
  | plain he => exact delim_note he hs
  | comma hw he =>
    rw [List.append_assoc]
    exact delim_blanks hw (Delim.punct _ (by decide))

theorem lines_next {env : Env} {N : Str → Scalar → Prop} {z : Bool} {its : List Item} {u rest : Str}
    (h : HLines env N z false its u) (hz : z = true → rest = []) :
    u ++ rest = [] ∨ ∃ r, u ++ rest = '\n' :: r := by
  cases h with
  | eof => exact Or.inl (by simp [hz rfl])
  | newline _ => exact Or.inr ⟨_, rfl⟩

/-- The tokens of lines. -/
theorem lines_lex {env : Env} (hx : HexOk env) {z start : Bool} {its : List Item} {t : Str}
    (h : HLines env (Numeral env) z start its t) (line : Nat) (rest : Str) (Q : List Tok → Prop)
    (hz : z = true → rest = [])
    (hrest : ∀ m, (z = false → m = line + (if start then 0 else 1) + rows its) → G env true m rest Q) :
    G env (!start) line (t ++ rest) (fun us => ∃ ts ts', us = ts ++ ts' ∧ (∃ ns, R env z start line its ts ns ∧ Shape its ts ns ∧ Flat z start ns) ∧ Q ts') := by
  induction h generalizing line rest Q with
  | nil =>
    exact (hrest line (by simp [rows])).weaken.mono fun ts hq => ⟨[], ts, rfl, ⟨_, R.nil env _ line, Shape.nil, Flat.nil⟩, hq⟩
  | eof =>
    exact (hrest line (by simp)).weaken.mono fun ts hq => ⟨[], ts, rfl, ⟨_, R.eof env line, Shape.nil, Flat.eof⟩, hq⟩
  | newline _ ih =>
    have := ih (line + 1) rest Q hz (fun m hm => hrest m (by simpa using hm))
    refine (G.newline this).mono ?_
    rintro us ⟨w, _, rfl, hw, ts, ts', rfl, ⟨ns, hr, hsh, hfl⟩, hq⟩
    exact ⟨.newline line :: (w ++ ts), ts', by simp, ⟨_, R.newline hw.ws hr, Shape.newline hw.wts hsh, Flat.newline hw hfl⟩, hq⟩
  | @note z o its t u ho hu ih =>
    have := ih line rest Q hz (fun m hm => hrest m (fun hz => by
      rw [hm hz]; cases o <;> simp [rows, noteItem, Item.rows] <;> omega))
    rw [List.append_assoc]
    refine (G.note ho (lines_next hu hz) this).weaken.mono ?_
    rintro us ⟨f, _, rfl, hf, ts, ts', rfl, ⟨ns, hr, hsh, hfl⟩, hq⟩
    exact ⟨f ++ ts, ts', by simp, ⟨_, R.note hf hr, Shape.note hf hsh, Flat.note hf hfl⟩, hq⟩
  | @set z k kt w w1 w2 x t e u c s o its hw hk hw1 hc hw2 ht hn he hu ih =>
    have hl := lines_next hu hz
    have g := ih line rest Q hz (fun m hm => hrest m (fun hz => by
      rw [hm hz]; simp [rows, Item.rows]; omega))
    have g := G.atom hx ht hn (delim_tail he (delim_line hl)) (G.tail he hl g)
    have hpc : ∃ ct, punctuation c = some ct ∧ (ct = .colon ∨ ct = .equals) := by
      rcases hc with rfl | rfl
      · exact ⟨_, rfl, Or.inl rfl⟩
      · exact ⟨_, rfl, Or.inr rfl⟩
    obtain ⟨ct, hct, hct'⟩ := hpc
    have g := G.punct hct (g.blanks hw2)
    have hd : Delim (c :: (w2 ++ (t ++ (e ++ (u ++ rest))))) := Delim.punct _ (by rcases hc with rfl | rfl <;> decide)
    have g := (G.key hx hk (delim_blanks hw1 hd).key (g.blanks hw1)).blanks hw
    simp only [List.append_assoc, List.cons_append]
    refine g.mono ?_
    rintro us ⟨kts, w3, _, rfl, hkt, htx, _, hw3, w4, _, rfl, hw4, tok, w5, _, rfl, h1, h2, h3, _, _, hw5, f, _, rfl, hf,
      ts, ts', rfl, ⟨ns, hr, hsh, hfl⟩, hq⟩
    obtain ⟨pt, gs, hpt, hgs, hR⟩ := R.set hkt hw3.ws hct' hw4.ws h1 h2 h3 hw5 hf hr
    exact ⟨kts ++ (w3 ++ ct :: (w4 ++ tok :: (w5 ++ (f ++ ts)))), ts', by simp,
      ⟨_, hR, htx.shape_set hpt hw3.wts hw4.wts hgs hsh, Flat.field hw5 hf hgs hfl⟩, hq⟩
  | @sect z k kt w w1 w2 f x e u o o' inner its hw hk hw1 hf hin hw2 he hu ihi ih =>
    have hl := lines_next hu hz
    have g := (G.punct (c := '}') (t := .closeCurly) rfl (G.tail he hl (ih (line + 1 + rows inner) rest Q hz
      (fun m' hm' => hrest m' (fun hz => by rw [hm' hz]; simp [rows, Item.rows]; omega)))).weaken).blanks hw2
    have hl2 := lines_next hin (rest := w2 ++ '}' :: (e ++ (u ++ rest))) (by simp)
    have g := G.note hf hl2 (ihi line _ _ (by simp) (fun m hm => by
      rw [show m = line + 1 + rows inner by simpa using hm]; exact g))
    have g := G.punct (c := '{') (t := .openCurly) rfl g.weaken
    have hd : Delim ('{' :: (f ++ (x ++ (w2 ++ '}' :: (e ++ (u ++ rest)))))) := Delim.punct _ (by decide)
    have g := (G.key hx hk (delim_blanks hw1 hd).key (g.blanks hw1)).blanks hw
    simp only [List.append_assoc, List.cons_append]
    refine g.mono ?_
    rintro us ⟨kts, w3, _, rfl, hkt, htx, _, hw3, w4, _, rfl, hw4, f', _, rfl, hf', us', _, rfl, ⟨ns', hr', hsh', _⟩, w5, _, rfl, hw5,
      e', _, rfl, he', ts, ts', rfl, ⟨ns, hr, hsh, hfl⟩, hq⟩
    obtain ⟨pt, gs, hpt, hgs, hR⟩ := R.sect hkt hw3.ws hw4.ws hf' hr' Ws.nil hw5 he' hr
    exact ⟨kts ++ (w3 ++ .openCurly :: (w4 ++ (f' ++ (us' ++ ([] ++ .closeCurly :: (w5 ++ (e' ++ ts))))))), ts',
      by simp, ⟨_, hR, htx.shape_sect hpt hw3.wts (hw4.wts.append hf'.wts) hgs hsh' hsh, Flat.field hw5 he' hgs hfl⟩, hq⟩

/-! ### Documents -/

theorem bind_bind {α β γ : Type} (x : Res α) (f : α → Res β) (g : β → Res γ) :
    (x >>= f) >>= g = x >>= fun a => f a >>= g := by cases x <;> rfl

/-- A gap before the loop over the fields only adds its nodes. -/
theorem loop_gap (env : Env) (f : Nat) (ho ac : Bool) (keys : List Str) (g : List Tok) (t : Tok) (rest : List Tok)
    (hg : Wts g) (ht : collectNode t = none) :
    objectLoop env .conf f ho ac keys (g ++ t :: rest)
      = objectLoop env .conf f ho ac keys (t :: rest) >>= fun r => .ok (gn g ++ r.1, r.2) := by
  cases f with
  | zero => rw [objectLoop, objectLoop]; rfl
  | succ f =>
    have h0 := nextCollect_gap [] t rest Wts.nil ht
    rw [List.nil_append] at h0
    rw [objectLoop, objectLoop, nextCollect_gap g t rest hg ht, h0]
    simp only [Res.ok_bind, gn_nil, List.nil_append]
    split
    · repeat' split
      all_goals simp
    · repeat' split
      all_goals simp only [bind_bind, Res.ok_bind]
      all_goals first | rfl | rw [List.append_nil]

theorem doc_nodes {env : Env} {z : Bool} {s : Str} {line : Nat} {its : List Item} {pre ts : List Tok}
    (htok : Tokenizer.tokenize env true s = .ok (.start :: (pre ++ ts ++ [.end_]))) (hpre : Ws1 pre)
    {ns : List Node} (hr : R env z true line its ts ns) :
    parseDocument env .conf s = .ok [.object (gn pre ++ ns)] := by
  obtain ⟨_, hhd, hrun, hl, _⟩ := hr
  obtain ⟨g, t, rest, hg, ht, hne, he⟩ : ∃ g t rest, Wts g ∧ collectNode t = none ∧ (t ≠ .openCurly ∧ t ≠ .openSquare) ∧
      pre ++ ts ++ [.end_] = g ++ t :: rest := by
    rcases hhd with h | ⟨g, t, rest, rfl, h1, h2, h3⟩
    · exact ⟨pre ++ ts, .end_, [], hpre.wts.append h, rfl, ⟨by simp, by simp⟩, rfl⟩
    · refine ⟨pre ++ g, t, rest ++ [.end_], hpre.wts.append h1, h2, ⟨?_, ?_⟩, by simp⟩
      · rintro rfl; simp [scalarOf] at h3
      · rintro rfl; simp [scalarOf] at h3
  have hnf := C48_parse_terminates env .conf s
  have htok' : Tokenizer.tokenize env (decide (PathParser.Syntax.conf = .conf)) s = _ := htok
  rw [parseDocument, htok'] at hnf ⊢
  simp only [Res.ok_bind] at hnf ⊢
  rw [he] at hnf ⊢
  generalize hfl : fuelFor (.start :: (g ++ t :: rest)) = fl
  have hparse : DocParser.parse env .conf (.start :: (g ++ t :: rest))
      = (objectLoop env .conf fl false false [] (g ++ t :: rest) >>= fun r => parseEnd .conf true r.1 r.2) := by
    rw [DocParser.parse, hfl, loop_gap env fl false false [] g t rest hg ht]
    rw [show nextToken .conf (.start :: (g ++ t :: rest)) = .ok (.start, g ++ t :: rest) by simp [nextToken]]
    simp only [Res.ok_bind, nextCollect_gap g t rest hg ht, bind_bind, Res.ok_bind]
    obtain ⟨h1, h2⟩ := hne
    revert h1 h2
    cases t <;> intro h1 h2 <;> first | rfl | exact absurd rfl h1 | exact absurd rfl h2
  rw [hparse] at hnf ⊢
  have := hl fl false false [] pre [] [] hpre.wts Ws.nil (fun _ => rfl)
  rw [show pre ++ (ts ++ ([] ++ closer false :: [])) = g ++ t :: rest by rw [← he]; simp [closer]] at this
  rcases this with h | h
  · rw [h] at hnf; exact absurd rfl hnf
  · rw [h]
    simp [parseEnd, nextCollect, nextToken, collectNode, close, left]

theorem tokenize_of_toks {env : Env} {t : Str} {ts : List Tok} (ht : Toks env true ⟨[], false⟩ 1 t ts) :
    Tokenizer.tokenize env true t = .ok (.start :: (ts ++ [.end_])) := by
  rw [Tokenizer.tokenize]
  rcases ht (t.length + 1) with ht | ht
  · exact absurd ht (tokenLoop_ne_fuel (by simp))
  · rw [show Tokenizer.Saver.init = ⟨[], false⟩ from rfl, ht]
    simp

/-- A document made of lines. -/
theorem lines_parse {env : Env} (hx : HexOk env) {its : List Item} {t : Str}
    (h : HLines env (Numeral env) true true its t) (hti : Tidy [] its) (base : Origin) (hb : base.comments = [])
    (inc : AIncluder) (n : Nat) :
    parseTextA env base inc .conf t n = .ok (.obj (at_ base 1 []) (tree base 1 [] its) true false, n) := by
  have g := lines_lex hx h 1 [] (fun us => us = []) (fun _ => rfl) (fun m _ => G.end_)
  rw [List.append_nil] at g
  obtain ⟨us, l, _, ⟨ts, ts', rfl, ⟨ns, hr, _⟩, rfl⟩, hp⟩ := g
  obtain ⟨pre, hpre, _, ht⟩ := hp [] Blanks.nil
  have hdoc := doc_nodes (tokenize_of_toks (by simpa using ht false (fun _ => rfl))) hpre hr
  obtain ⟨_, _, ⟨_, hrun⟩, _⟩ := hr
  obtain ⟨L, hL, _⟩ := hrun base inc 0 none [] [] false [] [] n hb ⟨[], false, Ws.nil, rfl⟩ hti (by simp [New]) (by simp)
  rw [← parseFieldsA_ws hpre.ws] at hL
  simp only [List.append_nil, if_true, List.nil_append] at hL
  have hL' : parseFieldsA env base inc (decide (PathParser.Syntax.conf = .json)) 0 none (gn pre ++ ns) { line := 1 } false [] n
      = .ok (tree base 1 [] its, L, n) := hL
  rw [parseTextA, hdoc]
  simp only [Res.ok_bind, parseRootA, Node.isComplex, if_true, parseValueA, hL', newObjA, tree_resolved, prepend, nonNullA]
  rw [show (1 : Int) = ((1 : Nat) : Int) from rfl, withLine_at hb]
  rfl

end Lines
end Hocon
