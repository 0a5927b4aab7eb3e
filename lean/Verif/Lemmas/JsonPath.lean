import Verif.Spec.JsonEdit
import Verif.Lemmas.LinesPut

/-!
# The tokens of a path in a JSON document
-/

set_option autoImplicit false

namespace Hocon
namespace JsonPath

open Spec Tokenizer
open JsonLex (Toks wsPre toks_end toks_simple)
open DocEdit (dots subTokens firstNode)
open PathParser (Elems Elem)

section
variable {env : Env}

/-- `Keys env p toks`: the tokens `toks` of the path `p` are those of its elements, each with the text of a JSON
string, separated by periods. -/
inductive Keys (env : Env) : Path → List Tok → Prop
  | last {k kt : Str} {toks : List Tok} : JChars env kt k → (∀ t ∈ toks, t.isDot = false) →
      Tok.textList toks = '"' :: kt ++ ['"'] → Keys env [k] toks
  | cons {k kt : Str} {p : Path} {pre rest : List Tok} {d : Tok} : JChars env kt k → (∀ t ∈ pre, t.isDot = false) →
      Tok.textList pre = '"' :: kt ++ ['"'] → d.isDot = true → Keys env p rest → Keys env (k :: p) (pre ++ d :: rest)

theorem sub_dot {pre rest : List Tok} {d : Tok} (hp : ∀ t ∈ pre, t.isDot = false) (hd : d.isDot = true) :
    subTokens 1 0 (pre ++ d :: rest) = .ok rest := by
  induction pre with
  | nil => simp [subTokens, hd]
  | cons t pre ih =>
    rw [List.cons_append, subTokens, hp t (.head _)]
    simp only [Bool.false_eq_true, if_false]
    rw [if_neg (by decide)]
    exact ih fun t ht => hp t (.tail _ ht)

/-- What the code takes from the tokens of a path with several elements. -/
theorem Keys.split {k k2 : Str} {p : Path} {toks : List Tok} (h : Keys env (k :: k2 :: p) toks) :
    ∃ kt pre rest, JChars env kt k ∧ Tok.textList pre = '"' :: kt ++ ['"'] ∧
      firstNode (k :: k2 :: p) toks = .ok (.path [k] pre) ∧ subTokens 1 0 toks = .ok rest ∧ Keys env (k2 :: p) rest := by
  cases h with
  | @cons _ kt _ pre rest d hk hp ht hd hr =>
    refine ⟨kt, pre, rest, hk, ht, ?_, sub_dot hp hd, hr⟩
    have hany : (pre ++ d :: rest).any Tok.isDot = true := by simp [hd]
    have htw : (pre ++ d :: rest).takeWhile (fun t => !t.isDot) = pre := by
      rw [List.takeWhile_append_of_pos (by intro a ha; simp [hp a ha]), List.takeWhile_cons_of_neg (by simp [hd])]
      simp
    rw [firstNode, hany, if_pos rfl, PathM.C03_subPathRange 0 1 _ (by omega) (by simp)]
    simp [htw]

theorem Keys.one {k : Str} {toks : List Tok} (h : Keys env [k] toks) :
    ∃ kt, JChars env kt k ∧ Tok.textList toks = '"' :: kt ++ ['"'] ∧ firstNode [k] toks = .ok (.path [k] toks) := by
  cases h with
  | @last _ kt _ hk hp ht =>
    refine ⟨kt, hk, ht, ?_⟩
    have hany : toks.any Tok.isDot = false := by simpa using hp
    rw [firstNode, hany]
    rfl
  | cons _ _ _ _ hr => cases hr

theorem Keys.sub {k k2 : Str} {p : Path} {toks : List Tok} (h : Keys env (k :: k2 :: p) toks) :
    ∃ rest, subTokens 1 0 toks = .ok rest ∧ Keys env (k2 :: p) rest := by
  obtain ⟨_, _, rest, _, _, _, h1, h2⟩ := h.split
  exact ⟨rest, h1, h2⟩

/-! ### Reading -/

theorem toks_simple' {b : Bool} {line line' : Nat} {c : Char} {r r' : Str} {t : Tok} {ts : List Tok}
    (hc : isWhitespace c = false) (hd : c ≠ '$') (h : pullPlain env false c r line = .ok (t, r', line'))
    (hs : t.isSimple = true) (hn : Toks env false ⟨[], true⟩ line' r' ts) :
    Toks env false ⟨[], b⟩ line (c :: r) (t :: ts) := by
  cases b with
  | false => simpa [wsPre] using toks_simple (p := []) hc hd h hs hn
  | true =>
    have he : t ≠ .end_ := by rintro rfl; simp [Tok.isSimple] at hs
    intro f
    cases f with
    | zero => left; rfl
    | succ f =>
      rw [tokenLoop, JsonLex.pullNext_plain _ hc hd h]
      simp only [hs, Saver.check, Saver.create, if_true, List.length_nil, Nat.lt_irrefl, gt_iff_lt, if_false]
      rcases hn f with hn | hn
      · left; rw [hn]; cases t <;> first | exact absurd rfl he | rfl
      · right; rw [hn]; simp

/-- The period between two quoted elements. -/
theorem dot_pull (r : Str) (line : Nat) :
    pullPlain env false '.' ('"' :: r) line = .ok (.unquoted ['.'] line, '"' :: r, line) := by
  rw [pullPlain, if_neg (by simp [startOfComment]), if_neg (by decide)]
  rw [show punctuation '.' = none from by decide]
  simp only [show ¬ ('.' = '+') by decide, if_false]
  rw [pullWord, if_neg (by decide), if_neg (by decide)]
  simp [pullUnquoted, notInUnquotedText, startOfComment, isWhitespace, isSpace]

/-- The tokens of a path in quotes. -/
inductive QToks (env : Env) (line : Int) : Path → List Tok → Prop
  | one {k kt : Str} : JChars env kt k → QToks env line [k] [.value (.str k true) ('"' :: kt ++ ['"']) line]
  | cons {k kt : Str} {p : Path} {ts : List Tok} : JChars env kt k → QToks env line p ts →
      QToks env line (k :: p) (.value (.str k true) ('"' :: kt ++ ['"']) line :: .unquoted ['.'] line :: ts)

theorem quoted_toks (hx : HexOk env) {p : Path} {t : Str} (h : QuotedPath env p t) (line : Nat) :
    ∃ ts, QToks env line p ts ∧ (∃ r, t = '"' :: r) ∧ ∀ b, Toks env false ⟨[], b⟩ line t ts := by
  induction h with
  | @one k kt hk =>
    refine ⟨_, .one hk, ⟨_, rfl⟩, fun b => ?_⟩
    have := JsonLex.jstr_pull' hx hk false [] line (by simp)
    exact toks_simple' (by decide) (by decide) this rfl (toks_end [] true line)
  | @cons k kt t p hk _ ih =>
    obtain ⟨ts, h1, ⟨r, rfl⟩, h3⟩ := ih
    refine ⟨_, .cons hk h1, ⟨_, rfl⟩, fun b => ?_⟩
    have := JsonLex.jstr_pull' hx hk false ('.' :: '"' :: r) line (by simp)
    have h := toks_simple' (b := b) (by decide) (by decide) this rfl
      (toks_simple' (b := true) (by decide) (by decide) (dot_pull r line) rfl (h3 true))
    simpa using h

theorem tokenize_json {t : Str} {ts : List Tok} (ht : Toks env false ⟨[], false⟩ 1 t ts) :
    tokenize env false t = .ok (.start :: (ts ++ [.end_])) := by
  rw [tokenize]
  rcases ht (t.length + 1) with ht | ht
  · exact absurd ht (tokenLoop_ne_fuel (by simp))
  · rw [show Tokenizer.Saver.init = ⟨[], false⟩ from rfl, ht]
    simp

/-- The elements read from a path in quotes. -/
theorem quoted_loop {line : Int} {p : Path} {ts : List Tok} (h : QToks env line p ts) (es : Elems) (he : es.cur = ⟨[], false⟩)
    (pt : List Tok) :
    ∃ es' els, PathParser.exprLoop env .json true es pt (ts ++ [.end_]) = .ok (es', pt ++ ts ++ [.end_]) ∧
      es'.all = es.done ++ els ∧ els.map Elem.value = p ∧ ∀ e ∈ els, e.bad = false := by
  induction h generalizing es pt with
  | @one k kt hk =>
    refine ⟨PathParser.addQuoted es k, [(PathParser.addQuoted es k).cur], ?_, ?_, ?_, ?_⟩
    · simp [PathParser.exprLoop]
    · simp [Elems.all, PathParser.addQuoted]
    · simp [PathParser.addQuoted, he]
    · simp [PathParser.addQuoted, he, Elem.bad]
  | @cons k kt p ts hk _ ih =>
    obtain ⟨es', els, h1, h2, h3, h4⟩ := ih
      (PathParser.addUnquoted (PathParser.addQuoted es k) ['.']) (by simp [PathParser.addUnquoted, PathParser.addUnquotedChar])
      (pt ++ [.value (.str k true) ('"' :: kt ++ ['"']) line] ++ [.unquoted ['.'] line])
    refine ⟨es', (PathParser.addQuoted es k).cur :: els, ?_, ?_, ?_, ?_⟩
    · simp only [List.cons_append] at h1
      simp only [List.cons_append, PathParser.exprLoop]
      rw [show PathParser.splitTokenOnPeriod .json (.unquoted ['.'] line) = .ok [.unquoted ['.'] line] from rfl]
      rw [Res.ok_bind, h1]
      simp
    · rw [h2]
      simp [PathParser.addUnquoted, PathParser.addUnquotedChar, PathParser.addQuoted]
    · simp [h3, PathParser.addQuoted, he]
    · intro e hm
      rcases List.mem_cons.1 hm with rfl | hm
      · simp [PathParser.addQuoted, he, Elem.bad]
      · exact h4 e hm

theorem quoted_keys {line : Int} {p : Path} {ts : List Tok} (h : QToks env line p ts) : Keys env p (ts ++ [.end_]) := by
  induction h with
  | @one k kt hk =>
    refine .last hk ?_ ?_
    · intro t ht
      simp at ht
      rcases ht with rfl | rfl <;> rfl
    · simp [Tok.textList, Tok.text]
  | @cons k kt p ts hk _ ih =>
    have := Keys.cons (pre := [.value (.str k true) ('"' :: kt ++ ['"']) line]) (d := .unquoted ['.'] line) hk
      (by intro t ht; simp at ht; subst ht; rfl) (by simp [Tok.textList, Tok.text]) rfl ih
    simpa using this

theorem quoted_path (hx : HexOk env) {p : Path} {t : Str} (h : QuotedPath env p t) :
    ∃ pt, PathParser.parsePathNode env .json t = .ok (p, pt) ∧ Keys env p pt := by
  obtain ⟨ts, h1, _, h3⟩ := quoted_toks hx h 1
  obtain ⟨es', els, e1, e2, e3, e4⟩ := quoted_loop h1 Elems.init rfl []
  refine ⟨ts ++ [.end_], ?_, quoted_keys h1⟩
  rw [PathParser.parsePathNode, show (PathParser.Syntax.json != PathParser.Syntax.json) = false from rfl, tokenize_json (h3 false)]
  rw [Res.ok_bind]
  show PathParser.parsePathNodeExpression env .json true (ts ++ [.end_]) = _
  rw [PathParser.parsePathNodeExpression, if_neg (by simp), e1]
  simp only [Res.ok_bind, List.nil_append]
  have e2 : es'.all = els := by simpa [Elems.init] using e2
  rw [PathParser.finish_good true es' (by rw [e2]; exact e4), e2, e3]
  rfl

/-! ### Paths without quotes -/

theorem word_unquoted (line : Nat) (acc t : Str) (hch : ∀ c ∈ t, WordChar c) (hl : HoconLex.NoLit (acc ++ t)) :
    pullUnquoted false line acc t = (.unquoted (acc ++ t) line, []) := by
  induction t generalizing acc with
  | nil => simp [pullUnquoted]
  | cons c t ih =>
    obtain ⟨f1, f2, f3, _⟩ := HoconLex.WordChar.facts (hch c (.head _))
    rw [pullUnquoted, if_neg (by rw [f1, f2]; simp [startOfComment])]
    have hpre : acc ++ [c] <+: acc ++ c :: t := ⟨t, by simp⟩
    simp only
    have e1 : ¬ ((acc ++ [c]).length = 4 ∧ acc ++ [c] = ch "true") := by
      rintro ⟨_, e⟩
      rw [e] at hpre
      exact hl.1 hpre
    have e2 : ¬ ((acc ++ [c]).length = 4 ∧ acc ++ [c] = ch "null") := by
      rintro ⟨_, e⟩
      rw [e] at hpre
      exact hl.2.2 hpre
    have e3 : ¬ ((acc ++ [c]).length = 5 ∧ acc ++ [c] = ch "false") := by
      rintro ⟨_, e⟩
      rw [e] at hpre
      exact hl.2.1 hpre
    rw [if_neg e1, if_neg e2, if_neg e3]
    rw [ih (acc ++ [c]) (fun x hx => hch x (.tail _ hx)) (by simpa using hl)]
    simp

theorem splitDots_mem (t : Str) : ∀ e ∈ PathParser.splitDots t, ∀ c ∈ e, c ∈ t := by
  induction t with
  | nil => simp [PathParser.splitDots]
  | cons d t ih =>
    intro e he c hc
    rw [PathParser.splitDots] at he
    split at he
    · rcases List.mem_cons.1 he with rfl | he
      · cases hc
      · exact .tail _ (ih e he c hc)
    · split at he
      · rename_i p ps e1
        rcases List.mem_cons.1 he with rfl | he
        · rcases List.mem_cons.1 hc with rfl | hc
          · exact .head _
          · exact .tail _ (ih p (by rw [e1]; simp) c hc)
        · exact .tail _ (ih e (by rw [e1]; simp [he]) c hc)
      · simp at he
        subst he
        simp at hc
        subst hc
        exact .head _

/-- A word is one token. -/
theorem word_tokens {t : Str} (hne : t ≠ []) (hch : ∀ c ∈ t, WordChar c) (hst : WordStart t) :
    tokenize env false t = .ok [.start, .unquoted t 1, .end_] := by
  cases t with
  | nil => exact absurd rfl hne
  | cons c b =>
    obtain ⟨f1, f2, f3, f4, f5, f6, f7⟩ := HoconLex.WordChar.facts (hch c (.head _))
    have hp : pullPlain env false c b 1 = .ok (.unquoted (c :: b) 1, [], 1) := by
      rw [pullPlain, if_neg (by simp [startOfComment]), if_neg f4, f7]
      simp only [f5, if_false]
      have hnum : firstNumberChars.contains c = false := by
        obtain ⟨h1, h2⟩ := hst.1 c rfl
        rw [Bool.eq_false_iff]
        intro hm
        have hm := List.contains_iff_mem.1 hm
        have : ∀ d ∈ firstNumberChars, d = '-' ∨ (48 ≤ d.toNat ∧ d.toNat ≤ 57) := by decide
        rcases this c hm with h | h
        · exact h2 h
        · exact h1 h
      rw [pullWord, hnum, f1]
      simp only [Bool.false_eq_true, if_false, Res.ok_bind]
      rw [word_unquoted 1 [] (c :: b) hch hst.2]
      rfl
    exact tokenize_json (toks_simple' f2 f6 hp rfl (toks_end [] true 1))

theorem word_chars {s : Str} (h : ∀ c ∈ s, WordChar c) : JChars env s s := by
  induction s with
  | nil => exact .nil
  | cons c s ih =>
    have hc := h c (.head _)
    refine .plain (by have := hc.1; omega) (by have := hc.2.1; omega) ?_ ?_ (ih fun d hd => h d (.tail _ hd))
    · rintro rfl; exact absurd hc.2.2 (by decide)
    · rintro rfl; exact absurd hc.2.2 (by decide)

theorem piece_keys (l : Int) (p : Path) (hne : p ≠ []) (hw : ∀ e ∈ p, ∀ c ∈ e, WordChar c) :
    Keys env p ((PathParser.pieceTokens .json l p).dropLast ++ [.end_]) := by
  induction p with
  | nil => exact absurd rfl hne
  | cons e p ih =>
    have he : JChars env e e := word_chars (hw e (.head _))
    have hd : (Tok.value (.str ('"' :: e ++ ['"']) false) ('"' :: e ++ ['"']) l).isDot = false := rfl
    cases p with
    | nil =>
      refine .last he ?_ ?_
      · intro t ht
        simp [PathParser.pieceTokens] at ht
        rcases ht with rfl | rfl <;> rfl
      · simp [PathParser.pieceTokens, Tok.textList, Tok.text]
    | cons e2 p =>
      have := Keys.cons (pre := [.value (.str ('"' :: e ++ ['"']) false) ('"' :: e ++ ['"']) l]) (d := .unquoted ['.'] l) he
        (by intro t ht; simp at ht; subst ht; rfl) (by simp [Tok.textList, Tok.text]) rfl
        (ih (by simp) fun x hx => hw x (.tail _ hx))
      simpa [PathParser.pieceTokens] using this

theorem bare_path (hx : HexOk env) {p : Path} {t : Str} (h : HSegs env p t) (hq : '"' ∉ t) (hs : WordStart t) :
    ∃ pt, PathParser.parsePathNode env .json t = .ok (p, pt) ∧ Keys env p pt := by
  obtain ⟨h1, h2, h3⟩ := Lines.bare_chars h hq
  have hsp : PathParser.splitDots t = p := (KeyPath.segs_split h hq).symm
  have hfin : PathParser.finish true (PathParser.addUnquoted Elems.init t) = .ok p := by
    have hslow := KeyPath.slow_key hx h hs
    have hnc : HoconLex.NoComment t := by
      refine ⟨?_, ?_⟩
      · rintro ⟨a, b, e⟩
        exact (h1 '/' (by rw [← e]; simp)).2 rfl
      · intro hl
        exact (h1 '/' (List.mem_of_getLast? hl)).2 rfl
    obtain ⟨c, b, e, g1, g2, hpull⟩ := HoconLex.word_pull env h3 (fun c hc => (h1 c hc).1) hnc hs
    have hpull := hpull [] 1 (Or.inl rfl)
    have ht := (HoconLex.Step.plain g1 g2 hpull rfl).toks_false (p := []) (toks_end [] true 1)
    rw [List.append_nil, ← e] at ht
    have ht := Lines.tokenize_of_toks (ts := [.unquoted t 1]) (by simpa [wsPre] using ht)
    rw [PathParser.parsePathSlow, ht] at hslow
    simpa [PathParser.parsePathExpression, PathParser.plainLoop] using hslow
  have htr : PathParser.trimDots t = t := by
    obtain ⟨n, hn⟩ := DocParser.trimDots_split t
    cases n with
    | zero => simpa using hn.symm
    | succ n =>
      exfalso
      apply h2
      rw [hn, List.replicate_succ', ← List.append_assoc]
      simp
  have hne : t ≠ ['.'] := by
    rintro rfl
    exact h2 rfl
  have hsplit : PathParser.splitTokenOnPeriod .json (.unquoted t 1)
      = .ok (PathParser.pieceTokens .json 1 p).dropLast := by
    obtain ⟨x, hx⟩ : ∃ x, t.getLast? = some x := by
      cases h : t.getLast? with
      | none => simp at h; exact absurd h h3
      | some x => exact ⟨x, rfl⟩
    have hxd : x ≠ '.' := fun h => h2 (by rw [hx, h])
    rw [PathParser.splitTokenOnPeriod]
    refine (if_neg hne).trans ?_
    have ht : (Tok.unquoted t 1).text = t := rfl
    simp only [ht, hx, htr, hsp]
    simp [hxd, PathParser.tokLine, Tok.originLine]
  refine ⟨(PathParser.pieceTokens .json 1 p).dropLast ++ [.end_], ?_, piece_keys 1 p ?_ ?_⟩
  · rw [PathParser.parsePathNode, show (PathParser.Syntax.json != PathParser.Syntax.json) = false from rfl,
      word_tokens h3 (fun c hc => (h1 c hc).1) hs]
    simp only [Res.ok_bind, List.tail_cons, PathParser.parsePathNodeExpression, List.isEmpty_cons,
      Bool.false_eq_true, if_false, PathParser.exprLoop]
    rw [hsplit]
    simp only [Res.ok_bind, List.nil_append]
    rw [hfin]
    rfl
  · cases h <;> simp
  · intro e he c hc
    refine (h1 c ?_).1
    rw [← hsp] at he
    exact splitDots_mem t e he c hc

/-- The path parser on the text of a path. -/
theorem path_keys (hx : HexOk env) {p : Path} {t : Str} (h : PathSpelling env p t) :
    ∃ pt, PathParser.parsePathNode env .json t = .ok (p, pt) ∧ Keys env p pt := by
  cases h with
  | quoted h => exact quoted_path hx h
  | bare h hq hs => exact bare_path hx h hq hs

end
end JsonPath
end Hocon
