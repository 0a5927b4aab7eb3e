import Verif.Spec.JsonText
import Verif.Lemmas.JsonParse
import Verif.Lemmas.TokenizerLocal

/-!
# The tokens of JSON texts
-/

set_option autoImplicit false

namespace Hocon
namespace JsonLex

open Tokenizer Spec
open JsonParse (Wt Wts JTok)

/-- The rest of the tokens is `ts`, if the fuel suffices. -/
def Toks (env : Env) (allow : Bool) (sv : Saver) (line : Nat) (s : Str) (ts : List Tok) : Prop :=
  ∀ f, tokenLoop env allow f sv s line = .fuel ∨ tokenLoop env allow f sv s line = .ok (ts ++ [.end_])

/-- The whitespace token for saved whitespace. -/
def wsPre (p : Str) (line : Nat) : List Tok := if p.length > 0 then [.ws p line] else []

theorem wsPre_wts {p : Str} (hp : JWs p) (line : Nat) : Wts (wsPre p line) := by
  intro t ht
  rw [wsPre] at ht
  split at ht
  · simp at ht; subst ht; exact hp
  · simp at ht

section
variable {env : Env} {allow : Bool}

theorem toks_blank {p : Str} {b : Bool} {line : Nat} {c : Char} {r : Str} {ts : List Tok}
    (hc : isWhitespaceNotNewline c = true) (h : Toks env allow ⟨p ++ [c], b⟩ line r ts) :
    Toks env allow ⟨p, b⟩ line (c :: r) ts := by
  intro f
  cases f with
  | zero => left; rfl
  | succ f =>
    have e : pullNext env allow (2 * (c :: r).length + 1) ⟨p, b⟩ (c :: r) line
        = pullNext env allow (2 * r.length + 1) ⟨p ++ [c], b⟩ r line := by
      have h1 : pullNext env allow (2 * (c :: r).length + 1) ⟨p, b⟩ (c :: r) line
          = pullNext env allow (2 * (c :: r).length + 1) ⟨p ++ [c], b⟩ r line := by
        rw [pullNext, pullNext]
        simp only [nextCharAfterWhitespace, hc, if_true]
      rw [h1]
      exact pullNext_mono (by simp; omega) ((pull_fuel env allow _).1 _ _ _ (Nat.le_refl _))
    have := h (f + 1)
    rw [tokenLoop] at this ⊢
    rw [e]
    exact this

theorem toks_newline {p : Str} {b : Bool} {line : Nat} {r : Str} {ts : List Tok}
    (h : Toks env allow ⟨[], false⟩ (line + 1) r ts) :
    Toks env allow ⟨p, b⟩ line ('\n' :: r) (wsPre p (line + 1) ++ .newline line :: ts) := by
  intro f
  cases f with
  | zero => left; rfl
  | succ f =>
    rw [tokenLoop, pullNext]
    simp only [nextCharAfterWhitespace, show isWhitespaceNotNewline '\n' = false by decide, Bool.false_eq_true, if_false,
      if_true, Tok.isSimple, Saver.check, Saver.create]
    rcases h f with h | h
    · left
      split <;> (rename_i hp; simp only at hp ⊢)
      · rw [h]; rfl
      · have : p = [] := by simpa using hp
        subst this
        rw [h]; rfl
    · right
      split <;> (rename_i hp; simp only at hp ⊢)
      · rw [h]; simp [wsPre, hp]
      · have : p = [] := by simpa using hp
        subst this
        rw [h]; simp [wsPre]

theorem toks_end (p : Str) (b : Bool) (line : Nat) : Toks env allow ⟨p, b⟩ line [] (wsPre p line) := by
  intro f
  cases f with
  | zero => left; rfl
  | succ f =>
    right
    rw [tokenLoop, pullNext]
    simp only [nextCharAfterWhitespace, Tok.isSimple, Saver.check, Saver.create]
    simp only [Bool.false_eq_true, if_false]
    by_cases hp : p.length > 0 <;> simp [wsPre, hp]

/-- A token other than newline, substitution and the end. -/
theorem pullNext_plain {p : Str} {b : Bool} {line line' : Nat} {c : Char} {r r' : Str} {t : Tok} (n : Nat)
    (hc : isWhitespace c = false) (hd : c ≠ '$') (h : pullPlain env allow c r line = .ok (t, r', line')) :
    pullNext env allow (n + 1) ⟨p, b⟩ (c :: r) line = .ok (t, ⟨p, b⟩, r', line') := by
  have h1 : isWhitespaceNotNewline c = false := by simp [isWhitespaceNotNewline, hc]
  have h2 : c ≠ '\n' := by rintro rfl; exact absurd hc (by decide)
  rw [pullNext]
  simp only [nextCharAfterWhitespace, h1, Bool.false_eq_true, if_false, h2, hd, h, Res.ok_bind]

theorem toks_other {p : Str} {b : Bool} {line line' : Nat} {c : Char} {r r' : Str} {t : Tok} {ts : List Tok}
    (hc : isWhitespace c = false) (hd : c ≠ '$') (h : pullPlain env allow c r line = .ok (t, r', line'))
    (he : t ≠ .end_) (hs : t.isSimple = false) (hn : Toks env allow ⟨[], false⟩ line' r' ts) :
    Toks env allow ⟨p, b⟩ line (c :: r) (wsPre p line' ++ t :: ts) := by
  intro f
  cases f with
  | zero => left; rfl
  | succ f =>
    rw [tokenLoop, pullNext_plain _ hc hd h]
    simp only [hs, Saver.check, Saver.create, Bool.false_eq_true, if_false]
    by_cases hp : p.length > 0
    · simp only [hp, if_true]
      rcases hn f with hn | hn
      · left; rw [hn]; cases t <;> first | exact absurd rfl he | rfl
      · right; rw [hn]; simp [wsPre, hp]
    · have : p = [] := by simpa using hp
      subst this
      simp only [List.length_nil, Nat.lt_irrefl, gt_iff_lt, if_false]
      rcases hn f with hn | hn
      · left; rw [hn]; cases t <;> first | exact absurd rfl he | rfl
      · right; rw [hn]; simp [wsPre]

theorem toks_simple {p : Str} {line line' : Nat} {c : Char} {r r' : Str} {t : Tok} {ts : List Tok}
    (hc : isWhitespace c = false) (hd : c ≠ '$') (h : pullPlain env allow c r line = .ok (t, r', line'))
    (hs : t.isSimple = true) (hn : Toks env allow ⟨[], true⟩ line' r' ts) :
    Toks env allow ⟨p, false⟩ line (c :: r) (wsPre p line' ++ t :: ts) := by
  have he : t ≠ .end_ := by rintro rfl; simp [Tok.isSimple] at hs
  intro f
  cases f with
  | zero => left; rfl
  | succ f =>
    rw [tokenLoop, pullNext_plain _ hc hd h]
    simp only [hs, Saver.check, Saver.create, Bool.false_eq_true, if_false, if_true]
    by_cases hp : p.length > 0
    · simp only [hp, if_true]
      rcases hn f with hn | hn
      · left; rw [hn]; cases t <;> first | exact absurd rfl he | rfl
      · right; rw [hn]; simp [wsPre, hp]
    · have : p = [] := by simpa using hp
      subst this
      simp only [List.length_nil, Nat.lt_irrefl, gt_iff_lt, if_false]
      rcases hn f with hn | hn
      · left; rw [hn]; cases t <;> first | exact absurd rfl he | rfl
      · right; rw [hn]; simp [wsPre]

end

/-- Does not begin with whitespace. -/
def Tight (s : Str) : Prop := ∀ c r, s = c :: r → ¬ JBlank c

/-- Whitespace tokens in front of the text `s`, where the whitespace `p` was already read. -/
def Wz (p s : Str) (w : List Tok) : Prop := Wts w ∧ (p = [] → Tight s → w = [])

theorem wsPre_wz {p : Str} (hp : JWs p) (s : Str) (l : Nat) : Wz p s (wsPre p l) :=
  ⟨wsPre_wts hp l, fun h _ => by subst h; rfl⟩

theorem not_tight {c : Char} {s : Str} (h : JBlank c) : ¬ Tight (c :: s) := fun ht => ht c s rfl h

/-- The text gives tokens satisfying `Q`, up to leading whitespace tokens, in any state. -/
def A (env : Env) (allow : Bool) (s : Str) (Q : List Tok → Prop) : Prop :=
  ∀ line, ∃ ts, Q ts ∧ ∀ p, JWs p → ∃ pre, Wz p s pre ∧ Tok.textList (pre ++ ts) = p ++ s ∧ ∀ b, Toks env allow ⟨p, b⟩ line s (pre ++ ts)

/-- The same, if the previous token was not a simple value. -/
def F (env : Env) (allow : Bool) (s : Str) (Q : List Tok → Prop) : Prop :=
  ∀ line, ∃ ts, Q ts ∧ ∀ p, JWs p → ∃ pre, Wz p s pre ∧ Tok.textList (pre ++ ts) = p ++ s ∧ Toks env allow ⟨p, false⟩ line s (pre ++ ts)

section
variable {env : Env} {allow : Bool} {s : Str} {Q : List Tok → Prop}

theorem A.toF (h : A env allow s Q) : F env allow s Q := by
  intro line
  obtain ⟨ts, hq, h⟩ := h line
  exact ⟨ts, hq, fun p hp => let ⟨pre, hw, ht, h⟩ := h p hp; ⟨pre, hw, ht, h false⟩⟩

theorem F.mono {R : List Tok → Prop} (h : F env allow s Q) (hR : ∀ ts, Q ts → R ts) : F env allow s R := by
  intro line
  obtain ⟨ts, hq, h⟩ := h line
  exact ⟨ts, hR _ hq, h⟩

theorem A.mono {R : List Tok → Prop} (h : A env allow s Q) (hR : ∀ ts, Q ts → R ts) : A env allow s R := by
  intro line
  obtain ⟨ts, hq, h⟩ := h line
  exact ⟨ts, hR _ hq, h⟩

theorem blank_cases {c : Char} (h : JBlank c) : c = '\n' ∨ isWhitespaceNotNewline c = true := by
  rcases h with rfl | rfl | rfl | rfl
  · right; decide
  · right; decide
  · left; rfl
  · right; decide

theorem jws_snoc {p : Str} {c : Char} (hp : JWs p) (hc : JBlank c) : JWs (p ++ [c]) := by
  intro x hx
  rcases List.mem_append.1 hx with h | h
  · exact hp x h
  · simp at h; exact h ▸ hc

theorem wsPre_text (p : Str) (l : Nat) : Tok.textList (wsPre p l) = p := by
  cases p <;> simp [wsPre, Tok.textList, Tok.text]

theorem newline_text {p s : Str} {l l' : Nat} {pre ts : List Tok} (h : Tok.textList (pre ++ ts) = [] ++ s) :
    Tok.textList (wsPre p l ++ .newline l' :: pre ++ ts) = p ++ '\n' :: s := by
  rw [List.append_assoc, Tok.textList_append, wsPre_text, List.cons_append, Tok.textList, h]
  rfl

theorem A.ws {w : Str} (hw : JWs w) (h : A env allow s Q) : A env allow (w ++ s) Q := by
  induction w with
  | nil => exact h
  | cons c w ih =>
    have ih := ih (fun x hx => hw x (.tail _ hx))
    intro line
    rcases blank_cases (hw c (.head _)) with rfl | hc
    · obtain ⟨ts, hq, h⟩ := ih (line + 1)
      refine ⟨ts, hq, fun p hpw => ?_⟩
      obtain ⟨pre, hp, ht, h⟩ := h [] (by simp [JWs])
      refine ⟨wsPre p (line + 1) ++ .newline line :: pre, ?_, newline_text ht, fun b => ?_⟩
      · refine ⟨(wsPre_wts hpw _).append ?_, fun _ h => absurd h (not_tight (hw _ (.head _)))⟩
        intro t ht
        rcases List.mem_cons.1 ht with rfl | ht
        · trivial
        · exact hp.1 t ht
      · have := toks_newline (p := p) (b := b) (h false)
        simpa using this
    · obtain ⟨ts, hq, h⟩ := ih line
      refine ⟨ts, hq, fun p hpw => ?_⟩
      obtain ⟨pre, hp, ht, h⟩ := h (p ++ [c]) (jws_snoc hpw (hw c (.head _)))
      exact ⟨pre, ⟨hp.1, fun _ h => absurd h (not_tight (hw _ (.head _)))⟩, by simpa using ht, fun b => toks_blank hc (h b)⟩

theorem F.ws {w : Str} (hw : JWs w) (h : F env allow s Q) : F env allow (w ++ s) Q := by
  induction w with
  | nil => exact h
  | cons c w ih =>
    have ih := ih (fun x hx => hw x (.tail _ hx))
    intro line
    rcases blank_cases (hw c (.head _)) with rfl | hc
    · obtain ⟨ts, hq, h⟩ := ih (line + 1)
      refine ⟨ts, hq, fun p hpw => ?_⟩
      obtain ⟨pre, hp, ht, h⟩ := h [] (by simp [JWs])
      refine ⟨wsPre p (line + 1) ++ .newline line :: pre, ?_, newline_text ht, ?_⟩
      · refine ⟨(wsPre_wts hpw _).append ?_, fun _ h => absurd h (not_tight (hw _ (.head _)))⟩
        intro t ht
        rcases List.mem_cons.1 ht with rfl | ht
        · trivial
        · exact hp.1 t ht
      · have := toks_newline (p := p) (b := false) h
        simpa using this
    · obtain ⟨ts, hq, h⟩ := ih line
      refine ⟨ts, hq, fun p hpw => ?_⟩
      obtain ⟨pre, hp, ht, h⟩ := h (p ++ [c]) (jws_snoc hpw (hw c (.head _)))
      exact ⟨pre, ⟨hp.1, fun _ h => absurd h (not_tight (hw _ (.head _)))⟩, by simpa using ht, toks_blank hc h⟩

theorem A.end_ : A env allow [] (fun us => us = []) := by
  intro line
  refine ⟨[], rfl, fun p hpw => ⟨wsPre p line, wsPre_wz hpw _ _, by simp [wsPre_text], fun b => ?_⟩⟩
  simpa using toks_end p b line

theorem A.punct {c : Char} {t : Tok} (hc : punctuation c = some t) (h : F env allow s Q) :
    A env allow (c :: s) (fun us => ∃ w ts, us = t :: (w ++ ts) ∧ Wz [] s w ∧ Q ts) := by
  have hfacts : isWhitespace c = false ∧ c ≠ '$' ∧ t ≠ .end_ ∧ t.isSimple = false ∧
      t.text = [c] ∧ ∀ line, pullPlain env allow c s line = .ok (t, s, line) := by
    have hp : ∀ line, c ≠ '"' → c ≠ '#' → c ≠ '/' → pullPlain env allow c s line = .ok (t, s, line) := by
      intro line h1 h2 h3
      rw [pullPlain, if_neg (by simp [startOfComment, h2, h3]), if_neg h1, hc]
    rw [punctuation] at hc
    repeat' split at hc
    all_goals first
      | (simp at hc; done)
      | (rename_i hcc
         subst hcc
         simp at hc
         subst hc
         exact ⟨by decide, by decide, by simp, rfl, rfl, fun line => hp line (by decide) (by decide) (by decide)⟩)
  obtain ⟨h1, h2, h3, h4, h6, h5⟩ := hfacts
  intro line
  obtain ⟨ts, hq, h⟩ := h line
  obtain ⟨pre, hpre, ht, h⟩ := h [] (by simp [JWs])
  refine ⟨t :: (pre ++ ts), ⟨pre, ts, rfl, hpre, hq⟩, fun p hpw => ⟨wsPre p line, wsPre_wz hpw _ _, ?_, fun b => ?_⟩⟩
  · rw [Tok.textList_append, wsPre_text, Tok.textList, ht, h6]; rfl
  exact toks_other h1 h2 (h5 line) h3 h4 h

theorem F.simple {c : Char} {r : Str} {v : Scalar} {text : Str} (hc : isWhitespace c = false) (hd : c ≠ '$')
    (htx : c :: r = text ++ s)
    (hp : ∀ line, pullPlain env allow c r line = .ok (.value v text line, s, line)) (h : A env allow s Q) :
    F env allow (c :: r) (fun us => ∃ l w ts, us = .value v text l :: (w ++ ts) ∧ Wz [] s w ∧ Q ts) := by
  intro line
  obtain ⟨ts, hq, h⟩ := h line
  obtain ⟨pre, hpre, ht, h⟩ := h [] (by simp [JWs])
  refine ⟨.value v text line :: (pre ++ ts), ⟨line, pre, ts, rfl, hpre, hq⟩, fun p hpw => ⟨wsPre p line, wsPre_wz hpw _ _, ?_, ?_⟩⟩
  · rw [Tok.textList_append, wsPre_text, Tok.textList, ht, htx]; rfl
  exact toks_simple hc hd (hp line) rfl (h true)

end

/-! ### Scalars -/

/-- What may follow a scalar. -/
def Delim (rest : Str) : Prop :=
  ∀ c r, rest = c :: r → c ∈ [',', ':', ']', '}', '=', '{', '[', '#', '/', '$'] ∨ JBlank c

theorem Delim.nil : Delim [] := by intro c r h; cases h

theorem Delim.ws {w rest : Str} (hw : JWs w) (h : Delim rest) : Delim (w ++ rest) := by
  cases w with
  | nil => exact h
  | cons c w =>
    intro c' r he
    simp at he
    obtain ⟨rfl, _⟩ := he
    exact Or.inr (hw c (.head _))

theorem Delim.number {c : Char} {r : Str} (h : Delim (c :: r)) : numberChars.contains c = false := by
  rcases h c r rfl with h | rfl | rfl | rfl | rfl
  · have : ∀ d ∈ [',', ':', ']', '}', '=', '{', '[', '#', '/', '$'], numberChars.contains d = false := by decide
    exact this c h
  all_goals decide

theorem Delim.quote {c : Char} {r : Str} (h : Delim (c :: r)) : c ≠ '"' := by
  rcases h c r rfl with h | rfl | rfl | rfl | rfl
  · rintro rfl
    simp at h
  all_goals decide

theorem numberBody_delim {b rest : Str} (hb : ∀ x ∈ b, numberChars.contains x = true) (hd : Delim rest) :
    numberBody (b ++ rest) = (b, rest) := by
  induction b with
  | nil =>
    cases rest with
    | nil => rfl
    | cons c r => rw [List.nil_append, numberBody, if_neg (by rw [hd.number]; simp)]
  | cons x b ih =>
    rw [List.cons_append, numberBody, if_pos (hb x (.head _)), ih (fun y hy => hb y (.tail _ hy))]

theorem _root_.Hocon.Spec.JDigit.range {c : Char} (h : JDigit c) : c ∈ ['0', '1', '2', '3', '4', '5', '6', '7', '8', '9'] := by
  obtain ⟨h1, h2⟩ := h
  have : c = Char.ofNat c.toNat := (Char.ofNat_toNat c).symm
  rw [this]
  generalize c.toNat = n at h1 h2
  have : n = 48 ∨ n = 49 ∨ n = 50 ∨ n = 51 ∨ n = 52 ∨ n = 53 ∨ n = 54 ∨ n = 55 ∨ n = 56 ∨ n = 57 := by omega
  rcases this with rfl | rfl | rfl | rfl | rfl | rfl | rfl | rfl | rfl | rfl <;> decide

/-- Facts about digits by cases. -/
theorem _root_.Hocon.Spec.JDigit.elim {c : Char} (h : JDigit c) (P : Char → Bool)
    (hP : (['0', '1', '2', '3', '4', '5', '6', '7', '8', '9'].all P) = true) : P c = true :=
  List.all_eq_true.1 hP c h.range

theorem _root_.Hocon.Spec.JDigit.numberChar {c : Char} (h : JDigit c) : numberChars.contains c = true :=
  h.elim (fun c => numberChars.contains c) (by decide)

theorem _root_.Hocon.Spec.JDigit.isDigit {c : Char} (h : JDigit c) : isDigit c = true :=
  h.elim (fun c => Hocon.isDigit c) (by decide)

theorem _root_.Hocon.Spec.JInt.digits {ds : Str} (h : JInt ds) : ds ≠ [] ∧ ∀ x ∈ ds, JDigit x := by
  rcases h with rfl | ⟨c, r, rfl, h1, _, h2⟩
  · refine ⟨by simp, fun x hx => ?_⟩
    simp at hx; subst hx; exact ⟨by decide, by decide⟩
  · refine ⟨by simp, fun x hx => ?_⟩
    rcases List.mem_cons.1 hx with rfl | hx
    · exact h1
    · exact h2 x hx

theorem digitsVal_eq (ds : Str) (a : Nat) : digitsVal a ds = ds.foldl (fun n c => n * 10 + (c.toNat - 48)) a := by
  induction ds generalizing a with
  | nil => unfold digitsVal; rfl
  | cons c ds ih =>
    refine Eq.trans (b := digitsVal (a * 10 + (c.toNat - 48)) ds) ?_ ?_
    · rfl
    · rw [ih, List.foldl_cons]

theorem intValue_eq (i : Int) (t : Str) : newNumberI64 i t = intValue i t := by
  rw [newNumberI64, intValue, intMin, intMax]

theorem lexCast_int {sg ds : Str} {i : Int} (hs : JSign sg) (hne : ds ≠ []) (hdig : ∀ x ∈ ds, JDigit x)
    (hi : i = (if sg = [] then (decVal ds : Int) else -(decVal ds : Int)))
    (h1 : -9223372036854775808 ≤ i) (h2 : i ≤ 9223372036854775807) : lexCastI64 (sg ++ ds) = some i := by
  have hall : ds.all Hocon.isDigit = true := List.all_eq_true.2 fun x hx => (hdig x hx).isDigit
  have hemp : ds.isEmpty = false := by cases ds <;> simp_all
  rcases hs with rfl | rfl
  · rw [List.nil_append]
    have key : lexCastI64 ds = if i64Min ≤ (digitsVal 0 ds : Int) ∧ (digitsVal 0 ds : Int) ≤ i64Max then
        some (digitsVal 0 ds : Int) else none := by
      obtain ⟨d, ds', rfl⟩ : ∃ d ds', ds = d :: ds' := by
        cases ds with
        | nil => exact absurd rfl hne
        | cons d ds' => exact ⟨d, ds', rfl⟩
      have h3 : d ≠ '-' := by rintro rfl; exact absurd (hdig '-' (.head _)) (by unfold JDigit; decide)
      have h4 : d ≠ '+' := by rintro rfl; exact absurd (hdig '+' (.head _)) (by unfold JDigit; decide)
      rw [lexCastI64]
      · simp [hall]
      · intro r he; exact h3 (List.cons.inj he).1
      · intro r he; exact h4 (List.cons.inj he).1
    rw [key, digitsVal_eq]
    rw [if_pos rfl] at hi
    rw [show (List.foldl (fun n c => n * 10 + (Char.toNat c - 48)) 0 ds) = decVal ds from rfl, ← hi]
    rw [if_pos ⟨h1, h2⟩]
  · simp only [lexCastI64, List.singleton_append, hemp, hall, digitsVal_eq]
    simp only [Bool.not_true, Bool.or_self, Bool.false_eq_true, if_false, if_true]
    rw [show (List.foldl (fun n c => n * 10 + (Char.toNat c - 48)) 0 ds) = decVal ds from rfl]
    rw [if_neg (by simp)] at hi
    rw [← hi, if_pos ⟨h1, h2⟩]

/-- A character a number starts with. -/
def NumStart (c : Char) : Prop := c = '-' ∨ JDigit c

theorem NumStart.range {c : Char} (h : NumStart c) :
    c ∈ ['-', '0', '1', '2', '3', '4', '5', '6', '7', '8', '9'] := by
  rcases h with rfl | h
  · exact .head _
  · exact .tail _ h.range

theorem pullPlain_number {env : Env} {allow : Bool} {c : Char} {r : Str} {line : Nat} (hc : NumStart c) :
    pullPlain env allow c r line = (pullNumber env c r line >>= fun x => .ok (x.1, x.2, line)) := by
  have h := hc.range
  rw [pullPlain]
  have : ∀ d ∈ ['-', '0', '1', '2', '3', '4', '5', '6', '7', '8', '9'],
      (d != '#' && d != '/' && d != '"' && (punctuation d).isNone && d != '+' && firstNumberChars.contains d) = true := by
    decide
  have h2 := this c h
  simp only [Bool.and_eq_true, bne_iff_ne, ne_eq, Option.isNone_iff_eq_none] at h2
  obtain ⟨⟨⟨⟨⟨h1, h2⟩, h3⟩, h4⟩, h5⟩, h6⟩ := h2
  rw [if_neg (by simp [startOfComment, h1, h2]), if_neg h3, h4]
  simp only [h5, if_false]
  rw [pullWord, if_pos h6]

theorem numStart_ws {c : Char} (hc : NumStart c) : isWhitespace c = false ∧ c ≠ '$' := by
  have : ∀ d ∈ ['-', '0', '1', '2', '3', '4', '5', '6', '7', '8', '9'], isWhitespace d = false ∧ d ≠ '$' := by decide
  exact this c hc.range

theorem transform_i (env : Env) (i : Int) (text : Str) (h : text ≠ []) :
    (intValue i text).transformToString env = text := transform_newNumberI64 env i text h

/-- The characters of the text of a number. -/
theorem number_chars {sg ds f x : Str} (hs : JSign sg) (hd : JInt ds) (hf : f = [] ∨ JFrac f)
    (hx : x = [] ∨ JExp x) : ∃ c b, sg ++ ds ++ f ++ x = c :: b ∧ NumStart c ∧
      (∀ y ∈ b, numberChars.contains y = true) ∧
      (¬ (f = [] ∧ x = []) → (b.any fun c => c == '.' || c == 'e' || c == 'E') = true) ∧
      (f = [] ∧ x = [] → (b.any fun c => c == '.' || c == 'e' || c == 'E') = false) := by
  obtain ⟨hne, hdig⟩ := hd.digits
  have hdn : ∀ y ∈ ds, numberChars.contains y = true := fun y hy => (hdig y hy).numberChar
  have hfn : ∀ y ∈ f, numberChars.contains y = true := by
    rcases hf with rfl | ⟨gs, rfl, _, hg⟩
    · intro y hy; cases hy
    · intro y hy
      rcases List.mem_cons.1 hy with rfl | hy
      · decide
      · exact (hg y hy).numberChar
  have hxn : ∀ y ∈ x, numberChars.contains y = true := by
    rcases hx with rfl | ⟨e, sg, gs, rfl, he, hsg, _, hg⟩
    · intro y hy; cases hy
    · intro y hy
      simp at hy
      rcases hy with rfl | hy | hy
      · rcases he with rfl | rfl <;> decide
      · rcases hsg with rfl | rfl | rfl
        · cases hy
        · simp at hy; subst hy; decide
        · simp at hy; subst hy; decide
      · exact (hg y hy).numberChar
  have hdot : ¬ (f = [] ∧ x = []) → ∃ y ∈ f ++ x, (y == '.' || y == 'e' || y == 'E') = true := by
    intro hn
    rcases hf with rfl | ⟨gs, rfl, _, hg⟩
    · rcases hx with rfl | ⟨e, sg, gs, rfl, he, hsg, _, hg⟩
      · exact absurd ⟨rfl, rfl⟩ hn
      · refine ⟨e, by simp, ?_⟩
        rcases he with rfl | rfl <;> decide
    · exact ⟨'.', by simp, by decide⟩
  have hnodot : ∀ y ∈ ds, (y == '.' || y == 'e' || y == 'E') = false := by
    intro y hy
    have := (hdig y hy).elim (fun y => !(y == '.' || y == 'e' || y == 'E')) (by decide)
    simpa using this
  obtain ⟨d, ds', rfl⟩ : ∃ d ds', ds = d :: ds' := by
    cases ds with
    | nil => exact absurd rfl hne
    | cons d ds' => exact ⟨d, ds', rfl⟩
  rcases hs with rfl | rfl
  · refine ⟨d, ds' ++ (f ++ x), by simp, Or.inr (hdig d (.head _)), ?_, ?_, ?_⟩
    · intro y hy
      simp at hy
      rcases hy with hy | hy | hy
      · exact hdn y (.tail _ hy)
      · exact hfn y hy
      · exact hxn y hy
    · intro hn
      obtain ⟨y, hy, h⟩ := hdot hn
      rw [List.any_append, List.any_eq_true.2 ⟨y, hy, h⟩]
      simp
    · rintro ⟨rfl, rfl⟩
      rw [List.append_nil, List.append_nil]
      apply List.any_eq_false.2
      intro y hy
      rw [hnodot y (.tail _ hy)]
      simp
  · refine ⟨'-', d :: ds' ++ (f ++ x), by simp, Or.inl rfl, ?_, ?_, ?_⟩
    · intro y hy
      simp at hy
      rcases hy with rfl | hy | hy | hy
      · exact hdn y (.head _)
      · exact hdn y (.tail _ hy)
      · exact hfn y hy
      · exact hxn y hy
    · intro hn
      obtain ⟨y, hy, h⟩ := hdot hn
      rw [List.any_append, List.any_eq_true.2 ⟨y, hy, h⟩]
      simp
    · rintro ⟨rfl, rfl⟩
      rw [List.append_nil, List.append_nil]
      apply List.any_eq_false.2
      intro y hy
      rw [hnodot y hy]
      simp

theorem jnum_numeral {env : Env} {t : Str} {v : Scalar} (h : JNum env t v) : Numeral env t v := by
  have key : ∀ {sg ds f x c b}, sg ++ ds ++ f ++ x = c :: b → (∀ y ∈ b, numberChars.contains y = true) →
      (b.any fun c => c == '.' || c == 'e' || c == 'E') = true →
      (∀ y ∈ b, y ∈ ch "0123456789eE+-.") ∧ ∃ y ∈ b, y = '.' ∨ y = 'e' ∨ y = 'E' := by
    intro sg ds f x c b _ hb hdot
    refine ⟨fun y hy => by simpa [numberChars] using hb y hy, ?_⟩
    obtain ⟨y, hy, h⟩ := List.any_eq_true.1 hdot
    exact ⟨y, hy, by simpa [or_assoc] using h⟩
  cases h with
  | @int sg ds i hs hd hi h1 h2 => exact .int hs hd.digits.1 hd.digits.2 hi h1 h2
  | @whole sg ds f x d i hs hd hf hx hn hp h1 h2 =>
    obtain ⟨c, b, he, hc, hb, hdot, _⟩ := number_chars hs hd hf hx
    obtain ⟨k1, k2⟩ := key he hb (hdot hn)
    rw [he] at hp ⊢
    exact .whole hc k1 k2 hp h1 h2
  | @double sg ds f x d i hs hd hf hx hn hp h1 h2 =>
    obtain ⟨c, b, he, hc, hb, hdot, _⟩ := number_chars hs hd hf hx
    obtain ⟨k1, k2⟩ := key he hb (hdot hn)
    rw [he] at hp ⊢
    exact .double hc k1 k2 hp h1 h2

/-- What the texts of numbers have to satisfy: the tokenizer reads them. -/
def NumLex (env : Env) (N : Str → Scalar → Prop) : Prop :=
  ∀ t v, N t v → ∃ c b, t = c :: b ∧ NumStart c ∧ ∀ rest line, Delim rest →
    pullNumber env c (b ++ rest) line = .ok (.value v t line, rest)

theorem int_chars {sg ds : Str} (hs : JSign sg) (hne : ds ≠ []) (hdig : ∀ x ∈ ds, JDigit x) :
    ∃ c b, sg ++ ds = c :: b ∧ NumStart c ∧ (∀ y ∈ b, numberChars.contains y = true) ∧
      (b.any fun c => c == '.' || c == 'e' || c == 'E') = false := by
  have hnodot : ∀ b : Str, (∀ y ∈ b, JDigit y) → (b.any fun c => c == '.' || c == 'e' || c == 'E') = false := by
    intro b hb
    apply List.any_eq_false.2
    intro y hy
    have := (hb y hy).elim (fun y => !(y == '.' || y == 'e' || y == 'E')) (by decide)
    simpa using this
  rcases hs with rfl | rfl
  · cases ds with
    | nil => exact absurd rfl hne
    | cons d ds =>
      exact ⟨d, ds, rfl, Or.inr (hdig d (.head _)), fun y hy => (hdig y (.tail _ hy)).numberChar,
        hnodot ds fun y hy => hdig y (.tail _ hy)⟩
  · exact ⟨'-', ds, rfl, Or.inl rfl, fun y hy => (hdig y hy).numberChar, hnodot ds hdig⟩

theorem numeral_lex (env : Env) : NumLex env (Numeral env) := by
  intro t v h
  have key : ∀ {b : Str}, (∀ y ∈ b, y ∈ ch "0123456789eE+-.") → (∃ y ∈ b, y = '.' ∨ y = 'e' ∨ y = 'E') →
      (∀ y ∈ b, numberChars.contains y = true) ∧ (b.any fun c => c == '.' || c == 'e' || c == 'E') = true := by
    intro b h1 h2
    refine ⟨fun y hy => by simpa [numberChars] using h1 y hy, ?_⟩
    obtain ⟨y, hy, h⟩ := h2
    exact List.any_eq_true.2 ⟨y, hy, by simpa [or_assoc] using h⟩
  cases h with
  | @int sg ds i hs hne hdig hi h1 h2 =>
    obtain ⟨c, b, he, hc, hb, hdot⟩ := int_chars hs hne hdig
    refine ⟨c, b, he, hc, fun rest line hr => ?_⟩
    have hl := lexCast_int hs hne hdig hi h1 h2
    rw [he] at hl ⊢
    simp only [pullNumber, numberBody_delim hb hr, hdot, Bool.false_eq_true, if_false, hl, intValue_eq,
      transform_i env i (c :: b) (by simp)]
  | @whole c b d i hc hb hx hp h1 h2 =>
    obtain ⟨hb, hdot⟩ := key hb hx
    refine ⟨c, b, rfl, hc, fun rest line hr => ?_⟩
    simp only [pullNumber, numberBody_delim hb hr, hdot, if_true, hp]
    simp only [newNumberDouble, h1, h2, if_true, Res.ok_bind, intValue_eq, transform_i env i (c :: b) (by simp)]
  | @double c b d i hc hb hx hp h1 h2 =>
    obtain ⟨hb, hdot⟩ := key hb hx
    refine ⟨c, b, rfl, hc, fun rest line hr => ?_⟩
    simp only [pullNumber, numberBody_delim hb hr, hdot, if_true, hp]
    simp only [newNumberDouble, h1, h2, Bool.false_eq_true, if_false, Res.ok_bind]
    simp [Scalar.transformToString]

theorem jnum_lex (env : Env) : NumLex env (JNum env) :=
  fun t v h => numeral_lex env t v (jnum_numeral h)

theorem escapes_simple {e c : Char} (h : (e, c) ∈ escapes) : simpleEscape e = some c := by
  simp [escapes] at h
  rcases h with ⟨rfl, rfl⟩ | ⟨rfl, rfl⟩ | ⟨rfl, rfl⟩ | ⟨rfl, rfl⟩ | ⟨rfl, rfl⟩ | ⟨rfl, rfl⟩ | ⟨rfl, rfl⟩ | ⟨rfl, rfl⟩ <;>
    decide

theorem hexDigit_ne_nul {c : Char} {n : Nat} (h : hexDigit c = some n) : c ≠ '\x00' := by
  rintro rfl
  simp [hexDigit] at h

theorem hex4_ne_nul {a b c d : Char} {n : Nat} (h : hex4 a b c d = some n) : '\x00' ∉ [a, b, c, d] := by
  simp only [hex4, Option.bind_eq_bind, Option.bind_eq_some_iff] at h
  obtain ⟨x, hx, y, hy, z, hz, w, hw, _⟩ := h
  simp [(hexDigit_ne_nul hx).symm, (hexDigit_ne_nul hy).symm, (hexDigit_ne_nul hz).symm, (hexDigit_ne_nul hw).symm]

theorem jchars_loop {env : Env} (hx : HexOk env) {t s : Str} (h : JChars env t s) (res o rest : Str) :
    quotedLoop env res o (t ++ '"' :: rest) = .ok (res ++ s, o ++ t ++ ['"'], rest) := by
  induction h generalizing res o with
  | nil => simp [quotedLoop_close]
  | @plain c t s h1 h2 h3 h4 _ ih =>
    rw [List.cons_append, quotedLoop_char _ h4 h3 (by simp [isC0Control]; omega), ih]
    simp
  | @escape e c t s he _ ih =>
    rw [List.cons_append, List.cons_append, quotedLoop_escape _ (escapes_simple he), ih]
    simp
  | @unicode a b c d n t s hn _ ih =>
    have hc : cstr [a, b, c, d] = [a, b, c, d] := cstr_of_noNul (hex4_ne_nul hn)
    simp only [List.cons_append]
    rw [quotedLoop.eq_def]
    simp only [if_true, show simpleEscape 'u' = none from by decide, hc, hx a b c d n hn, ih]
    simp

theorem jstr_pull' {env : Env} (hx : HexOk env) {t s : Str} (h : JChars env t s) (allow : Bool) (rest : Str)
    (line : Nat) (hd : ∀ r, rest ≠ '"' :: r) :
    pullPlain env allow '"' (t ++ '"' :: rest) line = .ok (.value (.str s true) ('"' :: t ++ ['"']) line, rest, line) := by
  rw [pullPlain, if_neg (by simp [startOfComment]), if_pos rfl, pullQuoted, jchars_loop hx h]
  simp only [Res.ok_bind, List.nil_append]
  split <;> rfl

theorem jstr_pull {env : Env} (hx : HexOk env) {t s : Str} (h : JChars env t s) (allow : Bool) (rest : Str)
    (line : Nat) (hd : Delim rest) :
    pullPlain env allow '"' (t ++ '"' :: rest) line = .ok (.value (.str s true) ('"' :: t ++ ['"']) line, rest, line) :=
  jstr_pull' hx h allow rest line (by rintro r rfl; exact hd.quote rfl)

theorem null_pull (env : Env) (allow : Bool) (rest : Str) (line : Nat) :
    pullPlain env allow 'n' (ch "ull" ++ rest) line = .ok (.value .null (ch "null") line, rest, line) := by
  rw [pullPlain, if_neg (by simp [startOfComment]), if_neg (by decide)]
  rw [show punctuation 'n' = none from by decide]
  simp only [show ¬ ('n' = '+') by decide, if_false]
  rw [pullWord, if_neg (by decide), if_neg (by decide)]
  simp [pullUnquoted, notInUnquotedText, startOfComment, isWhitespace, isSpace]

theorem true_pull (env : Env) (allow : Bool) (rest : Str) (line : Nat) :
    pullPlain env allow 't' (ch "rue" ++ rest) line = .ok (.value (.bool true) (ch "true") line, rest, line) := by
  rw [pullPlain, if_neg (by simp [startOfComment]), if_neg (by decide)]
  rw [show punctuation 't' = none from by decide]
  simp only [show ¬ ('t' = '+') by decide, if_false]
  rw [pullWord, if_neg (by decide), if_neg (by decide)]
  simp [pullUnquoted, notInUnquotedText, startOfComment, isWhitespace, isSpace]

theorem false_pull (env : Env) (allow : Bool) (rest : Str) (line : Nat) :
    pullPlain env allow 'f' (ch "alse" ++ rest) line = .ok (.value (.bool false) (ch "false") line, rest, line) := by
  rw [pullPlain, if_neg (by simp [startOfComment]), if_neg (by decide)]
  rw [show punctuation 'f' = none from by decide]
  simp only [show ¬ ('f' = '+') by decide, if_false]
  rw [pullWord, if_neg (by decide), if_neg (by decide)]
  simp [pullUnquoted, notInUnquotedText, startOfComment, isWhitespace, isSpace]

/-! ### The grammar -/

/-- A scalar and its text. -/
def JA (env : Env) (N : Str → Scalar → Prop) (s : Scalar) (t : Str) : Prop := JText env N (.value (.scalar s)) t

/-- A key and its text. -/
def JK (env : Env) (k : Str) (q : Bool) (text : Str) : Prop :=
  q = true ∧ ∃ kt, text = '"' :: kt ++ ['"'] ∧ JChars env kt k

/-- The tokens of JSON texts. -/
abbrev JT (env : Env) (N : Str → Scalar → Prop) := JTok (JA env N) (JK env)

section
variable {env : Env} {N : Str → Scalar → Prop}

/-- Leading whitespace can be added. -/
theorem elems_pre {w ts : List Tok} {vs : List Value} (hw : Wts w) (h : JT env N (.elems vs) ts) :
    JT env N (.elems vs) (w ++ ts) := by
  cases h with
  | elem h1 hv h2 =>
    have := JTok.elem (hw.append h1) hv h2
    simpa using this
  | elemCons h1 hv h2 hu =>
    have := JTok.elemCons (hw.append h1) hv h2 hu
    simpa using this

theorem members_pre {w ts : List Tok} {fs : Fields} (hw : Wts w) (h : JT env N (.members fs) ts) :
    JT env N (.members fs) (w ++ ts) := by
  cases h with
  | @member w1 w2 w3 ts w4 k text q line v h1 hk h2 h3 hv h4 =>
    have := JTok.member (hw.append h1) hk h2 h3 hv h4 (k := k) (text := text) (q := q) (line := line)
    simpa using this
  | @memberCons w1 w2 w3 ts w4 us k text q line v fs h1 hk h2 h3 hv h4 hu =>
    have := JTok.memberCons (hw.append h1) hk h2 h3 hv h4 hu (k := k) (text := text) (q := q) (line := line)
    simpa using this

end

/-- What is shown for each nonterminal. -/
def L (env : Env) (N : Str → Scalar → Prop) (allow : Bool) : JPart → Str → Prop
  | .value v, t => ∀ rest Q, Delim rest → A env allow rest Q →
      F env allow (t ++ rest) (fun us => ∃ vts w ts, us = vts ++ (w ++ ts) ∧ JT env N (.value v) vts ∧ Wz [] rest w ∧ Q ts)
  | .elems vs, t => ∀ rest Q, Delim rest → A env allow rest Q →
      F env allow (t ++ rest) (fun us => ∃ ets ts, us = ets ++ ts ∧ JT env N (.elems vs) ets ∧ Q ts)
  | .members fs, t => ∀ rest Q, Delim rest → A env allow rest Q →
      F env allow (t ++ rest) (fun us => ∃ ets ts, us = ets ++ ts ∧ JT env N (.members fs) ets ∧ Q ts)

theorem l_scalar {env : Env} {N : Str → Scalar → Prop} {allow : Bool} {c : Char} {b : Str} {v : Scalar} {text : Str}
    (hc : isWhitespace c = false) (hd : c ≠ '$') (hA : JA env N v text) (htx : text = c :: b)
    (hp : ∀ rest line, Delim rest → pullPlain env allow c (b ++ rest) line = .ok (.value v text line, rest, line)) :
    L env N allow (.value (.scalar v)) (c :: b) := by
  intro rest Q hr h
  refine (F.simple hc hd (by rw [htx]; rfl) (fun line => hp rest line hr) h).mono ?_
  rintro us ⟨l, w, ts, rfl, hw, hq⟩
  exact ⟨[.value v text l], w, ts, rfl, .scalar l hA, hw, hq⟩

/-- Closing a composite value. -/
theorem close_A {env : Env} {allow : Bool} {c : Char} {t : Tok} {rest : Str} {Q : List Tok → Prop}
    (hc : punctuation c = some t) (h : A env allow rest Q) :
    A env allow (c :: rest) (fun us => ∃ w ts, us = t :: (w ++ ts) ∧ Wz [] rest w ∧ Q ts) :=
  A.punct hc h.toF

theorem delim_c {c : Char} (rest : Str) (h : c = ',' ∨ c = ':' ∨ c = ']' ∨ c = '}') : Delim (c :: rest) := by
  intro c' r he
  simp at he
  obtain ⟨rfl, _⟩ := he
  rcases h with h | h | h | h <;> simp [h]

theorem jtext_lex {env : Env} {N : Str → Scalar → Prop} (hN : NumLex env N) (hx : HexOk env) (allow : Bool)
    {k : JPart} {t : Str} (h : JText env N k t) :
    L env N allow k t := by
  induction h with
  | null => exact l_scalar (by decide) (by decide) .null rfl (fun rest line _ => null_pull env allow rest line)
  | true_ => exact l_scalar (by decide) (by decide) .true_ rfl (fun rest line _ => true_pull env allow rest line)
  | false_ => exact l_scalar (by decide) (by decide) .false_ rfl (fun rest line _ => false_pull env allow rest line)
  | num h =>
    obtain ⟨c, b, rfl, hc, hp⟩ := hN _ _ h
    refine l_scalar (text := c :: b) (numStart_ws hc).1 (numStart_ws hc).2 (.num h) rfl (fun rest line hd => ?_)
    rw [pullPlain_number hc, hp rest line hd]; rfl
  | @str t s h =>
    refine l_scalar (by decide) (by decide) (.str h) rfl (fun rest line hd => ?_) (text := '"' :: t ++ ['"'])
    have := jstr_pull hx h allow rest line hd
    simpa using this
  | @emptyArr w hw =>
    intro rest Q hd h
    have h1 := (A.punct (c := '[') (t := .openSquare) rfl
      (A.ws hw (close_A (c := ']') (t := .closeSquare) rfl h)).toF).toF
    rw [show '[' :: w ++ [']'] ++ rest = '[' :: (w ++ ']' :: rest) by simp]
    refine h1.mono ?_
    rintro us ⟨w1, ts, rfl, hw1, w2, ts2, rfl, hw2, hq⟩
    exact ⟨.openSquare :: w1 ++ [.closeSquare], w2, ts2, by simp, .emptyArr hw1.1, hw2, hq⟩
  | @arr t vs _ ih =>
    intro rest Q hd h
    have h1 := (A.punct (c := '[') (t := .openSquare) rfl
      (ih (']' :: rest) _ (delim_c _ (by simp)) (close_A (c := ']') (t := .closeSquare) rfl h))).toF
    rw [show '[' :: t ++ [']'] ++ rest = '[' :: (t ++ ']' :: rest) by simp]
    refine h1.mono ?_
    rintro us ⟨w1, ts, rfl, hw1, ets, ts2, rfl, hj, w2, ts3, rfl, hw2, hq⟩
    exact ⟨.openSquare :: (w1 ++ ets) ++ [.closeSquare], w2, ts3, by simp, .arr (elems_pre hw1.1 hj), hw2, hq⟩
  | @emptyObj w hw =>
    intro rest Q hd h
    have h1 := (A.punct (c := '{') (t := .openCurly) rfl
      (A.ws hw (close_A (c := '}') (t := .closeCurly) rfl h)).toF).toF
    rw [show '{' :: w ++ ['}'] ++ rest = '{' :: (w ++ '}' :: rest) by simp]
    refine h1.mono ?_
    rintro us ⟨w1, ts, rfl, hw1, w2, ts2, rfl, hw2, hq⟩
    exact ⟨.openCurly :: w1 ++ [.closeCurly], w2, ts2, by simp, .emptyObj hw1.1, hw2, hq⟩
  | @obj t fs _ hn ih =>
    intro rest Q hd h
    have h1 := (A.punct (c := '{') (t := .openCurly) rfl
      (ih ('}' :: rest) _ (delim_c _ (by simp)) (close_A (c := '}') (t := .closeCurly) rfl h))).toF
    rw [show '{' :: t ++ ['}'] ++ rest = '{' :: (t ++ '}' :: rest) by simp]
    refine h1.mono ?_
    rintro us ⟨w1, ts, rfl, hw1, ets, ts2, rfl, hj, w2, ts3, rfl, hw2, hq⟩
    exact ⟨.openCurly :: (w1 ++ ets) ++ [.closeCurly], w2, ts3, by simp, .obj (members_pre hw1.1 hj) hn, hw2, hq⟩
  | @elem w1 t w2 v h1 _ h2 ih =>
    intro rest Q hd h
    have := F.ws h1 (ih (w2 ++ rest) _ (hd.ws h2) (A.ws h2 h))
    rw [show w1 ++ t ++ w2 ++ rest = w1 ++ (t ++ (w2 ++ rest)) by simp]
    refine this.mono ?_
    rintro us ⟨vts, w, ts, rfl, hj, hw, hq⟩
    exact ⟨vts ++ w, ts, by simp, by simpa using JTok.elem JsonParse.Wts.nil hj hw.1, hq⟩
  | @elemCons w1 t w2 u v vs h1 _ h2 _ ihv ihs =>
    intro rest Q hd h
    have hs := ihs rest _ hd h
    have := F.ws h1 (ihv (w2 ++ ',' :: (u ++ rest)) _ ((delim_c _ (by simp)).ws h2)
      (A.ws h2 (A.punct (c := ',') (t := .comma) rfl hs)))
    rw [show w1 ++ t ++ w2 ++ ',' :: u ++ rest = w1 ++ (t ++ (w2 ++ ',' :: (u ++ rest))) by simp]
    refine this.mono ?_
    rintro us ⟨vts, w, ts, rfl, hj, hw, w', ts', rfl, hw', ets, ts'', rfl, hj', hq⟩
    refine ⟨vts ++ w ++ .comma :: (w' ++ ets), ts'', by simp, ?_, hq⟩
    simpa using JTok.elemCons JsonParse.Wts.nil hj hw.1 (elems_pre hw'.1 hj')
  | @member w1 kt w2 w3 t w4 k v h1 hk h2 h3 _ h4 ih =>
    intro rest Q hd h
    have hv := F.ws h3 (ih (w4 ++ rest) _ (hd.ws h4) (A.ws h4 h))
    have hcolon := A.ws h2 (A.punct (c := ':') (t := .colon) rfl hv)
    have hdk : Delim (w2 ++ ':' :: (w3 ++ (t ++ (w4 ++ rest)))) := (delim_c _ (by simp)).ws h2
    have hkey := F.simple (c := '"') (by decide) (by decide) (by simp)
      (fun line => jstr_pull hx hk allow _ line hdk) hcolon
    have := F.ws h1 hkey
    rw [show w1 ++ ('"' :: kt ++ ['"']) ++ w2 ++ ':' :: w3 ++ t ++ w4 ++ rest
      = w1 ++ '"' :: (kt ++ '"' :: (w2 ++ ':' :: (w3 ++ (t ++ (w4 ++ rest))))) by simp]
    refine this.mono ?_
    rintro us ⟨l, wk, ts, rfl, hwk, wc, ts1, rfl, hwc, vts, w, ts2, rfl, hj, hw, hq⟩
    refine ⟨.value (.str k true) ('"' :: kt ++ ['"']) l :: (wk ++ .colon :: (wc ++ vts ++ w)), ts2, by simp, ?_, hq⟩
    exact JTok.member JsonParse.Wts.nil ⟨rfl, _, rfl, hk⟩ hwk.1 hwc.1 hj hw.1
  | @memberCons w1 kt w2 w3 t w4 k u v fs h1 hk h2 h3 _ h4 _ ihv ihs =>
    intro rest Q hd h
    have hs := ihs rest _ hd h
    have hv := F.ws h3 (ihv (w4 ++ ',' :: (u ++ rest)) _ ((delim_c _ (by simp)).ws h4)
      (A.ws h4 (A.punct (c := ',') (t := .comma) rfl hs)))
    have hcolon := A.ws h2 (A.punct (c := ':') (t := .colon) rfl hv)
    have hdk : Delim (w2 ++ ':' :: (w3 ++ (t ++ (w4 ++ ',' :: (u ++ rest))))) := (delim_c _ (by simp)).ws h2
    have hkey := F.simple (c := '"') (by decide) (by decide) (by simp)
      (fun line => jstr_pull hx hk allow _ line hdk) hcolon
    have := F.ws h1 hkey
    rw [show w1 ++ ('"' :: kt ++ ['"']) ++ w2 ++ ':' :: w3 ++ t ++ w4 ++ ',' :: u ++ rest
      = w1 ++ '"' :: (kt ++ '"' :: (w2 ++ ':' :: (w3 ++ (t ++ (w4 ++ ',' :: (u ++ rest)))))) by simp]
    refine this.mono ?_
    rintro us ⟨l, wk, ts, rfl, hwk, wc, ts1, rfl, hwc, vts, w, ts2, rfl, hj, hw, w', ts', rfl, hw', ets, ts'', rfl,
      hj', hq⟩
    refine ⟨.value (.str k true) ('"' :: kt ++ ['"']) l :: (wk ++ .colon :: (wc ++ vts ++ w ++ .comma :: (w' ++ ets))),
      ts'', by simp, ?_, hq⟩
    exact JTok.memberCons JsonParse.Wts.nil ⟨rfl, _, rfl, hk⟩ hwk.1 hwc.1 hj hw.1 (members_pre hw'.1 hj')

/-- A value does not begin with whitespace. -/
theorem _root_.Hocon.Spec.JText.start {env : Env} {N : Str → Scalar → Prop} (hN : NumLex env N) {v : Value} {t : Str}
    (h : JText env N (.value v) t) {c : Char} {r : Str} (e : t = c :: r) : ¬ JBlank c := by
  have key : isWhitespace c = false → ¬ JBlank c := by
    rintro h (rfl | rfl | rfl | rfl) <;> revert h <;> decide
  apply key
  cases h with
  | num h =>
    obtain ⟨c', b, rfl, hc, _⟩ := hN _ _ h
    cases e
    exact (numStart_ws hc).1
  | _ => cases e; decide

/-- The tokens of a whole JSON text. -/
theorem tokenize_json {env : Env} {N : Str → Scalar → Prop} (hN : NumLex env N) (hx : HexOk env) (allow : Bool) {v : Value} {w1 t w2 : Str}
    (h1 : JWs w1) (h : JText env N (.value v) t) (h2 : JWs w2) :
    ∃ pre vts post, Tokenizer.tokenize env allow (w1 ++ t ++ w2) = .ok (.start :: (pre ++ vts ++ post ++ [.end_])) ∧
      Wts pre ∧ JT env N (.value v) vts ∧ Wts post ∧ (w1 = [] → w2 = [] → pre = [] ∧ post = []) ∧
      Tok.textList (pre ++ vts ++ post) = w1 ++ t ++ w2 := by
  have hF := F.ws h1 (jtext_lex hN hx allow h (w2 ++ []) _ (Delim.nil.ws h2) (A.ws h2 A.end_))
  obtain ⟨ts, ⟨vts, w, ts', rfl, hj, hw, rfl⟩, hp⟩ := hF 1
  obtain ⟨pre, hpre, htx, ht⟩ := hp [] (by simp [JWs])
  refine ⟨pre, vts, w, ?_, hpre.1, hj, hw.1, ?_, by simpa using htx⟩
  rotate_left
  · rintro rfl rfl
    refine ⟨hpre.2 rfl ?_, hw.2 rfl (by rintro c r ⟨⟩)⟩
    intro c r he hb
    exact absurd hb (h.start hN (by simpa using he))
  rw [Tokenizer.tokenize]
  rcases ht ((w1 ++ t ++ w2).length + 1) with ht | ht
  · exact absurd ht (tokenLoop_ne_fuel (by simp))
  · have e : w1 ++ (t ++ (w2 ++ [])) = w1 ++ t ++ w2 := by simp
    rw [e] at ht
    rw [show Saver.init = ⟨[], false⟩ from rfl, ht]
    simp

end JsonLex
end Hocon
