import Verif.Lemmas.HoconTokens
import Verif.Lemmas.JsonLex
import Verif.Lemmas.PathParserLemmas
import Verif.Lemmas.TokenizerLemmas

/-!
# The tokens of HOCON texts
-/

set_option autoImplicit false

namespace Hocon
namespace PathParser

theorem splitToken_ok {env : Env} {es es' : Elems} {fl : Syntax} {ho ho' : Bool} {pt pt' ts : List Tok}
    (h : exprLoop env fl ho es pt ts = .ok (es', pt')) : plainLoop env ho' es ts = .ok es' := by
  induction ts generalizing es pt with
  | nil => simp [exprLoop] at h; simp [plainLoop, h.1]
  | cons t ts ih =>
    rw [exprLoop.eq_def] at h
    rw [plainLoop.eq_def]
    simp only at h ⊢
    split at h
    · exact ih h
    · exact ih h
    · exact ih h
    · obtain ⟨sp, _, h⟩ := Res.bind_eq_ok.1 h
      exact ih h
    · obtain ⟨sp, _, h⟩ := Res.bind_eq_ok.1 h
      exact ih h
    · cases ho <;> simp [badPath] at h

end PathParser

namespace HoconLex

open Tokenizer Spec HoconParse
open JsonLex (Toks wsPre toks_blank toks_newline toks_end toks_other pullNext_plain)
open DocParser (collectNode isIncludeKeyword)

theorem wsPre_ws (p : Str) (line : Nat) : Ws (wsPre p line) := by
  intro t ht
  rw [wsPre] at ht
  split at ht
  · simp at ht; exact ⟨_, _, ht⟩
  · simp at ht

section
variable {env : Env} {allow : Bool}

theorem toks_blanks {p w : Str} {b : Bool} {line : Nat} {r : Str} {ts : List Tok} (hw : ∀ c ∈ w, HBlank c)
    (h : Toks env allow ⟨p ++ w, b⟩ line r ts) : Toks env allow ⟨p, b⟩ line (w ++ r) ts := by
  induction w generalizing p with
  | nil => simpa using h
  | cons c w ih =>
    refine toks_blank ?_ (ih (fun x hx => hw x (.tail _ hx)) (by simpa using h))
    rcases hw c (.head _) with rfl | rfl | rfl <;> decide

/-- One simple token at the start of the input. -/
def Step (env : Env) (s : Str) (line : Nat) (t : Tok) (r : Str) (line' : Nat) : Prop :=
  t.isSimple = true ∧ ∀ sv : Saver, pullNext env true (2 * s.length + 1) sv s line = .ok (t, sv, r, line')

theorem Step.plain {line line' : Nat} {c : Char} {r r' : Str} {t : Tok}
    (hc : isWhitespace c = false) (hd : c ≠ '$') (h : pullPlain env true c r line = .ok (t, r', line'))
    (hs : t.isSimple = true) : Step env (c :: r) line t r' line' :=
  ⟨hs, fun _ => pullNext_plain _ hc hd h⟩

theorem Step.ne_end {line line' : Nat} {s r : Str} {t : Tok} (h : Step env s line t r line') : t ≠ .end_ := by
  rintro rfl
  have := h.1
  simp [Tok.isSimple] at this

/-- A simple token after a token that is not simple. -/
theorem Step.toks_false {p : Str} {line line' : Nat} {s r : Str} {t : Tok} {ts : List Tok}
    (h : Step env s line t r line') (hn : Toks env true ⟨[], true⟩ line' r ts) :
    Toks env true ⟨p, false⟩ line s (wsPre p line' ++ t :: ts) := by
  have he := h.ne_end
  intro f
  cases f with
  | zero => left; rfl
  | succ f =>
    rw [tokenLoop, h.2]
    simp only [h.1, Saver.check, Saver.create, Bool.false_eq_true, if_false, if_true]
    by_cases hp : p.length > 0
    · simp only [hp, if_true]
      rcases hn f with hn | hn
      · left; rw [hn]; cases t <;> first | exact absurd rfl he | rfl
      · right; rw [hn]; simp [wsPre, hp]
    · have : p = [] := by simpa using hp
      subst this
      simp only [List.length_nil, Nat.lt_irrefl, gt_iff_lt, if_false]
      rcases hn f with hn | hn
      · left; rw [hn]; cases t <;> first | exact absurd rfl he | rfl
      · right; rw [hn]; simp [wsPre]

/-- A simple token right after a simple token. -/
theorem Step.toks_true {line line' : Nat} {s r : Str} {t : Tok} {ts : List Tok}
    (h : Step env s line t r line') (hn : Toks env true ⟨[], true⟩ line' r ts) :
    Toks env true ⟨[], true⟩ line s (t :: ts) := by
  have he := h.ne_end
  intro f
  cases f with
  | zero => left; rfl
  | succ f =>
    rw [tokenLoop, h.2]
    simp only [h.1, Saver.check, Saver.create, if_true, List.length_nil, Nat.lt_irrefl, gt_iff_lt, if_false]
    rcases hn f with hn | hn
    · left; rw [hn]; cases t <;> first | exact absurd rfl he | rfl
    · right; rw [hn]; simp

/-- A simple token after a simple token and blanks: the blanks become text. -/
theorem Step.toks_ws {p : Str} {line line' : Nat} {s r : Str} {t : Tok} {ts : List Tok} (hp : p ≠ [])
    (h : Step env s line t r line') (hn : Toks env true ⟨[], true⟩ line' r ts) :
    Toks env true ⟨p, true⟩ line s (.unquoted p line' :: t :: ts) := by
  have he := h.ne_end
  have hl : p.length > 0 := by cases p <;> simp_all
  intro f
  cases f with
  | zero => left; rfl
  | succ f =>
    rw [tokenLoop, h.2]
    simp only [h.1, Saver.check, Saver.create, if_true, hl]
    rcases hn f with hn | hn
    · left; rw [hn]; cases t <;> first | exact absurd rfl he | rfl
    · right; rw [hn]; simp

/-- Simple tokens on one line, without blanks. -/
inductive Pulls (env : Env) (line : Nat) : Str → List Tok → Str → Prop
  | nil {s : Str} : Pulls env line s [] s
  | cons {c : Char} {r r' s : Str} {t : Tok} {ts : List Tok} : isWhitespace c = false → c ≠ '$' →
      pullPlain env true c r line = .ok (t, r', line) → t.isSimple = true → c :: r = t.text ++ r' →
      Pulls env line r' ts s → Pulls env line (c :: r) (t :: ts) s

theorem Pulls.text {line : Nat} {s r : Str} {ts : List Tok} (h : Pulls env line s ts r) :
    s = Tok.textList ts ++ r := by
  induction h with
  | nil => rfl
  | cons _ _ _ _ h5 _ ih => rw [h5, ih, Tok.textList, List.append_assoc]

theorem Pulls.toks_true {line : Nat} {s r : Str} {kts ts : List Tok} (h : Pulls env line s kts r)
    (hn : Toks env true ⟨[], true⟩ line r ts) : Toks env true ⟨[], true⟩ line s (kts ++ ts) := by
  induction h with
  | nil => exact hn
  | cons h1 h2 h3 h4 _ _ ih => exact (Step.plain h1 h2 h3 h4).toks_true (ih hn)

theorem Pulls.toks_false {line : Nat} {s r : Str} {k : Tok} {kts ts : List Tok} (h : Pulls env line s (k :: kts) r)
    (hn : Toks env true ⟨[], true⟩ line r ts) (q : Str) :
    Toks env true ⟨q, false⟩ line s (wsPre q line ++ (k :: kts ++ ts)) := by
  cases h with
  | cons h1 h2 h3 h4 _ h => exact (Step.plain h1 h2 h3 h4).toks_false (h.toks_true hn)

/-- Such tokens in a substitution. -/
theorem Pulls.subst {line : Nat} {s s' r : Str} {kts : List Tok} (h : Pulls env line s kts s') (hr : s' = '}' :: r)
    (f : Nat) (b : Bool) (acc : List Tok) :
    substLoop env true f ⟨[], b⟩ acc s line = .fuel ∨ substLoop env true f ⟨[], b⟩ acc s line = .ok (acc ++ kts, r, line) := by
  induction h generalizing f b acc with
  | nil =>
    subst hr
    cases f with
    | zero => left; rw [substLoop]
    | succ f =>
      cases f with
      | zero => left; rw [substLoop, pullNext]
      | succ f =>
        right
        rw [substLoop, pullNext_plain f (t := .closeCurly) (r' := r) (line' := line) (by decide) (by decide)
          (by rw [pullPlain, if_neg (by simp [startOfComment]), if_neg (by decide)]; rfl)]
        simp
  | @cons c r1 r' s t ts h1 h2 h3 h4 _ _ ih =>
    cases f with
    | zero => left; rw [substLoop]
    | succ f =>
      cases f with
      | zero => left; rw [substLoop, pullNext]
      | succ f =>
        rw [substLoop, pullNext_plain f h1 h2 h3]
        have hne : t ≠ .closeCurly ∧ t ≠ .end_ := by
          constructor <;> (rintro rfl; simp [Tok.isSimple] at h4)
        have hck : Saver.check ⟨[], b⟩ t.isSimple line = (none, ⟨[], true⟩) := by
          rw [h4]; simp [Saver.check, Saver.create]
        have := ih hr (f + 1) true (acc ++ [t])
        obtain ⟨hn1, hn2⟩ := hne
        cases t <;> first
          | exact absurd rfl hn1
          | exact absurd rfl hn2
          | (simp only [hck]; simpa using this)

end

/-- The text gives tokens satisfying `Q`, up to leading whitespace tokens, in any state. -/
def A (env : Env) (s : Str) (Q : List Tok → Prop) : Prop :=
  ∀ line, ∃ ts, Q ts ∧ ∀ p, ∃ pre, Ws pre ∧ ∀ b, Toks env true ⟨p, b⟩ line s (pre ++ ts)

/-- The same, if the previous token was not a simple value. -/
def F (env : Env) (s : Str) (Q : List Tok → Prop) : Prop :=
  ∀ line, ∃ ts, Q ts ∧ ∀ p, ∃ pre, Ws pre ∧ Toks env true ⟨p, false⟩ line s (pre ++ ts)

section
variable {env : Env} {s : Str} {Q : List Tok → Prop}

theorem A.toF (h : A env s Q) : F env s Q := by
  intro line
  obtain ⟨ts, hq, h⟩ := h line
  exact ⟨ts, hq, fun p => let ⟨pre, hw, h⟩ := h p; ⟨pre, hw, h false⟩⟩

theorem F.mono {R : List Tok → Prop} (h : F env s Q) (hR : ∀ ts, Q ts → R ts) : F env s R := by
  intro line
  obtain ⟨ts, hq, h⟩ := h line
  exact ⟨ts, hR _ hq, h⟩

theorem A.mono {R : List Tok → Prop} (h : A env s Q) (hR : ∀ ts, Q ts → R ts) : A env s R := by
  intro line
  obtain ⟨ts, hq, h⟩ := h line
  exact ⟨ts, hR _ hq, h⟩

theorem blank_ws {c : Char} (h : HBlank c) : isWhitespaceNotNewline c = true := by
  rcases h with rfl | rfl | rfl <;> decide

theorem A.blank {c : Char} (hc : HBlank c) (h : A env s Q) : A env (c :: s) Q := by
  intro line
  obtain ⟨ts, hq, h⟩ := h line
  refine ⟨ts, hq, fun p => ?_⟩
  obtain ⟨pre, hp, h⟩ := h (p ++ [c])
  exact ⟨pre, hp, fun b => toks_blank (blank_ws hc) (h b)⟩

theorem F.blank {c : Char} (hc : HBlank c) (h : F env s Q) : F env (c :: s) Q := by
  intro line
  obtain ⟨ts, hq, h⟩ := h line
  refine ⟨ts, hq, fun p => ?_⟩
  obtain ⟨pre, hp, h⟩ := h (p ++ [c])
  exact ⟨pre, hp, toks_blank (blank_ws hc) h⟩

theorem A.newline (h : F env s Q) :
    A env ('\n' :: s) (fun us => ∃ l w ts, us = .newline l :: (w ++ ts) ∧ Wts w ∧ Q ts) := by
  intro line
  obtain ⟨ts, hq, h⟩ := h (line + 1)
  obtain ⟨pre, hp, h⟩ := h []
  exact ⟨.newline line :: (pre ++ ts), ⟨line, pre, ts, rfl, hp.wts, hq⟩,
    fun p => ⟨wsPre p (line + 1), wsPre_ws _ _, fun b => toks_newline h⟩⟩

theorem commentBody_eq (b r : Str) (hb : '\n' ∉ b) (hr : r = [] ∨ ∃ r', r = '\n' :: r') :
    commentBody (b ++ r) = (b, r) := by
  induction b with
  | nil =>
    rcases hr with rfl | ⟨r', rfl⟩
    · rfl
    · simp [commentBody]
  | cons c b ih =>
    rw [List.cons_append, commentBody, if_neg (by rintro rfl; simp at hb), ih (fun h => hb (.tail _ h))]

/-- What begins a comment. -/
def CommentStart (o : Str) : Prop := o = ['#'] ∨ o = ['/', '/']

theorem comment_pull {o b r : Str} (ho : CommentStart o) (hb : '\n' ∉ b) (hr : r = [] ∨ ∃ r', r = '\n' :: r') :
    ∃ c x d, o ++ b ++ r = c :: x ∧ isWhitespace c = false ∧ c ≠ '$' ∧
      (∀ line, pullPlain env true c x line = .ok (.comment d b line, r, line)) ∧
      ∀ line, (Tok.comment d b line).text = o ++ b := by
  rcases ho with rfl | rfl
  · refine ⟨'#', b ++ r, false, by simp, by decide, by decide, fun line => ?_, fun _ => rfl⟩
    rw [pullPlain, if_pos (by simp [startOfComment]), pullComment.eq_def, if_neg (by decide), commentBody_eq b r hb hr]
    rfl
  · refine ⟨'/', '/' :: (b ++ r), true, by simp, by decide, by decide, fun line => ?_, fun _ => rfl⟩
    rw [pullPlain, if_pos (by simp [startOfComment]), pullComment, if_pos rfl]
    simp only [commentBody_eq b r hb hr, Res.ok_bind]

theorem A.comment {o b : Str} (ho : CommentStart o) (hb : '\n' ∉ b) (hr : s = [] ∨ ∃ r', s = '\n' :: r')
    (h : F env s Q) :
    A env (o ++ b ++ s) (fun us => ∃ t w ts, us = t :: (w ++ ts) ∧ Wt t ∧ Wts w ∧ Q ts) := by
  obtain ⟨c, x, d, e, h1, h2, h3, _⟩ := comment_pull (env := env) ho hb hr
  intro line
  rw [e]
  obtain ⟨ts, hq, h⟩ := h line
  obtain ⟨pre, hp, h⟩ := h []
  exact ⟨.comment d b line :: (pre ++ ts), ⟨_, pre, ts, rfl, trivial, hp.wts, hq⟩,
    fun p => ⟨wsPre p line, wsPre_ws _ _, fun b => toks_other h1 h2 (h3 line) (by simp) rfl h⟩⟩

theorem wts_cons {t : Tok} {w : List Tok} (ht : Wt t) (hw : Wts w) : Wts (t :: w) := by
  intro x hx
  rcases List.mem_cons.1 hx with rfl | hx
  · exact ht
  · exact hw x hx

/-- The tokens of a gap, and `Q` afterwards. -/
def GapQ (g : Str) (Q : List Tok → Prop) : List Tok → Prop :=
  fun us => ∃ w ts, us = w ++ ts ∧ Wts w ∧ ('\n' ∈ g → HasNl w) ∧ Q ts

theorem GapQ.nil {Q : List Tok → Prop} {us : List Tok} (h : Q us) : GapQ [] Q us :=
  ⟨[], us, rfl, Wts.nil, by simp, h⟩

theorem gap_newline {g : Str} {w us : List Tok} {l : Int} (hw : Wts w) (h : GapQ g Q us) :
    GapQ ('\n' :: g) Q (.newline l :: (w ++ us)) := by
  obtain ⟨w2, ts, rfl, hw2, _, hq⟩ := h
  exact ⟨.newline l :: (w ++ w2), ts, by simp, wts_cons trivial (hw.append hw2), fun _ => ⟨l, .head _⟩, hq⟩

theorem gap_comment {g x : Str} {t : Tok} {w us : List Tok} (ht : Wt t) (hw : Wts w) (h : GapQ ('\n' :: g) Q us) :
    GapQ (x ++ '\n' :: g) Q (t :: (w ++ us)) := by
  obtain ⟨w2, ts, rfl, hw2, hn, hq⟩ := h
  exact ⟨t :: (w ++ w2), ts, by simp, wts_cons ht (hw.append hw2),
    fun _ => by
      obtain ⟨l, hl⟩ := hn (.head _)
      exact ⟨l, by simp [hl]⟩, hq⟩

theorem gap_blank {g : Str} {c : Char} {us : List Tok} (hc : HBlank c) (h : GapQ g Q us) : GapQ (c :: g) Q us := by
  obtain ⟨w2, ts, rfl, hw2, hn, hq⟩ := h
  refine ⟨w2, ts, rfl, hw2, fun hm => hn ?_, hq⟩
  rcases List.mem_cons.1 hm with h | h
  · rcases hc with rfl | rfl | rfl <;> simp at h
  · exact h

theorem F.gap {g : Str} (hg : HGap g) (h : F env s Q) : F env (g ++ s) (GapQ g Q) := by
  induction hg with
  | nil => exact h.mono fun _ => GapQ.nil
  | blank hc _ ih => exact (ih.blank hc).mono fun _ => gap_blank hc
  | newline _ ih =>
    refine (A.newline ih).toF.mono ?_
    rintro us ⟨l, w, ts, rfl, hw, hq⟩
    exact gap_newline hw hq
  | @hash b g hb _ ih =>
    have h1 : F env ('\n' :: (g ++ s)) (GapQ ('\n' :: g) Q) := by
      refine (A.newline ih).toF.mono ?_
      rintro us ⟨l, w, ts, rfl, hw, hq⟩
      exact gap_newline hw hq
    have h2 := (A.comment (o := ['#']) (Or.inl rfl) hb (Or.inr ⟨_, rfl⟩) h1).toF
    rw [show '#' :: b ++ '\n' :: g ++ s = ['#'] ++ b ++ '\n' :: (g ++ s) by simp]
    refine h2.mono ?_
    rintro us ⟨t, w, ts, rfl, ht, hw, hq⟩
    exact gap_comment (x := '#' :: b) ht hw hq
  | @slashes b g hb _ ih =>
    have h1 : F env ('\n' :: (g ++ s)) (GapQ ('\n' :: g) Q) := by
      refine (A.newline ih).toF.mono ?_
      rintro us ⟨l, w, ts, rfl, hw, hq⟩
      exact gap_newline hw hq
    have h2 := (A.comment (o := ['/', '/']) (Or.inr rfl) hb (Or.inr ⟨_, rfl⟩) h1).toF
    rw [show '/' :: '/' :: b ++ '\n' :: g ++ s = ['/', '/'] ++ b ++ '\n' :: (g ++ s) by simp]
    refine h2.mono ?_
    rintro us ⟨t, w, ts, rfl, ht, hw, hq⟩
    exact gap_comment (x := '/' :: '/' :: b) ht hw hq

/-- A gap with a comment or a newline resets the state. -/
theorem A.line {g : Str} (hg : HGap g) (h : F env s Q) : A env ('\n' :: (g ++ s)) (GapQ ('\n' :: g) Q) := by
  refine (A.newline (F.gap hg h)).mono ?_
  rintro us ⟨l, w, ts, rfl, hw, hq⟩
  exact gap_newline hw hq

theorem A.hash {b g : Str} (hb : '\n' ∉ b) (hg : HGap g) (h : F env s Q) :
    A env ('#' :: b ++ '\n' :: g ++ s) (GapQ ('#' :: b ++ '\n' :: g) Q) := by
  have h2 := A.comment (o := ['#']) (Or.inl rfl) hb (Or.inr ⟨_, rfl⟩) (A.line hg h).toF
  rw [show '#' :: b ++ '\n' :: g ++ s = ['#'] ++ b ++ '\n' :: (g ++ s) by simp]
  refine h2.mono ?_
  rintro us ⟨t, w, ts, rfl, ht, hw, hq⟩
  exact gap_comment (x := '#' :: b) ht hw hq

theorem A.slashes {b g : Str} (hb : '\n' ∉ b) (hg : HGap g) (h : F env s Q) :
    A env ('/' :: '/' :: b ++ '\n' :: g ++ s) (GapQ ('/' :: '/' :: b ++ '\n' :: g) Q) := by
  have h2 := A.comment (o := ['/', '/']) (Or.inr rfl) hb (Or.inr ⟨_, rfl⟩) (A.line hg h).toF
  rw [show '/' :: '/' :: b ++ '\n' :: g ++ s = ['/', '/'] ++ b ++ '\n' :: (g ++ s) by simp]
  refine h2.mono ?_
  rintro us ⟨t, w, ts, rfl, ht, hw, hq⟩
  exact gap_comment (x := '/' :: '/' :: b) ht hw hq

theorem A.gap {g : Str} (hg : HGap g) (h : A env s Q) : A env (g ++ s) (GapQ g Q) := by
  induction hg with
  | nil => exact h.mono fun _ => GapQ.nil
  | blank hc _ ih => exact (ih.blank hc).mono fun _ => gap_blank hc
  | newline hg _ => exact A.line hg h.toF
  | hash hb hg _ => exact A.hash hb hg h.toF
  | slashes hb hg _ => exact A.slashes hb hg h.toF

theorem A.gapNl {g : Str} (hg : HGap g) (hn : '\n' ∈ g) (h : F env s Q) : A env (g ++ s) (GapQ g Q) := by
  induction hg with
  | nil => simp at hn
  | @blank c g hc _ ih =>
    have : '\n' ∈ g := by
      rcases List.mem_cons.1 hn with h | h
      · rcases hc with rfl | rfl | rfl <;> simp at h
      · exact h
    exact ((ih this).blank hc).mono fun _ => gap_blank hc
  | newline hg _ => exact A.line hg h
  | hash hb hg _ => exact A.hash hb hg h
  | slashes hb hg _ => exact A.slashes hb hg h

theorem A.end_ : A env [] (fun us => us = []) := by
  intro line
  refine ⟨[], rfl, fun p => ⟨wsPre p line, wsPre_ws _ _, fun b => ?_⟩⟩
  simpa using toks_end p b line

theorem A.last {l : Str} (h : HLast l) : A env l Wts := by
  cases h with
  | gap hg =>
    have := A.gap hg (A.end_ (env := env))
    rw [List.append_nil] at this
    refine this.mono ?_
    rintro us ⟨w, ts, rfl, hw, _, rfl⟩
    simpa using hw
  | @hash b g hg hb =>
    have h2 := A.comment (o := ['#']) (Or.inl rfl) hb (Or.inl rfl) (A.end_ (env := env)).toF
    rw [List.append_nil] at h2
    refine (A.gap hg h2).mono ?_
    rintro us ⟨w, ts, rfl, hw, _, t, w2, ts2, rfl, ht, hw2, rfl⟩
    exact hw.append (wts_cons ht (hw2.append Wts.nil))
  | @slashes b g hg hb =>
    have h2 := A.comment (o := ['/', '/']) (Or.inr rfl) hb (Or.inl rfl) (A.end_ (env := env)).toF
    rw [List.append_nil] at h2
    refine (A.gap hg h2).mono ?_
    rintro us ⟨w, ts, rfl, hw, _, t, w2, ts2, rfl, ht, hw2, rfl⟩
    exact hw.append (wts_cons ht (hw2.append Wts.nil))

theorem A.punct {c : Char} {t : Tok} (hc : punctuation c = some t) (h : F env s Q) :
    A env (c :: s) (fun us => ∃ w ts, us = t :: (w ++ ts) ∧ Ws w ∧ Q ts) := by
  have hfacts : isWhitespace c = false ∧ c ≠ '$' ∧ t ≠ .end_ ∧ t.isSimple = false ∧
      ∀ line, pullPlain env true c s line = .ok (t, s, line) := by
    have hp : ∀ line, c ≠ '"' → c ≠ '#' → c ≠ '/' → pullPlain env true c s line = .ok (t, s, line) := by
      intro line h1 h2 h3
      rw [pullPlain, if_neg (by simp [startOfComment, h2, h3]), if_neg h1, hc]
    rw [punctuation] at hc
    repeat' split at hc
    all_goals first
      | (simp at hc; done)
      | (rename_i hcc
         subst hcc
         simp at hc
         subst hc
         exact ⟨by decide, by decide, by simp, rfl, fun line => hp line (by decide) (by decide) (by decide)⟩)
  obtain ⟨h1, h2, h3, h4, h5⟩ := hfacts
  intro line
  obtain ⟨ts, hq, h⟩ := h line
  obtain ⟨pre, hpre, h⟩ := h []
  refine ⟨t :: (pre ++ ts), ⟨pre, ts, rfl, hpre, hq⟩, fun p => ⟨wsPre p line, wsPre_ws _ _, fun b => ?_⟩⟩
  exact toks_other h1 h2 (h5 line) h3 h4 h

end

/-! ### What follows a scalar -/

/-- What may follow a scalar or a key. -/
def Delim (rest : Str) : Prop :=
  rest = [] ∨ ∃ c r, rest = c :: r ∧
    (c ∈ [',', ':', ']', '}', '=', '{', '[', '#', '$'] ∨ HBlank c ∨ c = '\n' ∨ (c = '/' ∧ ∃ r', r = '/' :: r'))

theorem Delim.nil : Delim [] := Or.inl rfl

theorem Delim.punct {c : Char} (r : Str) (h : c ∈ [',', ':', ']', '}', '=', '{', '[', '#', '$']) : Delim (c :: r) :=
  Or.inr ⟨c, r, rfl, Or.inl h⟩

theorem Delim.json {rest : Str} (h : Delim rest) : JsonLex.Delim rest := by
  rcases h with rfl | ⟨c, r, rfl, h⟩
  · exact JsonLex.Delim.nil
  · intro c' r' e
    simp at e
    obtain ⟨rfl, rfl⟩ := e
    rcases h with h | h | rfl | ⟨rfl, _⟩
    · left
      revert h
      simp
      rintro (h | h | h | h | h | h | h | h | h) <;> simp [h]
    · right
      rcases h with rfl | rfl | rfl <;> simp [JBlank]
    · right; simp [JBlank]
    · left; simp

/-- A gap that is not empty. -/
theorem Delim.gap_ne {g : Str} (rest : Str) (hg : HGap g) (hne : g ≠ []) : Delim (g ++ rest) := by
  cases hg with
  | nil => exact absurd rfl hne
  | @blank c g hc _ => exact Or.inr ⟨c, g ++ rest, rfl, Or.inr (Or.inl hc)⟩
  | @newline g _ => exact Or.inr ⟨_, g ++ rest, rfl, Or.inr (Or.inr (Or.inl rfl))⟩
  | @hash b g _ _ => exact Or.inr ⟨'#', b ++ '\n' :: g ++ rest, rfl, Or.inl (by simp)⟩
  | @slashes b g _ _ =>
    exact Or.inr ⟨'/', '/' :: b ++ '\n' :: g ++ rest, rfl, Or.inr (Or.inr (Or.inr ⟨rfl, b ++ '\n' :: g ++ rest, rfl⟩))⟩

theorem Delim.gap {g rest : Str} (hg : HGap g) (h : Delim rest) : Delim (g ++ rest) := by
  by_cases hne : g = []
  · subst hne; exact h
  · exact Delim.gap_ne rest hg hne

theorem Delim.last {l : Str} (h : HLast l) : Delim l := by
  cases h with
  | gap hg => simpa using Delim.gap hg Delim.nil
  | hash hg _ => exact Delim.gap hg (Delim.punct _ (by simp))
  | @slashes b g hg _ =>
    exact Delim.gap hg (Or.inr ⟨'/', '/' :: b, rfl, Or.inr (Or.inr (Or.inr ⟨rfl, b, rfl⟩))⟩)

theorem Delim.sep {s : Str} (rest : Str) (h : HSep s) : Delim (s ++ rest) := by
  cases h with
  | newline hg hn => exact Delim.gap_ne rest hg (by rintro rfl; simp at hn)
  | @comma g1 g2 h1 h2 =>
    rw [List.append_assoc]
    exact Delim.gap h1 (Delim.punct _ (by simp))

theorem Delim.end_ {e : Str} {rest : Str} (h : HEnd e) (hr : Delim rest) : Delim (e ++ rest) := by
  cases h with
  | gap hg => exact Delim.gap hg hr
  | @comma g1 g2 h1 h2 =>
    rw [List.append_assoc]
    exact Delim.gap h1 (Delim.punct _ (by simp))

/-! ### Words -/

theorem WordChar.facts {c : Char} (h : WordChar c) :
    notInUnquotedText.contains c = false ∧ isWhitespace c = false ∧ c ≠ '#' ∧ c ≠ '"' ∧ c ≠ '+' ∧ c ≠ '$' ∧
      punctuation c = none := by
  obtain ⟨h1, h2, h3⟩ := h
  have hm : ∀ d ∈ ch "$\"{}[]:=,+#`^?!@*&\\", c ≠ d := by
    rintro d hd rfl; exact h3 hd
  refine ⟨?_, ?_, hm _ (by decide), hm _ (by decide), hm _ (by decide), hm _ (by decide), ?_⟩
  · rw [Bool.eq_false_iff]
    intro hc
    exact h3 (List.contains_iff_mem.1 hc)
  · have hne : ∀ d : Char, d.toNat ≤ 0x20 → c ≠ d := by
      rintro d hd rfl; omega
    simp [isWhitespace, isSpace, hne ' ' (by decide), hne '\n' (by decide), hne '\t' (by decide),
      hne '\x0b' (by decide), hne '\x0c' (by decide), hne '\r' (by decide)]
  · rw [punctuation]
    simp [hm ':' (by decide), hm ',' (by decide), hm '=' (by decide), hm '{' (by decide), hm '}' (by decide),
      hm '[' (by decide), hm ']' (by decide)]

/-- Where unquoted text stops. -/
def Stops (rest : Str) : Prop :=
  rest = [] ∨ ∃ c r, rest = c :: r ∧
    (notInUnquotedText.contains c || isWhitespace c || startOfComment true c r) = true

theorem Delim.stops {rest : Str} (h : Delim rest) : Stops rest := by
  rcases h with rfl | ⟨c, r, rfl, h⟩
  · exact Or.inl rfl
  · refine Or.inr ⟨c, r, rfl, ?_⟩
    rcases h with h | h | rfl | ⟨rfl, r', rfl⟩
    · have : ∀ d ∈ [',', ':', ']', '}', '=', '{', '[', '#', '$'], notInUnquotedText.contains d = true := by decide
      rw [this c h]; rfl
    · have := blank_ws h
      simp only [isWhitespaceNotNewline, Bool.and_eq_true] at this
      rw [this.2]; simp
    · rfl
    · simp [startOfComment]

/-- No comment begins within the text, whatever follows it. -/
def NoComment (t : Str) : Prop := ¬ ch "//" <:+: t ∧ t.getLast? ≠ some '/'

theorem NoComment.cons {c : Char} {t rest : Str} (h : NoComment (c :: t)) (hc : c ≠ '#') :
    startOfComment true c (t ++ rest) = false := by
  simp only [startOfComment, Bool.true_and, Bool.or_eq_false_iff, beq_eq_false_iff_ne]
  refine ⟨hc, ?_⟩
  rw [Bool.and_eq_false_iff]
  by_cases hs : c = '/'
  · right
    subst hs
    cases t with
    | nil => exact absurd rfl h.2
    | cons d t =>
      have : d ≠ '/' := by
        rintro rfl
        exact h.1 ⟨[], t, rfl⟩
      simp [this]
  · left; simp [hs]

theorem NoComment.tail {c : Char} {t : Str} (h : NoComment (c :: t)) : NoComment t := by
  refine ⟨fun hi => h.1 (hi.trans (List.suffix_cons c t).isInfix), ?_⟩
  cases t with
  | nil => simp
  | cons d t =>
    have := h.2
    simpa [List.getLast?_cons_cons] using this

/-- Text that never reads as one of the literals. -/
def NoLit (t : Str) : Prop := ¬ ch "true" <+: t ∧ ¬ ch "false" <+: t ∧ ¬ ch "null" <+: t

theorem pullUnquoted_word (line : Nat) (acc t rest : Str) (hch : ∀ c ∈ t, WordChar c) (hnc : NoComment t)
    (hl : NoLit (acc ++ t)) (hr : Stops rest) :
    pullUnquoted true line acc (t ++ rest) = (.unquoted (acc ++ t) line, rest) := by
  induction t generalizing acc with
  | nil =>
    rw [List.nil_append, List.append_nil]
    rcases hr with rfl | ⟨c, r, rfl, hr⟩
    · rfl
    · rw [pullUnquoted, if_pos hr]
  | cons c t ih =>
    obtain ⟨f1, f2, f3, _⟩ := WordChar.facts (hch c (.head _))
    rw [List.cons_append, pullUnquoted, if_neg (by rw [f1, f2, hnc.cons f3]; simp)]
    have hpre : acc ++ [c] <+: acc ++ c :: t := ⟨t, by simp⟩
    simp only
    have e1 : ¬ ((acc ++ [c]).length = 4 ∧ acc ++ [c] = ch "true") := by
      rintro ⟨_, e⟩
      rw [e] at hpre
      exact hl.1 hpre
    have e2 : ¬ ((acc ++ [c]).length = 4 ∧ acc ++ [c] = ch "null") := by
      rintro ⟨_, e⟩
      rw [e] at hpre
      exact hl.2.2 hpre
    have e3 : ¬ ((acc ++ [c]).length = 5 ∧ acc ++ [c] = ch "false") := by
      rintro ⟨_, e⟩
      rw [e] at hpre
      exact hl.2.1 hpre
    rw [if_neg e1, if_neg e2, if_neg e3]
    rw [ih (acc ++ [c]) (fun x hx => hch x (.tail _ hx)) hnc.tail (by simpa using hl)]
    simp

/-- A word is one token. -/
theorem word_pull (env : Env) {t : Str} (hne : t ≠ []) (hch : ∀ c ∈ t, WordChar c) (hnc : NoComment t)
    (hst : WordStart t) :
    ∃ c b, t = c :: b ∧ isWhitespace c = false ∧ c ≠ '$' ∧ ∀ rest line, Stops rest →
      pullPlain env true c (b ++ rest) line = .ok (.unquoted t line, rest, line) := by
  cases t with
  | nil => exact absurd rfl hne
  | cons c b =>
    obtain ⟨f1, f2, f3, f4, f5, f6, f7⟩ := WordChar.facts (hch c (.head _))
    refine ⟨c, b, rfl, f2, f6, fun rest line hr => ?_⟩
    rw [pullPlain, if_neg (by rw [hnc.cons f3]; simp), if_neg f4, f7]
    simp only [f5, if_false]
    have hnum : firstNumberChars.contains c = false := by
      obtain ⟨h1, h2⟩ := hst.1 c rfl
      rw [Bool.eq_false_iff]
      intro hm
      have hm := List.contains_iff_mem.1 hm
      have : ∀ d ∈ firstNumberChars, d = '-' ∨ (48 ≤ d.toNat ∧ d.toNat ≤ 57) := by decide
      rcases this c hm with h | h
      · exact h2 h
      · exact h1 h
    rw [pullWord, hnum, f1]
    simp only [Bool.false_eq_true, if_false, Res.ok_bind]
    have := pullUnquoted_word line [] (c :: b) rest hch hnc hst.2 hr
    rw [List.nil_append, List.cons_append] at this
    rw [this]

theorem WordStart.prefix {a b : Str} (h : WordStart (a ++ b)) (hne : a ≠ []) : WordStart a := by
  obtain ⟨h1, h2, h3, h4⟩ := h
  have hp : a <+: a ++ b := ⟨b, rfl⟩
  refine ⟨?_, fun h => h2 (h.trans hp), fun h => h3 (h.trans hp), fun h => h4 (h.trans hp)⟩
  intro c hc
  apply h1
  cases a with
  | nil => exact absurd rfl hne
  | cons d a => simpa using hc

/-! ### Scalars -/

theorem triple_loop (t rest : Str) (hd : ∀ r, rest ≠ '"' :: r) (P O : Str) (q line : Nat)
    (h : ¬ ch "\"\"\"" <:+: (List.replicate q '"' ++ t)) :
    ∃ o, tripleLoop P O q line (t ++ (ch "\"\"\"" ++ rest)) = .ok (P ++ t, o, rest, line + t.count '\n') := by
  induction t generalizing P O q line with
  | nil =>
    have hend : ∀ P O q line, 3 ≤ q → ∃ o, tripleLoop (P ++ ch "\"\"\"") O q line rest = .ok (P, o, rest, line) := by
      intro P O q line hq
      cases rest with
      | nil =>
        refine ⟨O, ?_⟩
        rw [tripleLoop, if_pos hq]
        simp
      | cons c r =>
        have hc : c ≠ '"' := by rintro rfl; exact hd r rfl
        refine ⟨O, ?_⟩
        rw [tripleLoop, if_neg hc, if_pos hq]
        simp
    obtain ⟨o, h⟩ := hend P (O ++ ch "\"\"\"") (q + 3) line (by omega)
    refine ⟨o, ?_⟩
    rw [List.nil_append, List.append_nil]
    show tripleLoop P O q line ('"' :: '"' :: '"' :: rest) = _
    rw [tripleLoop, if_pos rfl, tripleLoop, if_pos rfl, tripleLoop, if_pos rfl]
    simpa using h
  | cons c t ih =>
    rw [List.cons_append, tripleLoop]
    by_cases hc : c = '"'
    · subst hc
      rw [if_pos rfl]
      obtain ⟨o, h⟩ := ih (P ++ ['"']) (O ++ ['"']) (q + 1) line (by
        rw [List.replicate_succ']
        simpa using h)
      exact ⟨o, by rw [h, List.count_cons_of_ne (by decide)]; simp⟩
    · rw [if_neg hc]
      have hq : ¬ q ≥ 3 := by
        intro hq
        apply h
        refine ⟨[], List.replicate (q - 3) '"' ++ c :: t, ?_⟩
        have : List.replicate q '"' = List.replicate 3 '"' ++ List.replicate (q - 3) '"' := by
          rw [← List.replicate_add]
          congr 1
          omega
        rw [this]
        simp [List.replicate]
      rw [if_neg hq]
      obtain ⟨o, h⟩ := ih (P ++ [c]) (O ++ [c]) 0 (if c = '\n' then line + 1 else line) (by
        intro hi
        apply h
        rw [List.replicate_zero, List.nil_append] at hi
        refine hi.trans ?_
        refine ⟨List.replicate q '"' ++ [c], [], ?_⟩
        simp)
      refine ⟨o, ?_⟩
      rw [h]
      by_cases hn : c = '\n'
      · subst hn; simp [Nat.add_comm, Nat.add_left_comm]
      · rw [if_neg hn, List.count_cons_of_ne hn]; simp

theorem triple_pull (env : Env) {t : Str} (h : ¬ ch "\"\"\"" <:+: t) (rest : Str) (line : Nat)
    (hd : ∀ r, rest ≠ '"' :: r) :
    pullPlain env true '"' (ch "\"\"" ++ t ++ ch "\"\"\"" ++ rest) line
      = .ok (.value (.str t true) (ch "\"\"\"" ++ t ++ ch "\"\"\"") (line + t.count '\n' : Nat), rest,
        line + t.count '\n') := by
  obtain ⟨o, he⟩ := triple_loop t rest hd [] (ch "\"\"\"") 0 line (by simpa using h)
  obtain ⟨u, e1, rfl, _⟩ := tripleLoop_spec he
  rw [← List.append_assoc] at e1
  obtain rfl := List.append_cancel_right e1
  rw [pullPlain, if_neg (by simp [startOfComment]), if_pos rfl, pullQuoted]
  rw [show ch "\"\"" ++ t ++ ch "\"\"\"" ++ rest = '"' :: ('"' :: (t ++ (ch "\"\"\"" ++ rest))) by simp]
  rw [quotedLoop_close]
  simp only [Res.ok_bind, List.length_nil, if_true]
  rw [List.nil_append] at he
  simp only [List.cons_append, List.nil_append] at he ⊢
  rw [he]
  simp

/-- A scalar is one token. -/
theorem atom_pull {env : Env} (hx : HexOk env) {s : Scalar} {x t : Str} (h : HAtom env (Numeral env) s x t) :
    s.transformToString env = x ∧
    ∃ c b, t = c :: b ∧ isWhitespace c = false ∧ c ≠ '$' ∧ c ≠ '{' ∧ c ≠ '[' ∧ ∀ rest line, Delim rest →
      ∃ tok line', pullPlain env true c (b ++ rest) line = .ok (tok, rest, line') ∧ tok.isSimple = true ∧
        scalarOf tok = some s ∧ collectNode tok = none := by
  cases h with
  | null =>
    exact ⟨rfl, 'n', ch "ull", rfl, by decide, by decide, by decide, by decide, fun rest line _ =>
      ⟨_, _, JsonLex.null_pull env true rest line, rfl, rfl, rfl⟩⟩
  | true_ =>
    exact ⟨rfl, 't', ch "rue", rfl, by decide, by decide, by decide, by decide, fun rest line _ =>
      ⟨_, _, JsonLex.true_pull env true rest line, rfl, rfl, rfl⟩⟩
  | false_ =>
    exact ⟨rfl, 'f', ch "alse", rfl, by decide, by decide, by decide, by decide, fun rest line _ =>
      ⟨_, _, JsonLex.false_pull env true rest line, rfl, rfl, rfl⟩⟩
  | num hn =>
    refine ⟨?_, ?_⟩
    · cases hn with
      | @int sg ds i hs hne hdig hi h1 h2 =>
        exact JsonLex.transform_i env i _ (by cases ds <;> simp_all)
      | @whole c b d i hc hb hx hp h1 h2 => exact JsonLex.transform_i env i _ (by simp)
      | @double c b d i hc hb hx hp h1 h2 => simp [Scalar.transformToString]
    · obtain ⟨c, b, rfl, hc, hp⟩ := JsonLex.numeral_lex env _ _ hn
      have hws := JsonLex.numStart_ws hc
      have hr : ∀ d ∈ ['-', '0', '1', '2', '3', '4', '5', '6', '7', '8', '9'], d ≠ '{' ∧ d ≠ '[' := by decide
      refine ⟨c, b, rfl, hws.1, hws.2, (hr c hc.range).1, (hr c hc.range).2,
        fun rest line hd => ⟨.value s (c :: b) line, line, ?_, rfl, rfl, rfl⟩⟩
      · rw [JsonLex.pullPlain_number hc, hp rest line hd.json]; rfl
  | @str t _ h =>
    refine ⟨rfl, '"', t ++ ['"'], rfl, by decide, by decide, by decide, by decide,
      fun rest line hd => ⟨.value (.str x true) ('"' :: t ++ ['"']) line, line, ?_, rfl, rfl, rfl⟩⟩
    · have := JsonLex.jstr_pull hx h true rest line hd.json
      simpa using this
  | triple h =>
    refine ⟨rfl, '"', ch "\"\"" ++ x ++ ch "\"\"\"", rfl, by decide, by decide, by decide, by decide, fun rest line hd => ?_⟩
    have e := triple_pull env h rest line (by rintro r rfl; exact hd.json.quote rfl)
    exact ⟨_, _, e, rfl, rfl, rfl⟩
  | @word t h =>
    obtain ⟨c, b, rfl, h1, h2, hp⟩ := word_pull env h.ne h.chars ⟨h.noComment, h.last⟩ h.start
    have hwc := (h.chars c (.head _)).2.2
    refine ⟨rfl, c, b, rfl, h1, h2, by rintro rfl; exact hwc (by decide), by rintro rfl; exact hwc (by decide),
      fun rest line hd => ⟨_, _, hp rest line hd.stops, rfl, rfl, ?_⟩⟩
    simp [DocParser.collectNode, DocParser.isUnquotedWs, h1]

/-! ### Keys -/

/-- The tokens of a key, with the text `run` before it that belongs to the first token. -/
theorem segs_lex {env : Env} (hx : HexOk env) {p : Path} {t : Str} (h : HSegs env p t) (run : Str)
    (hrun : ∀ c ∈ run, WordChar c ∧ c ≠ '/') (hdot : run = [] ∨ '.' ∈ run) (hws : WordStart (run ++ t)) (rest : Str)
    (hd : Stops rest) (hdq : ∀ r, rest ≠ '"' :: r) (line : Nat) :
    ∃ (k : Tok) (kts : List Tok), (∀ x ∈ k :: kts, (scalarOf x).isSome = true) ∧
      collectNode k = none ∧
      (∀ x l, k = .unquoted x l → x = run ++ t ∨ '.' ∈ x) ∧
      (∀ es pt, (PathParser.addUnquoted es run).cur = ⟨[], false⟩ → ∃ es' pt',
        PathParser.exprLoop env .conf false es pt (k :: kts) = .ok (es', pt') ∧
        ∃ els, es'.all = (PathParser.addUnquoted es run).done ++ els ∧ els.map PathParser.Elem.value = p ∧
          ∀ e ∈ els, e.bad = false) ∧
      Pulls env line (run ++ t ++ rest) (k :: kts) rest := by
  have hnc : ∀ x : Str, (∀ c ∈ x, c ≠ '/') → NoComment x := by
    intro x hx
    refine ⟨?_, ?_⟩
    · rintro ⟨a, b, e⟩
      exact hx '/' (by rw [← e]; simp) rfl
    · intro hl
      exact hx '/' (List.mem_of_getLast? hl) rfl
  -- the run as a token
  have hrunTok : ∀ {x : Str}, x ≠ [] → (∀ c ∈ x, WordChar c ∧ c ≠ '/') → WordStart x →
      ∃ c b, x = c :: b ∧ isWhitespace c = false ∧ c ≠ '$' ∧ ∀ rest line, Stops rest →
        pullPlain env true c (b ++ rest) line = .ok (.unquoted x line, rest, line) := by
    intro x h1 h2 h3
    exact word_pull env h1 (fun c hc => (h2 c hc).1) (hnc x fun c hc => (h2 c hc).2) h3
  have hcol : ∀ {x : Str} (l : Int), x ≠ [] → (∀ c ∈ x, WordChar c ∧ c ≠ '/') → collectNode (.unquoted x l) = none := by
    intro x l h1 h2
    cases x with
    | nil => exact absurd rfl h1
    | cons c x =>
      have := (WordChar.facts (h2 c (.head _)).1).2.1
      simp [DocParser.collectNode, DocParser.isUnquotedWs, this]
  have hstep : ∀ (es : PathParser.Elems) (pt : List Tok) (x : Str) (l : Int) (ts : List Tok), x ≠ [] →
      ∃ pt', PathParser.exprLoop env .conf false es pt (.unquoted x l :: ts)
        = PathParser.exprLoop env .conf false (PathParser.addUnquoted es x) pt' ts := by
    intro es pt x l ts hx
    obtain ⟨sp, e⟩ : ∃ sp, PathParser.splitTokenOnPeriod .conf (.unquoted x l) = .ok sp := by
      by_cases hdot : x = ['.']
      · exact ⟨_, by rw [PathParser.splitTokenOnPeriod]; exact if_pos hdot⟩
      · suffices ∃ sp, (match x.getLast? with
            | none => .ub
            | some lastc => .ok (if lastc = '.' then
                PathParser.pieceTokens .conf (PathParser.tokLine (.unquoted x l)) (PathParser.splitDots (PathParser.trimDots x))
              else (PathParser.pieceTokens .conf (PathParser.tokLine (.unquoted x l))
                (PathParser.splitDots (PathParser.trimDots x))).dropLast) : Res (List Tok)) = .ok sp by
          obtain ⟨sp, e⟩ := this
          refine ⟨sp, ?_⟩
          rw [PathParser.splitTokenOnPeriod]
          exact (if_neg hdot).trans e
        cases hg : x.getLast? with
        | none => simp at hg; exact absurd hg hx
        | some c => exact ⟨_, rfl⟩
    refine ⟨pt ++ sp, ?_⟩
    rw [PathParser.exprLoop, e]
    rfl
  have hquote : ∀ (run : Str), (∀ c ∈ run, WordChar c ∧ c ≠ '/') → ∀ {k t : Str}, JChars env t k →
      WordStart (run ++ '"' :: t ++ ['"']) → ∀ (line : Nat), ∃ kpre : List Tok,
      (kpre = [] ∨ (run ≠ [] ∧ kpre = [.unquoted run line])) ∧
      (∀ es pt, (PathParser.addUnquoted es run).cur = ⟨[], false⟩ → ∀ ts, ∃ pt',
        PathParser.exprLoop env .conf false es pt (kpre ++ .value (.str k true) ('"' :: t ++ ['"']) line :: ts)
          = PathParser.exprLoop env .conf false (PathParser.addQuoted (PathParser.addUnquoted es run) k) pt' ts) ∧
      ∀ (rest' s' : Str) (ts' : List Tok), (∀ r, rest' ≠ '"' :: r) → Pulls env line rest' ts' s' →
        Pulls env line (run ++ '"' :: (t ++ '"' :: rest'))
          (kpre ++ .value (.str k true) ('"' :: t ++ ['"']) line :: ts') s' := by
    intro run hrun k t hk hws line
    by_cases hr : run = []
    · subst hr
      refine ⟨[], Or.inl rfl, ?_, ?_⟩
      · intro es pt _ ts
        exact ⟨_, by rw [List.nil_append, PathParser.exprLoop]; rfl⟩
      · intro rest' s' ts' hnq hn
        have e := JsonLex.jstr_pull' hx hk true rest' line hnq
        exact .cons (by decide) (by decide) e rfl (by simp [Tok.text]) hn
    · refine ⟨[.unquoted run line], Or.inr ⟨hr, rfl⟩, ?_, ?_⟩
      · intro es pt _ ts
        obtain ⟨pt', e⟩ := hstep es pt run line (.value (.str k true) ('"' :: t ++ ['"']) line :: ts) hr
        exact ⟨_, by rw [List.singleton_append, e, PathParser.exprLoop]⟩
      · intro rest' s' ts' hnq hn
        have e := JsonLex.jstr_pull' hx hk true rest' line hnq
        have h1 := Pulls.cons (by decide) (by decide) e rfl (by simp [Tok.text]) hn
        rw [List.append_assoc] at hws
        obtain ⟨c, b, he, h2, h3, hp⟩ := hrunTok hr hrun (WordStart.prefix hws hr)
        have hp := hp ('"' :: (t ++ '"' :: rest')) line (Or.inr ⟨_, _, rfl, rfl⟩)
        rw [he] at hp ⊢
        exact .cons h2 h3 hp rfl (by simp [Tok.text]) h1
  induction h generalizing run line with
  | @bare t hne hch =>
    have hx1 : run ++ t ≠ [] := by simp [hne]
    have hx2 : ∀ c ∈ run ++ t, WordChar c ∧ c ≠ '/' := by
      intro c hc
      rcases List.mem_append.1 hc with hc | hc
      · exact hrun c hc
      · exact ⟨(hch c hc).1, (hch c hc).2.2⟩
    obtain ⟨c, b, he, h1, h2, hp⟩ := hrunTok hx1 hx2 hws
    refine ⟨.unquoted (run ++ t) line, [], by simp [scalarOf], hcol _ hx1 hx2, ?_, ?_, ?_⟩
    · intro x l e
      cases e
      exact Or.inl rfl
    · intro es pt hes
      obtain ⟨pt', e⟩ := hstep es pt (run ++ t) line [] hx1
      refine ⟨_, pt', by rw [e]; rfl, [⟨t, false⟩], ?_, rfl, ?_⟩
      · rw [show PathParser.addUnquoted es (run ++ t) = PathParser.addUnquoted (PathParser.addUnquoted es run) t by
          simp [PathParser.addUnquoted]]
        generalize PathParser.addUnquoted es run = es1 at hes
        obtain ⟨done, cur⟩ := es1
        simp only at hes
        subst hes
        obtain ⟨p, ps, hs1, hs2⟩ := PathParser.addUnquoted_all done [] t
        rw [PathParser.splitDots_noDot (fun hm => (hch '.' hm).2.1 rfl)] at hs1
        cases hs1
        rw [hs2]
        simp
      · intro e he
        simp at he
        subst he
        cases t with
        | nil => exact absurd rfl hne
        | cons a t => rfl
    · rw [he, List.cons_append]
      exact .cons h1 h2 (he ▸ hp rest line hd) rfl (by simp [Tok.text]) .nil
  | @quoted k t hk =>
    obtain ⟨kpre, hk1, hk2, hk3⟩ := hquote run hrun hk (by simpa using hws) line
    have h2 := hk3 rest rest [] hdq .nil
    have hel : ∀ es pt, (PathParser.addUnquoted es run).cur = ⟨[], false⟩ → ∃ es' pt',
        PathParser.exprLoop env .conf false es pt (kpre ++ [.value (.str k true) ('"' :: t ++ ['"']) line]) = .ok (es', pt') ∧
        ∃ els, es'.all = (PathParser.addUnquoted es run).done ++ els ∧ els.map PathParser.Elem.value = [k] ∧
          ∀ e ∈ els, e.bad = false := by
      intro es pt hes
      obtain ⟨pt', e⟩ := hk2 es pt hes []
      refine ⟨_, pt', by rw [e]; rfl, [⟨k, if k.isEmpty then true else false⟩], ?_, rfl, ?_⟩
      · generalize PathParser.addUnquoted es run = es1 at hes
        obtain ⟨done, cur⟩ := es1
        simp only at hes
        subst hes
        rfl
      · intro e he
        simp at he
        subst he
        cases k <;> rfl
    rcases hk1 with rfl | ⟨hne, rfl⟩
    · refine ⟨.value (.str k true) ('"' :: t ++ ['"']) line, [], by simp [scalarOf], rfl, ?_,
        by simpa using hel, ?_⟩
      · intro x l e; cases e
      · simpa using h2
    · refine ⟨_, [_], ?_, hcol _ hne hrun, ?_, by simpa using hel, ?_⟩
      · intro x hx
        simp at hx
        rcases hx with rfl | rfl <;> rfl
      · intro x l e
        cases e
        exact Or.inr (hdot.resolve_left hne)
      · simpa using h2
  | @bareCons t u p hne hch _ ih =>
    have hrun' : ∀ c ∈ run ++ t ++ ['.'], WordChar c ∧ c ≠ '/' := by
      intro c hc
      simp at hc
      rcases hc with hc | hc | rfl
      · exact hrun c hc
      · exact ⟨(hch c hc).1, (hch c hc).2.2⟩
      · exact ⟨⟨by decide, by decide, by decide⟩, by decide⟩
    have etext : run ++ t ++ ['.'] ++ u = run ++ (t ++ '.' :: u) := by simp
    obtain ⟨k, kts, g3, g4, g5, g6, g8⟩ :=
      ih (run ++ t ++ ['.']) hrun' (Or.inr (by simp)) (by rw [etext]; exact hws) line
    rw [etext] at g5 g8
    refine ⟨k, kts, g3, g4, g5, ?_, g8⟩
    intro es pt hes
    have hadd : PathParser.addUnquoted es (run ++ t ++ ['.'])
        = ⟨(PathParser.addUnquoted es run).done ++ [⟨t, false⟩], ⟨[], false⟩⟩ := by
      rw [show PathParser.addUnquoted es (run ++ t ++ ['.'])
          = PathParser.addUnquotedChar (PathParser.addUnquoted (PathParser.addUnquoted es run) t) '.' by
        simp [PathParser.addUnquoted]]
      generalize PathParser.addUnquoted es run = es1 at hes
      obtain ⟨done, cur⟩ := es1
      simp only at hes
      subst hes
      obtain ⟨q, qs, hs1, hs2⟩ := PathParser.addUnquoted_all done [] t
      rw [PathParser.splitDots_noDot (fun hm => (hch '.' hm).2.1 rfl)] at hs1
      cases hs1
      rw [PathParser.addUnquotedChar, if_pos rfl]
      rw [PathParser.Elems.all] at hs2
      rw [hs2]
      simp
    obtain ⟨es', pt', e1, els, e2, e3, e4⟩ := g6 es pt (by rw [hadd])
    refine ⟨es', pt', e1, ⟨t, false⟩ :: els, ?_, by rw [List.map_cons, e3], ?_⟩
    · rw [e2, hadd]; simp
    · intro e he
      rcases List.mem_cons.1 he with rfl | he
      · cases t with
        | nil => exact absurd rfl hne
        | cons a t => rfl
      · exact e4 e he
  | @quotedCons k t u p hk _ ih =>
    have hws1 : WordStart (run ++ '"' :: t ++ ['"']) := by
      refine WordStart.prefix (b := '.' :: u) ?_ (by simp)
      simpa using hws
    obtain ⟨kpre, hk1, hk2, hk3⟩ := hquote run hrun hk hws1 line
    have hdotstart : WordStart (['.'] ++ u) := by
      refine ⟨?_, ?_, ?_, ?_⟩
      · intro c hc
        simp at hc
        subst hc
        exact ⟨by unfold JDigit; decide, by decide⟩
      all_goals
        rintro ⟨r, e⟩
        simp at e
    obtain ⟨k2, kts, g3, g4, g5, g6, g8⟩ :=
      ih ['.'] (by intro c hc; simp at hc; subst hc; exact ⟨⟨by decide, by decide, by decide⟩, by decide⟩)
        (Or.inr (by simp)) hdotstart line
    have h2 := hk3 (['.'] ++ u ++ rest) rest _ (by rintro r e; simp at e) g8
    have hel : ∀ es pt, (PathParser.addUnquoted es run).cur = ⟨[], false⟩ → ∃ es' pt',
        PathParser.exprLoop env .conf false es pt
          (kpre ++ .value (.str k true) ('"' :: t ++ ['"']) line :: (k2 :: kts)) = .ok (es', pt') ∧
        ∃ els, es'.all = (PathParser.addUnquoted es run).done ++ els ∧ els.map PathParser.Elem.value = k :: p ∧
          ∀ e ∈ els, e.bad = false := by
      intro es pt hes
      obtain ⟨pt', e⟩ := hk2 es pt hes (k2 :: kts)
      rw [e]
      generalize PathParser.addUnquoted es run = es1 at hes
      obtain ⟨done, cur⟩ := es1
      simp only at hes
      subst hes
      have hadd : PathParser.addUnquoted (PathParser.addQuoted ⟨done, ⟨[], false⟩⟩ k) ['.']
          = ⟨done ++ [⟨k, if k.isEmpty then true else false⟩], ⟨[], false⟩⟩ := by
        simp [PathParser.addUnquoted, PathParser.addUnquotedChar, PathParser.addQuoted]
      obtain ⟨es', pt'', e1, els, e2, e3, e4⟩ := g6 (PathParser.addQuoted ⟨done, ⟨[], false⟩⟩ k) pt' (by rw [hadd])
      refine ⟨es', pt'', e1, ⟨k, if k.isEmpty then true else false⟩ :: els, ?_, by rw [List.map_cons, e3], ?_⟩
      · rw [e2, hadd]; simp
      · intro e he
        rcases List.mem_cons.1 he with rfl | he
        · cases k <;> rfl
        · exact e4 e he
    have etext : run ++ '"' :: (t ++ '"' :: (['.'] ++ u ++ rest)) = run ++ ('"' :: t ++ '"' :: '.' :: u) ++ rest := by simp
    rw [etext] at h2
    rcases hk1 with rfl | ⟨hne, rfl⟩
    · refine ⟨_, k2 :: kts, ?_, rfl, ?_, by simpa using hel, ?_⟩
      · intro x hx
        rcases List.mem_cons.1 hx with rfl | hx
        · rfl
        · exact g3 x hx
      · intro x l e; cases e
      · simpa using h2
    · refine ⟨_, _ :: k2 :: kts, ?_, hcol _ hne hrun, ?_, by simpa using hel, ?_⟩
      · intro x hx
        rcases List.mem_cons.1 hx with rfl | hx
        · rfl
        rcases List.mem_cons.1 hx with rfl | hx
        · rfl
        · exact g3 x hx
      · intro x l e
        cases e
        exact Or.inr (hdot.resolve_left hne)
      · simpa using h2

/-- What may follow a key. -/
def KDelim (rest : Str) : Prop := Stops rest ∧ ∀ r, rest ≠ '"' :: r

theorem Delim.key {rest : Str} (h : Delim rest) : KDelim rest :=
  ⟨h.stops, by rintro r rfl; exact h.json.quote rfl⟩

/-- The tokens of a key. -/
theorem key_lex {env : Env} (hx : HexOk env) {p : Path} {t : Str} (h : HKey env p t) (rest : Str)
    (Q : List Tok → Prop) (hd : KDelim rest) (hA : A env rest Q) :
    F env (t ++ rest) (fun us => ∃ kts w ts, us = kts ++ (w ++ ts) ∧ KeyToks env p kts ∧ Wts w ∧ Q ts) := by
  intro line
  obtain ⟨ts, g2, hA⟩ := hA line
  obtain ⟨w, g1, hA⟩ := hA []
  obtain ⟨k, kts, g3, g4, g5, g6, g7⟩ :=
    segs_lex hx h.segs [] (by simp) (Or.inl rfl) (by simpa using h.start) rest hd.1 hd.2 line
  refine ⟨k :: kts ++ (w ++ ts), ⟨k :: kts, w, ts, rfl, ⟨g3, ⟨k, kts, rfl, g4, ?_⟩, ?_, ?_⟩, g1.wts, g2⟩,
    fun q => ⟨wsPre q line, wsPre_ws _ _, by simpa using g7.toks_false (hA true) q⟩⟩
  · cases k with
    | unquoted x l =>
      rw [DocParser.isIncludeKeyword]
      rw [decide_eq_false_iff_not]
      rintro rfl
      rcases g5 _ l rfl with h1 | h1
      · exact h.notInclude (by simpa using h1.symm)
      · revert h1; decide
    | _ => rfl
  · obtain ⟨es', pt', e1, els, e2, e3, e4⟩ := g6 PathParser.Elems.init [] rfl
    have e2 : es'.all = els := e2
    refine ⟨pt', ?_⟩
    rw [PathParser.parsePathNodeExpression]
    simp only [List.isEmpty_cons, Bool.false_eq_true, if_false, e1, Res.ok_bind]
    rw [PathParser.finish_good false es' (by rw [e2]; exact e4), e2, e3]
    rfl
  · have := h.segs
    cases this <;> simp

/-! ### All nonterminals -/

/-- What is shown for each nonterminal. -/
def L (env : Env) (k : SPart) (t : Str) : Prop :=
  ∀ rest Q, Delim rest → A env rest Q →
    F env (t ++ rest) (fun us => ∃ vts w ts, us = vts ++ (w ++ ts) ∧ HTok env k vts ∧ Wts w ∧ Q ts)

theorem A.close {env : Env} {c : Char} {t : Tok} {rest : Str} {Q : List Tok → Prop}
    (hc : punctuation c = some t) (h : A env rest Q) :
    A env (c :: rest) (fun us => ∃ w ts, us = t :: (w ++ ts) ∧ Ws w ∧ Q ts) :=
  A.punct hc h.toF

/-- The separator between two elements. -/
theorem A.sep {env : Env} {s rest : Str} {Q : List Tok → Prop} (hs : HSep s) (h : F env rest Q) :
    A env (s ++ rest) (fun us => ∃ sp ts, us = sp ++ ts ∧ (∀ w, Wts w → SepT (w ++ sp)) ∧
      (∀ w, Wts w → SepT (sp ++ w)) ∧ (∀ w w', Wts w → Wts w' → SepT (w ++ sp ++ w')) ∧ Q ts) := by
  cases hs with
  | newline hg hn =>
    refine (A.gapNl hg hn h).mono ?_
    rintro us ⟨w, ts, rfl, hw, hnl, hq⟩
    refine ⟨w, ts, rfl, fun w' hw' => .newline (hw'.append hw) (hnl hn).append_right,
      fun w' hw' => .newline (hw.append hw') (hnl hn).append_left,
      fun w1 w2 h1 h2 => .newline ((h1.append hw).append h2) (hnl hn).append_right.append_left, hq⟩
  | @comma g1 g2 h1 h2 =>
    have := A.gap h1 (A.punct (c := ',') (t := .comma) rfl (F.gap h2 h))
    rw [List.append_assoc]
    refine this.mono ?_
    rintro us ⟨w, ts, rfl, hw, _, w1, ts1, rfl, hw1, w2, ts2, rfl, hw2, _, hq⟩
    refine ⟨w ++ .comma :: (w1 ++ w2), ts2, by simp, ?_, ?_, ?_, hq⟩
    · intro w' hw'
      rw [← List.append_assoc]
      exact .comma (hw'.append hw) (hw1.wts.append hw2)
    · intro w' hw'
      have := SepT.comma hw ((hw1.wts.append hw2).append hw')
      simpa using this
    · intro w' w'' hw' hw''
      have := SepT.comma (hw'.append hw) ((hw1.wts.append hw2).append hw'')
      simpa using this

/-- What follows the last element. -/
theorem A.endT {env : Env} {e rest : Str} {Q : List Tok → Prop} (he : HEnd e) (h : A env rest Q) :
    A env (e ++ rest) (fun us => ∃ sp w ts, us = sp ++ (w ++ ts) ∧
      (∀ w0, Wts w0 → EndT (w0 ++ (sp ++ w))) ∧ Q ts) := by
  cases he with
  | gap hg =>
    refine (A.gap hg h).mono ?_
    rintro us ⟨w, ts, rfl, hw, _, hq⟩
    exact ⟨[], w, ts, rfl, fun w0 h0 => .gap (h0.append hw), hq⟩
  | @comma g1 g2 h1 h2 =>
    have := A.gap h1 (A.punct (c := ',') (t := .comma) rfl (F.gap h2 h.toF))
    rw [List.append_assoc]
    refine this.mono ?_
    rintro us ⟨w, ts, rfl, hw, _, w1, ts1, rfl, hw1, w2, ts2, rfl, hw2, _, hq⟩
    refine ⟨w ++ .comma :: w1, w2, ts2, by simp, ?_, hq⟩
    intro w0 h0
    have := EndT.comma (h0.append hw) (hw1.wts.append hw2)
    simpa using this

/-- Punctuation is read the same in any state. -/
theorem F.toA {env : Env} {c : Char} {s : Str} {t : Tok} {Q : List Tok → Prop} (hc : punctuation c = some t)
    (h : F env (c :: s) Q) : A env (c :: s) Q := by
  have hfacts : isWhitespace c = false ∧ c ≠ '$' ∧ t.isSimple = false ∧
      ∀ line, pullPlain env true c s line = .ok (t, s, line) := by
    have hp : ∀ line, c ≠ '"' → c ≠ '#' → c ≠ '/' → pullPlain env true c s line = .ok (t, s, line) := by
      intro line h1 h2 h3
      rw [pullPlain, if_neg (by simp [startOfComment, h2, h3]), if_neg h1, hc]
    rw [punctuation] at hc
    repeat' split at hc
    all_goals first
      | (simp at hc; done)
      | (rename_i hcc
         subst hcc
         simp at hc
         subst hc
         exact ⟨by decide, by decide, rfl, fun line => hp line (by decide) (by decide) (by decide)⟩)
  obtain ⟨h1, h2, h3, h4⟩ := hfacts
  intro line
  obtain ⟨ts, hq, h⟩ := h line
  refine ⟨ts, hq, fun p => ?_⟩
  obtain ⟨pre, hp, h⟩ := h p
  refine ⟨pre, hp, fun b f => ?_⟩
  have h := h f
  cases f with
  | zero => left; rfl
  | succ f =>
    rw [tokenLoop, pullNext_plain _ h1 h2 (h4 line)] at h ⊢
    simpa only [h3, Saver.check, Bool.false_eq_true, if_false] using h

theorem A.plus {env : Env} {s : Str} {Q : List Tok → Prop} (h : F env s Q) :
    A env ('+' :: '=' :: s) (fun us => ∃ w ts, us = .plusEquals :: (w ++ ts) ∧ Ws w ∧ Q ts) := by
  intro line
  obtain ⟨ts, hq, h⟩ := h line
  obtain ⟨pre, hpre, h⟩ := h []
  refine ⟨.plusEquals :: (pre ++ ts), ⟨pre, ts, rfl, hpre, hq⟩, fun p => ⟨wsPre p line, wsPre_ws _ _, fun b => ?_⟩⟩
  refine toks_other (by decide) (by decide) (r' := s) ?_ (by simp) rfl h
  rw [pullPlain, if_neg (by simp [startOfComment]), if_neg (by decide)]
  rfl

theorem A.blanks {env : Env} {s w : Str} {Q : List Tok → Prop} (hw : ∀ c ∈ w, HBlank c) (h : A env s Q) :
    A env (w ++ s) Q := by
  induction w with
  | nil => exact h
  | cons c w ih => exact (ih fun d hd => hw d (.tail _ hd)).blank (hw c (.head _))

theorem F.blanks {env : Env} {s w : Str} {Q : List Tok → Prop} (hw : ∀ c ∈ w, HBlank c) (h : F env s Q) :
    F env (w ++ s) Q := by
  induction w with
  | nil => exact h
  | cons c w ih => exact (ih fun d hd => hw d (.tail _ hd)).blank (hw c (.head _))

theorem KDelim.plus {g : Str} (r : Str) (hg : HGap g) : KDelim (g ++ '+' :: r) := by
  by_cases h : g = []
  · subst h
    exact ⟨Or.inr ⟨_, _, rfl, by rfl⟩, by simp⟩
  · exact (Delim.gap_ne _ hg h).key

/-- The token of a substitution. -/
theorem subst_step {env : Env} (hx : HexOk env) {p : Path} {opt : Bool} {t : Str} (h : HSubst env p opt t) :
    (∃ t', t = '$' :: t') ∧ ∀ rest line, ∃ expr, Step env (t ++ rest) line (.subst opt expr line) rest line ∧
      PathParser.parsePathExpression env true expr = .ok p := by
  have main : ∀ {t : Str}, HSegs env p t → WordStart t → ∀ rest line, ∃ expr,
      PathParser.parsePathExpression env true expr = .ok p ∧
      ∀ f, substLoop env true f Saver.init [] (t ++ '}' :: rest) line = .fuel ∨
        substLoop env true f Saver.init [] (t ++ '}' :: rest) line = .ok (expr, rest, line) := by
    intro t hs hw rest line
    obtain ⟨k, kts, _, _, _, g6, g7⟩ :=
      segs_lex hx hs [] (by simp) (Or.inl rfl) (by simpa using hw) ('}' :: rest)
        (Delim.punct _ (by simp)).stops (by simp) line
    refine ⟨k :: kts, ?_, fun f => by
      rw [show Saver.init = ⟨[], false⟩ from rfl]
      simpa using g7.subst rfl f false []⟩
    obtain ⟨es', pt', e1, els, e2, e3, e4⟩ := g6 PathParser.Elems.init [] rfl
    have e2 : es'.all = els := e2
    have e5 := PathParser.splitToken_ok (ho' := true) e1
    simp only [PathParser.parsePathExpression, List.isEmpty_cons, Bool.false_eq_true, if_false, e5, Res.ok_bind]
    rw [PathParser.finish_good true es' (by rw [e2]; exact e4), e2, e3]
  have step : ∀ (r rest : Str) (line : Nat) (expr : List Tok) (opt : Bool) (u : Str),
      substOpen r = some (opt, u) →
      (∀ f, substLoop env true f Saver.init [] u line = .fuel ∨
        substLoop env true f Saver.init [] u line = .ok (expr, rest, line)) →
      Step env ('$' :: r) line (.subst opt expr line) rest line := by
    intro r rest line expr opt u ho hl
    refine ⟨rfl, fun sv => ?_⟩
    have hne := (pull_fuel env true (2 * ('$' :: r).length + 1)).1 sv ('$' :: r) line (Nat.le_refl _)
    have hlen : 2 * ('$' :: r).length = 2 * r.length + 1 + 1 := by simp; omega
    rw [hlen] at hne ⊢
    rw [pullNext] at hne ⊢
    have hn : nextCharAfterWhitespace sv.ws ('$' :: r) = (sv.ws, some ('$', r)) := by
      rw [nextCharAfterWhitespace, if_neg (by decide)]
    simp only [hn, if_true, show ¬ ('$' = '\n') by decide, if_false] at hne ⊢
    rw [pullSubst, ho] at hne ⊢
    simp only at hne ⊢
    rcases hl (2 * r.length + 1) with e | e
    · rw [e] at hne
      exact absurd rfl hne
    · rw [e]
      rfl
  cases h with
  | @required t hs hw =>
    refine ⟨⟨_, rfl⟩, fun rest line => ?_⟩
    obtain ⟨expr, h1, h2⟩ := main hs hw rest line
    refine ⟨expr, ?_, h1⟩
    rw [show ch "${" ++ t ++ ch "}" ++ rest = '$' :: ('{' :: (t ++ '}' :: rest)) by simp]
    refine step _ _ _ _ _ (t ++ '}' :: rest) ?_ h2
    have : ∃ c t', t = c :: t' ∧ c ≠ '?' := by
      have wc : ∀ {c : Char}, WordChar c → c ≠ '?' := by
        rintro c hc rfl
        exact absurd hc (by unfold WordChar; decide)
      cases hs with
      | @bare t hne hch =>
        cases t with
        | nil => exact absurd rfl hne
        | cons c t => exact ⟨c, t, rfl, wc (hch c (.head _)).1⟩
      | quoted => exact ⟨_, _, rfl, by decide⟩
      | @bareCons k u p hne hch =>
        cases k with
        | nil => exact absurd rfl hne
        | cons c t => exact ⟨c, _, rfl, wc (hch c (.head _)).1⟩
      | quotedCons => exact ⟨_, _, rfl, by decide⟩
    obtain ⟨c, t', rfl, hc⟩ := this
    rw [List.cons_append, substOpen]
    intro r hr
    exact hc (List.cons.inj hr).1
  | @optional t hs hw =>
    refine ⟨⟨_, rfl⟩, fun rest line => ?_⟩
    obtain ⟨expr, h1, h2⟩ := main hs hw rest line
    refine ⟨expr, ?_, h1⟩
    rw [show ch "${?" ++ t ++ ch "}" ++ rest = '$' :: ('{' :: '?' :: (t ++ '}' :: rest)) by simp]
    exact step _ _ _ _ _ (t ++ '}' :: rest) rfl h2

/-- The same for lists and objects, which are read alike in any state. -/
def LC (env : Env) (k : SPart) (t : Str) : Prop :=
  ∀ rest Q, F env rest Q →
    A env (t ++ rest) (fun us => ∃ vts w ts, us = vts ++ (w ++ ts) ∧ HTok env k vts ∧ Ws w ∧ Q ts)

/-- Words and substitutions are one token. -/
def LS (env : Env) (s : Syn) (t : Str) : Prop :=
  ∀ rest line, (s.isRef = false → Delim rest) → ∃ tok line', Step env (t ++ rest) line tok rest line' ∧
    HTok env (.value s) [tok]

/-- Pieces that begin with a word or a substitution. -/
def SP (env : Env) (ps : List Syn) (s : Str) (Q : List Tok → Prop) : Prop :=
  ∀ line, ∃ vts w ts l, HTok env (.pieces ps) vts ∧ Ws w ∧ Q ts ∧
    (∀ p, Toks env true ⟨p, false⟩ line s (wsPre p l ++ (vts ++ (w ++ ts)))) ∧
    Toks env true ⟨[], true⟩ line s (vts ++ (w ++ ts)) ∧
    ∀ p, p ≠ [] → Toks env true ⟨p, true⟩ line s (.unquoted p l :: (vts ++ (w ++ ts)))

/-- What is shown for pieces. -/
def LP (env : Env) (ps : List Syn) (t : Str) : Prop :=
  ∃ s ps', ps = s :: ps' ∧ (s.isRef = true → ∃ t', t = '$' :: t') ∧
    (s.isSimple = false → ∃ c t', t = c :: t' ∧ (c = '[' ∨ c = '{')) ∧
    ∀ rest Q, Delim rest → A env rest Q →
      (s.isSimple = true → SP env ps (t ++ rest) Q) ∧
      (s.isSimple = false →
        A env (t ++ rest) (fun us => ∃ vts w ts, us = vts ++ (w ++ ts) ∧ HTok env (.pieces ps) vts ∧ Ws w ∧ Q ts))

/-- What is shown for values. -/
def LVal (env : Env) (s : Syn) (t : Str) : Prop :=
  (s.isRef = true → ∃ t', t = '$' :: t') ∧ (s.isSimple = true → LS env s t) ∧
  (s.isSimple = false → s.isConcat = false → (∃ c t', t = c :: t' ∧ (c = '[' ∨ c = '{')) ∧ LC env (.value s) t) ∧
  (s.isConcat = true → L env (.value s) t)

/-- What is shown. -/
def LAll (env : Env) : SPart → Str → Prop
  | .value s, t => LVal env s t
  | .pieces ps, t => LP env ps t
  | k, t => L env k t

theorem SP.toF {env : Env} {ps : List Syn} {s : Str} {Q : List Tok → Prop} (h : SP env ps s Q) :
    F env s (fun us => ∃ vts w ts, us = vts ++ (w ++ ts) ∧ HTok env (.pieces ps) vts ∧ Ws w ∧ Q ts) := by
  intro line
  obtain ⟨vts, w, ts, l, h1, h2, h3, h4, _⟩ := h line
  exact ⟨_, ⟨vts, w, ts, rfl, h1, h2, h3⟩, fun p => ⟨wsPre p l, wsPre_ws _ _, h4 p⟩⟩

theorem LP.toF {env : Env} {ps : List Syn} {t : Str} (h : LP env ps t) {rest : Str} {Q : List Tok → Prop}
    (hd : Delim rest) (hA : A env rest Q) :
    F env (t ++ rest) (fun us => ∃ vts w ts, us = vts ++ (w ++ ts) ∧ HTok env (.pieces ps) vts ∧ Ws w ∧ Q ts) := by
  obtain ⟨s, ps', rfl, _, _, h⟩ := h
  obtain ⟨h1, h2⟩ := h rest Q hd hA
  cases hs : s.isSimple with
  | true => exact (h1 hs).toF
  | false => exact (h2 hs).toF

/-- One token, then something that reads in any state. -/
theorem SP.step {env : Env} {s r : Str} {ps : List Syn} {Q R : List Tok → Prop}
    (hs : ∀ line, ∃ tok line', Step env s line tok r line' ∧
      ∀ us w, Q us → Ws w → ∃ vts w' ts, tok :: (w ++ us) = vts ++ (w' ++ ts) ∧ HTok env (.pieces ps) vts ∧ Ws w' ∧ R ts)
    (hA : A env r Q) : SP env ps s R := by
  intro line
  obtain ⟨tok, line', h1, h2⟩ := hs line
  obtain ⟨us, hq, hA⟩ := hA line'
  obtain ⟨pre, hpre, hA⟩ := hA []
  obtain ⟨vts, w, ts, e, k1, k2, k3⟩ := h2 us pre hq hpre
  refine ⟨vts, w, ts, line', k1, k2, k3, fun p => ?_, ?_, fun p hp => ?_⟩
  · rw [← e]; exact h1.toks_false (hA true)
  · rw [← e]; exact h1.toks_true (hA true)
  · rw [← e]; exact h1.toks_ws hp (hA true)

/-- One token, then pieces that begin with one. -/
theorem SP.step2 {env : Env} {s r w : Str} {x : Syn} {ps : List Syn} {Q : List Tok → Prop}
    (hw : ∀ c ∈ w, HBlank c) (hx : x.isConcat = false)
    (hs : ∀ line, ∃ tok line', Step env s line tok (w ++ r) line' ∧ HTok env (.value x) [tok])
    (hA : SP env ps r Q) :
    SP env (if w = [] then x :: ps else x :: .scalar (.str w false) :: ps) s Q := by
  intro line
  obtain ⟨tok, line', h1, h2⟩ := hs line
  obtain ⟨vts, pre, ts, l, k1, k2, k3, _, k4, k5⟩ := hA line'
  by_cases hn : w = []
  · subst hn
    have hd : HTok env (.pieces (x :: ps)) (tok :: vts) := by
      have := HTok.pieceCons h2 hx Ws.nil k1
      simpa using this
    rw [if_pos rfl]
    exact ⟨tok :: vts, pre, ts, line', hd, k2, k3, fun p => h1.toks_false k4, h1.toks_true k4, fun p hp => h1.toks_ws hp k4⟩
  · have hd : HTok env (.pieces (x :: .scalar (.str w false) :: ps)) (tok :: .unquoted w l :: vts) := by
      have := HTok.pieceBlank (x := w) (l := l) h2 hx k1
      simpa using this
    rw [if_neg hn]
    have hn : Toks env true ⟨[], true⟩ line' (w ++ r) (.unquoted w l :: (vts ++ (pre ++ ts))) :=
      toks_blanks hw (by simpa using k5 w hn)
    exact ⟨tok :: .unquoted w l :: vts, pre, ts, line', hd, k2, k3, fun p => h1.toks_false hn, h1.toks_true hn,
      fun p hp => h1.toks_ws hp hn⟩

theorem LVal.toL {env : Env} {s : Syn} {t : Str} (h : LVal env s t) : L env (.value s) t := by
  intro rest Q hd hA
  obtain ⟨_, h1, h2, h3⟩ := h
  cases hc : s.isConcat with
  | true => exact h3 hc rest Q hd hA
  | false =>
    cases hs : s.isSimple with
    | false =>
      refine ((h2 hs hc).2 rest Q hA.toF).toF.mono ?_
      rintro us ⟨vts, w, ts, rfl, k1, k2, k3⟩
      exact ⟨vts, w, ts, rfl, k1, k2.wts, k3⟩
    | true =>
      intro line
      obtain ⟨tok, line', e, k⟩ := h1 hs rest line (fun _ => hd)
      obtain ⟨ts, hq, hA⟩ := hA line'
      obtain ⟨pre, hpre, hA⟩ := hA []
      exact ⟨[tok] ++ (pre ++ ts), ⟨[tok], pre, ts, rfl, k, hpre.wts, hq⟩,
        fun p => ⟨wsPre p line', wsPre_ws _ _, e.toks_false (hA true)⟩⟩

/-- A list or an object before pieces. -/
theorem LC.cons {env : Env} {s : Syn} {ps : List Syn} {t r : Str} {Q : List Tok → Prop} (h : LC env (.value s) t)
    (hc : s.isConcat = false)
    (hF : F env r (fun us => ∃ vts w ts, us = vts ++ (w ++ ts) ∧ HTok env (.pieces ps) vts ∧ Ws w ∧ Q ts)) :
    A env (t ++ r) (fun us => ∃ vts w ts, us = vts ++ (w ++ ts) ∧ HTok env (.pieces (s :: ps)) vts ∧ Ws w ∧ Q ts) := by
  refine (h r _ hF).mono ?_
  rintro us ⟨vts, w, ts, rfl, k1, k2, vts2, w2, ts2, rfl, k3, k4, k5⟩
  exact ⟨vts ++ w ++ vts2, w2, ts2, by simp, .pieceCons k1 hc k2 k3, k4, k5⟩

theorem htok_object {env : Env} {ms : List (Path × Bool × Syn)} {ts : List Tok} (h : HTok env (.value (.obj ms)) ts) :
    ∃ ts', ts = .openCurly :: ts' := by
  cases h with
  | emptyObj => exact ⟨_, rfl⟩
  | obj => exact ⟨_, rfl⟩

theorem Delim.blanks {w : Str} (r : Str) (hn : w ≠ []) (hw : ∀ c ∈ w, HBlank c) : Delim (w ++ r) := by
  cases w with
  | nil => exact absurd rfl hn
  | cons d w => exact Or.inr ⟨d, w ++ r, rfl, Or.inr (Or.inl (hw d (.head _)))⟩

theorem stext_lex {env : Env} (hx : HexOk env) {k : SPart} {t : Str} (h : SText env (Numeral env) k t) :
    LAll env k t := by
  induction h with
  | @atom s x t ha =>
    refine ⟨by simp [Syn.isRef], fun _ rest line hd => ?_, by simp [Syn.isSimple], by simp [Syn.isConcat]⟩
    obtain ⟨he, c, b, rfl, h1, h2, _, _, hp⟩ := atom_pull hx ha
    obtain ⟨tok, line', e, hs, hsc, hcn⟩ := hp rest line (hd rfl)
    exact ⟨tok, line', .plain h1 h2 e hs, .scalar hsc hcn⟩
  | @subst p opt t hs =>
    obtain ⟨h1, h2⟩ := subst_step hx hs
    refine ⟨fun _ => h1, fun _ rest line hd => ?_, by simp [Syn.isSimple], by simp [Syn.isConcat]⟩
    obtain ⟨expr, h3, h4⟩ := h2 rest line
    exact ⟨_, _, h3, .subst h4⟩
  | @concat ps t _ h2 ih =>
    refine ⟨by simp [Syn.isRef], by simp [Syn.isSimple], by simp [Syn.isConcat], fun _ rest Q hd hA => ?_⟩
    refine (LP.toF ih hd hA).mono ?_
    rintro us ⟨vts, w, ts, rfl, k1, k2, k3⟩
    exact ⟨vts, w, ts, rfl, .concat k1 h2, k2.wts, k3⟩
  | @emptyArr g hg =>
    refine ⟨by simp [Syn.isRef], by simp [Syn.isSimple], fun _ _ => ⟨⟨_, _, rfl, by simp⟩, fun rest Q h => ?_⟩, by simp [Syn.isConcat]⟩
    have h1 := (A.punct (c := '[') (t := .openSquare) rfl
      (A.gap hg (A.punct (c := ']') (t := .closeSquare) rfl h)).toF)
    rw [show '[' :: g ++ [']'] ++ rest = '[' :: (g ++ ']' :: rest) by simp]
    refine h1.mono ?_
    rintro us ⟨w1, ts, rfl, hw1, w2, ts2, rfl, hw2, _, w3, ts3, rfl, hw3, hq⟩
    exact ⟨.openSquare :: (w1 ++ w2) ++ [.closeSquare], w3, ts3, by simp, .emptyArr (hw1.wts.append hw2), hw3, hq⟩
  | @arr g t e vs hg _ he ih =>
    refine ⟨by simp [Syn.isRef], by simp [Syn.isSimple], fun _ _ => ⟨⟨_, _, rfl, by simp⟩, fun rest Q h => ?_⟩, by simp [Syn.isConcat]⟩
    have hend := A.endT he (A.punct (c := ']') (t := .closeSquare) rfl h)
    have h1 := (A.punct (c := '[') (t := .openSquare) rfl
      (F.gap hg (ih (e ++ ']' :: rest) _ (Delim.end_ he (Delim.punct _ (by simp))) hend)))
    rw [show '[' :: g ++ t ++ e ++ [']'] ++ rest = '[' :: (g ++ (t ++ (e ++ ']' :: rest))) by simp]
    refine h1.mono ?_
    rintro us ⟨w1, ts, rfl, hw1, w2, ts2, rfl, hw2, _, vts, w3, ts3, rfl, hj, hw3, sp, w4, ts4, rfl, hsp, w5, ts5, rfl, hw5, hq⟩
    refine ⟨.openSquare :: (w1 ++ w2) ++ vts ++ (w3 ++ (sp ++ w4)) ++ [.closeSquare], w5, ts5, by simp, ?_, hw5, hq⟩
    exact .arr (hw1.wts.append hw2) hj (hsp w3 hw3)
  | @emptyObj g hg =>
    refine ⟨by simp [Syn.isRef], by simp [Syn.isSimple], fun _ _ => ⟨⟨_, _, rfl, by simp⟩, fun rest Q h => ?_⟩, by simp [Syn.isConcat]⟩
    have h1 := (A.punct (c := '{') (t := .openCurly) rfl
      (A.gap hg (A.punct (c := '}') (t := .closeCurly) rfl h)).toF)
    rw [show '{' :: g ++ ['}'] ++ rest = '{' :: (g ++ '}' :: rest) by simp]
    refine h1.mono ?_
    rintro us ⟨w1, ts, rfl, hw1, w2, ts2, rfl, hw2, _, w3, ts3, rfl, hw3, hq⟩
    exact ⟨.openCurly :: (w1 ++ w2) ++ [.closeCurly], w3, ts3, by simp, .emptyObj (hw1.wts.append hw2), hw3, hq⟩
  | @obj g t e as hg _ he ih =>
    refine ⟨by simp [Syn.isRef], by simp [Syn.isSimple], fun _ _ => ⟨⟨_, _, rfl, by simp⟩, fun rest Q h => ?_⟩, by simp [Syn.isConcat]⟩
    have hend := A.endT he (A.punct (c := '}') (t := .closeCurly) rfl h)
    have h1 := (A.punct (c := '{') (t := .openCurly) rfl
      (F.gap hg (ih (e ++ '}' :: rest) _ (Delim.end_ he (Delim.punct _ (by simp))) hend)))
    rw [show '{' :: g ++ t ++ e ++ ['}'] ++ rest = '{' :: (g ++ (t ++ (e ++ '}' :: rest))) by simp]
    refine h1.mono ?_
    rintro us ⟨w1, ts, rfl, hw1, w2, ts2, rfl, hw2, _, vts, w3, ts3, rfl, hj, hw3, sp, w4, ts4, rfl, hsp, w5, ts5, rfl, hw5, hq⟩
    refine ⟨.openCurly :: (w1 ++ w2) ++ vts ++ (w3 ++ (sp ++ w4)) ++ [.closeCurly], w5, ts5, by simp, ?_, hw5, hq⟩
    exact .obj (hw1.wts.append hw2) hj (hsp w3 hw3)
  | elem _ ih =>
    intro rest Q hd h
    refine (ih.toL rest Q hd h).mono ?_
    rintro us ⟨vts, w, ts, rfl, hj, hw, hq⟩
    exact ⟨vts, w, ts, rfl, .elem hj, hw, hq⟩
  | @elemCons t s u v vs _ hs _ ihv ihs =>
    intro rest Q hd h
    have h1 := ihv.toL (s ++ (u ++ rest)) _ (Delim.sep _ hs) (A.sep hs (ihs rest Q hd h))
    rw [show t ++ s ++ u ++ rest = t ++ (s ++ (u ++ rest)) by simp]
    refine h1.mono ?_
    rintro us ⟨vts, w, ts, rfl, hj, hw, sp, ts1, rfl, hsp, _, _, ets, w2, ts2, rfl, hj2, hw2, hq⟩
    exact ⟨vts ++ (w ++ sp) ++ ets, w2, ts2, by simp, .elemCons hj (hsp w hw) hj2, hw2, hq⟩
  | @field kt g1 g2 t c p v hk h1 hc h2 _ ih =>
    intro rest Q hd h
    have hv := F.gap h2 (ih.toL rest Q hd h)
    have hcp : ∃ ct, punctuation c = some ct ∧ (ct = .colon ∨ ct = .equals) := by
      rcases hc with rfl | rfl
      · exact ⟨_, rfl, Or.inl rfl⟩
      · exact ⟨_, rfl, Or.inr rfl⟩
    obtain ⟨ct, hct, hct2⟩ := hcp
    have h3 := A.gap h1 (A.punct hct hv)
    have hdk : Delim (g1 ++ c :: (g2 ++ (t ++ rest))) :=
      Delim.gap h1 (Delim.punct _ (by rcases hc with rfl | rfl <;> simp))
    have h4 := key_lex hx hk _ _ hdk.key h3
    rw [show kt ++ g1 ++ c :: g2 ++ t ++ rest = kt ++ (g1 ++ c :: (g2 ++ (t ++ rest))) by simp]
    refine h4.mono ?_
    rintro us ⟨kts, w, ts, rfl, hkt, hw, w1, ts1, rfl, hw1, _, w2, ts2, rfl, hw2, w3, ts3, rfl, hw3, _, vts, w4, ts4, rfl,
      hj, hw4, hq⟩
    refine ⟨kts ++ (w ++ w1) ++ ct :: (w2 ++ w3) ++ vts, w4, ts4, by simp, ?_, hw4, hq⟩
    exact .field hkt (hw.append hw1) hct2 (hw2.wts.append hw3) hj
  | @plus kt g1 g2 t p v hk h1 h2 _ ih =>
    intro rest Q hd h
    have hv := F.gap h2 (ih.toL rest Q hd h)
    have h3 := A.gap h1 (A.plus hv)
    have h4 := key_lex hx hk _ _ (KDelim.plus _ h1) h3
    rw [show kt ++ g1 ++ '+' :: '=' :: g2 ++ t ++ rest = kt ++ (g1 ++ '+' :: '=' :: (g2 ++ (t ++ rest))) by simp]
    refine h4.mono ?_
    rintro us ⟨kts, w, ts, rfl, hkt, hw, w1, ts1, rfl, hw1, _, w2, ts2, rfl, hw2, w3, ts3, rfl, hw3, _, vts, w4, ts4, rfl,
      hj, hw4, hq⟩
    refine ⟨kts ++ (w ++ w1) ++ .plusEquals :: (w2 ++ w3) ++ vts, w4, ts4, by simp, ?_, hw4, hq⟩
    exact .plus hkt (hw.append hw1) (hw2.wts.append hw3) hj
  | @sect kt g t p ms hk h1 hval ih =>
    intro rest Q hd h
    have h3 := A.gap h1 ((ih.2.2.1 rfl rfl).2 rest Q h.toF)
    have h4 := key_lex hx hk _ _ (Delim.gap h1 (Delim.punct _ (by simp))).key h3
    rw [show kt ++ g ++ '{' :: t ++ rest = kt ++ (g ++ '{' :: (t ++ rest)) by simp]
    refine h4.mono ?_
    rintro us ⟨kts, w, ts, rfl, hkt, hw, w1, ts1, rfl, hw1, _, vts, w2, ts2, rfl, hj, hw2, hq⟩
    obtain ⟨ts', rfl⟩ := htok_object hj
    exact ⟨kts ++ (w ++ w1) ++ .openCurly :: ts', w2, ts2, by simp, .sect hkt (hw.append hw1) rfl hj, hw2.wts, hq⟩
  | last _ ih =>
    intro rest Q hd h
    refine (ih rest Q hd h).mono ?_
    rintro us ⟨vts, w, ts, rfl, hj, hw, hq⟩
    exact ⟨vts, w, ts, rfl, .last hj, hw, hq⟩
  | @memberCons t s u m as _ hs _ ihv ihs =>
    intro rest Q hd h
    have h1 := ihv (s ++ (u ++ rest)) _ (Delim.sep _ hs) (A.sep hs (ihs rest Q hd h))
    rw [show t ++ s ++ u ++ rest = t ++ (s ++ (u ++ rest)) by simp]
    refine h1.mono ?_
    rintro us ⟨vts, w, ts, rfl, hj, hw, sp, ts1, rfl, hsp, _, _, ets, w2, ts2, rfl, hj2, hw2, hq⟩
    exact ⟨vts ++ (w ++ sp) ++ ets, w2, ts2, by simp, .memberCons hj (hsp w hw) hj2, hw2, hq⟩
  | @piece s t _ hc ih =>
    refine ⟨s, [], rfl, ih.1, fun hs => (ih.2.2.1 hs hc).1, fun rest Q hd hA => ⟨fun hs => ?_, fun hs => ?_⟩⟩
    · refine SP.step (fun line => ?_) hA
      obtain ⟨tok, line', e, k⟩ := ih.2.1 hs rest line (fun _ => hd)
      exact ⟨tok, line', e, fun us w hq hw => ⟨[tok], w, us, rfl, .piece k hc, hw, hq⟩⟩
    · refine ((ih.2.2.1 hs hc).2 rest Q hA.toF).mono ?_
      rintro us ⟨vts, w, ts, rfl, k1, k2, k3⟩
      exact ⟨vts, w, ts, rfl, .piece k1 hc, k2, k3⟩
  | @touch s s' ps t u _ hc _ hor ih ihp =>
    refine ⟨s, _, rfl, fun hr => ?_, fun hs => ?_, fun rest Q hd hA => ⟨fun hs => ?_, fun hs => ?_⟩⟩
    · obtain ⟨t', rfl⟩ := ih.1 hr
      exact ⟨_, rfl⟩
    · obtain ⟨c, t', rfl, h⟩ := (ih.2.2.1 hs hc).1
      exact ⟨c, _, rfl, h⟩
    · obtain ⟨s2, ps2, e2, k1, k2, k3⟩ := ihp
      obtain ⟨rfl, rfl⟩ := List.cons.inj e2
      obtain ⟨k3, k4⟩ := k3 rest Q hd hA
      have hdl : s.isRef = false → Delim (u ++ rest) := by
        intro hr
        rcases hor with h | h | h | h
        · rw [hs] at h; cases h
        · obtain ⟨c, t', rfl, h⟩ := k2 h
          exact Delim.punct _ (by rcases h with rfl | rfl <;> simp)
        · rw [hr] at h; cases h
        · obtain ⟨t', rfl⟩ := k1 h
          exact Delim.punct _ (by simp)
      rw [List.append_assoc]
      cases hs' : s'.isSimple with
      | true =>
        have := SP.step2 (w := []) (x := s) (by simp) hc
          (fun line => ih.2.1 hs (u ++ rest) line hdl) (k3 hs')
        simpa using this
      | false =>
        refine SP.step (fun line => ?_) (k4 hs')
        obtain ⟨tok, line', e, k⟩ := ih.2.1 hs (u ++ rest) line hdl
        refine ⟨tok, line', e, ?_⟩
        rintro us w ⟨vts, w2, ts, rfl, q1, q2, q3⟩ hw
        exact ⟨[tok] ++ w ++ vts, w2, ts, by simp, .pieceCons k hc hw q1, q2, q3⟩
    · rw [List.append_assoc]
      exact LC.cons (ih.2.2.1 hs hc).2 hc (LP.toF ihp hd hA)
  | @apart s s' ps t w u _ hc hn hw _ hor ih ihp =>
    refine ⟨s, _, rfl, fun hr => ?_, fun hs => ?_, fun rest Q hd hA => ⟨fun hs => ?_, fun hs => ?_⟩⟩
    · obtain ⟨t', rfl⟩ := ih.1 hr
      exact ⟨_, rfl⟩
    · obtain ⟨c, t', rfl, h⟩ := (ih.2.2.1 hs hc).1
      exact ⟨c, _, rfl, h⟩
    · obtain ⟨s2, ps2, e2, k1, k2, k3⟩ := ihp
      obtain ⟨rfl, rfl⟩ := List.cons.inj e2
      obtain ⟨k3, k4⟩ := k3 rest Q hd hA
      have hs' : s'.isSimple = false := by
        rcases hor with h | h
        · rw [hs] at h; cases h
        · exact h
      rw [List.append_assoc, List.append_assoc]
      refine SP.step (fun line => ?_) ((k4 hs').blanks hw)
      obtain ⟨tok, line', e, k⟩ := ih.2.1 hs (w ++ (u ++ rest)) line (fun _ => Delim.blanks _ hn hw)
      refine ⟨tok, line', e, ?_⟩
      rintro us w ⟨vts, w2, ts, rfl, q1, q2, q3⟩ hw
      exact ⟨[tok] ++ w ++ vts, w2, ts, by simp, .pieceCons k hc hw q1, q2, q3⟩
    · rw [List.append_assoc, List.append_assoc]
      exact LC.cons (ih.2.2.1 hs hc).2 hc ((LP.toF ihp hd hA).blanks hw)
  | @blank s s' ps t w u _ hs hn hw _ hs' ih ihp =>
    have hc : s.isConcat = false := by cases s <;> simp_all [Syn.isSimple, Syn.isConcat]
    have hns : ∀ {P : Prop}, s.isSimple = false → P := fun h => by rw [hs] at h; cases h
    refine ⟨s, _, rfl, fun hr => ?_, hns, fun rest Q hd hA => ⟨fun _ => ?_, hns⟩⟩
    · obtain ⟨t', rfl⟩ := ih.1 hr
      exact ⟨_, rfl⟩
    · obtain ⟨s2, ps2, e2, k1, k2, k3⟩ := ihp
      obtain ⟨rfl, rfl⟩ := List.cons.inj e2
      obtain ⟨k3, k4⟩ := k3 rest Q hd hA
      rw [List.append_assoc, List.append_assoc]
      have := SP.step2 (w := w) (x := s) hw hc
        (fun line => ih.2.1 hs (w ++ (u ++ rest)) line (fun _ => Delim.blanks _ hn hw)) (k3 hs')
      rwa [if_neg hn] at this

end HoconLex
end Hocon
