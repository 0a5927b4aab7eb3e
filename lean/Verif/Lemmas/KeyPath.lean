import Verif.Lemmas.HoconAccept
import Verif.Lemmas.PathParserLemmas

/-!
# Keys as path expressions

The text of a key, given to a getter, is read as the path that the key denotes in a document.
-/

set_option autoImplicit false

namespace Hocon
namespace KeyPath

open Spec PathParser

theorem isSpace_ws {c : Char} (h : isSpace c = true) : isWhitespace c = true := by
  simp only [isSpace, isWhitespace, isWhitespaceNotNewline] at *
  revert h
  simp
  grind

theorem dropWhile_head {f : Char → Bool} {t : Str} (h : ∀ c, t.head? = some c → f c = false) : t.dropWhile f = t := by
  cases t with
  | nil => rfl
  | cons c t => rw [List.dropWhile_cons_of_neg]; rw [h c rfl]; decide

theorem trim_eq {t : Str} (h1 : ∀ c, t.head? = some c → isSpace c = false)
    (h2 : ∀ c, t.getLast? = some c → isSpace c = false) : trim t = t := by
  unfold trim
  rw [dropWhile_head h1, dropWhile_head (by rw [List.head?_reverse]; exact h2), List.reverse_reverse]

theorem word_space {c : Char} (h : WordChar c) : isSpace c = false := by
  rw [Bool.eq_false_iff]
  intro hs
  have := isSpace_ws hs
  rw [(HoconLex.WordChar.facts h).2.1] at this
  exact Bool.noConfusion this

theorem segs_ends {env : Env} {p : Path} {t : Str} (h : HSegs env p t) :
    t ≠ [] ∧ (∀ c, t.head? = some c → isSpace c = false) ∧ (∀ c, t.getLast? = some c → isSpace c = false) := by
  induction h with
  | @bare t hne hch =>
    refine ⟨hne, fun c hc => ?_, fun c hc => ?_⟩
    · exact word_space (hch c (List.mem_of_head? hc)).1
    · exact word_space (hch c (List.mem_of_getLast? hc)).1
  | @quoted k t hk =>
    refine ⟨by simp, fun c hc => ?_, fun c hc => ?_⟩
    · simp at hc; subst hc; decide
    · rw [List.getLast?_append] at hc; simp at hc; subst hc; decide
  | @bareCons t u p hne hch _ ih =>
    refine ⟨by simp, fun c hc => ?_, fun c hc => ih.2.2 c ?_⟩
    · rw [List.head?_append] at hc
      cases t with
      | nil => exact absurd rfl hne
      | cons d t => simp at hc; subst hc; exact word_space (hch d (.head _)).1
    · rw [List.getLast?_append, List.getLast?_cons] at hc
      obtain ⟨x, hx⟩ : ∃ x, u.getLast? = some x := by
        cases h : u.getLast? with
        | none => simp at h; exact absurd h ih.1
        | some x => exact ⟨x, rfl⟩
      simp [hx] at hc; rw [hx, hc]
  | @quotedCons k t u p hk _ ih =>
    refine ⟨by simp, fun c hc => ?_, fun c hc => ih.2.2 c ?_⟩
    · simp at hc; subst hc; decide
    · rw [List.getLast?_append, List.getLast?_cons, List.getLast?_cons] at hc
      obtain ⟨x, hx⟩ : ∃ x, u.getLast? = some x := by
        cases h : u.getLast? with
        | none => simp at h; exact absurd h ih.1
        | some x => exact ⟨x, rfl⟩
      simp [hx] at hc; rw [hx, hc]

theorem splitDots_cons (a b : Str) (h : '.' ∉ a) : splitDots (a ++ '.' :: b) = a :: splitDots b := by
  induction a with
  | nil => simp [splitDots]
  | cons c a ih =>
    simp at h
    rw [List.cons_append, splitDots, if_neg (fun e => h.1 e.symm), ih h.2]

/-- A key without quotes splits at the periods. -/
theorem segs_split {env : Env} {p : Path} {t : Str} (h : HSegs env p t) (hq : '"' ∉ t) : p = splitDots t := by
  induction h with
  | bare hne hch =>
    rw [splitDots_noDot]
    intro hd; exact (hch _ hd).2.1 rfl
  | quoted => simp at hq
  | bareCons hne hch _ ih =>
    simp at hq
    rw [splitDots_cons _ _ (fun hd => (hch _ hd).2.1 rfl), ih hq.2]
  | quotedCons => simp at hq

theorem plainLoop_end (env : Env) (ho : Bool) (ts : List Tok) (es es' : Elems) (h : plainLoop env ho es ts = .ok es') :
    plainLoop env ho es (ts ++ [.end_]) = .ok es' := by
  induction ts generalizing es with
  | nil => simp [plainLoop] at h ⊢; exact h
  | cons t ts ih =>
    rw [plainLoop.eq_def] at h
    rw [List.cons_append, plainLoop.eq_def]
    simp only at h ⊢
    split at h
    · exact ih _ h
    · exact ih _ h
    · exact ih _ h
    · exact ih _ h
    · exact ih _ h
    · cases ho <;> simp [badPath] at h

/-- The tokens of a key on its own. -/
theorem slow_key {env : Env} (hx : HexOk env) {p : Path} {t : Str} (h : HSegs env p t) (hs : WordStart t) :
    parsePathSlow env t = .ok p := by
  obtain ⟨k, kts, _, _, _, g6, g7⟩ :=
    HoconLex.segs_lex hx h [] (by simp) (Or.inl rfl) (by simpa using hs) [] HoconLex.Delim.nil.stops (by simp) 1
  have g7 := g7.toks_false (ts := []) (by
    intro f
    cases f with
    | zero => left; rfl
    | succ f => right; rfl) []
  have htok : Tokenizer.tokenize env true t = .ok (.start :: (k :: kts ++ [.end_])) := by
    rw [Tokenizer.tokenize]
    rcases g7 (t.length + 1) with ht | ht
    · exact absurd ht (by simpa using Tokenizer.tokenLoop_ne_fuel (by simp))
    · simp only [List.nil_append, List.append_nil] at ht
      rw [show Tokenizer.Saver.init = ⟨[], false⟩ from rfl, ht]
      simp [JsonLex.wsPre]
  obtain ⟨es', pt', e1, els, e2, e3, e4⟩ := g6 Elems.init [] rfl
  have e2 : es'.all = els := e2
  rw [parsePathSlow, htok]
  have e5 := plainLoop_end env true _ _ _ (splitToken_ok e1)
  show parsePathExpression env true (k :: (kts ++ [.end_])) = _
  rw [List.cons_append] at e5
  simp only [parsePathExpression, List.isEmpty_cons, Bool.false_eq_true, if_false, e5, Res.ok_bind]
  rw [finish_good true es' (by rw [e2]; exact e4), e2, e3]

/-- A key read by the path parser. -/
theorem newPath_key {env : Env} (hx : HexOk env) {p : Path} {t : Str} (h : HSegs env p t) (hs : WordStart t) :
    newPath env t = .ok p := by
  obtain ⟨hne, h1, h2⟩ := segs_ends h
  rw [newPath, fastParse]
  simp only [trim_eq h1 h2]
  split
  · simp only [Res.ok_bind]
    rw [if_neg (by decide)]
    exact slow_key hx h hs
  · rename_i hu
    rw [fastPathBuild_eq _ _ _ (Nat.le_refl _)]
    simp only [Res.ok_bind, List.append_nil]
    have hq : '"' ∉ t := by
      intro hm
      cases t with
      | nil => exact hne rfl
      | cons c t =>
        rw [looksUnsafe, Bool.not_eq_true, Bool.or_eq_false_iff] at hu
        have := (unsafeLoop_chars hu.2 _ hm).1
        revert this
        unfold RawChar
        decide
    rw [← segs_split h hq, if_pos]
    have hp : p ≠ [] := by cases h <;> simp
    cases p with
    | nil => exact absurd rfl hp
    | cons k p => rfl

/-- Keys joined by a period. -/
theorem segs_append {env : Env} {p q : Path} {t u : Str} (h : HSegs env p t) (h' : HSegs env q u) :
    HSegs env (p ++ q) (t ++ '.' :: u) := by
  induction h with
  | bare h1 h2 => exact .bareCons h1 h2 h'
  | quoted h1 => simpa using HSegs.quotedCons h1 h'
  | bareCons h1 h2 _ ih => simpa using HSegs.bareCons h1 h2 ih
  | quotedCons h1 _ ih => simpa using HSegs.quotedCons h1 ih

end KeyPath
end Hocon
