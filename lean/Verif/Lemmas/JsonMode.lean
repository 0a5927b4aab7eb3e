import Verif.Lemmas.DocParserTotal
import Verif.Spec.Json

/-!
# JSON mode of the document parser accepts exactly the JSON token language
-/

namespace Hocon
namespace DocParser
open PathParser (Syntax)
open Tokenizer
open Spec

/-- The significant tokens. -/
def sig (toks : List Tok) : List Tok := toks.filter (fun t => !blankTok t)

theorem collectNode_isSome (t : Tok) : (collectNode t).isSome = blankTok t := by
  cases t with
  | unquoted s l =>
    rw [collectNode, blankTok]
    show (if List.all s isWhitespace = true then _ else _ : Option Node).isSome = _
    cases List.all s isWhitespace <;> rfl
  | _ => rfl

/-- A significant token that JSON mode lets through. -/
def JOk (t : Tok) : Prop := blankTok t = false ∧ (∀ s l, t ≠ .unquoted s l) ∧ ∀ o ts l, t ≠ .subst o ts l

theorem nextCollect_json {toks : List Tok} {ns : List Node} {t : Tok} {ts : List Tok}
    (h : nextCollect .json toks = .ok (ns, t, ts)) : sig toks = t :: sig ts ∧ JOk t := by
  induction toks generalizing ns with
  | nil => simp [nextCollect] at h
  | cons a toks ih =>
    rw [nextCollect, Res.bind_eq_ok] at h
    obtain ⟨x, hx, h⟩ := h
    have hc := collectNode_isSome a
    cases hn : collectNode a with
    | none =>
      rw [hn] at h hc
      simp only [Res.ok.injEq, Prod.mk.injEq] at h
      obtain ⟨_, rfl, rfl⟩ := h
      simp only [Option.isSome_none] at hc
      refine ⟨by simp [sig, ← hc], hc.symm, ?_, ?_⟩
      · rintro s l rfl
        have hx : (if List.all s isWhitespace = true then _ else _ : Res _) = Res.ok x := hx
        have hc : false = List.all s isWhitespace := hc
        rw [← hc] at hx
        simp at hx
      · rintro o s l rfl
        simp [nextToken] at hx
    | some n =>
      rw [hn] at h hc
      simp only at h
      rw [Res.bind_eq_ok] at h
      obtain ⟨⟨ns1, t1, ts1⟩, h1, h⟩ := h
      simp only [Res.ok.injEq, Prod.mk.injEq] at h
      obtain ⟨_, rfl, rfl⟩ := h
      obtain ⟨g1, g2⟩ := ih h1
      simp only [Option.isSome_some] at hc
      refine ⟨?_, g2⟩
      rw [← g1]
      simp [sig, ← hc]

theorem nextCollect_json_ok {toks : List Tok} {t : Tok} {rest : List Tok} (h : sig toks = t :: rest)
    (ht : JOk t) : ∃ ns ts, nextCollect .json toks = .ok (ns, t, ts) ∧ sig ts = rest := by
  induction toks with
  | nil => simp [sig] at h
  | cons a toks ih =>
    rw [nextCollect]
    have hc := collectNode_isSome a
    cases hb : blankTok a with
    | true =>
      rw [hb, Option.isSome_iff_exists] at hc
      obtain ⟨n, hn⟩ := hc
      have hsig : sig toks = t :: rest := by simpa [sig, hb] using h
      obtain ⟨ns, ts, h1, h2⟩ := ih hsig
      have hnt : nextToken .json (a :: toks) = .ok (a, toks) := by
        cases a <;> simp_all [nextToken, collectNode, blankTok, isUnquotedWs]
      rw [hnt, hn, h1]
      exact ⟨_, _, rfl, h2⟩
    | false =>
      have hn : collectNode a = none := by
        rw [hb] at hc
        cases hx : collectNode a <;> simp_all
      have hsig : a = t ∧ sig toks = rest := by simpa [sig, hb] using h
      obtain ⟨rfl, hsig⟩ := hsig
      have hnt : nextToken .json (a :: toks) = .ok (a, toks) := by
        obtain ⟨_, h2, h3⟩ := ht
        cases a <;> simp_all [nextToken]
      rw [hnt, hn]
      exact ⟨_, _, rfl, hsig⟩

theorem checkSep_json {toks : List Tok} {ns : List Node} {b : Bool} {ts : List Tok}
    (h : checkSep .json toks = .ok (ns, b, ts)) :
    (b = true ∧ sig toks = .comma :: sig ts) ∨ (b = false ∧ sig toks = sig ts) := by
  rw [checkSep, Res.bind_eq_ok] at h
  obtain ⟨⟨ns1, t1, ts1⟩, h1, h⟩ := h
  obtain ⟨g1, g2⟩ := nextCollect_json h1
  simp only at h
  split at h
  · simp only [Res.ok.injEq, Prod.mk.injEq] at h
    obtain ⟨_, rfl, rfl⟩ := h
    exact Or.inl ⟨rfl, g1⟩
  · simp only [Res.ok.injEq, Prod.mk.injEq] at h
    obtain ⟨_, rfl, rfl⟩ := h
    refine Or.inr ⟨rfl, ?_⟩
    rw [g1]
    simp [sig, g2.1]

theorem checkSep_json_comma {toks : List Tok} {rest : List Tok} (h : sig toks = .comma :: rest) :
    ∃ ns ts, checkSep .json toks = .ok (ns, true, ts) ∧ sig ts = rest := by
  obtain ⟨ns, ts, h1, h2⟩ := nextCollect_json_ok h ⟨rfl, by simp, by simp⟩
  refine ⟨ns ++ [.single .comma], ts, ?_, h2⟩
  rw [checkSep, h1]; rfl

theorem checkSep_json_other {toks : List Tok} {t : Tok} {rest : List Tok} (h : sig toks = t :: rest)
    (ht : JOk t) (hc : t ≠ .comma) :
    ∃ ns ts, checkSep .json toks = .ok (ns, false, ts) ∧ sig ts = t :: rest := by
  obtain ⟨ns, ts, h1, h2⟩ := nextCollect_json_ok h ht
  refine ⟨ns, t :: ts, ?_, by simp [sig, ht.1] at h2 ⊢; exact h2⟩
  rw [checkSep, h1]
  cases t <;> simp_all

theorem parseKey_json {env : Env} {t : Tok} {toks : List Tok} {p : Path} {pt toks' : List Tok}
    (h : parseKey env .json t toks = .ok (p, pt, toks')) :
    toks' = toks ∧ ∃ k q s l, t = .value (.str k q) s l ∧ p = [k] := by
  rw [parseKey.eq_def] at h
  simp only at h
  split at h
  · rename_i k q tx l
    simp [PathParser.parsePathNodeExpression, PathParser.exprLoop, PathParser.addQuoted,
            PathParser.finish, PathParser.Elems.all, PathParser.Elems.init, PathParser.Elem.bad,
            PathM.Builder.result, PathM.Builder.appendKey] at h
    obtain ⟨rfl, _, rfl⟩ := h
    exact ⟨rfl, k, q, tx, l, rfl, rfl⟩
  · simp at h

theorem parseKey_json_ok (env : Env) (k : Str) (q : Bool) (s : Str) (l : Int) (toks : List Tok) :
    ∃ pt, parseKey env .json (.value (.str k q) s l) toks = .ok ([k], pt, toks) := by
  rw [parseKey.eq_def]
  simp [PathParser.parsePathNodeExpression, PathParser.exprLoop, PathParser.addQuoted,
            PathParser.finish, PathParser.Elems.all, PathParser.Elems.init, PathParser.Elem.bad,
            PathM.Builder.result, PathM.Builder.appendKey, PathM.Builder.resultFrom]

/-- Soundness of the functions in JSON mode. -/
structure JSound (env : Env) (f : Nat) : Prop where
  value : ∀ t toks v toks', parseValue env .json f t toks = .ok (v, toks') → JOk t →
    ∃ us, t :: sig toks = us ++ sig toks' ∧ JGram .value us
  field : ∀ t toks p n toks', parseField env .json f t toks = .ok (p, n, toks') → JOk t →
    ∃ k q s l us, t = .value (.str k q) s l ∧ p = [k] ∧ sig toks = .colon :: us ++ sig toks' ∧
      JGram .value us
  obj : ∀ ac keys toks ns toks', objectLoop env .json f true ac keys toks = .ok (ns, toks') →
    (ac = false ∧ sig toks = .closeCurly :: sig toks') ∨
    ∃ ks us, JGram (.members ks) us ∧ ks.Nodup ∧ (∀ k ∈ ks, k ∉ keys) ∧
      sig toks = us ++ .closeCurly :: sig toks'
  sep : ∀ keys toks ns toks', objectSep env .json f true keys toks = .ok (ns, toks') →
    sig toks = .closeCurly :: sig toks' ∨
    ∃ ks us, JGram (.members ks) us ∧ ks.Nodup ∧ (∀ k ∈ ks, k ∉ keys) ∧
      sig toks = .comma :: us ++ .closeCurly :: sig toks'
  arr : ∀ toks n toks', parseArray env .json f toks = .ok (n, toks') →
    ∃ us, .openSquare :: sig toks = us ++ sig toks' ∧ JGram .value us
  aloop : ∀ toks ns toks', arrayLoop env .json f toks = .ok (ns, toks') →
    sig toks = .closeSquare :: sig toks' ∨
    ∃ us, JGram .elems us ∧ sig toks = .comma :: us ++ .closeSquare :: sig toks'

theorem consolidate_json {env : Env} {f : Nat} {toks : List Tok} {r} 
    (h : consolidate env .json f toks = .ok r) : r = ([], none, toks) := by
  cases f with
  | zero => simp [consolidate] at h
  | succ f => simp [consolidate] at h; exact h.symm

theorem jsound_all (env : Env) (f : Nat) : JSound env f := by
  induction f using Nat.strongRecOn with
  | _ f ih =>
  cases f with
  | zero =>
    constructor <;> intros <;>
      simp_all [parseValue, parseField, objectLoop, objectSep, parseArray, arrayLoop]
  | succ f =>
    have ihf := ih f (by omega)
    constructor
    · intro t toks v toks' h ht
      rw [parseValue.eq_def] at h
      simp only at h
      split at h
      · simp only [Res.ok.injEq, Prod.mk.injEq] at h
        obtain ⟨rfl, rfl⟩ := h
        exact ⟨[_], rfl, .scalar _ _ _⟩
      · exact absurd rfl (ht.2.1 _ _)
      · exact absurd rfl (ht.2.2 _ _ _)
      · rw [Res.bind_eq_ok] at h
        obtain ⟨⟨ns, ts1⟩, h1, h⟩ := h
        simp only [Res.ok.injEq, Prod.mk.injEq] at h
        obtain ⟨rfl, rfl⟩ := h
        rcases ihf.obj _ _ _ _ _ h1 with ⟨_, hs⟩ | ⟨ks, us, g1, g2, g3, hs⟩
        · exact ⟨[.openCurly, .closeCurly], by simp [hs], .emptyObj⟩
        · exact ⟨.openCurly :: us ++ [.closeCurly], by simp [hs], .obj g2 g1⟩
      · exact ihf.arr _ _ _ h
      · simp at h
    · intro t toks p n toks' h ht
      rw [parseField, Res.bind_eq_ok] at h
      obtain ⟨⟨p1, pt, ts1⟩, h1, h⟩ := h
      rw [Res.bind_eq_ok] at h
      obtain ⟨⟨ws, ak, ts2⟩, h2, h⟩ := h
      obtain ⟨hts, k, q, s, l, rfl, rfl⟩ := parseKey_json h1
      obtain ⟨g1, g2⟩ := nextCollect_json h2
      simp only at h g1
      subst hts
      split at h
      · rename_i hc
        simp at hc
      · split at h
        · rename_i hsep
          have hak : ak = .colon := by
            cases ak <;> simp_all [isKeyValueSeparator]
          subst hak
          rw [Res.bind_eq_ok] at h
          obtain ⟨⟨ws2, v, ts3⟩, h3, h⟩ := h
          simp only [Res.ok.injEq, Prod.mk.injEq] at h
          obtain ⟨rfl, _, rfl⟩ := h
          cases f with
          | zero => simp [fieldVal] at h3
          | succ f =>
          rw [fieldVal, Res.bind_eq_ok] at h3
          obtain ⟨r, h4, h3⟩ := h3
          have := consolidate_json h4
          subst this
          simp only at h3
          rw [Res.bind_eq_ok] at h3
          obtain ⟨⟨ws5, t5, ts5⟩, h5, h3⟩ := h3
          obtain ⟨k1, k2⟩ := nextCollect_json h5
          simp only at h3
          rw [Res.bind_eq_ok] at h3
          obtain ⟨⟨v6, ts6⟩, h6, h3⟩ := h3
          simp only [Res.ok.injEq, Prod.mk.injEq] at h3
          obtain ⟨_, rfl, rfl⟩ := h3
          obtain ⟨us, m1, m2⟩ := (ih f (by omega)).value _ _ _ _ h6 k2
          exact ⟨k, q, s, l, us, rfl, rfl, by rw [g1, k1, m1]; simp, m2⟩
        · simp at h
    · intro ac keys toks ns toks' h
      rw [objectLoop, Res.bind_eq_ok] at h
      obtain ⟨⟨ws, t, ts1⟩, h1, h⟩ := h
      obtain ⟨g1, g2⟩ := nextCollect_json h1
      simp only at h g1
      split at h
      · split at h
        · simp at h
        · rename_i hac
          split at h
          · simp at h
          · simp only [Res.ok.injEq, Prod.mk.injEq] at h
            obtain ⟨rfl, rfl⟩ := h
            exact Or.inl ⟨by simpa using hac, g1⟩
      · split at h
        · rename_i hx; simp at hx
        · split at h
          · rename_i hx; simp at hx
          · rw [Res.bind_eq_ok] at h
            obtain ⟨⟨p, fld, ts2⟩, h2, h⟩ := h
            rw [Res.bind_eq_ok] at h
            obtain ⟨keys', h4, h⟩ := h
            rw [Res.bind_eq_ok] at h
            obtain ⟨⟨ns1, ts3⟩, h3, h⟩ := h
            simp only [Res.ok.injEq, Prod.mk.injEq] at h
            obtain ⟨rfl, rfl⟩ := h
            obtain ⟨k, q, s, l, us, rfl, rfl, m1, m2⟩ := ihf.field _ _ _ _ _ h2 g2
            simp only [addKey, List.isEmpty_nil, if_true] at h4
            split at h4
            · simp at h4
            · rename_i hk
              simp only [Res.ok.injEq] at h4
              subst h4
              have hk : k ∉ keys := by simpa using hk
              right
              simp only at m1 h3
              rcases ihf.sep _ _ _ _ h3 with hs | ⟨ks, us', e1, e2, e3, hs⟩
              · exact ⟨[k], _, .member (q := q) (text := s) (line := l) m2, by simp, by simpa using hk, by rw [g1, m1, hs]; simp⟩
              · refine ⟨k :: ks, _, .memberCons (q := q) (text := s) (line := l) m2 e1, ?_, ?_, by rw [g1, m1, hs]; simp⟩
                · rw [List.nodup_cons]
                  exact ⟨fun hm => e3 k hm (by simp), e2⟩
                · intro x hx
                  simp only [List.mem_cons] at hx
                  rcases hx with rfl | hx
                  · exact hk
                  · exact fun hm => e3 x hx (by simp [hm])
    · intro keys toks ns toks' h
      rw [objectSep, Res.bind_eq_ok] at h
      obtain ⟨⟨ws, sep, ts1⟩, h1, h⟩ := h
      simp only at h
      rcases checkSep_json h1 with ⟨rfl, g1⟩ | ⟨rfl, g1⟩
      · rw [if_pos rfl, Res.bind_eq_ok] at h
        obtain ⟨⟨ns1, ts2⟩, h2, h⟩ := h
        simp only [Res.ok.injEq, Prod.mk.injEq] at h
        obtain ⟨rfl, rfl⟩ := h
        rcases ihf.obj _ _ _ _ _ h2 with ⟨hx, _⟩ | ⟨ks, us, e1, e2, e3, hs⟩
        · simp at hx
        · exact Or.inr ⟨ks, us, e1, e2, e3, by rw [g1, hs]; simp⟩
      · rw [if_neg (by simp), Res.bind_eq_ok] at h
        obtain ⟨⟨ws2, t, ts2⟩, h2, h⟩ := h
        obtain ⟨k1, k2⟩ := nextCollect_json h2
        simp only at h
        split at h
        · simp only [if_true, Res.ok.injEq, Prod.mk.injEq] at h
          obtain ⟨rfl, rfl⟩ := h
          exact Or.inl (by rw [g1, k1])
        · simp at h
        · simp at h
    · intro toks n toks' h
      rw [parseArray, Res.bind_eq_ok] at h
      obtain ⟨r, h1, h⟩ := h
      have := consolidate_json h1
      subst this
      simp only at h
      rw [Res.bind_eq_ok] at h
      obtain ⟨⟨ws2, t, ts2⟩, h2, h⟩ := h
      obtain ⟨k1, k2⟩ := nextCollect_json h2
      simp only at h
      split at h
      · simp only [Res.ok.injEq, Prod.mk.injEq] at h
        obtain ⟨rfl, rfl⟩ := h
        exact ⟨[.openSquare, .closeSquare], by rw [k1]; simp, .emptyArr⟩
      · split at h
        · rw [Res.bind_eq_ok] at h
          obtain ⟨⟨v1, ts3⟩, h3, h⟩ := h
          rw [Res.bind_eq_ok] at h
          obtain ⟨⟨ns, ts4⟩, h4, h⟩ := h
          simp only [Res.ok.injEq, Prod.mk.injEq] at h
          obtain ⟨rfl, rfl⟩ := h
          obtain ⟨us, m1, m2⟩ := ihf.value _ _ _ _ h3 k2
          simp only at m1 h4
          rcases ihf.aloop _ _ _ h4 with hs | ⟨us', e1, hs⟩
          · exact ⟨_, by rw [k1, m1, hs]; simp, .arr (.elem m2)⟩
          · exact ⟨.openSquare :: (us ++ .comma :: us') ++ [.closeSquare], by rw [k1, m1, hs]; simp,
              .arr (.elemCons m2 e1)⟩
        · simp at h
    · intro toks ns toks' h
      rw [arrayLoop, Res.bind_eq_ok] at h
      obtain ⟨⟨ws, sep, ts1⟩, h1, h⟩ := h
      simp only at h
      rcases checkSep_json h1 with ⟨rfl, g1⟩ | ⟨rfl, g1⟩
      · rw [if_pos rfl, Res.bind_eq_ok] at h
        obtain ⟨r, h2, h⟩ := h
        have := consolidate_json h2
        subst this
        simp only at h
        rw [Res.bind_eq_ok] at h
        obtain ⟨⟨ws3, t, ts3⟩, h3, h⟩ := h
        obtain ⟨k1, k2⟩ := nextCollect_json h3
        simp only at h
        split at h
        · rw [Res.bind_eq_ok] at h
          obtain ⟨⟨v1, ts4⟩, h4, h⟩ := h
          rw [Res.bind_eq_ok] at h
          obtain ⟨⟨ns1, ts5⟩, h5, h⟩ := h
          simp only [Res.ok.injEq, Prod.mk.injEq] at h
          obtain ⟨rfl, rfl⟩ := h
          obtain ⟨us, m1, m2⟩ := ihf.value _ _ _ _ h4 k2
          simp only at m1 h5
          right
          rcases ihf.aloop _ _ _ h5 with hs | ⟨us', e1, hs⟩
          · exact ⟨us, .elem m2, by rw [g1, k1, m1, hs]; simp⟩
          · exact ⟨us ++ .comma :: us', .elemCons m2 e1, by rw [g1, k1, m1, hs]; simp⟩
        · split at h
          · rename_i hx; simp at hx
          · simp at h
      · rw [if_neg (by simp), Res.bind_eq_ok] at h
        obtain ⟨⟨ws2, t, ts2⟩, h2, h⟩ := h
        obtain ⟨k1, k2⟩ := nextCollect_json h2
        simp only at h
        split at h
        · simp only [Res.ok.injEq, Prod.mk.injEq] at h
          obtain ⟨rfl, rfl⟩ := h
          exact Or.inl (by rw [g1, k1])
        · simp at h

/-- The first token of a value is a JSON token that starts a value. -/
theorem JGram.head {k : JKind} {ts : List Tok} (h : JGram k ts) :
    ∃ t us, ts = t :: us ∧ JOk t ∧ (k = .value → startsValue t = true) ∧ (k = .elems → startsValue t = true) ∧
      t ≠ .closeSquare ∧ t ≠ .closeCurly := by
  induction h with
  | scalar => exact ⟨_, _, rfl, ⟨rfl, by simp, by simp⟩, by simp [startsValue], by simp, by simp, by simp⟩
  | emptyObj => exact ⟨_, _, rfl, ⟨rfl, by simp, by simp⟩, by simp [startsValue], by simp, by simp, by simp⟩
  | obj => exact ⟨_, _, rfl, ⟨rfl, by simp, by simp⟩, by simp [startsValue], by simp, by simp, by simp⟩
  | emptyArr => exact ⟨_, _, rfl, ⟨rfl, by simp, by simp⟩, by simp [startsValue], by simp, by simp, by simp⟩
  | arr => exact ⟨_, _, rfl, ⟨rfl, by simp, by simp⟩, by simp [startsValue], by simp, by simp, by simp⟩
  | member => exact ⟨_, _, rfl, ⟨rfl, by simp, by simp⟩, by simp, by simp, by simp, by simp⟩
  | memberCons => exact ⟨_, _, rfl, ⟨rfl, by simp, by simp⟩, by simp, by simp, by simp, by simp⟩
  | elem h ih =>
    obtain ⟨t, us, rfl, h1, h2, h3, h4⟩ := ih
    exact ⟨t, us, rfl, h1, by simp, fun _ => h2 rfl, h4⟩
  | elemCons h h' ih ih' =>
    obtain ⟨t, us, rfl, h1, h2, h3, h4⟩ := ih
    exact ⟨t, _, rfl, h1, by simp, fun _ => h2 rfl, h4⟩

theorem consolidate_json_cases (env : Env) (f : Nat) (toks : List Tok) :
    consolidate env .json f toks = .fuel ∨ consolidate env .json f toks = .ok ([], none, toks) := by
  cases f with
  | zero => left; rfl
  | succ f => right; rfl

/-- What completeness says for each nonterminal. -/
def JComplete (env : Env) : JKind → List Tok → Prop
  | .value, us => ∀ f t toks rest, t :: sig toks = us ++ rest →
      parseValue env .json f t toks = .fuel ∨
      ∃ v toks', parseValue env .json f t toks = .ok (v, toks') ∧ sig toks' = rest
  | .members ks, us => ∀ f ac keys toks rest, sig toks = us ++ .closeCurly :: rest → ks.Nodup →
      (∀ k ∈ ks, k ∉ keys) →
      objectLoop env .json f true ac keys toks = .fuel ∨
      ∃ ns toks', objectLoop env .json f true ac keys toks = .ok (ns, toks') ∧ sig toks' = rest
  | .elems, us =>
      (∀ f toks rest, sig toks = us ++ .closeSquare :: rest →
        parseArray env .json f toks = .fuel ∨
        ∃ n toks', parseArray env .json f toks = .ok (n, toks') ∧ sig toks' = rest) ∧
      (∀ f toks rest, sig toks = .comma :: us ++ .closeSquare :: rest →
        arrayLoop env .json f toks = .fuel ∨
        ∃ ns toks', arrayLoop env .json f toks = .ok (ns, toks') ∧ sig toks' = rest)

/-- `arrayLoop` on the closing bracket. -/
theorem arrayLoop_close (env : Env) (f : Nat) (toks rest : List Tok)
    (h : sig toks = .closeSquare :: rest) :
    arrayLoop env .json f toks = .fuel ∨
    ∃ ns toks', arrayLoop env .json f toks = .ok (ns, toks') ∧ sig toks' = rest := by
  cases f with
  | zero => left; rfl
  | succ f =>
    right
    rw [arrayLoop]
    obtain ⟨ns, ts, h1, h2⟩ := checkSep_json_other h ⟨rfl, by simp, by simp⟩ (by simp)
    obtain ⟨ns2, ts2, h3, h4⟩ := nextCollect_json_ok h2 ⟨rfl, by simp, by simp⟩
    rw [h1]
    simp only [Res.ok_bind, Bool.false_eq_true, if_false]
    rw [h3]
    exact ⟨_, _, rfl, h4⟩

/-- The common part of both array functions: a value followed by more elements or `]`. -/
theorem parseElems (env : Env) (f : Nat) (t : Tok) (toks us rest : List Tok)
    (hv : JComplete env .value us) (h : t :: sig toks = us ++ rest)
    (hl : ∀ toks', sig toks' = rest → ∀ f', arrayLoop env .json f' toks' = .fuel ∨
      ∃ ns toks'', arrayLoop env .json f' toks' = .ok (ns, toks'') ∧ sig toks'' = r') :
    (parseValue env .json f t toks = .fuel) ∨
    ∃ v toks', parseValue env .json f t toks = .ok (v, toks') ∧
      (arrayLoop env .json f toks' = .fuel ∨
        ∃ ns toks'', arrayLoop env .json f toks' = .ok (ns, toks'') ∧ sig toks'' = r') := by
  rcases hv f t toks rest h with h1 | ⟨v, toks', h1, h2⟩
  · exact Or.inl h1
  · exact Or.inr ⟨v, toks', h1, hl toks' h2 f⟩

/-- `parseArray` on a first element and a continuation. -/
theorem parseArray_elems (env : Env) (f : Nat) (toks us rest r' : List Tok)
    (hg : JGram .value us) (hv : JComplete env .value us) (h : sig toks = us ++ rest)
    (hl : ∀ toks', sig toks' = rest → ∀ f', arrayLoop env .json f' toks' = .fuel ∨
      ∃ ns toks'', arrayLoop env .json f' toks' = .ok (ns, toks'') ∧ sig toks'' = r') :
    parseArray env .json f toks = .fuel ∨
      ∃ n toks', parseArray env .json f toks = .ok (n, toks') ∧ sig toks' = r' := by
  cases f with
  | zero => left; rfl
  | succ f =>
    rw [parseArray]
    rcases consolidate_json_cases env f toks with hc | hc
    · left; rw [hc]; rfl
    · rw [hc]
      simp only [Res.ok_bind]
      obtain ⟨t, us', rfl, h1, h2, _, h3, _⟩ := JGram.head hg
      obtain ⟨ns, ts, g1, g2⟩ := nextCollect_json_ok h h1
      rw [g1]
      simp only [Res.ok_bind]
      have hsv := h2 rfl
      rcases parseElems env f t ts _ rest hv (by rw [g2]; rfl) hl with hp | ⟨v, toks', hp, ha⟩
      · left
        cases t <;> first | exact absurd rfl h3 | (simp [startsValue] at hsv; done) | (simp only [startsValue, if_true, hp]; rfl)
      · rcases ha with ha | ⟨ns', toks'', ha, hs⟩
        · left
          cases t <;> first | exact absurd rfl h3 | (simp [startsValue] at hsv; done) | (simp only [startsValue, if_true, hp, Res.ok_bind, ha]; rfl)
        · right
          cases t <;> first | exact absurd rfl h3 | (simp [startsValue] at hsv; done) | (simp only [startsValue, if_true, hp, Res.ok_bind, ha]; exact ⟨_, _, rfl, hs⟩)

/-- `arrayLoop` on a comma, an element and a continuation. -/
theorem arrayLoop_elems (env : Env) (f : Nat) (toks us rest r' : List Tok)
    (hg : JGram .value us) (hv : JComplete env .value us) (h : sig toks = .comma :: us ++ rest)
    (hl : ∀ toks', sig toks' = rest → ∀ f', arrayLoop env .json f' toks' = .fuel ∨
      ∃ ns toks'', arrayLoop env .json f' toks' = .ok (ns, toks'') ∧ sig toks'' = r') :
    arrayLoop env .json f toks = .fuel ∨
      ∃ n toks', arrayLoop env .json f toks = .ok (n, toks') ∧ sig toks' = r' := by
  cases f with
  | zero => left; rfl
  | succ f =>
    rw [arrayLoop]
    obtain ⟨nsc, tsc, e1, e2⟩ := checkSep_json_comma h
    rw [e1]
    simp only [Res.ok_bind, if_true]
    rcases consolidate_json_cases env f tsc with hc | hc
    · left; rw [hc]; rfl
    · rw [hc]
      simp only [Res.ok_bind]
      obtain ⟨t, us', rfl, h1, h2, _, h3, _⟩ := JGram.head hg
      obtain ⟨ns, ts, g1, g2⟩ := nextCollect_json_ok e2 h1
      rw [g1]
      simp only [Res.ok_bind]
      have hsv := h2 rfl
      rw [if_pos hsv]
      rcases parseElems env f t ts _ rest hv (by rw [g2]; rfl) hl with hp | ⟨v, toks', hp, ha⟩
      · left
        rw [hp]; rfl
      · rw [hp, Res.ok_bind]
        rcases ha with ha | ⟨ns', toks'', ha, hs⟩
        · left
          simp only [ha]; rfl
        · right
          simp only [ha]
          exact ⟨_, _, rfl, hs⟩

/-- `objectLoop` on a member and a continuation for `objectSep`. -/
theorem objectLoop_member (env : Env) (f : Nat) (ac : Bool) (keys : List Str) (toks us rest r' : List Tok)
    (k : Str) (q : Bool) (tx : Str) (l : Int)
    (hg : JGram .value us) (hv : JComplete env .value us)
    (h : sig toks = .value (.str k q) tx l :: .colon :: us ++ rest) (hk : k ∉ keys)
    (hl : ∀ toks', sig toks' = rest → ∀ f', objectSep env .json f' true (k :: keys) toks' = .fuel ∨
      ∃ ns toks'', objectSep env .json f' true (k :: keys) toks' = .ok (ns, toks'') ∧ sig toks'' = r') :
    objectLoop env .json f true ac keys toks = .fuel ∨
      ∃ n toks', objectLoop env .json f true ac keys toks = .ok (n, toks') ∧ sig toks' = r' := by
  cases f with
  | zero => left; rfl
  | succ f =>
    rw [objectLoop]
    obtain ⟨ws, ts, g1, g2⟩ := nextCollect_json_ok h ⟨rfl, by simp, by simp⟩
    rw [g1]
    simp only [Res.ok_bind, Bool.not_true, Bool.and_false, Bool.false_eq_true, if_false, reduceCtorEq,
      decide_false, Bool.false_and]
    have hfield : parseField env .json f (.value (.str k q) tx l) ts = .fuel ∨
        ∃ n toks', parseField env .json f (.value (.str k q) tx l) ts = .ok ([k], n, toks') ∧
          sig toks' = rest := by
      cases f with
      | zero => left; rfl
      | succ f =>
        rw [parseField]
        obtain ⟨pt, hp⟩ := parseKey_json_ok env k q tx l ts
        obtain ⟨ws2, ts2, k1, k2⟩ := nextCollect_json_ok g2 ⟨rfl, by simp, by simp⟩
        rw [hp]
        simp only [Res.ok_bind, k1, reduceCtorEq, decide_false, Bool.false_and, Bool.false_eq_true,
          if_false, isKeyValueSeparator, if_true]
        cases f with
        | zero => left; rfl
        | succ f =>
          rw [fieldVal]
          rcases consolidate_json_cases env f ts2 with hc | hc
          · left; rw [hc]; rfl
          · rw [hc]
            simp only [Res.ok_bind]
            obtain ⟨t, us', rfl, h1, h2, _, h3, _⟩ := JGram.head hg
            obtain ⟨ns, ts3, m1, m2⟩ := nextCollect_json_ok k2 h1
            rw [m1]
            simp only [Res.ok_bind]
            rcases hv f t ts3 rest (by rw [m2]; rfl) with hp | ⟨v, toks', hp, hs⟩
            · left; rw [hp]; rfl
            · right; rw [hp]; exact ⟨_, _, rfl, hs⟩
    rcases hfield with hf | ⟨n, toks', hf, hs⟩
    · left; rw [hf]; rfl
    · rw [hf]
      have hadd : addKey .json keys [k] = .ok (k :: keys) := by
        simp [addKey, hk]
      simp only [Res.ok_bind, hadd]
      rcases hl toks' hs f with ho | ⟨ns, toks'', ho, hs'⟩
      · left; rw [ho]; rfl
      · right; rw [ho]; exact ⟨_, _, rfl, hs'⟩

theorem jcomplete_all (env : Env) {k : JKind} {us : List Tok} (h : JGram k us) : JComplete env k us := by
  induction h with
  | scalar v tx l =>
    intro f t toks rest h
    simp only [List.cons_append, List.nil_append, List.cons.injEq] at h
    obtain ⟨rfl, rfl⟩ := h
    cases f with
    | zero => left; rfl
    | succ f => right; exact ⟨_, _, rfl, rfl⟩
  | emptyObj =>
    intro f t toks rest h
    simp only [List.cons_append, List.nil_append, List.cons.injEq] at h
    obtain ⟨rfl, h⟩ := h
    cases f with
    | zero => left; rfl
    | succ f =>
      rw [parseValue]
      cases f with
      | zero => left; rfl
      | succ f =>
        obtain ⟨ns, ts, h1, h2⟩ := nextCollect_json_ok h ⟨rfl, by simp, by simp⟩
        right
        refine ⟨.object (.single .openCurly :: (ns ++ [.single .closeCurly])), ts, ?_, h2⟩
        rw [objectLoop, h1]
        rfl
  | @obj ks ts hn _ ih =>
    intro f t toks rest h
    simp only [List.cons_append, List.append_assoc, List.cons.injEq] at h
    obtain ⟨rfl, h⟩ := h
    cases f with
    | zero => left; rfl
    | succ f =>
      rw [parseValue]
      rcases ih f false [] toks rest h hn (by simp) with h1 | ⟨ns, toks', h1, h2⟩
      · left; rw [h1]; rfl
      · right; rw [h1]; exact ⟨_, _, rfl, h2⟩
  | emptyArr =>
    intro f t toks rest h
    simp only [List.cons_append, List.nil_append, List.cons.injEq] at h
    obtain ⟨rfl, h⟩ := h
    cases f with
    | zero => left; rfl
    | succ f =>
      rw [parseValue]
      cases f with
      | zero => left; rfl
      | succ f =>
        rw [parseArray]
        rcases consolidate_json_cases env f toks with hc | hc
        · left; rw [hc]; rfl
        · obtain ⟨ns, ts, h1, h2⟩ := nextCollect_json_ok h ⟨rfl, by simp, by simp⟩
          right
          refine ⟨.array (.single .openSquare :: [] ++ ns ++ [.single .closeSquare]), ts, ?_, h2⟩
          rw [hc]
          simp only [Res.ok_bind]
          rw [h1]
          rfl
  | @arr ts _ ih =>
    intro f t toks rest h
    simp only [List.cons_append, List.append_assoc, List.cons.injEq] at h
    obtain ⟨rfl, h⟩ := h
    cases f with
    | zero => left; rfl
    | succ f =>
      rw [parseValue]
      exact ih.1 f toks rest h
  | @member k q tx l ts hg ih =>
    intro f ac keys toks rest h hn hk
    refine objectLoop_member env f ac keys toks ts _ rest k q tx l hg ih (by simpa using h) (hk k (by simp)) ?_
    intro toks' hs f'
    cases f' with
    | zero => left; rfl
    | succ f' =>
      obtain ⟨ns, ts2, h1, h2⟩ := checkSep_json_other hs ⟨rfl, by simp, by simp⟩ (by simp)
      obtain ⟨ns2, ts3, h3, h4⟩ := nextCollect_json_ok h2 ⟨rfl, by simp, by simp⟩
      right
      refine ⟨ns ++ ns2 ++ [.single .closeCurly], ts3, ?_, h4⟩
      rw [objectSep, h1]
      simp only [Res.ok_bind, Bool.false_eq_true, if_false]
      rw [h3]
      rfl
  | @memberCons k q tx l ts us ks hg hg' ih ih' =>
    intro f ac keys toks rest h hn hk
    rw [List.nodup_cons] at hn
    refine objectLoop_member env f ac keys toks ts (.comma :: us ++ .closeCurly :: rest) rest k q tx l hg ih
      (by simpa using h) (hk k (by simp)) ?_
    intro toks' hs f'
    cases f' with
    | zero => left; rfl
    | succ f' =>
      obtain ⟨ns, ts2, h1, h2⟩ := checkSep_json_comma hs
      rw [objectSep, h1]
      simp only [Res.ok_bind, if_true]
      have := ih' f' true (k :: keys) ts2 rest h2 hn.2 (by
        intro x hx hm
        simp only [List.mem_cons] at hm
        rcases hm with rfl | hm
        · exact hn.1 hx
        · exact hk x (by simp [hx]) hm)
      rcases this with h3 | ⟨ns3, ts3, h3, h4⟩
      · left; rw [h3]; rfl
      · right; rw [h3]; exact ⟨_, _, rfl, h4⟩
  | @elem ts hg ih =>
    refine ⟨fun f toks rest h => ?_, fun f toks rest h => ?_⟩
    · exact parseArray_elems env f toks ts _ rest hg ih h
        (fun toks' hs f' => arrayLoop_close env f' toks' rest hs)
    · exact arrayLoop_elems env f toks ts _ rest hg ih h
        (fun toks' hs f' => arrayLoop_close env f' toks' rest hs)
  | @elemCons ts us hg hg' ih ih' =>
    refine ⟨fun f toks rest h => ?_, fun f toks rest h => ?_⟩
    · exact parseArray_elems env f toks ts (.comma :: us ++ .closeSquare :: rest) rest hg ih
        (by simpa using h) (fun toks' hs f' => ih'.2 f' toks' rest hs)
    · exact arrayLoop_elems env f toks ts (.comma :: us ++ .closeSquare :: rest) rest hg ih
        (by simpa using h) (fun toks' hs f' => ih'.2 f' toks' rest hs)

end DocParser
end Hocon
