import Verif.Props.DocParserProps
import Verif.Lemmas.JsonLex

/-!
# Acceptance of JSON texts
-/

set_option autoImplicit false

namespace Hocon
namespace JsonAccept

open Spec ConfigParser DocParser JsonParse
open PathParser (Syntax)

theorem parseRoot_quiet (env : Env) (inc : Includer) (json : Bool) (q ns : List Node) (n : Nat) (hq : Quiet q) :
    parseRoot env inc json (q ++ ns) none n = parseRoot env inc json ns none n := by
  induction q with
  | nil => rfl
  | cons x q ih =>
    obtain ⟨t, rfl, _⟩ := hq x (.head _)
    rw [List.cons_append, parseRoot.eq_def]
    simp only [Node.isComplex, Bool.false_eq_true, if_false]
    exact ih (fun n hn => hq n (.tail _ hn))

theorem parseRoot_tail (env : Env) (inc : Includer) (json : Bool) (q : List Node) (v : Value) (n : Nat)
    (hq : Quiet q) : parseRoot env inc json q (some v) n = .ok (some v, n) := by
  induction q with
  | nil => rw [parseRoot]
  | cons x q ih =>
    obtain ⟨t, rfl, _⟩ := hq x (.head _)
    rw [parseRoot.eq_def]
    simp only [Node.isComplex, Bool.false_eq_true, if_false]
    split
    · rename_i h
      obtain rfl : v = _ := by simpa using h
      rfl
    · exact ih (fun n hn => hq n (.tail _ hn))

/-- The nodes of a JSON text. -/
theorem json_nodes (env : Env) {N : Str → Scalar → Prop}
    (hN : JsonLex.NumLex env N) (hx : HexOk env) (fl : Syntax) (v : Value) (w1 t w2 : Str)
    (h1 : JWs w1) (h : JText env N (.value v) t) (h2 : JWs w2)
    (hroot : t.head? = some '{' ∨ t.head? = some '[') :
    ∃ q1 node q2, parseDocument env fl (w1 ++ t ++ w2) = .ok (q1 ++ [node] ++ q2) ∧ Bl q1 ∧ Bl q2 ∧
      node.isComplex = true ∧ Sh (JsonLex.JA env N) (JsonLex.JK env) (.value v) [node] := by
  obtain ⟨pre, vts, post, htok, hpre, hj, hpost, _, htx⟩ := JsonLex.tokenize_json hN hx (decide (fl = .conf)) h1 h h2
  obtain ⟨_, t0, ts', rfl, hst, hsv, hp⟩ := jtok_parses env hj
  have ht0 : t0 = .openCurly ∨ t0 = .openSquare := by
    have hns : ∀ s, v ≠ .scalar s := by
      rintro s rfl
      cases h with
      | null => simp at hroot
      | true_ => simp at hroot
      | false_ => simp at hroot
      | str => simp at hroot
      | num h =>
        obtain ⟨c, b, rfl, hc, _⟩ := hN _ _ h
        have hcr := hc.range
        simp at hroot
        rcases hroot with rfl | rfl
        · revert hcr; decide
        · revert hcr; decide
    cases hj with
    | @scalar s => exact absurd rfl (hns s)
    | emptyArr => exact Or.inr rfl
    | arr => exact Or.inr rfl
    | emptyObj => exact Or.inl rfl
    | obj => exact Or.inl rfl
  have hnf := C48_parse_terminates env fl (w1 ++ t ++ w2)
  rw [parseDocument, htok] at hnf ⊢
  simp only [Res.ok_bind] at hnf ⊢
  obtain ⟨q1, hq1, hquiet1⟩ := nextCollect_stop fl pre t0 (ts' ++ (post ++ [.end_])) hpre hst
  obtain ⟨q2, hq2, hquiet2⟩ := nextCollect_stop fl post .end_ [] hpost trivial
  have hparse : DocParser.parse env fl (.start :: (pre ++ t0 :: ts' ++ post ++ [.end_]))
      = (DocParser.parseValue env fl (fuelFor (.start :: (pre ++ t0 :: ts' ++ post ++ [.end_]))) t0
          (ts' ++ (post ++ [.end_])) >>= fun r => parseEnd fl false (q1 ++ [r.1]) r.2) := by
    rw [DocParser.parse]
    rw [show nextToken fl (.start :: (pre ++ t0 :: ts' ++ post ++ [.end_]))
      = .ok (.start, pre ++ t0 :: (ts' ++ (post ++ [.end_]))) by cases fl <;> simp [nextToken]]
    simp only [Res.ok_bind, hq1]
    rcases ht0 with rfl | rfl <;> rfl
  rw [hparse] at hnf ⊢
  rcases hp fl (fuelFor (.start :: (pre ++ t0 :: ts' ++ post ++ [.end_]))) (post ++ [.end_]) with hf | ⟨node, hv, _, _, hcx, hd⟩
  · rw [hf] at hnf
    exact absurd rfl hnf
  · refine ⟨q1, node, q2, ?_, hquiet1, hquiet2, hcx ?_, hd⟩
    · rw [hv]
      simp only [Res.ok_bind, parseEnd, hq2]
      rfl
    · rcases ht0 with rfl | rfl
      · exact Or.inl rfl
      · exact Or.inr rfl

theorem json_accepted (env : Env) {N : Str → Scalar → Prop}
    (hN : JsonLex.NumLex env N) (hx : HexOk env) (inc : Includer) (fl : Syntax) (v : Value) (w1 t w2 : Str)
    (n : Nat) (h1 : JWs w1) (h : JText env N (.value v) t) (h2 : JWs w2)
    (hroot : t.head? = some '{' ∨ t.head? = some '[') :
    parseText env inc fl (w1 ++ t ++ w2) n = .ok (v, n) := by
  obtain ⟨q1, node, q2, hdoc, hquiet1, hquiet2, hcx, hs⟩ := json_nodes env hN hx fl v w1 t w2 h1 h h2 hroot
  have hd := (hs.den env).2 _ rfl
  rw [parseText, hdoc]
  simp only [Res.ok_bind]
  rw [List.append_assoc, parseRoot_quiet env inc _ q1 _ n hquiet1.quiet, List.singleton_append, parseRoot.eq_def]
  simp only [hcx, if_true, hd inc _ 0 none n, Res.ok_bind, parseRoot_tail env inc _ q2 v n hquiet2.quiet, nonNull]

end JsonAccept
end Hocon
