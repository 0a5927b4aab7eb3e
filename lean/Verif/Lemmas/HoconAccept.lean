import Verif.Lemmas.HoconLex
import Verif.Props.DocParserProps
import Verif.Props.ConcatProps

/-!
# Acceptance of HOCON texts
-/

set_option autoImplicit false

namespace Hocon
namespace HoconAccept

open Spec ConfigParser DocParser HoconParse HoconLex
open Tokenizer (tokenLoop_ne_fuel)

theorem parseRoot_quiet (env : Env) (inc : Includer) (json : Bool) (q ns : List Node) (n : Nat) (hq : Quiet q) :
    parseRoot env inc json (q ++ ns) none n = parseRoot env inc json ns none n := by
  induction q with
  | nil => rfl
  | cons x q ih =>
    obtain ⟨t, h, _⟩ := hq x (.head _)
    rw [List.cons_append, parseRoot.eq_def]
    rcases h with rfl | rfl <;>
    · simp only [Node.isComplex, Bool.false_eq_true, if_false]
      exact ih (fun n hn => hq n (.tail _ hn))

theorem parseRoot_tail (env : Env) (inc : Includer) (json : Bool) (q : List Node) (v : Value) (n : Nat)
    (hq : Quiet q) : parseRoot env inc json q (some v) n = .ok (some v, n) := by
  induction q with
  | nil => rw [parseRoot]
  | cons x q ih =>
    have ih := ih (fun n hn => hq n (.tail _ hn))
    obtain ⟨t, h, _⟩ := hq x (.head _)
    rw [parseRoot.eq_def]
    rcases h with rfl | rfl
    · simp only [Node.isComplex, Bool.false_eq_true, if_false]
      split
      · rename_i h
        obtain rfl : v = _ := by simpa using h
        rfl
      · exact ih
    · simpa only [Node.isComplex, Bool.false_eq_true, if_false] using ih

/-- Tokens of a text, from `F`. -/
theorem tokenize_of {env : Env} {s : Str} {Q : List Tok → Prop} (h : F env s Q) :
    ∃ pre ts, Tokenizer.tokenize env true s = .ok (.start :: (pre ++ ts ++ [.end_])) ∧ Wts pre ∧ Q ts := by
  obtain ⟨ts, hq, hp⟩ := h 1
  obtain ⟨pre, hpre, ht⟩ := hp []
  refine ⟨pre, ts, ?_, hpre.wts, hq⟩
  rw [Tokenizer.tokenize]
  rcases ht (s.length + 1) with ht | ht
  · exact absurd ht (tokenLoop_ne_fuel (by simp))
  · rw [show Tokenizer.Saver.init = ⟨[], false⟩ from rfl, ht]
    simp

/-- A document that is one braced value. -/
theorem braced_accepted (env : Env) (inc : Includer) (v : Syn) (s : Str) (n : Nat) {pre vts post : List Tok}
    (htok : Tokenizer.tokenize env true s = .ok (.start :: (pre ++ (vts ++ post) ++ [.end_]))) (hpre : Wts pre)
    (hpost : Wts post) (hj : HTok env (.value v) vts)
    (hc : v.isConcat = false) (hh : vts.head? = some .openCurly ∨ vts.head? = some .openSquare) :
    parseText env inc .conf s n = runV env 0 none v n := by
  obtain ⟨_, _, hpv⟩ := htok_parses env hj
  obtain ⟨t0, ts', rfl, hst, hsv, hp⟩ := hpv hc
  have ht0 : t0 = .openCurly ∨ t0 = .openSquare := by simpa using hh
  have hdoc : ∃ q1 node q2, parseDocument env .conf s = .ok (q1 ++ [node] ++ q2) ∧ Quiet q1 ∧ Quiet q2 ∧
      node.isComplex = true ∧ Denotes env node v := by
    have hnf := C48_parse_terminates env .conf s
    have htok' : Tokenizer.tokenize env (decide (PathParser.Syntax.conf = .conf)) s = _ := htok
    rw [parseDocument, htok'] at hnf ⊢
    simp only [Res.ok_bind] at hnf ⊢
    obtain ⟨q1, hq1, hquiet1⟩ := nextCollect_stop pre t0 (ts' ++ (post ++ [.end_])) hpre hst
    obtain ⟨q2, hq2, hquiet2⟩ := nextCollect_stop post .end_ [] hpost rfl
    generalize hfl : fuelFor (.start :: (pre ++ (t0 :: ts' ++ post) ++ [.end_])) = fl
    have hparse : DocParser.parse env .conf (.start :: (pre ++ (t0 :: ts' ++ post) ++ [.end_]))
        = (DocParser.parseValue env .conf fl t0
            (ts' ++ (post ++ [.end_])) >>= fun r => parseEnd .conf false (q1 ++ [r.1]) r.2) := by
      rw [DocParser.parse, hfl]
      rw [show nextToken .conf (.start :: (pre ++ (t0 :: ts' ++ post) ++ [.end_]))
        = .ok (.start, pre ++ t0 :: (ts' ++ (post ++ [.end_]))) by simp [nextToken]]
      simp only [Res.ok_bind, hq1]
      rcases ht0 with rfl | rfl <;> rfl
    rw [hparse] at hnf ⊢
    rcases hp fl (post ++ [.end_]) with hf | ⟨node, hv, _, _, hcx, hd⟩
    · rw [hf] at hnf
      exact absurd rfl hnf
    · refine ⟨q1, node, q2, ?_, hquiet1, hquiet2, hcx ht0, hd⟩
      rw [hv]
      simp only [Res.ok_bind, parseEnd, hq2]
      rfl
  obtain ⟨q1, node, q2, hdoc, hquiet1, hquiet2, hcx, hd⟩ := hdoc
  rw [parseText, hdoc]
  simp only [Res.ok_bind]
  rw [List.append_assoc, parseRoot_quiet env inc _ q1 _ n hquiet1, List.singleton_append, parseRoot.eq_def]
  have hd' : ConfigParser.parseValue env inc (decide (PathParser.Syntax.conf = .json)) 0 none node n
      = runV env 0 none v n := hd inc 0 none n
  simp only [hcx, if_true, hd']
  cases hr : runV env 0 none v n with
  | ok x => simp only [Res.ok_bind, parseRoot_tail env inc _ q2 x.1 x.2 hquiet2, nonNull]
  | err e => rfl
  | ub => rfl
  | fuel => rfl

/-- A document without braces. -/
theorem open_accepted (env : Env) (inc : Includer) (as : List (Path × Bool × Syn)) (s : Str) (n : Nat) {pre : List Tok}
    {t : Tok} {ts : List Tok}
    (htok : Tokenizer.tokenize env true s = .ok (.start :: (pre ++ t :: ts))) (hpre : Wts pre)
    (hst : collectNode t = none) (hne : t ≠ .openCurly ∧ t ≠ .openSquare)
    (hl : ∀ f, TailO env (objectLoop env .conf f false false [] (t :: ts)) as [.end_]) :
    parseText env inc .conf s n = runV env 0 none (.obj as) n := by
  have hdoc : ∃ ns, parseDocument env .conf s = .ok [.object ns] ∧ DenotesF env ns as := by
    have hnf := C48_parse_terminates env .conf s
    have htok' : Tokenizer.tokenize env (decide (PathParser.Syntax.conf = .conf)) s = _ := htok
    rw [parseDocument, htok'] at hnf ⊢
    simp only [Res.ok_bind] at hnf ⊢
    obtain ⟨q1, hq1, hquiet1⟩ := nextCollect_stop pre t ts hpre hst
    generalize hfl : fuelFor (.start :: (pre ++ t :: ts)) = fl
    have hparse : DocParser.parse env .conf (.start :: (pre ++ t :: ts))
        = (objectLoop env .conf fl false false [] (t :: ts) >>= fun r => parseEnd .conf true (q1 ++ r.1) r.2) := by
      rw [DocParser.parse, hfl]
      rw [show nextToken .conf (.start :: (pre ++ t :: ts)) = .ok (.start, pre ++ t :: ts) by simp [nextToken]]
      simp only [Res.ok_bind, hq1]
      obtain ⟨h1, h2⟩ := hne
      revert h1 h2
      cases t <;> intro h1 h2 <;> first | rfl | exact absurd rfl h1 | exact absurd rfl h2
    rw [hparse] at hnf ⊢
    rcases hl fl with hf | ⟨ns, hv, hd⟩
    · rw [hf] at hnf
      exact absurd rfl hnf
    · refine ⟨q1 ++ ns, ?_, DenotesF.quiet hquiet1 hd⟩
      rw [hv]
      simp [parseEnd, nextCollect, nextToken, collectNode]
  obtain ⟨ns, hdoc, hd⟩ := hdoc
  rw [parseText, hdoc]
  simp only [Res.ok_bind]
  rw [parseRoot.eq_def]
  have hd' : ConfigParser.parseValue env inc (decide (PathParser.Syntax.conf = .json)) 0 none (.object ns) n
      = runV env 0 none (.obj as) n := denotes_object hd inc 0 none n
  simp only [Node.isComplex, if_true, hd']
  cases hr : runV env 0 none (.obj as) n with
  | ok x =>
    simp only [Res.ok_bind]
    rw [parseRoot]
    rfl
  | err e => rfl
  | ub => rfl
  | fuel => rfl

/-- The parsers read a document as what it is written as. -/
theorem sdoc_run (env : Env) (hx : HexOk env) (inc : Includer) (s : Syn) (t : Str) (n : Nat)
    (h : SDoc env (Numeral env) s t) : parseText env inc .conf t n = runV env 0 none s n := by
  cases h with
  | @list g t l as hg ht hl =>
    have hF := F.gap hg (LVal.toL (stext_lex hx ht) l _ (Delim.last hl) (A.last hl))
    rw [← List.append_assoc] at hF
    obtain ⟨pre, ts, htok, hpre, w, ts1, rfl, hw, _, vts, w2, ts2, rfl, hj, hw2, hpost⟩ := tokenize_of hF
    exact braced_accepted env inc _ _ n (pre := pre ++ w) (post := w2 ++ ts2) (by rw [htok]; simp)
      (hpre.append hw) (hw2.append hpost) hj rfl (by cases hj <;> simp)
  | @obj g t l as hg ht hl =>
    have hF := F.gap hg (LVal.toL (stext_lex hx ht) l _ (Delim.last hl) (A.last hl))
    rw [← List.append_assoc] at hF
    obtain ⟨pre, ts, htok, hpre, w, ts1, rfl, hw, _, vts, w2, ts2, rfl, hj, hw2, hpost⟩ := tokenize_of hF
    exact braced_accepted env inc _ _ n (pre := pre ++ w) (post := w2 ++ ts2) (by rw [htok]; simp)
      (hpre.append hw) (hw2.append hpost) hj rfl (by cases hj <;> simp)
  | empty hl =>
    obtain ⟨pre, ts, htok, hpre, hpost⟩ := tokenize_of (A.last (env := env) hl).toF
    exact open_accepted env inc [] t n (pre := pre ++ ts) (t := .end_) (ts := []) (by rw [htok])
      (hpre.append hpost) rfl ⟨by simp, by simp⟩
      (fun f => tailO_loop_close env f false false [] [] [] Wts.nil)
  | @open_ g t l as hg ht hl =>
    have hF := F.gap hg (stext_lex hx ht l _ (Delim.last hl) (A.last hl))
    rw [← List.append_assoc] at hF
    obtain ⟨pre, ts, htok, hpre, w, ts1, rfl, hw, _, vts, w2, ts2, rfl, hj, hw2, hpost⟩ := tokenize_of hF
    obtain ⟨⟨u, us, rfl, hu, hsc⟩, hM⟩ := htok_parses env hj
    refine open_accepted env inc as _ n (pre := pre ++ w) (t := u) (ts := us ++ (w2 ++ ts2) ++ [.end_])
      (by rw [htok]; simp) (hpre.append hw) hu ⟨?_, ?_⟩ (fun f => ?_)
    · rintro rfl; simp [scalarOf] at hsc
    · rintro rfl; simp [scalarOf] at hsc
    · have := hM f false false [] [] (w2 ++ ts2) .end_ [] [] [.end_] Wts.nil (hw2.append hpost) (Or.inl trivial)
        (fun f keys w' hw' _ => tailO_sep_close env f false keys w' [] hw')
      simpa using this
  | @openComma g t g1 l as hg ht hg1 hl =>
    have hA := A.gap hg1 (A.punct (c := ',') (t := .comma) rfl (A.last (env := env) hl).toF)
    have hF := F.gap hg (stext_lex hx ht _ _ (Delim.gap hg1 (Delim.punct _ (by simp))) hA)
    rw [← List.append_assoc, ← List.append_assoc] at hF
    obtain ⟨pre, ts, htok, hpre, w, ts1, rfl, hw, _, vts, w2, ts2, rfl, hj, hw2, w3, ts3, rfl, hw3, _, w4, ts4, rfl, hw4,
      hpost⟩ := tokenize_of hF
    obtain ⟨⟨u, us, rfl, hu, hsc⟩, hM⟩ := htok_parses env hj
    refine open_accepted env inc as _ n (pre := pre ++ w) (t := u)
      (ts := us ++ (w2 ++ w3) ++ .comma :: (w4 ++ ts4) ++ [.end_])
      (by rw [htok]; simp) (hpre.append hw) hu ⟨?_, ?_⟩ (fun f => ?_)
    · rintro rfl; simp [scalarOf] at hsc
    · rintro rfl; simp [scalarOf] at hsc
    · have := hM f false false [] [] (w2 ++ w3) .comma (w4 ++ ts4 ++ [.end_]) [] [.end_] Wts.nil (hw2.append hw3)
        (Or.inl trivial) (fun f keys w' hw' _ => tailO_sep_comma hw' (fun f =>
          tailO_loop_close env f false true keys (w4 ++ ts4) [] (hw4.wts.append hpost)))
      simpa using this

/-! ### Texts without substitutions -/

/-- Assignments of plain values, and what they are written as. -/
def Fits (env : Env) (as : List (Path × Value)) (ms : List (Path × Bool × Syn)) : Prop :=
  List.Forall₂ (fun a m => m.1 = a.1 ∧ m.2.1 = false ∧ (∀ arr outer n, runV env arr outer m.2.2 n = .ok (a.2, n)) ∧
    a.1 ≠ [] ∧ a.2.Plain) as ms

/-- How a text without substitutions is written. -/
def Emb (env : Env) : HPart → Str → Prop
  | .value v, t => ∃ s, SText env (Numeral env) (.value s) t ∧
      (∀ arr outer n, runV env arr outer s n = .ok (v, n)) ∧ v.Plain ∧
      ((t.head? = some '{' → ∃ ms, s = .obj ms) ∧ (t.head? = some '[' → ∃ vs, s = .list vs))
  | .elems vs, t => ∃ ss, SText env (Numeral env) (.elems ss) t ∧
      (∀ arr outer n, runL env arr outer ss n = .ok (vs, n)) ∧ ∀ v ∈ vs, v.Plain
  | .member p v, t => ∃ m, SText env (Numeral env) (.member m) t ∧ Fits env [(p, v)] [m]
  | .members as, t => ∃ ms, SText env (Numeral env) (.members ms) t ∧ Fits env as ms

theorem fits_plain {env : Env} {as : List (Path × Value)} {ms : List (Path × Bool × Syn)} (h : Fits env as ms) :
    ∀ a ∈ as, a.1 ≠ [] ∧ a.2.Plain := by
  induction h with
  | nil => simp
  | cons h _ ih =>
    intro a ha
    rcases List.mem_cons.1 ha with rfl | ha
    · exact h.2.2.2
    · exact ih a ha

theorem fits_run {env : Env} {as : List (Path × Value)} {ms : List (Path × Bool × Syn)} (h : Fits env as ms)
    (arr : Nat) (outer : Option Path) (fs : Fields) (n : Nat) (hf : Value.PlainF fs) :
    runM env arr outer ms fs n = .ok (as.foldl assign fs, n) := by
  induction h generalizing fs with
  | nil => rfl
  | @cons a m as ms h _ ih =>
    obtain ⟨p, b, s⟩ := m
    obtain ⟨p', v⟩ := a
    obtain ⟨rfl, rfl, h3, h4, h5⟩ := h
    obtain ⟨k1, k2⟩ := putField_assign hf h5 h4
    simp only at h3 k1 k2
    rw [runM, h3]
    simp only [Res.ok_bind, k1]
    exact ih _ k2

theorem fits_obj {env : Env} {as : List (Path × Value)} {ms : List (Path × Bool × Syn)} (h : Fits env as ms)
    (arr : Nat) (outer : Option Path) (n : Nat) :
    runV env arr outer (.obj ms) n = .ok (assigned as, n) := by
  rw [runV, fits_run h arr outer [] n plainF_nil]
  simp only [Res.ok_bind, Value.newObj, assigned]
  have := (Value.plain_obj.1 (assigned_plain as (fits_plain h))).2
  rw [Value.resolvedFields_iff.2 fun f hf => (this.2 f hf).res]

theorem hwords_emb {env : Env} (hx : HexOk env) {y u : Str} (h : HWords env (Numeral env) y u) :
    ∃ ss : List Scalar, ss ≠ [] ∧ SText env (Numeral env) (.pieces (ss.map .scalar)) u ∧
      (∀ s ∈ ss, s.transformToString env ≠ []) ∧ (ss.map fun s => s.transformToString env).flatten = y := by
  induction h with
  | @one s x t ha hn =>
    have he := (atom_pull hx ha).1
    exact ⟨[s], by simp, .piece (.atom ha) rfl, by simpa [he] using hn, by simpa using he⟩
  | @cons s x t w y u ha hn hw hb _ ih =>
    obtain ⟨ss, h1, h2, h3, h4⟩ := ih
    have he := (atom_pull hx ha).1
    cases ss with
    | nil => exact absurd rfl h1
    | cons s1 ss =>
      refine ⟨s :: .str w false :: s1 :: ss, by simp, .blank (.atom ha) rfl hw hb h2 rfl, ?_, ?_⟩
      · intro s' hs'
        rcases List.mem_cons.1 hs' with rfl | hs'
        · rw [he]; exact hn
        · rcases List.mem_cons.1 hs' with rfl | hs'
          · exact hw
          · exact h3 s' hs'
      · rw [List.map_cons, List.map_cons, List.flatten_cons, List.flatten_cons, h4, he, ← List.append_assoc]
        rfl

theorem runL_scalars (env : Env) (arr : Nat) (outer : Option Path) (ss : List Scalar) (n : Nat) :
    runL env arr outer (ss.map .scalar) n = .ok (ss.map .scalar, n) := by
  induction ss with
  | nil => rfl
  | cons s ss ih => simp only [List.map_cons, runL, runV, ih, Res.ok_bind]

theorem htext_emb {env : Env} (hx : HexOk env) {k : HPart} {t : Str} (h : HText env (Numeral env) k t) : Emb env k t := by
  induction h with
  | @atom s x t ha =>
    refine ⟨.scalar s, .atom ha, fun _ _ _ => rfl, plain_scalar s, ?_⟩
    obtain ⟨_, c, b, rfl, _, _, hc, hc', _⟩ := atom_pull hx ha
    refine ⟨fun h => ?_, fun h => ?_⟩ <;> simp at h
    · exact absurd h hc
    · exact absurd h hc'
  | @words s x t w y u ha hn hw hb hws =>
    obtain ⟨ss, h1, h2, h3, h4⟩ := hwords_emb hx hws
    obtain ⟨he, c, b, rfl, _, _, hc, hc', _⟩ := atom_pull hx ha
    cases ss with
    | nil => exact absurd rfl h1
    | cons s1 ss =>
      have hcat := Value.C41_scalars_partial env (s :: .str w false :: s1 :: ss) (by simp) (by
        intro s' hs'
        rcases List.mem_cons.1 hs' with rfl | hs'
        · rw [he]; exact hn
        · rcases List.mem_cons.1 hs' with rfl | hs'
          · exact hw
          · exact h3 s' hs')
      have htxt : (List.map (fun s => Scalar.transformToString env s) (s :: .str w false :: s1 :: ss)).flatten
          = x ++ w ++ y := by
        rw [List.map_cons, List.map_cons, List.flatten_cons, List.flatten_cons, h4, he, ← List.append_assoc]
        rfl
      rw [htxt] at hcat
      refine ⟨.concat ((s :: .str w false :: s1 :: ss).map .scalar),
        .concat (.blank (.atom ha) rfl hw hb h2 rfl) (by simp), fun arr outer n => ?_, plain_scalar _,
        fun h => absurd (by simpa using h) hc, fun h => absurd (by simpa using h) hc'⟩
      rw [runV, runL_scalars]
      simp only [Res.ok_bind, hcat, nonNull]
  | emptyArr hg => exact ⟨.list [], .emptyArr hg, fun _ _ _ => rfl, plain_list (by simp), by simp⟩
  | arr hg _ he ih =>
    obtain ⟨ss, h1, h2, h3⟩ := ih
    exact ⟨.list ss, .arr hg h1 he, fun arr outer n => by rw [runV, h2]; rfl, plain_list h3, by simp⟩
  | emptyObj hg => exact ⟨.obj [], .emptyObj hg, fun _ _ _ => rfl, assigned_plain [] (by simp), by simp⟩
  | obj hg _ he ih =>
    obtain ⟨ms, h1, h2⟩ := ih
    exact ⟨.obj ms, .obj hg h1 he, fits_obj h2, assigned_plain _ (fits_plain h2), by simp⟩
  | elem _ ih =>
    obtain ⟨s, h1, h2, h3, _⟩ := ih
    exact ⟨[s], .elem h1, fun arr outer n => by simp only [runL, h2, Res.ok_bind], by simpa using h3⟩
  | elemCons _ hs _ ih ihs =>
    obtain ⟨s, h1, h2, h3, _⟩ := ih
    obtain ⟨ss, k1, k2, k3⟩ := ihs
    refine ⟨s :: ss, .elemCons h1 hs k1, fun arr outer n => by simp only [runL, h2, k2, Res.ok_bind], ?_⟩
    intro v hv
    rcases List.mem_cons.1 hv with rfl | hv
    · exact h3
    · exact k3 v hv
  | @field kt g1 g2 t c p v hk h1 hc h2 _ ih =>
    obtain ⟨s, k1, k2, k3, _⟩ := ih
    have hp : p ≠ [] := by have := hk.segs; cases this <;> simp
    exact ⟨(p, false, s), .field hk h1 hc h2 k1, .cons ⟨rfl, rfl, k2, hp, k3⟩ .nil⟩
  | @sect kt g t p v hk h1 _ ih =>
    obtain ⟨s, k1, k2, k3, k4, _⟩ := ih
    obtain ⟨ms, rfl⟩ := k4 rfl
    have hp : p ≠ [] := by have := hk.segs; cases this <;> simp
    exact ⟨(p, false, .obj ms), .sect hk h1 k1, .cons ⟨rfl, rfl, k2, hp, k3⟩ .nil⟩
  | last _ ih =>
    obtain ⟨m, h1, h2⟩ := ih
    exact ⟨[m], .last h1, h2⟩
  | memberCons _ hs _ ih ihs =>
    obtain ⟨m, h1, h2⟩ := ih
    obtain ⟨ms, k1, k2⟩ := ihs
    cases h2 with
    | cons h2 _ => exact ⟨m :: ms, .memberCons h1 hs k1, .cons h2 k2⟩

/-- The values written in a text without substitutions have none. -/
theorem htext_plain {env : Env} (hx : HexOk env) {as : List (Path × Value)} {t : Str}
    (h : HText env (Numeral env) (.members as) t) : ∀ a ∈ as, a.1 ≠ [] ∧ a.2.Plain := by
  obtain ⟨ms, _, h⟩ := htext_emb hx h
  exact fits_plain h

theorem hocon_accepted (env : Env) (hx : HexOk env) (inc : Includer) (v : Value) (t : Str) (n : Nat)
    (h : HDoc env (Numeral env) v t) : parseText env inc .conf t n = .ok (v, n) := by
  cases h with
  | @braces g t l v hg ht hh hl =>
    obtain ⟨s, k1, k2, k3, k4, k5⟩ := htext_emb hx ht
    rw [← k2 0 none n]
    rcases hh with hh | hh
    · obtain ⟨ms, rfl⟩ := k4 hh
      exact sdoc_run env hx inc _ _ n (.obj hg k1 hl)
    · obtain ⟨vs, rfl⟩ := k5 hh
      exact sdoc_run env hx inc _ _ n (.list hg k1 hl)
  | empty hl => exact (sdoc_run env hx inc _ _ n (.empty hl)).trans rfl
  | open_ hg ht hl =>
    obtain ⟨ms, k1, k2⟩ := htext_emb hx ht
    rw [sdoc_run env hx inc _ _ n (.open_ hg k1 hl), fits_obj k2]
  | openComma hg ht hg1 hl =>
    obtain ⟨ms, k1, k2⟩ := htext_emb hx ht
    rw [sdoc_run env hx inc _ _ n (.openComma hg k1 hg1 hl), fits_obj k2]

end HoconAccept
end Hocon
