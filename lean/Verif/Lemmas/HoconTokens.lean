import Verif.Lemmas.HoconParse

/-!
# The token grammar of HOCON documents
-/

set_option autoImplicit false

namespace Hocon
namespace HoconParse

open Spec DocParser

/-- The scalar a token stands for. -/
def scalarOf : Tok → Option Scalar
  | .value v _ _ => some v
  | .unquoted s _ => some (.str s false)
  | _ => none

/-- The tokens of a key. -/
structure KeyToks (env : Env) (p : Path) (kts : List Tok) : Prop where
  all : ∀ t ∈ kts, (scalarOf t).isSome = true
  head : ∃ t ts, kts = t :: ts ∧ collectNode t = none ∧ isIncludeKeyword t = false
  path : ∃ pt, PathParser.parsePathNodeExpression env .conf false kts = .ok (p, pt)
  ne : p ≠ []

/-- The tokens between two elements. -/
inductive SepT : List Tok → Prop
  | newline {w : List Tok} : Wts w → HasNl w → SepT w
  | comma {w w' : List Tok} : Wts w → Wts w' → SepT (w ++ .comma :: w')

/-- The tokens after the last element. -/
inductive EndT : List Tok → Prop
  | gap {w : List Tok} : Wts w → EndT w
  | comma {w w' : List Tok} : Wts w → Wts w' → EndT (w ++ .comma :: w')

/-- Only whitespace tokens. -/
def Ws (w : List Tok) : Prop := ∀ t ∈ w, ∃ a b, t = .ws a b

theorem Ws.nil : Ws [] := fun _ h => by cases h

theorem Ws.wts {w : List Tok} (h : Ws w) : Wts w := by
  intro t ht
  obtain ⟨a, b, rfl⟩ := h t ht
  trivial

/-- Token sequences with what they denote. -/
inductive HTok (env : Env) : SPart → List Tok → Prop
  | scalar {t : Tok} {s : Scalar} : scalarOf t = some s → collectNode t = none →
      HTok env (.value (.scalar s)) [t]
  | subst {opt : Bool} {expr : List Tok} {l : Int} {p : Path} : PathParser.parsePathExpression env true expr = .ok p →
      HTok env (.value (.ref p opt)) [.subst opt expr l]
  | concat {ts : List Tok} {ps : List Syn} : HTok env (.pieces ps) ts → 2 ≤ ps.length →
      HTok env (.value (.concat ps)) ts
  | emptyArr {w : List Tok} : Wts w → HTok env (.value (.list [])) (.openSquare :: w ++ [.closeSquare])
  | arr {w ts e : List Tok} {vs : List Syn} : Wts w → HTok env (.elems vs) ts → EndT e →
      HTok env (.value (.list vs)) (.openSquare :: w ++ ts ++ e ++ [.closeSquare])
  | emptyObj {w : List Tok} : Wts w → HTok env (.value (.obj [])) (.openCurly :: w ++ [.closeCurly])
  | obj {w ts e : List Tok} {ms : List (Path × Bool × Syn)} : Wts w → HTok env (.members ms) ts → EndT e →
      HTok env (.value (.obj ms)) (.openCurly :: w ++ ts ++ e ++ [.closeCurly])
  | elem {ts : List Tok} {v : Syn} : HTok env (.value v) ts → HTok env (.elems [v]) ts
  | elemCons {ts sp us : List Tok} {v : Syn} {vs : List Syn} : HTok env (.value v) ts → SepT sp →
      HTok env (.elems vs) us → HTok env (.elems (v :: vs)) (ts ++ sp ++ us)
  | field {kts w1 w2 ts : List Tok} {c : Tok} {p : Path} {v : Syn} : KeyToks env p kts → Wts w1 →
      (c = .colon ∨ c = .equals) → Wts w2 → HTok env (.value v) ts →
      HTok env (.member (p, false, v)) (kts ++ w1 ++ c :: w2 ++ ts)
  | plus {kts w1 w2 ts : List Tok} {p : Path} {v : Syn} : KeyToks env p kts → Wts w1 →
      Wts w2 → HTok env (.value v) ts →
      HTok env (.member (p, true, v)) (kts ++ w1 ++ .plusEquals :: w2 ++ ts)
  | sect {kts w ts : List Tok} {p : Path} {v : Syn} : KeyToks env p kts → Wts w → v.isConcat = false →
      HTok env (.value v) (.openCurly :: ts) → HTok env (.member (p, false, v)) (kts ++ w ++ .openCurly :: ts)
  | last {ts : List Tok} {m : Path × Bool × Syn} : HTok env (.member m) ts → HTok env (.members [m]) ts
  | memberCons {ts sp us : List Tok} {m : Path × Bool × Syn} {ms : List (Path × Bool × Syn)} :
      HTok env (.member m) ts → SepT sp → HTok env (.members ms) us →
      HTok env (.members (m :: ms)) (ts ++ sp ++ us)
  | piece {ts : List Tok} {s : Syn} : HTok env (.value s) ts → s.isConcat = false → HTok env (.pieces [s]) ts
  | pieceCons {ts w us : List Tok} {s : Syn} {ps : List Syn} : HTok env (.value s) ts → s.isConcat = false → Ws w →
      HTok env (.pieces ps) us → HTok env (.pieces (s :: ps)) (ts ++ w ++ us)
  | pieceBlank {ts us : List Tok} {s : Syn} {ps : List Syn} {x : Str} {l : Int} : HTok env (.value s) ts →
      s.isConcat = false → HTok env (.pieces ps) us →
      HTok env (.pieces (s :: .scalar (.str x false) :: ps)) (ts ++ .unquoted x l :: us)

/-- Tokens that end a value. -/
def Sep : Tok → Prop
  | .closeCurly => True
  | .closeSquare => True
  | .comma => True
  | .end_ => True
  | _ => False

theorem Sep.stop {t : Tok} (h : Sep t) : collectNode t = none := by
  cases t <;> simp_all [Sep, collectNode]

/-- What ends a value: such a token or a newline. -/
def After (w : List Tok) (s : Tok) : Prop := Sep s ∨ HasNl w

/-- A token sequence read by `parse_value`. -/
def PV (env : Env) (v : Syn) (ts : List Tok) : Prop :=
  ∃ t ts', ts = t :: ts' ∧ collectNode t = none ∧ startsValue t = true ∧
    ∀ f rest, parseValue env .conf f t (ts' ++ rest) = .fuel ∨
      ∃ node, parseValue env .conf f t (ts' ++ rest) = .ok (node, rest) ∧ node.isValue = true ∧
        node.singleToken? = none ∧
        (t = .openCurly ∨ t = .openSquare → node.isComplex = true) ∧ Denotes env node v

/-- A token sequence read by `consolidate_values`. -/
def CV (env : Env) (v : Syn) (ts : List Tok) : Prop :=
  ∀ f w1 w2 s rest, Wts w1 → Wts w2 → After w2 s →
    consolidate env .conf f (w1 ++ ts ++ w2 ++ s :: rest) = .fuel ∨
    ∃ ns node w2', consolidate env .conf f (w1 ++ ts ++ w2 ++ s :: rest) = .ok (ns, some node, w2' ++ s :: rest) ∧
      Quiet ns ∧ node.isValue = true ∧ node.singleToken? = none ∧ Denotes env node v ∧ Wts w2' ∧
      (HasNl w2 → HasNl w2')

theorem cons_of (w : List Tok) (s : Tok) (rest : List Tok) : ∃ t' toks', w ++ s :: rest = t' :: toks' := by
  cases w with
  | nil => exact ⟨_, _, rfl⟩
  | cons a b => exact ⟨_, _, rfl⟩

/-- After a value the loop collects whitespace and stops. -/
theorem consLoop_ws (env : Env) (f : Nat) (w : List Tok) (s : Tok) (rest : List Tok) (hw : Wts w) (hs : After w s)
    (t : Tok) (toks : List Tok) (he : t :: toks = w ++ s :: rest) :
    consLoop env .conf f t toks = .fuel ∨
    ∃ wa wb tE rE, w = wa ++ wb ∧ Ws wa ∧
      consLoop env .conf f t toks = .ok (wa.map .single, tE, rE) ∧ tE :: rE = wb ++ s :: rest := by
  induction f generalizing w t toks with
  | zero => left; rw [consLoop]
  | succ f ih =>
    cases w with
    | nil =>
      simp at he
      obtain ⟨rfl, rfl⟩ := he
      right
      refine ⟨[], [], t, toks, rfl, Ws.nil, ?_, rfl⟩
      rcases hs with hs | ⟨l, hl⟩
      · cases t <;> simp [Sep] at hs <;> simp [consLoop, startsValue]
      · simp at hl
    | cons x w =>
      simp at he
      obtain ⟨rfl, rfl⟩ := he
      have hx := hw.cons.1
      cases t <;> simp [Wt] at hx
      · rename_i l
        right
        refine ⟨[], .newline l :: w, .newline l, w ++ s :: rest, rfl, Ws.nil, ?_, rfl⟩
        simp [consLoop, startsValue]
      · rename_i tx l
        rw [consLoop]
        obtain ⟨t', toks', he'⟩ := cons_of w s rest
        rw [he']
        simp only [nextToken, Res.ok_bind]
        have hs' : After w s := by
          rcases hs with hs | ⟨l, hl⟩
          · exact Or.inl hs
          · exact Or.inr ⟨l, by simpa using hl⟩
        rcases ih w hw.cons.2 hs' t' toks' he'.symm with h | ⟨wa, wb, tE, rE, h1, h2, h3, h4⟩
        · left; rw [h]; rfl
        · right
          refine ⟨.ws tx l :: wa, wb, tE, rE, by rw [h1]; rfl, ?_, ?_, h4⟩
          · intro x hx
            rcases List.mem_cons.1 hx with rfl | hx
            · exact ⟨_, _, rfl⟩
            · exact h2 x hx
          · rw [h3]; rfl
      · rename_i d tx l
        right
        refine ⟨[], .comment d tx l :: w, .comment d tx l, w ++ s :: rest, rfl, Ws.nil, ?_, rfl⟩
        simp [consLoop, startsValue]

theorem putBack_ws (wa toks : List Tok) : putBackFrom (wa.map .single) toks = wa.reverse ++ toks := by
  induction wa generalizing toks with
  | nil => rfl
  | cons t wa ih =>
    rw [List.map_cons, putBackFrom, ih]
    simp [Node.tokens]

theorem countP_ws (wa : List Tok) : (wa.map Node.single).countP Node.isValue = 0 := by
  induction wa with
  | nil => rfl
  | cons t wa ih => simp [Node.isValue, ih]

theorem ws_split {w wa wb : List Tok} (hw : Wts w) (h : w = wa ++ wb) (ha : Ws wa) :
    Wts (wa.reverse ++ wb) ∧ (HasNl w → HasNl (wa.reverse ++ wb)) := by
  subst h
  constructor
  · intro t ht
    apply hw
    simpa using ht
  · rintro ⟨l, hl⟩
    exact ⟨l, by simpa using hl⟩

theorem consLoop_value (env : Env) (f : Nat) (t : Tok) (toks : List Tok) (h : startsValue t = true) :
    consLoop env .conf (f + 1) t toks =
      (parseValue env .conf f t toks >>= fun r => nextToken .conf r.2 >>= fun r1 =>
        consLoop env .conf f r1.1 r1.2 >>= fun r2 => .ok (r.1 :: r2.1, r2.2.1, r2.2.2)) := by
  cases t <;> simp [startsValue] at h <;> simp [consLoop, startsValue]

/-- One value between gaps. -/
theorem PV.cv {env : Env} {v : Syn} {ts : List Tok} (hv : PV env v ts) : CV env v ts := by
  intro f w1 w2 s rest h1 h2 hs
  cases f with
  | zero => left; rw [consolidate]
  | succ f =>
    obtain ⟨t, ts', rfl, hst, hsv, hp⟩ := hv
    rw [consolidate]
    obtain ⟨ns, hc, hq⟩ := nextCollect_stop w1 t (ts' ++ (w2 ++ s :: rest)) h1 hst
    have e : w1 ++ t :: ts' ++ w2 ++ s :: rest = w1 ++ t :: (ts' ++ (w2 ++ s :: rest)) := by simp
    rw [e, hc]
    simp only [Res.ok_bind]
    cases f with
    | zero => left; rw [consLoop]; rfl
    | succ f =>
      rw [consLoop_value env f t _ hsv]
      rcases hp f (w2 ++ s :: rest) with h | ⟨node, hpv, hval, hnt, _, hd⟩
      · left; rw [h]; rfl
      · rw [hpv]
        simp only [Res.ok_bind]
        obtain ⟨t', toks', he'⟩ := cons_of w2 s rest
        rw [he']
        simp only [nextToken, Res.ok_bind]
        rcases consLoop_ws env f w2 s rest h2 hs t' toks' he'.symm with h | ⟨wa, wb, tE, rE, g1, g2, g3, g4⟩
        · left; rw [h]; rfl
        · right
          rw [g3]
          simp only [Res.ok_bind]
          obtain ⟨k1, k2⟩ := ws_split h2 g1 g2
          refine ⟨ns, node, wa.reverse ++ wb, ?_, hq, hval, hnt, hd, k1, k2⟩
          have : consFinish (node :: wa.map .single) tE rE = ([], some node, wa.reverse ++ (tE :: rE)) := by
            rw [consFinish]
            simp only [List.countP_cons, countP_ws, hval]
            simp [splitSingle, hval, putBack_ws]
          rw [this, g4]
          simp

/-! ### Several pieces -/

theorem startsValue_scalar {t : Tok} (h : (scalarOf t).isSome = true) : startsValue t = true := by
  cases t <;> simp_all [scalarOf, startsValue]

theorem parseValue_scalar (env : Env) (f : Nat) {t : Tok} (toks : List Tok) (h : (scalarOf t).isSome = true) :
    parseValue env .conf (f + 1) t toks = .ok (.simple t, toks) := by
  cases t <;> simp [scalarOf] at h <;> rw [parseValue]

/-- What is shown for the loop of `consolidate_values`. -/
def Loop (env : Env) (f : Nat) (t : Tok) (toks : List Tok) (ps : List Syn) (w : List Tok) (s : Tok) (rest : List Tok) :
    Prop :=
  consLoop env .conf f t toks = .fuel ∨
    ∃ ns n wa wb tE rE, w = wa ++ wb ∧ Ws wa ∧
      consLoop env .conf f t toks = .ok (ns ++ n :: wa.map .single, tE, rE) ∧ tE :: rE = wb ++ s :: rest ∧
      DenotesL env (ns ++ [n]) ps ∧ (ns ++ [n]).countP Node.isValue = ps.length ∧ n.singleToken? = none

/-- Pieces read by the loop. -/
def LV (env : Env) (ps : List Syn) (ts : List Tok) : Prop :=
  ∃ t ts', ts = t :: ts' ∧ collectNode t = none ∧ t ≠ .comma ∧
    ∀ f w s rest, Wts w → After w s → Loop env f t (ts' ++ (w ++ s :: rest)) ps w s rest

theorem PV.lv {env : Env} {v : Syn} {ts : List Tok} (hv : PV env v ts) : LV env [v] ts := by
  obtain ⟨t, ts', rfl, hst, hsv, hp⟩ := hv
  refine ⟨t, ts', rfl, hst, by rintro rfl; simp [startsValue] at hsv, ?_⟩
  intro f w s rest hw hs
  cases f with
  | zero => left; rw [consLoop]
  | succ f =>
    rw [Loop, consLoop_value env f t _ hsv]
    rcases hp f (w ++ s :: rest) with h | ⟨node, hpv, hval, hnt, _, hd⟩
    · left; rw [h]; rfl
    · rw [hpv]
      simp only [Res.ok_bind]
      obtain ⟨t', toks', he'⟩ := cons_of w s rest
      rw [he']
      simp only [nextToken, Res.ok_bind]
      rcases consLoop_ws env f w s rest hw hs t' toks' he'.symm with h | ⟨wa, wb, tE, rE, g1, g2, g3, g4⟩
      · left; rw [h]; rfl
      · right
        rw [g3]
        exact ⟨[], node, wa, wb, tE, rE, g1, g2, rfl, g4, DenotesL.cons hval hd (DenotesL.nil env), by simp [hval], hnt⟩

/-- Whitespace before more pieces. -/
theorem loop_ws {env : Env} {ps : List Syn} {w0 : List Tok} (h0 : Ws w0) {u : Tok} {us w : List Tok} {s : Tok}
    {rest : List Tok} (h : ∀ f, Loop env f u us ps w s rest) (f : Nat) {t : Tok} {toks : List Tok}
    (he : t :: toks = w0 ++ u :: us) : Loop env f t toks ps w s rest := by
  induction w0 generalizing f t toks with
  | nil =>
    simp at he
    obtain ⟨rfl, rfl⟩ := he
    exact h f
  | cons x w0 ih =>
    simp at he
    obtain ⟨rfl, rfl⟩ := he
    cases f with
    | zero => left; rw [consLoop]
    | succ f =>
      obtain ⟨a, b, rfl⟩ := h0 t (.head _)
      rw [Loop, consLoop]
      obtain ⟨t', toks', he'⟩ := cons_of w0 u us
      rw [he']
      simp only [nextToken, Res.ok_bind]
      rcases ih (fun x hx => h0 x (.tail _ hx)) f he'.symm with h | ⟨ns, n, wa, wb, tE, rE, g1, g2, g3, g4, g5, g6, g7⟩
      · left; rw [h]; rfl
      · right
        rw [g3]
        refine ⟨.single (.ws a b) :: ns, n, wa, wb, tE, rE, g1, g2, rfl, g4, ?_, ?_, g7⟩
        · exact DenotesL.quiet (q := [.single (.ws a b)]) (Quiet.one _ (by simp)) g5
        · rw [← g6]; simp [Node.isValue]

theorem loop_value {env : Env} {v : Syn} {ts : List Tok} (hv : PV env v ts) {ps : List Syn} {us w : List Tok}
    {s : Tok} {rest : List Tok}
    (h : ∀ f t toks, t :: toks = us → Loop env f t toks ps w s rest) (hne : us ≠ []) (f : Nat) {t : Tok} {toks : List Tok}
    (he : t :: toks = ts ++ us) : Loop env f t toks (v :: ps) w s rest := by
  obtain ⟨t1, ts', rfl, hst, hsv, hp⟩ := hv
  simp at he
  obtain ⟨rfl, rfl⟩ := he
  cases f with
  | zero => left; rw [consLoop]
  | succ f =>
    rw [Loop, consLoop_value env f t _ hsv]
    rcases hp f us with h1 | ⟨node, hpv, hval, hnt, _, hd⟩
    · left; rw [h1]; rfl
    · rw [hpv]
      simp only [Res.ok_bind]
      cases us with
      | nil => exact absurd rfl hne
      | cons u us =>
        simp only [nextToken, Res.ok_bind]
        rcases h f u us rfl with h1 | ⟨ns, n, wa, wb, tE, rE, g1, g2, g3, g4, g5, g6, g7⟩
        · left; rw [h1]; rfl
        · right
          rw [g3]
          refine ⟨node :: ns, n, wa, wb, tE, rE, g1, g2, rfl, g4, DenotesL.cons hval hd g5, ?_, g7⟩
          rw [List.cons_append, List.countP_cons, g6, hval]; rfl

theorem LV.cons {env : Env} {v : Syn} {ts w0 us : List Tok} {ps : List Syn} (hv : PV env v ts) (h0 : Ws w0)
    (h : LV env ps us) : LV env (v :: ps) (ts ++ w0 ++ us) := by
  obtain ⟨u, us', rfl, hu1, hu2, h⟩ := h
  obtain ⟨t, ts', rfl, hst, hsv, hp⟩ := id hv
  refine ⟨t, ts' ++ w0 ++ u :: us', by simp, hst, by rintro rfl; simp [startsValue] at hsv, ?_⟩
  intro f w s rest hw hs
  refine loop_value hv (us := w0 ++ u :: (us' ++ (w ++ s :: rest))) ?_ (by simp) f (by simp)
  intro f t toks he
  exact loop_ws h0 (fun f => h f w s rest hw hs) f he

theorem denotes_simple (env : Env) {t : Tok} {s : Scalar} (h1 : scalarOf t = some s) :
    Denotes env (.simple t) (.scalar s) := by
  intro inc arr outer n
  rw [ConfigParser.parseValue, runV]
  cases t <;> simp [scalarOf] at h1 <;> subst h1 <;> rfl

theorem LV.blank {env : Env} {v : Syn} {ts us : List Tok} {ps : List Syn} {x : Str} {l : Int} (hv : PV env v ts)
    (h : LV env ps us) : LV env (v :: .scalar (.str x false) :: ps) (ts ++ .unquoted x l :: us) := by
  obtain ⟨u, us', rfl, hu1, hu2, h⟩ := h
  obtain ⟨t, ts', rfl, hst, hsv, hp⟩ := id hv
  refine ⟨t, ts' ++ .unquoted x l :: u :: us', by simp, hst, by rintro rfl; simp [startsValue] at hsv, ?_⟩
  intro f w s rest hw hs
  refine loop_value hv (us := .unquoted x l :: u :: (us' ++ (w ++ s :: rest))) ?_ (by simp) f (by simp)
  intro f t toks he
  cases he
  cases f with
  | zero => left; rw [consLoop]
  | succ f =>
    rw [Loop, consLoop_value env f _ _ rfl]
    cases f with
    | zero => left; rw [parseValue]; rfl
    | succ f =>
      rw [parseValue_scalar env f _ rfl]
      simp only [Res.ok_bind, nextToken]
      rcases h (f + 1) w s rest hw hs with h | ⟨ns, n, wa, wb, tE, rE, g1, g2, g3, g4, g5, g6, g7⟩
      · left; rw [h]; rfl
      · right
        rw [g3]
        refine ⟨.simple (.unquoted x l) :: ns, n, wa, wb, tE, rE, g1, g2, rfl, g4,
          DenotesL.cons rfl (denotes_simple env rfl) g5, ?_, g7⟩
        rw [List.cons_append, List.countP_cons, g6]; rfl

theorem dropTrailing_rev (wr : List Tok) (n : Node) (ns : List Node) (toks : List Tok) (hn : n.singleToken? = none) :
    dropTrailing (wr.map Node.single ++ n :: ns) toks = (n :: ns, wr.reverse ++ toks) := by
  induction wr generalizing toks with
  | nil => simp [dropTrailing, hn]
  | cons t wr ih =>
    rw [List.map_cons, List.cons_append, dropTrailing]
    simp only [Node.singleToken?]
    rw [ih]
    simp

theorem dropTrailing_ws (wa : List Tok) (n : Node) (ns : List Node) (toks : List Tok) (hn : n.singleToken? = none) :
    dropTrailing ((wa.map Node.single).reverse ++ n :: ns) toks = (n :: ns, wa ++ toks) := by
  rw [← List.map_reverse, dropTrailing_rev _ n ns toks hn, List.reverse_reverse]

/-- Several pieces between gaps. -/
theorem LV.cv {env : Env} {ps : List Syn} {ts : List Tok} (h : LV env ps ts) (hl : 2 ≤ ps.length) :
    CV env (.concat ps) ts := by
  obtain ⟨t, ts', rfl, hst, _, h⟩ := h
  intro f w1 w2 s rest h1 h2 hs
  cases f with
  | zero => left; rw [consolidate]
  | succ f =>
    rw [consolidate]
    obtain ⟨ns0, hc, hq⟩ := nextCollect_stop w1 t (ts' ++ (w2 ++ s :: rest)) h1 hst
    rw [show w1 ++ t :: ts' ++ w2 ++ s :: rest = w1 ++ t :: (ts' ++ (w2 ++ s :: rest)) by simp, hc]
    simp only [Res.ok_bind]
    rcases h f w2 s rest h2 hs with h | ⟨ns, n, wa, wb, tE, rE, g1, g2, g3, g4, g5, g6, g7⟩
    · left; rw [h]; rfl
    · right
      rw [g3]
      simp only [Res.ok_bind]
      have hfin : consFinish (ns ++ n :: wa.map .single) tE rE
          = ([], some (.concat (ns ++ [n])), wa ++ (tE :: rE)) := by
        rw [show ns ++ n :: wa.map Node.single = (ns ++ [n]) ++ wa.map .single by simp]
        rw [consFinish, if_neg (by rw [List.countP_append, countP_ws, g6]; omega)]
        rw [List.reverse_append, List.reverse_append, List.reverse_singleton, List.singleton_append,
          dropTrailing_ws wa n ns.reverse _ g7]
        simp
      rw [hfin, g4]
      refine ⟨ns0 ++ [], .concat (ns ++ [n]), wa ++ wb, by simp, by simpa using hq, rfl, rfl, ?_,
        by rw [← g1]; exact h2, by rw [← g1]; exact id⟩
      intro inc arr outer m
      rw [ConfigParser.parseValue, runV]
      simp only [Bool.false_eq_true, if_false, g5 inc arr outer m]

/-! ### Arrays -/

/-- What is shown for the rest of an array. -/
def TailA (env : Env) (f : Nat) (toks : List Tok) (vs : List Syn) (rest : List Tok) : Prop :=
  arrayLoop env .conf f toks = .fuel ∨
    ∃ ns, arrayLoop env .conf f toks = .ok (ns, rest) ∧ DenotesL env ns vs

theorem tailA_close0 (env : Env) (f : Nat) (rest : List Tok) :
    TailA env f (.closeSquare :: rest) [] rest := by
  cases f with
  | zero => left; rw [arrayLoop]
  | succ f =>
    right
    rw [arrayLoop]
    obtain ⟨ns, b, hq, hc, hb⟩ := sepLoop_other false [] .closeSquare rest Wts.nil rfl (by simp)
    have hb : b = false := by
      cases b with
      | false => rfl
      | true => simp [HasNl] at hb
    subst hb
    obtain ⟨ns2, hn, hq2⟩ := nextCollect_stop [] .closeSquare rest Wts.nil rfl
    rw [List.nil_append] at hc hn
    simp only [checkSep, hc, Res.ok_bind, Bool.false_eq_true, if_false, hn]
    refine ⟨_, rfl, ?_⟩
    have := DenotesL.quiet (hq.append (hq2.append (Quiet.one .closeSquare (by simp)))) (DenotesL.nil env)
    simpa using this

/-- The bracket after a separator. -/
theorem tailA_after (env : Env) (f : Nat) (w0 w rest : List Tok) (q : List Node) (hq : Quiet q)
    (hsep : checkSep .conf w0 = .ok (q, true, w ++ .closeSquare :: rest)) (hw : Wts w) :
    TailA env f w0 [] rest := by
  cases f with
  | zero => left; rw [arrayLoop]
  | succ f =>
    rw [TailA, arrayLoop, hsep]
    simp only [Res.ok_bind, if_true]
    obtain ⟨ns1, hn1, hq1⟩ := nextCollect_stop w .closeSquare rest hw rfl
    obtain ⟨ns2, hn, hq2⟩ := nextCollect_stop [] .closeSquare rest Wts.nil rfl
    rw [List.nil_append] at hn
    cases f with
    | zero => left; rw [DocParser.consolidate]; rfl
    | succ f =>
      rw [DocParser.consolidate]
      simp only [hn1, Res.ok_bind]
      cases f with
      | zero => left; rw [consLoop]; rfl
      | succ f =>
        rw [show consLoop env .conf (f + 1) .closeSquare rest = .ok ([], .closeSquare, rest) by
          simp [consLoop, startsValue]]
        simp only [Res.ok_bind, consFinish, List.countP_nil, Nat.zero_lt_succ, if_true, splitSingle, hn]
        rw [show startsValue .closeSquare = false from rfl]
        simp only [Bool.false_eq_true, if_false, Tok.isCloseSquare]
        simp only [decide_true, Bool.and_self, if_true]
        rcases tailA_close0 env (f + 1 + 1) rest with h | ⟨ns3, h, hd⟩
        · left; rw [h]; rfl
        · right
          rw [h]
          refine ⟨_, rfl, ?_⟩
          have := DenotesL.quiet (hq.append (hq1.append hq2)) hd
          simpa using this

theorem tailA_close (env : Env) (f : Nat) (e rest : List Tok) (he : EndT e) :
    TailA env f (e ++ .closeSquare :: rest) [] rest := by
  cases he with
  | gap hw =>
    obtain ⟨ns, b, hq, hc, hb⟩ := sepLoop_other false e .closeSquare rest hw rfl (by simp)
    cases b with
    | true =>
      exact tailA_after env f _ [] rest ns hq hc Wts.nil
    | false =>
      cases f with
      | zero => left; rw [arrayLoop]
      | succ f =>
        right
        rw [arrayLoop]
        obtain ⟨ns2, hn, hq2⟩ := nextCollect_stop [] .closeSquare rest Wts.nil rfl
        rw [List.nil_append] at hn
        simp only [checkSep, hc, Res.ok_bind, Bool.false_eq_true, if_false, hn]
        refine ⟨_, rfl, ?_⟩
        have := DenotesL.quiet (hq.append (hq2.append (Quiet.one .closeSquare (by simp)))) (DenotesL.nil env)
        simpa using this
  | @comma w w' hw hw' =>
    obtain ⟨ns, hq, hc⟩ := sepLoop_comma false w (w' ++ .closeSquare :: rest) hw
    rw [show w ++ .comma :: w' ++ .closeSquare :: rest = w ++ .comma :: (w' ++ .closeSquare :: rest) by simp]
    exact tailA_after env f _ w' rest ns hq hc hw'

/-- An element after a separator. -/
theorem tailA_cons {env : Env} {v : Syn} {ts : List Tok} (hv : CV env v ts) (f : Nat)
    {w0 w1 w2 : List Tok} {s : Tok} {r rest : List Tok} {vs : List Syn} {q : List Node} (hq : Quiet q)
    (hsep : checkSep .conf w0 = .ok (q, true, w1 ++ ts ++ w2 ++ s :: r)) (h1 : Wts w1)
    (h2 : Wts w2) (hs : After w2 s)
    (ht : ∀ f w2', Wts w2' → (HasNl w2 → HasNl w2') → TailA env f (w2' ++ s :: r) vs rest) :
    TailA env f w0 (v :: vs) rest := by
  cases f with
  | zero => left; rw [arrayLoop]
  | succ f =>
    rw [TailA, arrayLoop]
    rw [hsep]
    simp only [Res.ok_bind, if_true]
    rcases hv f w1 w2 s r h1 h2 hs with h | ⟨ns2, node, w2', h, hq2, hval, _, hd, hw2', hnl⟩
    · left; rw [h]; rfl
    · rw [h]
      simp only [Res.ok_bind]
      rcases ht f w2' hw2' hnl with h | ⟨ns3, h, hdl⟩
      · left; rw [h]; rfl
      · right
        rw [h]
        refine ⟨_, rfl, ?_⟩
        have := DenotesL.quiet (hq.append hq2) (DenotesL.cons hval hd hdl)
        simpa using this

/-- What is shown for `parse_array`. -/
def ArrA (env : Env) (f : Nat) (toks : List Tok) (vs : List Syn) (rest : List Tok) : Prop :=
  parseArray env .conf f toks = .fuel ∨
    ∃ ns, parseArray env .conf f toks = .ok (.array ns, rest) ∧ DenotesL env ns vs

theorem arrA_cons {env : Env} {v : Syn} {ts : List Tok} (hv : CV env v ts) (f : Nat)
    {w1 w2 : List Tok} {s : Tok} {r rest : List Tok} {vs : List Syn} (h1 : Wts w1)
    (h2 : Wts w2) (hs : After w2 s)
    (ht : ∀ f w2', Wts w2' → (HasNl w2 → HasNl w2') → TailA env f (w2' ++ s :: r) vs rest) :
    ArrA env f (w1 ++ ts ++ w2 ++ s :: r) (v :: vs) rest := by
  cases f with
  | zero => left; rw [parseArray]
  | succ f =>
    rw [ArrA, parseArray]
    have hq := Quiet.one .openSquare (by simp)
    rcases hv f w1 w2 s r h1 h2 hs with h | ⟨ns2, node, w2', h, hq2, hval, _, hd, hw2', hnl⟩
    · left; rw [h]; rfl
    · rw [h]
      simp only [Res.ok_bind]
      rcases ht f w2' hw2' hnl with h | ⟨ns3, h, hdl⟩
      · left; rw [h]; rfl
      · right
        rw [h]
        refine ⟨_, rfl, ?_⟩
        have := DenotesL.quiet (hq.append hq2) (DenotesL.cons hval hd hdl)
        simpa using this

theorem arrA_empty (env : Env) (f : Nat) (w rest : List Tok) (hw : Wts w) :
    ArrA env f (w ++ .closeSquare :: rest) [] rest := by
  cases f with
  | zero => left; rw [parseArray]
  | succ f =>
    rw [ArrA, parseArray]
    have hq := Quiet.one .openSquare (by simp)
    have hq' := Quiet.one .closeSquare (by simp)
    obtain ⟨ns, hn, hqn⟩ := nextCollect_stop w .closeSquare rest hw rfl
    obtain ⟨ns2, hn2, hqn2⟩ := nextCollect_stop [] .closeSquare rest Wts.nil rfl
    rw [List.nil_append] at hn2
    cases f with
    | zero => left; rw [DocParser.consolidate]; rfl
    | succ f =>
      rw [DocParser.consolidate]
      simp only [Res.ok_bind, hn]
      cases f with
      | zero => left; rw [consLoop]; rfl
      | succ f =>
        right
        rw [show consLoop env .conf (f + 1) .closeSquare rest = .ok ([], .closeSquare, rest) by
          simp [consLoop, startsValue]]
        simp only [Res.ok_bind, consFinish, List.countP_nil, Nat.zero_lt_succ, if_true, splitSingle, hn2]
        refine ⟨_, rfl, ?_⟩
        have := DenotesL.quiet (hq.append (hqn.append (hqn2.append hq'))) (DenotesL.nil env)
        simpa using this

/-! ### Objects -/

/-- The token that ends an object; the root object without braces ends with the input. -/
def closer (ho : Bool) : Tok := if ho then .closeCurly else .end_

/-- The tokens left after it. -/
def left (ho : Bool) (rest : List Tok) : List Tok := if ho then rest else .end_ :: rest

theorem closer_stop (ho : Bool) : collectNode (closer ho) = none := by cases ho <;> rfl

theorem closer_ne (ho : Bool) : closer ho ≠ .comma := by cases ho <;> simp [closer]

theorem closer_sep (ho : Bool) : Sep (closer ho) := by cases ho <;> trivial

/-- What is shown for a list of fields and the end. -/
def TailO (env : Env) (x : Res (List Node × List Tok)) (as : List (Path × Bool × Syn)) (rest : List Tok) : Prop :=
  x = .fuel ∨ ∃ ns, x = .ok (ns, rest) ∧ DenotesF env ns as

theorem tailO_loop_close (env : Env) (f : Nat) (ho ac : Bool) (keys : List Str) (w rest : List Tok) (hw : Wts w) :
    TailO env (objectLoop env .conf f ho ac keys (w ++ closer ho :: rest)) [] (left ho rest) := by
  cases f with
  | zero => left; rw [objectLoop]
  | succ f =>
    right
    rw [objectLoop]
    obtain ⟨ns, hn, hq⟩ := nextCollect_stop w (closer ho) rest hw (closer_stop ho)
    simp only [hn, Res.ok_bind]
    cases ho with
    | true =>
      simp only [closer, if_true]
      rw [if_neg (by simp), if_neg (by simp)]
      refine ⟨_, rfl, ?_⟩
      have := DenotesF.quiet (hq.append (Quiet.one .closeCurly (by simp))) (DenotesF.nil env)
      simpa using this
    | false =>
      simp only [closer, Bool.false_eq_true, if_false, Tok.isEnd]
      rw [if_pos (by simp)]
      refine ⟨_, rfl, ?_⟩
      have := DenotesF.quiet hq (DenotesF.nil env)
      simpa using this

theorem tailO_sep_close (env : Env) (f : Nat) (ho : Bool) (keys : List Str) (w rest : List Tok)
    (hw : Wts w) : TailO env (objectSep env .conf f ho keys (w ++ closer ho :: rest)) [] (left ho rest) := by
  cases f with
  | zero => left; rw [objectSep]
  | succ f =>
    rw [objectSep]
    obtain ⟨ns, b, hq, hc, _⟩ := sepLoop_other false w (closer ho) rest hw (closer_stop ho) (closer_ne ho)
    rw [checkSep, hc]
    simp only [Res.ok_bind]
    cases b with
    | false =>
      right
      obtain ⟨ns2, hn, hq2⟩ := nextCollect_stop [] (closer ho) rest Wts.nil (closer_stop ho)
      rw [List.nil_append] at hn
      simp only [Bool.false_eq_true, if_false, hn, Res.ok_bind]
      cases ho with
      | true =>
        simp only [closer, if_true]
        refine ⟨_, rfl, ?_⟩
        have := DenotesF.quiet (hq.append (hq2.append (Quiet.one .closeCurly (by simp)))) (DenotesF.nil env)
        simpa using this
      | false =>
        simp only [closer, Bool.false_eq_true, if_false]
        refine ⟨_, rfl, ?_⟩
        have := DenotesF.quiet (hq.append hq2) (DenotesF.nil env)
        simpa using this
    | true =>
      simp only [if_true]
      rcases tailO_loop_close env f ho true keys [] rest Wts.nil with h | ⟨ns2, h, hd⟩
      · left; rw [List.nil_append] at h; rw [h]; rfl
      · right
        rw [List.nil_append] at h; rw [h]
        exact ⟨_, rfl, DenotesF.quiet hq hd⟩

theorem tailO_sep_comma {env : Env} {f : Nat} {ho : Bool} {keys : List Str} {w us rest : List Tok}
    {as : List (Path × Bool × Syn)} (hw : Wts w)
    (h : ∀ f, TailO env (objectLoop env .conf f ho true keys us) as rest) :
    TailO env (objectSep env .conf f ho keys (w ++ .comma :: us)) as rest := by
  cases f with
  | zero => left; rw [objectSep]
  | succ f =>
    rw [objectSep]
    obtain ⟨ns, hq, hc⟩ := sepLoop_comma false w us hw
    rw [checkSep, hc]
    simp only [Res.ok_bind, if_true]
    rcases h f with h | ⟨ns2, h, hd⟩
    · left; rw [h]; rfl
    · right
      rw [h]
      exact ⟨_, rfl, DenotesF.quiet hq hd⟩

theorem tailO_sep_newline {env : Env} {f : Nat} {ho : Bool} {keys : List Str} {w us rest : List Tok} {s : Tok}
    {as : List (Path × Bool × Syn)} (hw : Wts w) (hnl : HasNl w) (hs : collectNode s = none) (hc : s ≠ .comma)
    (h : ∀ f, TailO env (objectLoop env .conf f ho true keys (s :: us)) as rest) :
    TailO env (objectSep env .conf f ho keys (w ++ s :: us)) as rest := by
  cases f with
  | zero => left; rw [objectSep]
  | succ f =>
    rw [objectSep]
    obtain ⟨ns, b, hq, hc, hb⟩ := sepLoop_other false w s us hw hs hc
    obtain rfl : b = true := hb.2 (Or.inr hnl)
    rw [checkSep, hc]
    simp only [Res.ok_bind, if_true]
    rcases h f with h | ⟨ns2, h, hd⟩
    · left; rw [h]; rfl
    · right
      rw [h]
      exact ⟨_, rfl, DenotesF.quiet hq hd⟩

theorem tailO_sep_end (env : Env) (f : Nat) (ho : Bool) (keys : List Str) (e rest : List Tok)
    (he : EndT e) : TailO env (objectSep env .conf f ho keys (e ++ closer ho :: rest)) [] (left ho rest) := by
  cases he with
  | gap hw => exact tailO_sep_close env f ho keys e rest hw
  | @comma w w' hw hw' =>
    rw [show w ++ .comma :: w' ++ closer ho :: rest = w ++ .comma :: (w' ++ closer ho :: rest) by simp]
    exact tailO_sep_comma hw (fun f => tailO_loop_close env f ho true keys w' rest hw')

/-- The value of a field. -/
theorem fieldVal_value {env : Env} {v : Syn} {ts : List Tok} (hv : CV env v ts) (f : Nat)
    {w1 w2 : List Tok} {s : Tok} {rest : List Tok} (h1 : Wts w1) (h2 : Wts w2) (hs : After w2 s) :
    fieldVal env .conf f (w1 ++ ts ++ w2 ++ s :: rest) = .fuel ∨
    ∃ ns node w2', fieldVal env .conf f (w1 ++ ts ++ w2 ++ s :: rest) = .ok (ns, node, w2' ++ s :: rest) ∧
      Quiet ns ∧ node.isValue = true ∧ node.singleToken? = none ∧ Denotes env node v ∧ Wts w2' ∧
      (HasNl w2 → HasNl w2') := by
  cases f with
  | zero => left; rw [fieldVal]
  | succ f =>
    rw [fieldVal]
    rcases hv f w1 w2 s rest h1 h2 hs with h | ⟨ns2, node, w2', h, hq2, hval, hnt, hd, hw2', hnl⟩
    · left; rw [h]; rfl
    · right
      rw [h]
      exact ⟨_, _, _, rfl, hq2, hval, hnt, hd, hw2', hnl⟩

theorem keyRun_stop (w : List Tok) (c : Tok) (rest : List Tok) (hw : Wts w) (hc : scalarOf c = none) :
    keyRun (w ++ c :: rest) = ([], w ++ c :: rest) := by
  cases w with
  | nil => cases c <;> simp [scalarOf] at hc <;> rfl
  | cons t w =>
    have ht := hw.cons.1
    cases t <;> simp [Wt] at ht <;> rfl

theorem keyRun_all (kts w : List Tok) (c : Tok) (rest : List Tok) (h : ∀ t ∈ kts, (scalarOf t).isSome = true)
    (hw : Wts w) (hc : scalarOf c = none) : keyRun (kts ++ (w ++ c :: rest)) = (kts, w ++ c :: rest) := by
  induction kts with
  | nil => exact keyRun_stop w c rest hw hc
  | cons t kts ih =>
    have ih := ih (fun x hx => h x (.tail _ hx))
    have ht := h t (.head _)
    rw [List.cons_append]
    cases t <;> simp [scalarOf] at ht <;> (rw [keyRun, ih])

theorem parseKey_toks {env : Env} {p : Path} {t : Tok} {kts : List Tok} (hk : KeyToks env p (t :: kts)) (w : List Tok)
    (c : Tok) (rest : List Tok) (hw : Wts w) (hc : scalarOf c = none) :
    ∃ pt, parseKey env .conf t (kts ++ (w ++ c :: rest)) = .ok (p, pt, w ++ c :: rest) := by
  obtain ⟨pt, h⟩ := hk.path
  refine ⟨pt, ?_⟩
  rw [parseKey]
  rw [show t :: (kts ++ (w ++ c :: rest)) = (t :: kts) ++ (w ++ c :: rest) by rfl, keyRun_all _ w c rest hk.all hw hc]
  obtain ⟨t', toks', he'⟩ := cons_of w c rest
  rw [he']
  simp [h]

/-- A field node. -/
def FieldNode (env : Env) (m : Path × Bool × Syn) (n : Node) : Prop :=
  ∃ cs, n = .field cs ∧ (∃ pt, Node.fieldPath cs = .ok (m.1, pt)) ∧ ConfigParser.isPlusEquals cs = m.2.1 ∧
    ∀ inc arr outer k, ConfigParser.parseFieldValue env inc false arr outer cs k = runV env arr outer m.2.2 k

theorem fieldNode_of {env : Env} {p : Path} {v : Syn} {pt : List Tok} {q : List Node} {node : Node} (hq : Quiet q)
    (hval : node.isValue = true) (hnt : node.singleToken? = none) (hd : Denotes env node v) :
    FieldNode env (p, false, v) (.field (.path p pt :: q ++ [node])) := by
  refine ⟨_, rfl, ⟨pt, rfl⟩, ?_, ?_⟩
  · apply noPlus
    intro n hn
    simp at hn
    rcases hn with rfl | hn | rfl
    · simp [Node.singleToken?]
    · obtain ⟨t, h, ht⟩ := hq n hn
      rcases h with rfl | rfl <;> simpa [Node.singleToken?] using ht
    · simp [hnt]
  · intro inc arr outer m
    rw [List.cons_append, ConfigParser.parseFieldValue]
    simp only [Node.isValue, Bool.false_eq_true, if_false]
    rw [fieldValue_quiet hq, ConfigParser.parseFieldValue]
    simp only [hval, if_true]
    exact hd inc arr outer m

/-- Only whitespace, newlines and comments. -/
def Still (ns : List Node) : Prop := ∀ n ∈ ns, ∃ t, (n = .single t ∨ n = .comment t) ∧ Wt t

theorem nextCollect_still {w : List Tok} {t : Tok} {rest : List Tok} {ns : List Node} (hw : Wts w)
    (ht : collectNode t = none) (h : nextCollect .conf (w ++ t :: rest) = .ok (ns, t, rest)) : Still ns := by
  induction w generalizing ns with
  | nil =>
    rw [List.nil_append, nextCollect] at h
    simp [nextToken, ht] at h
    subst h
    intro n hn
    cases hn
  | cons x w ih =>
    obtain ⟨ns', h', _⟩ := nextCollect_stop w t rest hw.cons.2 ht
    rw [List.cons_append, nextCollect] at h
    have hx := hw.cons.1
    have hs := ih hw.cons.2 h'
    cases x <;> simp [Wt] at hx <;>
    · simp [nextToken, collectNode, h'] at h
      subst h
      intro n hn
      rcases List.mem_cons.1 hn with rfl | hn
      · first
        | exact ⟨_, Or.inl rfl, trivial⟩
        | exact ⟨_, Or.inr rfl, trivial⟩
      · exact hs n hn

theorem fieldNode_plus {env : Env} {p : Path} {v : Syn} {pt : List Tok} {q q2 : List Node} {node : Node} (hs : Still q)
    (hq : Quiet q) (hq2 : Quiet q2) (hval : node.isValue = true) (hd : Denotes env node v) :
    FieldNode env (p, true, v) (.field (.path p pt :: q ++ .single .plusEquals :: q2 ++ [node])) := by
  refine ⟨_, rfl, ⟨pt, rfl⟩, ?_, ?_⟩
  · have : Node.fieldSeparator (.path p pt :: q ++ .single .plusEquals :: q2 ++ [node]) = some .plusEquals := by
      rw [List.cons_append, List.cons_append, Node.fieldSeparator]
      simp only [Node.singleToken?]
      clear hq
      induction q with
      | nil => rfl
      | cons x q ih =>
        rw [List.cons_append, List.cons_append, Node.fieldSeparator]
        obtain ⟨t, h, ht⟩ := hs x (.head _)
        have ih := ih (fun n hn => hs n (.tail _ hn))
        rcases h with rfl | rfl <;> cases t <;> simp [Wt] at ht <;> simpa [Node.singleToken?] using ih
    rw [ConfigParser.isPlusEquals, this]
  · intro inc arr outer m
    rw [List.cons_append, List.cons_append, ConfigParser.parseFieldValue]
    simp only [Node.isValue, Bool.false_eq_true, if_false]
    rw [List.append_assoc, fieldValue_quiet hq, List.cons_append, ConfigParser.parseFieldValue]
    simp only [Node.isValue, Bool.false_eq_true, if_false]
    rw [fieldValue_quiet hq2, ConfigParser.parseFieldValue]
    simp only [hval, if_true]
    exact hd inc arr outer m

/-- One field: what is shown for `parse_object` up to the separator. -/
def FV (env : Env) (m : Path × Bool × Syn) (ts : List Tok) : Prop :=
  ∃ t ts', ts = t :: ts' ∧ collectNode t = none ∧ (scalarOf t).isSome = true ∧ isIncludeKeyword t = false ∧
    ∀ f w2 s rest, Wts w2 → After w2 s →
      parseField env .conf f t (ts' ++ w2 ++ s :: rest) = .fuel ∨
      ∃ node w2', parseField env .conf f t (ts' ++ w2 ++ s :: rest) = .ok (m.1, node, w2' ++ s :: rest) ∧
        FieldNode env m node ∧ Wts w2' ∧ (HasNl w2 → HasNl w2')

theorem fv_field {env : Env} {p : Path} {v : Syn} {kts w1 w2 ts : List Tok} {c : Tok} (hk : KeyToks env p kts)
    (h1 : Wts w1) (hc : c = .colon ∨ c = .equals) (h2 : Wts w2) (hv : CV env v ts) :
    FV env (p, false, v) (kts ++ w1 ++ c :: w2 ++ ts) := by
  obtain ⟨t, kts', rfl, hct, hin⟩ := hk.head
  refine ⟨t, kts' ++ w1 ++ c :: w2 ++ ts, by simp, hct, hk.all t (.head _), hin, ?_⟩
  intro f w3 s rest h3 hs
  cases f with
  | zero => left; rw [parseField]
  | succ f =>
    have hcs : scalarOf c = none ∧ collectNode c = none ∧ c.isOpenCurly = false ∧ isKeyValueSeparator .conf c = true ∧
        c ≠ .plusEquals := by
      rcases hc with rfl | rfl <;> exact ⟨rfl, rfl, rfl, rfl, by simp⟩
    rw [parseField]
    obtain ⟨pt, hkey⟩ := parseKey_toks hk w1 c (w2 ++ ts ++ w3 ++ s :: rest) h1 hcs.1
    obtain ⟨ns, hn, hq⟩ := nextCollect_stop w1 c (w2 ++ ts ++ w3 ++ s :: rest) h1 hcs.2.1
    rw [show kts' ++ w1 ++ c :: w2 ++ ts ++ w3 ++ s :: rest = kts' ++ (w1 ++ c :: (w2 ++ ts ++ w3 ++ s :: rest)) by simp,
      hkey]
    simp only [Res.ok_bind, hn, hcs.2.2.1, Bool.and_false, Bool.false_eq_true, if_false]
    rw [if_pos hcs.2.2.2.1]
    rcases fieldVal_value hv f (rest := rest) h2 h3 hs with h | ⟨ns2, node, w4', h, hq2, hval, hnt, hd, hw4', hnl⟩
    · left; rw [h]; rfl
    · right
      rw [h]
      refine ⟨_, w4', rfl, ?_, hw4', hnl⟩
      have := fieldNode_of (p := p) (pt := pt) (hq.append ((Quiet.one c hcs.2.2.2.2).append hq2)) hval hnt hd
      simpa using this

theorem fv_plus {env : Env} {p : Path} {v : Syn} {kts w1 w2 ts : List Tok} (hk : KeyToks env p kts)
    (h1 : Wts w1) (h2 : Wts w2) (hv : CV env v ts) :
    FV env (p, true, v) (kts ++ w1 ++ .plusEquals :: w2 ++ ts) := by
  obtain ⟨t, kts', rfl, hct, hin⟩ := hk.head
  refine ⟨t, kts' ++ w1 ++ .plusEquals :: w2 ++ ts, by simp, hct, hk.all t (.head _), hin, ?_⟩
  intro f w3 s rest h3 hs
  cases f with
  | zero => left; rw [parseField]
  | succ f =>
    rw [parseField]
    obtain ⟨pt, hkey⟩ := parseKey_toks hk w1 .plusEquals (w2 ++ ts ++ w3 ++ s :: rest) h1 rfl
    obtain ⟨ns, hn, hq⟩ := nextCollect_stop w1 .plusEquals (w2 ++ ts ++ w3 ++ s :: rest) h1 rfl
    have hst := nextCollect_still h1 rfl hn
    rw [show kts' ++ w1 ++ .plusEquals :: w2 ++ ts ++ w3 ++ s :: rest
      = kts' ++ (w1 ++ .plusEquals :: (w2 ++ ts ++ w3 ++ s :: rest)) by simp, hkey]
    simp only [Res.ok_bind, hn, Tok.isOpenCurly, Bool.and_false, Bool.false_eq_true, if_false]
    rw [if_pos (show isKeyValueSeparator .conf .plusEquals = true from rfl)]
    rcases fieldVal_value hv f (rest := rest) h2 h3 hs with h | ⟨ns2, node, w4', h, hq2, hval, hnt, hd, hw4', hnl⟩
    · left; rw [h]; rfl
    · right
      rw [h]
      refine ⟨_, w4', rfl, ?_, hw4', hnl⟩
      have := fieldNode_plus (p := p) (pt := pt) hst hq hq2 hval hd
      simpa using this

theorem fv_section {env : Env} {p : Path} {v : Syn} {kts w ts : List Tok} (hk : KeyToks env p kts)
    (h1 : Wts w) (hv : PV env v (.openCurly :: ts)) : FV env (p, false, v) (kts ++ w ++ .openCurly :: ts) := by
  obtain ⟨t, kts', rfl, hct, hin⟩ := hk.head
  refine ⟨t, kts' ++ w ++ .openCurly :: ts, by simp, hct, hk.all t (.head _), hin, ?_⟩
  intro f w3 s rest h3 hs
  cases f with
  | zero => left; rw [parseField]
  | succ f =>
    rw [parseField]
    obtain ⟨pt, hkey⟩ := parseKey_toks hk w .openCurly (ts ++ (w3 ++ s :: rest)) h1 rfl
    obtain ⟨ns, hn, hq⟩ := nextCollect_stop w .openCurly (ts ++ (w3 ++ s :: rest)) h1 rfl
    rw [show kts' ++ w ++ .openCurly :: ts ++ w3 ++ s :: rest = kts' ++ (w ++ .openCurly :: (ts ++ (w3 ++ s :: rest))) by simp,
      hkey]
    simp only [Res.ok_bind, hn, Tok.isOpenCurly]
    rw [if_pos (by simp)]
    obtain ⟨t0, ts0, he, _, _, hp⟩ := hv
    cases he
    rcases hp f (w3 ++ s :: rest) with h | ⟨node, h, hval, hnt, _, hd⟩
    · left; rw [h]; rfl
    · right
      rw [h]
      exact ⟨_, w3, rfl, fieldNode_of hq hval hnt hd, h3, id⟩

theorem DenotesF.field {env : Env} {m : Path × Bool × Syn} {n : Node} {ns : List Node} {as : List (Path × Bool × Syn)}
    (hn : FieldNode env m n) (h : DenotesF env ns as) : DenotesF env (n :: ns) (m :: as) := by
  obtain ⟨p, b, v⟩ := m
  obtain ⟨cs, rfl, ⟨pt, hpt⟩, hpe, hval⟩ := hn
  intro inc arr outer fs k
  cases b with
  | false =>
    rw [ConfigParser.parseFields, runM]
    simp only at hpt hpe hval
    simp only [hpt, Res.ok_bind, hpe, Bool.false_eq_true, if_false, hval]
    congr 1
    funext r
    congr 1
    funext r2
    exact h inc arr outer r2 r.2
  | true =>
    rw [ConfigParser.parseFields, runM]
    simp only at hpt hpe hval
    simp only [hpt, Res.ok_bind, hpe, if_true, hval]
    congr 1
    congr 1
    funext r
    congr 1
    funext r2
    congr 1
    funext r3
    exact h inc arr outer r3 r2.2

theorem addKey_conf (keys : List Str) (p : Path) (h : p ≠ []) : ∃ keys', addKey .conf keys p = .ok keys' := by
  cases p with
  | nil => exact absurd rfl h
  | cons k p => exact ⟨_, rfl⟩

theorem tailO_member {env : Env} {m : Path × Bool × Syn} {ts : List Tok} (hfv : FV env m ts)
    (hp : m.1 ≠ []) (f : Nat) {ho ac : Bool} {keys : List Str} {w1 w2 : List Tok} {s : Tok}
    {r rest : List Tok} {as : List (Path × Bool × Syn)} (h1 : Wts w1) (h2 : Wts w2) (hs : After w2 s)
    (ht : ∀ f keys w', Wts w' → (HasNl w2 → HasNl w') →
      TailO env (objectSep env .conf f ho keys (w' ++ s :: r)) as rest) :
    TailO env (objectLoop env .conf f ho ac keys (w1 ++ ts ++ w2 ++ s :: r)) (m :: as) rest := by
  cases f with
  | zero => left; rw [objectLoop]
  | succ f =>
    obtain ⟨t, ts', rfl, hct, hsc, hin, hpf⟩ := hfv
    rw [objectLoop]
    obtain ⟨ns, hn, hq⟩ := nextCollect_stop w1 t (ts' ++ w2 ++ s :: r) h1 hct
    rw [show w1 ++ t :: ts' ++ w2 ++ s :: r = w1 ++ t :: (ts' ++ w2 ++ s :: r) by simp, hn]
    have hend : t.isEnd = false := by cases t <;> simp_all [scalarOf, Tok.isEnd]
    have hcl : t ≠ .closeCurly := by rintro rfl; simp [scalarOf] at hsc
    have hstep : ∀ {α : Type} (x y : α), (match t with | .closeCurly => x | _ => y) = y := by
      intro α x y
      revert hcl
      cases t <;> intro hcl <;> first | rfl | exact absurd rfl hcl
    simp only [Res.ok_bind, hend, hin, Bool.false_and, Bool.and_false, Bool.false_eq_true, if_false, hstep]
    · rcases hpf f w2 s r h2 hs with h | ⟨node, w2', h, hnode, hw2', hnl⟩
      · left; rw [h]; rfl
      · rw [h]
        obtain ⟨keys', hkeys⟩ := addKey_conf keys m.1 hp
        simp only [Res.ok_bind, hkeys]
        rcases ht f keys' w2' hw2' hnl with h | ⟨ns2, h, hd⟩
        · left; rw [h]; rfl
        · right
          rw [h]
          refine ⟨_, rfl, ?_⟩
          have := DenotesF.quiet hq (DenotesF.field hnode hd)
          simpa using this

/-! ### All nonterminals -/

/-- The elements of an array, before what follows them. -/
def EV (env : Env) (vs : List Syn) (ts : List Tok) : Prop :=
  (∃ t ts', ts = t :: ts' ∧ collectNode t = none ∧ t ≠ .comma) ∧
  (∀ f w1 w2 s r vs' rest, Wts w1 → Wts w2 → After w2 s →
    (∀ f w2', Wts w2' → (HasNl w2 → HasNl w2') → TailA env f (w2' ++ s :: r) vs' rest) →
    ArrA env f (w1 ++ ts ++ w2 ++ s :: r) (vs ++ vs') rest) ∧
  (∀ f w0 q w1 w2 s r vs' rest, Quiet q → checkSep .conf w0 = .ok (q, true, w1 ++ ts ++ w2 ++ s :: r) →
    Wts w1 → Wts w2 → After w2 s →
    (∀ f w2', Wts w2' → (HasNl w2 → HasNl w2') → TailA env f (w2' ++ s :: r) vs' rest) →
    TailA env f w0 (vs ++ vs') rest)

/-- The fields of an object, before what follows them. -/
def MV (env : Env) (as : List (Path × Bool × Syn)) (ts : List Tok) : Prop :=
  (∃ t ts', ts = t :: ts' ∧ collectNode t = none ∧ (scalarOf t).isSome = true) ∧
  ∀ f ho ac keys w1 w2 s r as' rest, Wts w1 → Wts w2 → After w2 s →
    (∀ f keys w', Wts w' → (HasNl w2 → HasNl w') →
      TailO env (objectSep env .conf f ho keys (w' ++ s :: r)) as' rest) →
    TailO env (objectLoop env .conf f ho ac keys (w1 ++ ts ++ w2 ++ s :: r)) (as ++ as') rest

/-- What is shown for each nonterminal. -/
def PP (env : Env) : SPart → List Tok → Prop
  | .value v, ts => CV env v ts ∧ (∃ t ts', ts = t :: ts' ∧ collectNode t = none ∧ t ≠ .comma) ∧
      (v.isConcat = false → PV env v ts)
  | .elems vs, ts => EV env vs ts
  | .member m, ts => m.1 ≠ [] ∧ FV env m ts
  | .members as, ts => MV env as ts
  | .pieces ps, ts => LV env ps ts

theorem denotes_array {env : Env} {ns : List Node} {vs : List Syn} (h : DenotesL env ns vs) :
    Denotes env (.array ns) (.list vs) := by
  intro inc arr outer n
  rw [ConfigParser.parseValue, h inc (arr + 1) outer n, runV]

theorem denotes_object {env : Env} {ns : List Node} {as : List (Path × Bool × Syn)} (h : DenotesF env ns as) :
    Denotes env (.object ns) (.obj as) := by
  intro inc arr outer n
  rw [ConfigParser.parseValue, h inc arr outer [] n, runV]

theorem plain_list {vs : List Value} (h : ∀ v ∈ vs, v.Plain) : (Value.list vs).Plain := by
  refine ⟨?_, ?_⟩
  · simp only [Value.Wf]
    exact Value.WfL.iff.2 fun v hv => (h v hv).wf
  · simp only [Value.resolved]
    exact Value.resolvedAll_iff.2 fun v hv => (h v hv).res

theorem plain_scalar (s : Scalar) : (Value.scalar s).Plain := ⟨trivial, rfl⟩

theorem pv_array {env : Env} {ts : List Tok} {vs : List Syn}
    (h : ∀ f rest, ArrA env f (ts ++ .closeSquare :: rest) vs rest) :
    PV env (.list vs) (.openSquare :: ts ++ [.closeSquare]) := by
  refine ⟨.openSquare, ts ++ [.closeSquare], rfl, rfl, rfl, ?_⟩
  intro f rest
  cases f with
  | zero => left; rw [parseValue]
  | succ f =>
    rw [parseValue]
    rw [List.append_assoc]
    rcases h f rest with h | ⟨ns, h, hd⟩
    · left; exact h
    · right
      exact ⟨.array ns, h, rfl, rfl, fun _ => rfl, denotes_array hd⟩

theorem pv_object {env : Env} {ts : List Tok} {as : List (Path × Bool × Syn)}
    (h : ∀ f rest, TailO env (objectLoop env .conf f true false [] (ts ++ .closeCurly :: rest)) as rest) :
    PV env (.obj as) (.openCurly :: ts ++ [.closeCurly]) := by
  refine ⟨.openCurly, ts ++ [.closeCurly], rfl, rfl, rfl, ?_⟩
  intro f rest
  cases f with
  | zero => left; rw [parseValue]
  | succ f =>
    rw [parseValue]
    rw [List.append_assoc]
    rcases h f rest with h | ⟨ns, h, hd⟩
    · left
      simp only [List.singleton_append]
      rw [h]; rfl
    · right
      simp only [List.singleton_append]
      rw [h]
      exact ⟨_, rfl, rfl, rfl, fun _ => rfl,
        denotes_object (DenotesF.quiet (Quiet.one .openCurly (by simp)) hd)⟩

theorem pp_value_of_pv {env : Env} {v : Syn} {ts : List Tok} (h : PV env v ts)
    (hc : ts.head? ≠ some .comma) : PP env (.value v) ts := by
  refine ⟨h.cv, ?_, fun _ => h⟩
  obtain ⟨t, ts', rfl, h1, h2, _⟩ := h
  exact ⟨t, ts', rfl, h1, by rintro rfl; simp at hc⟩

theorem EndT.split {e : List Tok} (he : EndT e) (c : Tok) (hc : Sep c) (rest : List Tok) :
    ∃ w2 s r, e ++ c :: rest = w2 ++ s :: r ∧ Wts w2 ∧ Sep s ∧
      ∀ w2', Wts w2' → (HasNl w2 → HasNl w2') → ∃ e', w2' ++ s :: r = e' ++ c :: rest ∧ EndT e' := by
  cases he with
  | gap hw => exact ⟨e, c, rest, rfl, hw, hc, fun w2' h _ => ⟨w2', rfl, .gap h⟩⟩
  | @comma w w' hw hw' =>
    exact ⟨w, .comma, w' ++ c :: rest, by simp, hw, trivial,
      fun w2' h _ => ⟨w2' ++ .comma :: w', by simp, .comma h hw'⟩⟩

theorem htok_parses (env : Env) {p : SPart} {ts : List Tok} (h : HTok env p ts) : PP env p ts := by
  induction h with
  | @scalar t s h1 h2 =>
    have hs : (scalarOf t).isSome = true := by rw [h1]; rfl
    refine pp_value_of_pv ⟨t, [], rfl, h2, startsValue_scalar hs, ?_⟩ ?_
    · intro f rest
      cases f with
      | zero => left; rw [parseValue]
      | succ f =>
        right
        refine ⟨.simple t, parseValue_scalar env f _ hs, rfl, rfl, ?_, denotes_simple env h1⟩
        rintro (rfl | rfl) <;> simp [scalarOf] at hs
    · rintro h
      simp at h
      subst h
      simp [scalarOf] at hs
  | @subst opt expr l p h1 =>
    refine pp_value_of_pv ⟨_, [], rfl, rfl, rfl, ?_⟩ (by simp)
    intro f rest
    cases f with
    | zero => left; rw [parseValue]
    | succ f =>
      right
      refine ⟨.simple (.subst opt expr l), by rw [parseValue]; rfl, rfl, rfl, by simp, ?_⟩
      intro inc arr outer n
      rw [ConfigParser.parseValue, runV, ConfigParser.getValue, h1]
      rfl
  | @concat ts ps _ h1 ih =>
    refine ⟨ih.cv h1, ?_, by simp [Syn.isConcat]⟩
    obtain ⟨t, ts', h1, h2, h3, _⟩ := ih
    exact ⟨t, ts', h1, h2, h3⟩
  | @emptyArr w hw =>
    exact pp_value_of_pv (pv_array (fun f rest => arrA_empty env f w rest hw)) (by simp)
  | @arr w ts e vs hw _ he ih =>
    refine pp_value_of_pv ?_ (by simp)
    rw [show (.openSquare :: w ++ ts ++ e ++ [.closeSquare] : List Tok)
      = .openSquare :: (w ++ ts ++ e) ++ [.closeSquare] by simp]
    refine pv_array (fun f rest => ?_)
    obtain ⟨w2, s, r, e1, hw2, hs, hcont⟩ := he.split .closeSquare trivial rest
    have := ih.2.1 f w w2 s r [] rest hw hw2 (Or.inl hs) (fun f w2' h1 h2 => by
      obtain ⟨e', e2, he'⟩ := hcont w2' h1 h2
      rw [e2]
      exact tailA_close env f e' rest he')
    rw [List.append_nil] at this
    rw [show w ++ ts ++ e ++ .closeSquare :: rest = w ++ ts ++ (e ++ .closeSquare :: rest) by simp, e1]
    simpa using this
  | @emptyObj w hw =>
    exact pp_value_of_pv
      (pv_object (fun f rest => tailO_loop_close env f true false [] w rest hw)) (by simp)
  | @obj w ts e as hw _ he ih =>
    refine pp_value_of_pv ?_ (by simp)
    rw [show (.openCurly :: w ++ ts ++ e ++ [.closeCurly] : List Tok)
      = .openCurly :: (w ++ ts ++ e) ++ [.closeCurly] by simp]
    refine pv_object (fun f rest => ?_)
    obtain ⟨w2, s, r, e1, hw2, hs, hcont⟩ := he.split .closeCurly trivial rest
    have := ih.2 f true false [] w w2 s r [] rest hw hw2 (Or.inl hs) (fun f keys w2' h1 h2 => by
      obtain ⟨e', e2, he'⟩ := hcont w2' h1 h2
      rw [e2]
      exact tailO_sep_end env f true keys e' rest he')
    rw [List.append_nil] at this
    rw [show w ++ ts ++ e ++ .closeCurly :: rest = w ++ ts ++ (e ++ .closeCurly :: rest) by simp, e1]
    simpa using this
  | @elem ts v _ ih =>
    obtain ⟨h2, h3, _⟩ := ih
    refine ⟨h3, ?_, ?_⟩
    · intro f w1 w2 s r vs' rest hw1 hw2 hs ht
      exact arrA_cons h2 f hw1 hw2 hs ht
    · intro f w0 q w1 w2 s r vs' rest hq hsep hw1 hw2 hs ht
      exact tailA_cons h2 f hq hsep hw1 hw2 hs ht
  | @elemCons ts sp us v vs _ hsp _ ihv ihs =>
    obtain ⟨h2, ⟨t, ts', rfl, h3, h3'⟩, _⟩ := ihv
    obtain ⟨⟨u, us', rfl, hu, hu'⟩, hs3, hs4⟩ := ihs
    refine ⟨⟨t, ts' ++ sp ++ u :: us', by simp, h3, h3'⟩, ?_⟩
    · -- the rest after the first element
      have key : ∀ (w2 : List Tok) (s : Tok) (r : List Tok) (vs' : List Syn) (rest : List Tok), Wts w2 →
          After w2 s → (∀ f w2', Wts w2' → (HasNl w2 → HasNl w2') → TailA env f (w2' ++ s :: r) vs' rest) →
          ∃ wa sa ra, Wts wa ∧ After wa sa ∧ sp ++ (u :: us' ++ w2 ++ s :: r) = wa ++ sa :: ra ∧
            ∀ f wa', Wts wa' → (HasNl wa → HasNl wa') → TailA env f (wa' ++ sa :: ra) (vs ++ vs') rest := by
        intro w2 s r vs' rest hw2 hs ht
        cases hsp with
        | newline hw hn =>
          refine ⟨sp, u, us' ++ w2 ++ s :: r, hw, Or.inr hn, by simp, ?_⟩
          intro f wa' hwa' hnl
          obtain ⟨q, b, hq, hc, hb⟩ := sepLoop_other false wa' u (us' ++ w2 ++ s :: r) hwa' hu hu'
          obtain rfl : b = true := hb.2 (Or.inr (hnl hn))
          refine hs4 f _ q [] w2 s r vs' rest hq ?_ Wts.nil hw2 hs ht
          rw [checkSep, hc]; simp
        | @comma w w' hw hw' =>
          refine ⟨w, .comma, w' ++ (u :: us' ++ w2 ++ s :: r), hw, Or.inl trivial, by simp, ?_⟩
          intro f wa' hwa' _
          obtain ⟨q, hq, hc⟩ := sepLoop_comma false wa' (w' ++ (u :: us' ++ w2 ++ s :: r)) hwa'
          refine hs4 f _ q w' w2 s r vs' rest hq ?_ hw' hw2 hs ht
          rw [checkSep, hc]; simp
      constructor
      · intro f w1 w2 s r vs' rest hw1 hw2 hs ht
        obtain ⟨wa, sa, ra, k1, k2, k3, k4⟩ := key w2 s r vs' rest hw2 hs ht
        have := arrA_cons h2 f hw1 k1 k2 (r := ra) k4
        rw [show w1 ++ (t :: ts' ++ sp ++ u :: us') ++ w2 ++ s :: r
          = w1 ++ t :: ts' ++ (sp ++ (u :: us' ++ w2 ++ s :: r)) by simp, k3]
        simpa using this
      · intro f w0 q w1 w2 s r vs' rest hq hsep hw1 hw2 hs ht
        obtain ⟨wa, sa, ra, k1, k2, k3, k4⟩ := key w2 s r vs' rest hw2 hs ht
        refine tailA_cons h2 f hq ?_ hw1 k1 k2 k4
        rw [hsep]
        rw [show w1 ++ (t :: ts' ++ sp ++ u :: us') ++ w2 ++ s :: r
          = w1 ++ t :: ts' ++ (sp ++ (u :: us' ++ w2 ++ s :: r)) by simp, k3]
        simp
  | @field kts w1 w2 ts c p v hk h1 hc h2 _ ih =>
    exact ⟨hk.ne, fv_field hk h1 hc h2 ih.1⟩
  | @plus kts w1 w2 ts p v hk h1 h2 _ ih =>
    exact ⟨hk.ne, fv_plus hk h1 h2 ih.1⟩
  | @sect kts w ts p v hk h1 hc _ ih =>
    exact ⟨hk.ne, fv_section hk h1 (ih.2.2 hc)⟩
  | @last ts m _ ih =>
    obtain ⟨hp, hfv⟩ := ih
    refine ⟨?_, ?_⟩
    · obtain ⟨t, ts', h1, h2, h3, _⟩ := hfv
      exact ⟨t, ts', h1, h2, h3⟩
    · intro f ho ac keys w1 w2 s r as' rest h1 h2 hs ht
      exact tailO_member hfv hp f h1 h2 hs ht
  | @memberCons ts sp us m as _ hsp _ ihv ihs =>
    obtain ⟨hp, hfv⟩ := ihv
    obtain ⟨⟨u, us', rfl, hu, hus⟩, hs3⟩ := ihs
    refine ⟨?_, ?_⟩
    · obtain ⟨t, ts', rfl, h2, h3, _⟩ := hfv
      exact ⟨t, ts' ++ sp ++ u :: us', by simp, h2, h3⟩
    · intro f ho ac keys w1 w2 s r as' rest h1 h2 hs ht
      cases hsp with
      | newline hw hn =>
        have := tailO_member hfv hp f (ac := ac) (keys := keys) (as := as ++ as') (rest := rest) (ho := ho)
          (r := us' ++ w2 ++ s :: r) h1 hw (Or.inr hn) (s := u) (fun f keys w' hw' hnl =>
            tailO_sep_newline hw' (hnl hn) hu (by rintro rfl; simp [scalarOf] at hus) (fun f => by
              have := hs3 f ho true keys [] w2 s r as' rest Wts.nil h2 hs ht
              simpa using this))
        simpa using this
      | @comma w w' hw hw' =>
        have := tailO_member hfv hp f (ac := ac) (keys := keys) (as := as ++ as') (rest := rest) (ho := ho)
          (r := w' ++ (u :: us') ++ w2 ++ s :: r) h1 hw (Or.inl trivial) (s := .comma) (fun f keys wx hwx _ =>
            tailO_sep_comma hwx (fun f => hs3 f ho true keys w' w2 s r as' rest hw' h2 hs ht))
        simpa using this
  | piece _ h1 ih => exact (ih.2.2 h1).lv
  | pieceCons _ h1 hw _ ihv ihs => exact LV.cons (ihv.2.2 h1) hw ihs
  | pieceBlank _ h1 _ ihv ihs => exact LV.blank (ihv.2.2 h1) ihs

end HoconParse
end Hocon
