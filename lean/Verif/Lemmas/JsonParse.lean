import Verif.ConfigParser
import Verif.Spec.JsonText
import Verif.Lemmas.ConfigParserLemmas

/-!
# JSON token sequences parse to the value they denote, in both syntaxes
-/

set_option autoImplicit false

namespace Hocon
namespace JsonParse

open PathParser (Syntax)
open DocParser

/-- Whitespace and newline tokens. -/
def Wt : Tok → Prop
  | .ws s _ => Spec.JWs s
  | .newline _ => True
  | _ => False

/-- Only whitespace and newline tokens. -/
def Wts (w : List Tok) : Prop := ∀ t ∈ w, Wt t

theorem Wts.cons {t : Tok} {w : List Tok} (h : Wts (t :: w)) : Wt t ∧ Wts w :=
  ⟨h t (.head _), fun x hx => h x (.tail _ hx)⟩

theorem Wts.append {a b : List Tok} (ha : Wts a) (hb : Wts b) : Wts (a ++ b) := by
  intro t ht
  rcases List.mem_append.1 ht with h | h
  · exact ha t h
  · exact hb t h

theorem Wts.nil : Wts [] := fun _ h => by cases h

/-- Only single tokens other than `+=`. -/
def Quiet (ns : List Node) : Prop := ∀ n ∈ ns, ∃ t, n = .single t ∧ t ≠ .plusEquals

theorem Quiet.append {a b : List Node} (ha : Quiet a) (hb : Quiet b) : Quiet (a ++ b) := by
  intro t ht
  rcases List.mem_append.1 ht with h | h
  · exact ha t h
  · exact hb t h

theorem Quiet.nil : Quiet [] := fun _ h => by cases h

theorem Quiet.one (t : Tok) (h : t ≠ .plusEquals) : Quiet [.single t] := by
  intro n hn
  simp at hn
  exact ⟨t, hn, h⟩

/-- Only whitespace and newlines. -/
def Bl (ns : List Node) : Prop := ∀ n ∈ ns, ∃ t, n = .single t ∧ Wt t

theorem Bl.append {a b : List Node} (ha : Bl a) (hb : Bl b) : Bl (a ++ b) := by
  intro t ht
  rcases List.mem_append.1 ht with h | h
  · exact ha t h
  · exact hb t h

theorem Bl.nil : Bl [] := fun _ h => by cases h

theorem Bl.one {t : Tok} (h : Wt t) : Bl [.single t] := by
  intro n hn
  simp at hn
  exact ⟨t, hn, h⟩

theorem Bl.quiet {q : List Node} (h : Bl q) : Quiet q := by
  intro n hn
  obtain ⟨t, rfl, ht⟩ := h n hn
  exact ⟨t, rfl, by rintro rfl; exact ht⟩

/-- Tokens returned by `nextCollect` in both syntaxes. -/
def Stop : Tok → Prop
  | .value .. => True
  | .openCurly => True
  | .closeCurly => True
  | .openSquare => True
  | .closeSquare => True
  | .comma => True
  | .colon => True
  | .end_ => True
  | _ => False

/-- Tokens that end a value. -/
def Sep : Tok → Prop
  | .closeCurly => True
  | .closeSquare => True
  | .comma => True
  | .end_ => True
  | _ => False

theorem Sep.stop {t : Tok} (h : Sep t) : Stop t := by
  cases t <;> simp_all [Sep, Stop]

theorem nextCollect_stop (fl : Syntax) (w : List Tok) (t : Tok) (rest : List Tok) (hw : Wts w) (ht : Stop t) :
    ∃ ns, nextCollect fl (w ++ t :: rest) = .ok (ns, t, rest) ∧ Bl ns := by
  induction w with
  | nil =>
    refine ⟨[], ?_, Bl.nil⟩
    cases t <;> simp [Stop] at ht <;> cases fl <;> rfl
  | cons x w ih =>
    obtain ⟨ns, h1, h2⟩ := ih hw.cons.2
    have hx := hw.cons.1
    cases x <;> simp [Wt] at hx
    · rename_i l
      refine ⟨.single (.newline l) :: ns, ?_, Bl.append (Bl.one (by first | trivial | exact hx)) h2⟩
      rw [List.cons_append, nextCollect]
      cases fl <;> simp [nextToken, collectNode, h1]
    · rename_i s l
      refine ⟨.single (.ws s l) :: ns, ?_, Bl.append (Bl.one (by first | trivial | exact hx)) h2⟩
      rw [List.cons_append, nextCollect]
      cases fl <;> simp [nextToken, collectNode, h1]

theorem sepLoop_sep (b : Bool) (w : List Tok) (t : Tok) (rest : List Tok) (hw : Wts w) (ht : Sep t) :
    ∃ ns c, Bl ns ∧ (b = false → w = [] → t.isCloseSquare = true → c = false) ∧
      ((t = .comma ∧ sepLoop b (w ++ t :: rest) = .ok (ns ++ [.single .comma], true, rest)) ∨
       (t ≠ .comma ∧ sepLoop b (w ++ t :: rest) = .ok (ns, c, t :: rest))) := by
  induction w generalizing b with
  | nil =>
    cases t <;> simp [Sep] at ht
    · exact ⟨[], b, Bl.nil, fun h _ _ => h, Or.inr ⟨by simp, rfl⟩⟩
    · exact ⟨[], b, Bl.nil, fun h _ _ => h, Or.inl ⟨rfl, rfl⟩⟩
    · exact ⟨[], b, Bl.nil, fun h _ _ => h, Or.inr ⟨by simp, rfl⟩⟩
    · exact ⟨[], b, Bl.nil, fun h _ _ => h, Or.inr ⟨by simp, rfl⟩⟩
  | cons x w ih =>
    have hx := hw.cons.1
    cases x <;> simp [Wt] at hx
    · rename_i l
      obtain ⟨ns, c, h1, _, h3⟩ := ih true hw.cons.2
      refine ⟨.single (.newline l) :: ns, c, Bl.append (Bl.one (by first | trivial | exact hx)) h1, by simp, ?_⟩
      rcases h3 with ⟨h, h3⟩ | ⟨h, h3⟩
      · exact Or.inl ⟨h, by rw [List.cons_append, sepLoop.eq_def]; simp [collectNode, h3]⟩
      · exact Or.inr ⟨h, by rw [List.cons_append, sepLoop.eq_def]; simp [collectNode, h3]⟩
    · rename_i s l
      obtain ⟨ns, c, h1, _, h3⟩ := ih b hw.cons.2
      refine ⟨.single (.ws s l) :: ns, c, Bl.append (Bl.one (by first | trivial | exact hx)) h1, by simp, ?_⟩
      rcases h3 with ⟨h, h3⟩ | ⟨h, h3⟩
      · exact Or.inl ⟨h, by rw [List.cons_append, sepLoop.eq_def]; simp [collectNode, h3]⟩
      · exact Or.inr ⟨h, by rw [List.cons_append, sepLoop.eq_def]; simp [collectNode, h3]⟩

theorem checkSep_comma (fl : Syntax) (w rest : List Tok) (hw : Wts w) :
    ∃ ns, Bl ns ∧ checkSep fl (w ++ .comma :: rest) = .ok (ns ++ [.single .comma], true, rest) := by
  cases fl with
  | json =>
    obtain ⟨ns, h1, h2⟩ := nextCollect_stop .json w .comma rest hw trivial
    exact ⟨ns, h2, by simp [checkSep, h1]⟩
  | conf =>
    obtain ⟨ns, c, h1, _, h3⟩ := sepLoop_sep false w .comma rest hw trivial
    rcases h3 with ⟨_, h3⟩ | ⟨h, _⟩
    · exact ⟨ns, h1, h3⟩
    · exact absurd rfl h

theorem checkSep_other (fl : Syntax) (w : List Tok) (t : Tok) (rest : List Tok) (hw : Wts w) (ht : Sep t)
    (hc : t ≠ .comma) :
    ∃ ns b, Bl ns ∧ checkSep fl (w ++ t :: rest) = .ok (ns, b, t :: rest) ∧ (fl = .json → b = false) ∧
      (w = [] → t.isCloseSquare = true → b = false) := by
  cases fl with
  | json =>
    obtain ⟨ns, h1, h2⟩ := nextCollect_stop .json w t rest hw ht.stop
    refine ⟨ns, false, h2, ?_, fun _ => rfl, fun _ _ => rfl⟩
    simp only [checkSep, h1, Res.ok_bind]
    try (cases t <;> simp_all)
  | conf =>
    obtain ⟨ns, c, h1, h2, h3⟩ := sepLoop_sep false w t rest hw ht
    rcases h3 with ⟨h, _⟩ | ⟨_, h3⟩
    · exact absurd h hc
    · exact ⟨ns, c, h1, h3, by simp, h2 rfl⟩

/-! ### What nodes denote -/

/-- The node parses to `v`. -/
def Denotes (env : Env) (node : Node) (v : Value) : Prop :=
  ∀ inc json arr outer n, ConfigParser.parseValue env inc json arr outer node n = .ok (v, n)

/-- The children of an array parse to `vs`. -/
def DenotesL (env : Env) (ns : List Node) (vs : List Value) : Prop :=
  ∀ inc json arr outer n, ConfigParser.parseElems env inc json arr outer ns n = .ok (vs, n)

/-- The children of an object add the fields `fs`. -/
def DenotesF (env : Env) (ns : List Node) (fs : Fields) : Prop :=
  ∀ inc json arr outer fs0 n, (∀ k ∈ keysOf fs, k ∉ keysOf fs0) →
    ConfigParser.parseFields env inc json arr outer ns fs0 n = .ok (fs0 ++ fs, n)

theorem DenotesL.nil (env : Env) : DenotesL env [] [] := by
  intro inc json arr outer n
  rw [ConfigParser.parseElems]

theorem DenotesL.quiet {env : Env} {q ns : List Node} {vs : List Value} (hq : Quiet q)
    (h : DenotesL env ns vs) : DenotesL env (q ++ ns) vs := by
  induction q with
  | nil => exact h
  | cons x q ih =>
    obtain ⟨t, rfl, _⟩ := hq x (.head _)
    intro inc json arr outer n
    rw [List.cons_append, ConfigParser.parseElems]
    simp [Node.isValue]
    exact ih (fun n hn => hq n (.tail _ hn)) inc json arr outer n

theorem DenotesL.cons {env : Env} {node : Node} {v : Value} {ns : List Node} {vs : List Value}
    (hv : node.isValue = true) (h1 : Denotes env node v) (h : DenotesL env ns vs) :
    DenotesL env (node :: ns) (v :: vs) := by
  intro inc json arr outer n
  rw [ConfigParser.parseElems]
  simp [hv, h1 inc json arr outer n, h inc json arr outer n]

theorem DenotesF.nil (env : Env) : DenotesF env [] [] := by
  intro inc json arr outer fs0 n _
  rw [ConfigParser.parseFields]; simp

theorem DenotesF.quiet {env : Env} {q ns : List Node} {fs : Fields} (hq : Quiet q)
    (h : DenotesF env ns fs) : DenotesF env (q ++ ns) fs := by
  induction q with
  | nil => exact h
  | cons x q ih =>
    obtain ⟨t, rfl, _⟩ := hq x (.head _)
    intro inc json arr outer fs0 n hk
    rw [List.cons_append, ConfigParser.parseFields]
    · exact ih (fun n hn => hq n (.tail _ hn)) inc json arr outer fs0 n hk
    · simp
    · simp

theorem findKey_not_mem {fs : Fields} {k : Str} (h : k ∉ keysOf fs) : findKey fs k = none := by
  induction fs with
  | nil => rfl
  | cons f fs ih =>
    obtain ⟨k', v⟩ := f
    simp [keysOf] at h
    rw [findKey, if_neg (fun e => h.1 e.symm)]
    apply ih
    simpa [keysOf] using h.2

theorem putKey_not_mem' {k : Str} {v : Value} {fs : Fields} (h : k ∉ keysOf fs) : putKey k v fs = fs ++ [(k, v)] := by
  induction fs with
  | nil => rfl
  | cons f fs ih =>
    obtain ⟨k', v'⟩ := f
    simp [keysOf] at h
    rw [putKey, if_neg (fun e => h.1 e.symm), ih (by simpa [keysOf] using h.2)]
    rfl

theorem noPlus {ns : List Node} (h : ∀ n ∈ ns, n.singleToken? ≠ some .plusEquals) :
    ConfigParser.isPlusEquals ns = false := by
  have key : Node.fieldSeparator ns ≠ some .plusEquals := by
    induction ns with
    | nil => simp [Node.fieldSeparator]
    | cons n ns ih =>
      rw [Node.fieldSeparator]
      have hn := h n (.head _)
      have ih := ih (fun m hm => h m (.tail _ hm))
      split <;> simp_all
  rw [ConfigParser.isPlusEquals]
  split <;> simp_all

theorem fieldValue_quiet {env : Env} {q ns : List Node} (hq : Quiet q) (inc json arr outer n) :
    ConfigParser.parseFieldValue env inc json arr outer (q ++ ns) n
      = ConfigParser.parseFieldValue env inc json arr outer ns n := by
  induction q with
  | nil => rfl
  | cons x q ih =>
    obtain ⟨t, rfl, _⟩ := hq x (.head _)
    rw [List.cons_append, ConfigParser.parseFieldValue]
    simp [Node.isValue]
    exact ih (fun n hn => hq n (.tail _ hn))

/-! ### The token grammar with what it denotes -/

/-- Nonterminals. -/
inductive Part where
  | value (v : Value)
  | elems (vs : List Value)
  | members (fs : Fields)

/-- Token sequences of JSON texts, with whitespace tokens. `A` relates scalars and `K` keys with their
texts. -/
inductive JTok (A : Scalar → Str → Prop) (K : Str → Bool → Str → Prop) : Part → List Tok → Prop
  | scalar {v : Scalar} {text : Str} (line : Int) : A v text → JTok A K (.value (.scalar v)) [.value v text line]
  | emptyArr {w : List Tok} : Wts w → JTok A K (.value (.list [])) (.openSquare :: w ++ [.closeSquare])
  | arr {vs : List Value} {ts : List Tok} : JTok A K (.elems vs) ts →
      JTok A K (.value (.list vs)) (.openSquare :: ts ++ [.closeSquare])
  | emptyObj {w : List Tok} : Wts w → JTok A K (.value (.obj [] true false)) (.openCurly :: w ++ [.closeCurly])
  | obj {fs : Fields} {ts : List Tok} : JTok A K (.members fs) ts → (keysOf fs).Nodup →
      JTok A K (.value (.obj fs true false)) (.openCurly :: ts ++ [.closeCurly])
  | elem {w1 ts w2 : List Tok} {v : Value} : Wts w1 → JTok A K (.value v) ts → Wts w2 →
      JTok A K (.elems [v]) (w1 ++ ts ++ w2)
  | elemCons {w1 ts w2 us : List Tok} {v : Value} {vs : List Value} : Wts w1 → JTok A K (.value v) ts → Wts w2 →
      JTok A K (.elems vs) us → JTok A K (.elems (v :: vs)) (w1 ++ ts ++ w2 ++ .comma :: us)
  | member {w1 w2 w3 ts w4 : List Tok} {k text : Str} {q : Bool} {line : Int} {v : Value} : Wts w1 → K k q text → Wts w2 →
      Wts w3 → JTok A K (.value v) ts → Wts w4 →
      JTok A K (.members [(k, v)]) (w1 ++ .value (.str k q) text line :: (w2 ++ .colon :: (w3 ++ ts ++ w4)))
  | memberCons {w1 w2 w3 ts w4 us : List Tok} {k text : Str} {q : Bool} {line : Int} {v : Value} {fs : Fields} :
      Wts w1 → K k q text → Wts w2 → Wts w3 → JTok A K (.value v) ts → Wts w4 → JTok A K (.members fs) us →
      JTok A K (.members ((k, v) :: fs))
        (w1 ++ .value (.str k q) text line :: (w2 ++ .colon :: (w3 ++ ts ++ w4 ++ .comma :: us)))

/-! ### The nodes -/

/-- Kinds of node lists: a value; the rest of an array or an object with its closing bracket, behind the
opening bracket or a comma, and behind an element. -/
inductive Kind where
  | value (v : Value)
  | arr (vs : List Value)
  | arrT (vs : List Value)
  | obj (fs : Fields)
  | objT (fs : Fields)

/-- The nodes of JSON texts. -/
inductive Sh (A : Scalar → Str → Prop) (K : Str → Bool → Str → Prop) : Kind → List Node → Prop
  | scalar {v : Scalar} {text : Str} {line : Int} : A v text → Sh A K (.value (.scalar v)) [.simple (.value v text line)]
  | array {vs : List Value} {ns : List Node} : Sh A K (.arr vs) ns →
      Sh A K (.value (.list vs)) [.array (.single .openSquare :: ns)]
  | object {fs : Fields} {ns : List Node} : Sh A K (.obj fs) ns → (keysOf fs).Nodup →
      Sh A K (.value (.obj fs true false)) [.object (.single .openCurly :: ns)]
  | arrNil {w : List Node} : Bl w → Sh A K (.arr []) (w ++ [.single .closeSquare])
  | arrCons {w ns : List Node} {n : Node} {v : Value} {vs : List Value} : Bl w → Sh A K (.value v) [n] →
      Sh A K (.arrT vs) ns → Sh A K (.arr (v :: vs)) (w ++ n :: ns)
  | arrTNil {w : List Node} : Bl w → Sh A K (.arrT []) (w ++ [.single .closeSquare])
  | arrTCons {w ns : List Node} {v : Value} {vs : List Value} : Bl w → Sh A K (.arr (v :: vs)) ns →
      Sh A K (.arrT (v :: vs)) (w ++ .single .comma :: ns)
  | objNil {w : List Node} : Bl w → Sh A K (.obj []) (w ++ [.single .closeCurly])
  | objCons {w w2 w3 ns : List Node} {n : Node} {k text : Str} {q : Bool} {line : Int} {v : Value} {fs : Fields} :
      Bl w → K k q text → Bl w2 → Bl w3 → Sh A K (.value v) [n] → Sh A K (.objT fs) ns →
      Sh A K (.obj ((k, v) :: fs)) (w ++
        .field (.path [k] [.value (.str k q) text line] :: (w2 ++ .single .colon :: (w3 ++ [n]))) :: ns)
  | objTNil {w : List Node} : Bl w → Sh A K (.objT []) (w ++ [.single .closeCurly])
  | objTCons {w ns : List Node} {f : Str × Value} {fs : Fields} : Bl w → Sh A K (.obj (f :: fs)) ns →
      Sh A K (.objT (f :: fs)) (w ++ .single .comma :: ns)

section
variable {A : Scalar → Str → Prop} {K : Str → Bool → Str → Prop}

theorem Sh.isValue {v : Value} {n : Node} (h : Sh A K (.value v) [n]) :
    n.isValue = true ∧ n.singleToken? = none := by
  cases h <;> exact ⟨rfl, rfl⟩

/-- What is shown for a value. -/
def PV (A : Scalar → Str → Prop) (K : Str → Bool → Str → Prop) (env : Env) (v : Value) (ts : List Tok) : Prop :=
  v.resolved = true ∧
  ∃ t ts', ts = t :: ts' ∧ Stop t ∧ startsValue t = true ∧
    ∀ fl f rest, parseValue env fl f t (ts' ++ rest) = .fuel ∨
      ∃ node, parseValue env fl f t (ts' ++ rest) = .ok (node, rest) ∧ node.isValue = true ∧
        node.singleToken? = none ∧
        (t.isOpenCurly = true ∨ t = .openSquare → node.isComplex = true) ∧ Sh A K (.value v) [node]

theorem consLoop_ws (env : Env) (f : Nat) (w : List Tok) (s : Tok) (rest : List Tok) (hw : Wts w) (hs : Sep s)
    (t : Tok) (toks : List Tok) (he : t :: toks = w ++ s :: rest) :
    consLoop env .conf f t toks = .fuel ∨
    ∃ wa wb tE rE, w = wa ++ wb ∧ consLoop env .conf f t toks = .ok (wa.map .single, tE, rE) ∧
      tE :: rE = wb ++ s :: rest := by
  induction f generalizing w t toks with
  | zero => left; rw [consLoop]
  | succ f ih =>
    cases w with
    | nil =>
      simp at he
      obtain ⟨rfl, rfl⟩ := he
      right
      refine ⟨[], [], t, toks, rfl, ?_, rfl⟩
      cases t <;> simp [Sep] at hs <;> simp [consLoop, startsValue]
    | cons x w =>
      simp at he
      obtain ⟨rfl, rfl⟩ := he
      have hx := hw.cons.1
      cases t <;> simp [Wt] at hx
      · rename_i l
        right
        refine ⟨[], .newline l :: w, .newline l, w ++ s :: rest, rfl, ?_, rfl⟩
        simp [consLoop, startsValue]
      · rename_i tx l
        rw [consLoop]
        obtain ⟨t', toks', he'⟩ : ∃ t' toks', w ++ s :: rest = t' :: toks' := by
          cases w with
          | nil => exact ⟨_, _, rfl⟩
          | cons a b => exact ⟨_, _, rfl⟩
        rw [he']
        simp only [nextToken, Res.ok_bind]
        rcases ih w hw.cons.2 t' toks' he'.symm with h | ⟨wa, wb, tE, rE, h1, h2, h3⟩
        · left; rw [h]; rfl
        · right
          refine ⟨.ws tx l :: wa, wb, tE, rE, by rw [h1]; rfl, ?_, h3⟩
          rw [h2]; rfl

theorem putBack_ws (wa toks : List Tok) : putBackFrom (wa.map .single) toks = wa.reverse ++ toks := by
  induction wa generalizing toks with
  | nil => rfl
  | cons t wa ih =>
    rw [List.map_cons, putBackFrom, ih]
    simp [Node.tokens]

theorem countP_ws (wa : List Tok) : (wa.map Node.single).countP Node.isValue = 0 := by
  induction wa with
  | nil => rfl
  | cons t wa ih => simp [Node.isValue, ih]

theorem Wts.reverse {w : List Tok} (h : Wts w) : Wts w.reverse := fun t ht => h t (by simpa using ht)

/-- A value between whitespace, in HOCON mode. -/
theorem consolidate_value' {env : Env} {v : Value} {ts : List Tok} (hv : PV A K env v ts) (f : Nat)
    {w1 w2 : List Tok} {s : Tok} {rest : List Tok} (h1 : Wts w1) (h2 : Wts w2) (hs : Sep s) :
    consolidate env .conf f (w1 ++ ts ++ w2 ++ s :: rest) = .fuel ∨
    ∃ ns node w2', consolidate env .conf f (w1 ++ ts ++ w2 ++ s :: rest) = .ok (ns, some node, w2' ++ s :: rest) ∧
      Bl ns ∧ node.isValue = true ∧ node.singleToken? = none ∧ Sh A K (.value v) [node] ∧ Wts w2' ∧ (w2 = [] → w2' = []) := by
  cases f with
  | zero => left; rfl
  | succ f =>
    obtain ⟨_, t, ts', rfl, hst, hsv, hp⟩ := hv
    rw [consolidate]
    obtain ⟨ns, hc, hq⟩ := nextCollect_stop .conf w1 t (ts' ++ (w2 ++ s :: rest)) h1 hst
    have e : w1 ++ t :: ts' ++ w2 ++ s :: rest = w1 ++ t :: (ts' ++ (w2 ++ s :: rest)) := by simp
    rw [e, hc]
    simp only [Res.ok_bind]
    cases f with
    | zero => left; rw [consLoop]; rfl
    | succ f =>
      have hcons : consLoop env .conf (f + 1) t (ts' ++ (w2 ++ s :: rest)) =
          (parseValue env .conf f t (ts' ++ (w2 ++ s :: rest)) >>= fun r =>
            nextToken .conf r.2 >>= fun r1 =>
            consLoop env .conf f r1.1 r1.2 >>= fun r2 => .ok (r.1 :: r2.1, r2.2.1, r2.2.2)) := by
        cases t <;> simp [Stop] at hst <;> simp [startsValue] at hsv <;> simp [consLoop, startsValue]
      rw [hcons]
      rcases hp .conf f (w2 ++ s :: rest) with h | ⟨node, hpv, hval, hnt, _, hd⟩
      · left; rw [h]; rfl
      · rw [hpv]
        simp only [Res.ok_bind]
        obtain ⟨t', toks', he'⟩ : ∃ t' toks', w2 ++ s :: rest = t' :: toks' := by
          cases w2 with
          | nil => exact ⟨_, _, rfl⟩
          | cons a b => exact ⟨_, _, rfl⟩
        rw [he']
        simp only [nextToken, Res.ok_bind]
        rcases consLoop_ws env f w2 s rest h2 hs t' toks' he'.symm with h | ⟨wa, wb, tE, rE, g1, g2, g3⟩
        · left; rw [h]; rfl
        · right
          rw [g2]
          simp only [Res.ok_bind]
          refine ⟨ns, node, wa.reverse ++ wb, ?_, hq, hval, hnt, hd, ?_⟩
          · have : consFinish (node :: wa.map .single) tE rE = ([], some node, wa.reverse ++ (tE :: rE)) := by
              rw [consFinish]
              simp only [List.countP_cons, countP_ws, hval]
              simp [splitSingle, hval, putBack_ws]
            rw [this, g3]
            simp
          · subst g1
            exact ⟨Wts.append (Wts.reverse fun t ht => h2 t (by simp [ht])) (fun t ht => h2 t (by simp [ht])),
              by simp_all⟩

theorem consolidate_value {env : Env} {v : Value} {ts : List Tok} (hv : PV A K env v ts) (f : Nat)
    {w1 w2 : List Tok} {s : Tok} {rest : List Tok} (h1 : Wts w1) (h2 : Wts w2) (hs : Sep s) :
    consolidate env .conf f (w1 ++ ts ++ w2 ++ s :: rest) = .fuel ∨
    ∃ ns node w2', consolidate env .conf f (w1 ++ ts ++ w2 ++ s :: rest) = .ok (ns, some node, w2' ++ s :: rest) ∧
      Bl ns ∧ node.isValue = true ∧ node.singleToken? = none ∧ Sh A K (.value v) [node] ∧ Wts w2' := by
  rcases consolidate_value' hv f h1 h2 hs with h | ⟨ns, node, w2', g1, g2, g3, g4, g5, g6, _⟩
  · exact .inl h
  · exact .inr ⟨ns, node, w2', g1, g2, g3, g4, g5, g6⟩

/-! ### Arrays -/

/-- What is shown for the rest of an array. -/
def TailA (A : Scalar → Str → Prop) (K : Str → Bool → Str → Prop) (env : Env) (fl : Syntax) (f : Nat) (toks : List Tok) (vs : List Value) (rest : List Tok) : Prop :=
  arrayLoop env fl f toks = .fuel ∨
    ∃ ns, arrayLoop env fl f toks = .ok (ns, rest) ∧ Sh A K (.arrT vs) ns

theorem tailA_close0 (env : Env) (fl : Syntax) (f : Nat) (rest : List Tok) :
    TailA A K env fl f (.closeSquare :: rest) [] rest := by
  cases f with
  | zero => left; rw [arrayLoop]
  | succ f =>
    right
    rw [arrayLoop]
    obtain ⟨ns, b, hq, hc, _, hb⟩ := checkSep_other fl [] .closeSquare rest Wts.nil trivial (by simp)
    obtain rfl := hb rfl rfl
    obtain ⟨ns2, hn, hq2⟩ := nextCollect_stop fl [] .closeSquare rest Wts.nil trivial
    rw [List.nil_append] at hc hn
    simp only [hc, Res.ok_bind, Bool.false_eq_true, if_false, hn]
    refine ⟨_, rfl, ?_⟩
    have := Sh.arrTNil (A := A) (K := K) (hq.append hq2)
    simpa using this

theorem tailA_close (env : Env) (fl : Syntax) (f : Nat) (w rest : List Tok) (hw : Wts w) :
    TailA A K env fl f (w ++ .closeSquare :: rest) [] rest := by
  cases f with
  | zero => left; rw [arrayLoop]
  | succ f =>
    rw [TailA, arrayLoop]
    obtain ⟨ns, b, hq, hc, hb, _⟩ := checkSep_other fl w .closeSquare rest hw trivial (by simp)
    obtain ⟨ns2, hn, hq2⟩ := nextCollect_stop fl [] .closeSquare rest Wts.nil trivial
    rw [List.nil_append] at hn
    simp only [hc, Res.ok_bind]
    cases b with
    | false =>
      right
      simp only [Bool.false_eq_true, if_false, hn, Res.ok_bind]
      refine ⟨_, rfl, ?_⟩
      have := Sh.arrTNil (A := A) (K := K) (hq.append hq2)
      simpa using this
    | true =>
      have hfl : fl = .conf := by cases fl with
        | conf => rfl
        | json => exact absurd (hb rfl) (by simp)
      subst hfl
      simp only [if_true]
      cases f with
      | zero => left; rw [DocParser.consolidate]; rfl
      | succ f =>
        rw [DocParser.consolidate]
        simp only [hn, Res.ok_bind]
        cases f with
        | zero => left; rw [consLoop]; rfl
        | succ f =>
          rw [show consLoop env .conf (f + 1) .closeSquare rest = .ok ([], .closeSquare, rest) by
            simp [consLoop, startsValue]]
          simp only [Res.ok_bind, consFinish, List.countP_nil, Nat.zero_lt_succ, if_true, splitSingle, hn]
          rw [show startsValue .closeSquare = false from rfl]
          simp only [Bool.false_eq_true, if_false, Tok.isCloseSquare]
          simp only [decide_true, Bool.and_self, if_true]
          rcases tailA_close0 (A := A) (K := K) env .conf (f + 1 + 1) rest with h | ⟨ns3, h, hd⟩
          · left; rw [h]; rfl
          · right
            rw [h]
            refine ⟨_, rfl, ?_⟩
            cases hd with
            | arrTNil hw =>
              have := Sh.arrTNil (A := A) (K := K) (hq.append (hq2.append (hq2.append hw)))
              simpa using this

/-- An element after a comma. -/
theorem tailA_cons {env : Env} {v : Value} {ts : List Tok} (hv : PV A K env v ts) (fl : Syntax) (f : Nat)
    {w w1 w2 : List Tok} {s : Tok} {r rest : List Tok} {vs : List Value} (hw : Wts w) (h1 : Wts w1)
    (h2 : Wts w2) (hs : Sep s) (ht : ∀ f w2', Wts w2' → TailA A K env fl f (w2' ++ s :: r) vs rest) :
    TailA A K env fl f (w ++ .comma :: (w1 ++ ts ++ w2 ++ s :: r)) (v :: vs) rest := by
  cases f with
  | zero => left; rw [arrayLoop]
  | succ f =>
    rw [TailA, arrayLoop]
    obtain ⟨ns, hq, hc⟩ := checkSep_comma fl w (w1 ++ ts ++ w2 ++ s :: r) hw
    rw [hc]
    simp only [Res.ok_bind, if_true]
    cases fl with
    | conf =>
      rcases consolidate_value hv f (rest := r) h1 h2 hs with h | ⟨ns2, node, w2', h, hq2, hval, _, hd, hw2'⟩
      · left; rw [h]; rfl
      · rw [h]
        simp only [Res.ok_bind]
        rcases ht f w2' hw2' with h | ⟨ns3, h, hdl⟩
        · left; rw [h]; rfl
        · right
          rw [h]
          refine ⟨_, rfl, ?_⟩
          have := Sh.arrTCons hq (Sh.arrCons hq2 hd hdl)
          simpa using this
    | json =>
      cases f with
      | zero => left; rw [DocParser.consolidate]; rfl
      | succ f =>
        rw [DocParser.consolidate]
        simp only [Res.ok_bind]
        obtain ⟨_, t, ts', rfl, hst, hsv, hp⟩ := hv
        obtain ⟨ns2, hc2, hq2⟩ := nextCollect_stop .json w1 t (ts' ++ (w2 ++ s :: r)) h1 hst
        rw [show w1 ++ t :: ts' ++ w2 ++ s :: r = w1 ++ t :: (ts' ++ (w2 ++ s :: r)) by simp, hc2]
        simp only [Res.ok_bind, hsv, if_true]
        rcases hp .json (f + 1) (w2 ++ s :: r) with h | ⟨node, hpv, hval, _, _, hd⟩
        · left; rw [h]; rfl
        · rw [hpv]
          simp only [Res.ok_bind]
          rcases ht (f + 1) w2 h2 with h | ⟨ns3, h, hdl⟩
          · left; rw [h]; rfl
          · right
            rw [h]
            refine ⟨_, rfl, ?_⟩
            have := Sh.arrTCons hq (Sh.arrCons hq2 hd hdl)
            simpa using this

/-- What is shown for `parse_array`. -/
def ArrA (A : Scalar → Str → Prop) (K : Str → Bool → Str → Prop) (env : Env) (fl : Syntax) (f : Nat) (toks : List Tok) (vs : List Value) (rest : List Tok) : Prop :=
  parseArray env fl f toks = .fuel ∨
    ∃ ns, parseArray env fl f toks = .ok (.array (.single .openSquare :: ns), rest) ∧ Sh A K (.arr vs) ns

theorem arrA_cons {env : Env} {v : Value} {ts : List Tok} (hv : PV A K env v ts) (fl : Syntax) (f : Nat)
    {w1 w2 : List Tok} {s : Tok} {r rest : List Tok} {vs : List Value} (h1 : Wts w1)
    (h2 : Wts w2) (hs : Sep s) (ht : ∀ f w2', Wts w2' → TailA A K env fl f (w2' ++ s :: r) vs rest) :
    ArrA A K env fl f (w1 ++ ts ++ w2 ++ s :: r) (v :: vs) rest := by
  cases f with
  | zero => left; rw [parseArray]
  | succ f =>
    rw [ArrA, parseArray]
    cases fl with
    | conf =>
      rcases consolidate_value hv f (rest := r) h1 h2 hs with h | ⟨ns2, node, w2', h, hq2, hval, _, hd, hw2'⟩
      · left; rw [h]; rfl
      · rw [h]
        simp only [Res.ok_bind]
        rcases ht f w2' hw2' with h | ⟨ns3, h, hdl⟩
        · left; rw [h]; rfl
        · right
          rw [h]
          refine ⟨_, rfl, ?_⟩
          have := Sh.arrCons hq2 hd hdl
          simpa using this
    | json =>
      cases f with
      | zero => left; rw [DocParser.consolidate]; rfl
      | succ f =>
        rw [DocParser.consolidate]
        simp only [Res.ok_bind]
        obtain ⟨_, t, ts', rfl, hst, hsv, hp⟩ := hv
        obtain ⟨ns2, hc2, hq2⟩ := nextCollect_stop .json w1 t (ts' ++ (w2 ++ s :: r)) h1 hst
        rw [show w1 ++ t :: ts' ++ w2 ++ s :: r = w1 ++ t :: (ts' ++ (w2 ++ s :: r)) by simp, hc2]
        simp only [Res.ok_bind]
        have hne : t ≠ .closeSquare := by rintro rfl; simp [startsValue] at hsv
        rcases hp .json (f + 1) (w2 ++ s :: r) with h | ⟨node, hpv, hval, _, _, hd⟩
        · left
          split
          · exact absurd rfl hne
          · rw [if_pos hsv, h]; rfl
        · split
          · exact absurd rfl hne
          · rw [if_pos hsv, hpv]
            simp only [Res.ok_bind]
            rcases ht (f + 1) w2 h2 with h | ⟨ns3, h, hdl⟩
            · left; rw [h]; rfl
            · right
              rw [h]
              refine ⟨_, rfl, ?_⟩
              have := Sh.arrCons hq2 hd hdl
              simpa using this

theorem arrA_empty (env : Env) (fl : Syntax) (f : Nat) (w rest : List Tok) (hw : Wts w) :
    ArrA A K env fl f (w ++ .closeSquare :: rest) [] rest := by
  cases f with
  | zero => left; rw [parseArray]
  | succ f =>
    rw [ArrA, parseArray]
    obtain ⟨ns, hn, hqn⟩ := nextCollect_stop fl w .closeSquare rest hw trivial
    obtain ⟨ns2, hn2, hqn2⟩ := nextCollect_stop fl [] .closeSquare rest Wts.nil trivial
    rw [List.nil_append] at hn2
    cases f with
    | zero => left; rw [DocParser.consolidate]; rfl
    | succ f =>
      cases fl with
      | json =>
        right
        rw [DocParser.consolidate]
        simp only [Res.ok_bind, hn]
        refine ⟨_, rfl, ?_⟩
        have := Sh.arrNil (A := A) (K := K) hqn
        simpa using this
      | conf =>
        rw [DocParser.consolidate]
        simp only [Res.ok_bind, hn]
        cases f with
        | zero => left; rw [consLoop]; rfl
        | succ f =>
          right
          rw [show consLoop env .conf (f + 1) .closeSquare rest = .ok ([], .closeSquare, rest) by
            simp [consLoop, startsValue]]
          simp only [Res.ok_bind, consFinish, List.countP_nil, Nat.zero_lt_succ, if_true, splitSingle, hn2]
          refine ⟨_, rfl, ?_⟩
          have := Sh.arrNil (A := A) (K := K) (hqn.append hqn2)
          simpa using this

/-! ### Objects -/

/-- What is shown for a list of members and the closing brace. -/
def TailO (A : Scalar → Str → Prop) (K : Str → Bool → Str → Prop) (x : Res (List Node × List Tok)) (kd : Kind)
    (rest : List Tok) : Prop :=
  x = .fuel ∨ ∃ ns, x = .ok (ns, rest) ∧ Sh A K kd ns

theorem tailO_loop_close (env : Env) (fl : Syntax) (f : Nat) (ac : Bool) (keys : List Str) (w rest : List Tok)
    (hw : Wts w) (h : fl = .json → ac = false) :
    TailO A K (objectLoop env fl f true ac keys (w ++ .closeCurly :: rest)) (.obj []) rest := by
  cases f with
  | zero => left; rw [objectLoop]
  | succ f =>
    right
    rw [objectLoop]
    obtain ⟨ns, hn, hq⟩ := nextCollect_stop fl w .closeCurly rest hw trivial
    simp only [hn, Res.ok_bind]
    rw [if_neg (by intro hc; simp at hc; exact absurd (h hc.1) (by simp [hc.2]))]
    refine ⟨_, rfl, ?_⟩
    have := Sh.objNil (A := A) (K := K) hq
    simpa using this

theorem tailO_sep_close (env : Env) (fl : Syntax) (f : Nat) (keys : List Str) (w rest : List Tok)
    (hw : Wts w) : TailO A K (objectSep env fl f true keys (w ++ .closeCurly :: rest)) (.objT []) rest := by
  cases f with
  | zero => left; rw [objectSep]
  | succ f =>
    rw [objectSep]
    obtain ⟨ns, b, hq, hc, hb, _⟩ := checkSep_other fl w .closeCurly rest hw trivial (by simp)
    rw [hc]
    simp only [Res.ok_bind]
    cases b with
    | false =>
      right
      obtain ⟨ns2, hn, hq2⟩ := nextCollect_stop fl [] .closeCurly rest Wts.nil trivial
      rw [List.nil_append] at hn
      simp only [Bool.false_eq_true, if_false, hn, Res.ok_bind, if_true]
      refine ⟨_, rfl, ?_⟩
      have := Sh.objTNil (A := A) (K := K) (hq.append hq2)
      simpa using this
    | true =>
      simp only [if_true]
      rcases tailO_loop_close (A := A) (K := K) env fl f true keys [] rest Wts.nil (fun h => absurd (hb h) (by simp)) with h | ⟨ns2, h, hd⟩
      · left; rw [List.nil_append] at h; rw [h]; rfl
      · right
        rw [List.nil_append] at h; rw [h]
        refine ⟨_, rfl, ?_⟩
        cases hd with
        | objNil hw =>
          have := Sh.objTNil (A := A) (K := K) (hq.append hw)
          simpa using this

theorem tailO_sep_comma {env : Env} {fl : Syntax} {f : Nat} {keys : List Str} {w us rest : List Tok} {fs : Fields}
    (hne : fs ≠ []) (hw : Wts w) (h : ∀ f, TailO A K (objectLoop env fl f true true keys us) (.obj fs) rest) :
    TailO A K (objectSep env fl f true keys (w ++ .comma :: us)) (.objT fs) rest := by
  cases f with
  | zero => left; rw [objectSep]
  | succ f =>
    rw [objectSep]
    obtain ⟨ns, hq, hc⟩ := checkSep_comma fl w us hw
    rw [hc]
    simp only [Res.ok_bind, if_true]
    rcases h f with h | ⟨ns2, h, hd⟩
    · left; rw [h]; rfl
    · right
      rw [h]
      refine ⟨_, rfl, ?_⟩
      cases fs with
      | nil => exact absurd rfl hne
      | cons f fs =>
        have := Sh.objTCons hq hd
        simpa using this

/-- The value of a member. -/
theorem fieldVal_value {env : Env} {v : Value} {ts : List Tok} (hv : PV A K env v ts) (fl : Syntax) (f : Nat)
    {w1 w2 : List Tok} {s : Tok} {rest : List Tok} (h1 : Wts w1) (h2 : Wts w2) (hs : Sep s) :
    fieldVal env fl f (w1 ++ ts ++ w2 ++ s :: rest) = .fuel ∨
    ∃ ns node w2', fieldVal env fl f (w1 ++ ts ++ w2 ++ s :: rest) = .ok (ns, node, w2' ++ s :: rest) ∧
      Bl ns ∧ node.isValue = true ∧ node.singleToken? = none ∧ Sh A K (.value v) [node] ∧ Wts w2' := by
  cases f with
  | zero => left; rw [fieldVal]
  | succ f =>
    rw [fieldVal]
    cases fl with
    | conf =>
      rcases consolidate_value hv f (rest := rest) h1 h2 hs with h | ⟨ns2, node, w2', h, hq2, hval, hnt, hd, hw2'⟩
      · left; rw [h]; rfl
      · right
        rw [h]
        exact ⟨_, _, _, rfl, hq2, hval, hnt, hd, hw2'⟩
    | json =>
      cases f with
      | zero => left; rw [DocParser.consolidate]; rfl
      | succ f =>
        rw [DocParser.consolidate]
        simp only [Res.ok_bind]
        obtain ⟨_, t, ts', rfl, hst, hsv, hp⟩ := hv
        obtain ⟨ns2, hc2, hq2⟩ := nextCollect_stop .json w1 t (ts' ++ (w2 ++ s :: rest)) h1 hst
        rw [show w1 ++ t :: ts' ++ w2 ++ s :: rest = w1 ++ t :: (ts' ++ (w2 ++ s :: rest)) by simp, hc2]
        simp only [Res.ok_bind]
        rcases hp .json (f + 1) (w2 ++ s :: rest) with h | ⟨node, hpv, hval, hnt, _, hd⟩
        · left; rw [h]; rfl
        · right
          rw [hpv]
          exact ⟨_, _, _, rfl, hq2, hval, hnt, hd, h2⟩

theorem pathNode_str (env : Env) (k : Str) (q : Bool) (s : Str) (l : Int) :
    PathParser.parsePathNodeExpression env .conf false [.value (.str k q) s l] = .ok ([k], [.value (.str k q) s l]) := by
  simp [PathParser.parsePathNodeExpression, PathParser.exprLoop, PathParser.addQuoted,
            PathParser.finish, PathParser.Elems.all, PathParser.Elems.init, PathParser.Elem.bad,
            PathM.Builder.result, PathM.Builder.appendKey, PathM.Builder.resultFrom]

theorem keyRun_stop (w : List Tok) (rest : List Tok) (hw : Wts w) :
    keyRun (w ++ .colon :: rest) = ([], w ++ .colon :: rest) := by
  cases w with
  | nil => rfl
  | cons t w =>
    have ht := hw.cons.1
    cases t <;> simp [Wt] at ht <;> rfl

theorem parseKey_str (env : Env) (fl : Syntax) (k : Str) (q : Bool) (s : Str) (l : Int) (w rest : List Tok)
    (hw : Wts w) :
    parseKey env fl (.value (.str k q) s l) (w ++ .colon :: rest)
      = .ok ([k], [.value (.str k q) s l], w ++ .colon :: rest) := by
  have h := pathNode_str env k q s l
  cases fl with
  | json => simp [parseKey, h]
  | conf =>
    rw [parseKey]
    have : keyRun (.value (.str k q) s l :: (w ++ .colon :: rest)) =
        ([.value (.str k q) s l], w ++ .colon :: rest) := by
      rw [keyRun, keyRun_stop w rest hw]
    rw [this]
    obtain ⟨t', toks', he'⟩ : ∃ t' toks', w ++ .colon :: rest = t' :: toks' := by
      cases w with
      | nil => exact ⟨_, _, rfl⟩
      | cons a b => exact ⟨_, _, rfl⟩
    rw [he']
    simp [h]

/-- A field node for one key. -/
def FieldNode (A : Scalar → Str → Prop) (K : Str → Bool → Str → Prop) (k : Str) (v : Value) (q : Bool) (text : Str)
    (n : Node) : Prop :=
  ∃ l w2 w3 node, n = .field (.path [k] [.value (.str k q) text l] :: (w2 ++ .single .colon :: (w3 ++ [node]))) ∧
    Bl w2 ∧ Bl w3 ∧ Sh A K (.value v) [node]

theorem parseField_member {env : Env} {v : Value} {ts : List Tok} (hv : PV A K env v ts) (fl : Syntax) (f : Nat)
    {w2 w3 w4 : List Tok} {k text : Str} {q : Bool} {l : Int} {s : Tok} {rest : List Tok} (h2 : Wts w2)
    (h3 : Wts w3) (h4 : Wts w4) (hs : Sep s) :
    parseField env fl f (.value (.str k q) text l) (w2 ++ .colon :: (w3 ++ ts ++ w4 ++ s :: rest)) = .fuel ∨
    ∃ node w4', parseField env fl f (.value (.str k q) text l) (w2 ++ .colon :: (w3 ++ ts ++ w4 ++ s :: rest))
        = .ok ([k], node, w4' ++ s :: rest) ∧ FieldNode A K k v q text node ∧ Wts w4' := by
  cases f with
  | zero => left; rw [parseField]
  | succ f =>
    rw [parseField]
    have hk := parseKey_str env fl k q text l w2 (w3 ++ ts ++ w4 ++ s :: rest) h2
    obtain ⟨ns, hn, hq⟩ := nextCollect_stop fl w2 .colon (w3 ++ ts ++ w4 ++ s :: rest) h2 trivial
    simp only [hk, Res.ok_bind, hn, Tok.isOpenCurly, Bool.and_false, Bool.false_eq_true, if_false]
    rw [if_pos (by cases fl <;> rfl)]
    rcases fieldVal_value hv fl f (rest := rest) h3 h4 hs with h | ⟨ns2, node, w4', h, hq2, hval, hnt, hd, hw4'⟩
    · left; rw [h]; rfl
    · right
      rw [h]
      exact ⟨_, w4', rfl, ⟨l, ns, ns2, node, by simp, hq, hq2, hd⟩, hw4'⟩

theorem addKey_ok (fl : Syntax) (keys : List Str) (k : Str) (h : k ∉ keys) : addKey fl keys [k] = .ok (k :: keys) := by
  cases fl <;> simp [addKey, h]

theorem tailO_member {env : Env} {v : Value} {ts : List Tok} (hv : PV A K env v ts) (fl : Syntax) (f : Nat)
    {ac : Bool} {keys : List Str} {w1 w2 w3 w4 : List Tok} {k text : Str} {q : Bool} {l : Int} {s : Tok}
    {r rest : List Tok} {fs : Fields} (h1 : Wts w1) (h2 : Wts w2) (h3 : Wts w3) (h4 : Wts w4) (hs : Sep s)
    (hk : k ∉ keys) (hkt : K k q text)
    (ht : ∀ f w', Wts w' → TailO A K (objectSep env fl f true (k :: keys) (w' ++ s :: r)) (.objT fs) rest) :
    TailO A K (objectLoop env fl f true ac keys
      (w1 ++ .value (.str k q) text l :: (w2 ++ .colon :: (w3 ++ ts ++ w4 ++ s :: r)))) (.obj ((k, v) :: fs)) rest := by
  cases f with
  | zero => left; rw [objectLoop]
  | succ f =>
    rw [objectLoop]
    obtain ⟨ns, hn, hq⟩ := nextCollect_stop fl w1 (.value (.str k q) text l)
      (w2 ++ .colon :: (w3 ++ ts ++ w4 ++ s :: r)) h1 trivial
    rw [hn]
    simp only [Res.ok_bind, Tok.isEnd, Bool.false_and, Bool.false_eq_true, if_false, isIncludeKeyword, Bool.and_false]
    rcases parseField_member hv fl f (rest := r) h2 h3 h4 hs (k := k) (q := q) (text := text) (l := l) with
      h | ⟨node, w4', h, hnode, hw4'⟩
    · left; rw [h]; rfl
    · rw [h]
      simp only [Res.ok_bind, addKey_ok fl keys k hk]
      rcases ht f w4' hw4' with h | ⟨ns2, h, hd⟩
      · left; rw [h]; rfl
      · right
        rw [h]
        obtain ⟨l, x2, x3, n, rfl, e2, e3, e4⟩ := hnode
        refine ⟨_, rfl, ?_⟩
        have := Sh.objCons (line := l) hq hkt e2 e3 e4 hd
        simpa using this

/-! ### All nonterminals -/

theorem resolvedFields_of {fs : Fields} (h : ∀ f ∈ fs, f.2.resolved = true) : Value.resolvedFields fs = true := by
  simp [Value.resolvedFields]
  intro a b hab
  exact h (a, b) hab

/-- What is shown for each nonterminal. -/
def PP (A : Scalar → Str → Prop) (K : Str → Bool → Str → Prop) (env : Env) : Part → List Tok → Prop
  | .value v, ts => PV A K env v ts
  | .elems vs, ts => (∀ v ∈ vs, v.resolved = true) ∧
      (∀ fl f rest, ArrA A K env fl f (ts ++ .closeSquare :: rest) vs rest) ∧
      ∀ fl f w rest, Wts w → TailA A K env fl f (w ++ .comma :: (ts ++ .closeSquare :: rest)) vs rest
  | .members fs, ts => (∀ f ∈ fs, f.2.resolved = true) ∧
      ((keysOf fs).Nodup → ∀ fl f ac keys rest, (∀ k ∈ keysOf fs, k ∉ keys) →
        TailO A K (objectLoop env fl f true ac keys (ts ++ .closeCurly :: rest)) (.obj fs) rest)

theorem resolvedAll_of {vs : List Value} (h : ∀ v ∈ vs, v.resolved = true) : Value.resolvedAll vs = true := by
  induction vs with
  | nil => simp [Value.resolvedAll]
  | cons v vs ih =>
    simp [Value.resolvedAll, h v (.head _)]
    exact ih (fun x hx => h x (.tail _ hx))

theorem pv_array {env : Env} {ts : List Tok} {vs : List Value} (hr : ∀ v ∈ vs, v.resolved = true)
    (h : ∀ fl f rest, ArrA A K env fl f (ts ++ .closeSquare :: rest) vs rest) :
    PV A K env (.list vs) (.openSquare :: ts ++ [.closeSquare]) := by
  refine ⟨by simp [Value.resolved]; exact resolvedAll_of hr, .openSquare, ts ++ [.closeSquare], rfl, trivial, rfl, ?_⟩
  intro fl f rest
  cases f with
  | zero => left; rw [parseValue]
  | succ f =>
    rw [parseValue]
    rw [List.append_assoc]
    rcases h fl f rest with h | ⟨ns, h, hd⟩
    · left; exact h
    · right
      exact ⟨_, h, rfl, rfl, fun _ => rfl, .array hd⟩

theorem pv_object {env : Env} {ts : List Tok} {fs : Fields} (hnd : (keysOf fs).Nodup)
    (h : ∀ fl f rest, TailO A K (objectLoop env fl f true false [] (ts ++ .closeCurly :: rest)) (.obj fs) rest) :
    PV A K env (.obj fs true false) (.openCurly :: ts ++ [.closeCurly]) := by
  refine ⟨rfl, .openCurly, ts ++ [.closeCurly], rfl, trivial, rfl, ?_⟩
  intro fl f rest
  cases f with
  | zero => left; rw [parseValue]
  | succ f =>
    rw [parseValue]
    rw [List.append_assoc]
    rcases h fl f rest with h | ⟨ns, h, hd⟩
    · left
      simp only [List.singleton_append]
      rw [h]; rfl
    · right
      simp only [List.singleton_append]
      rw [h]
      exact ⟨_, rfl, rfl, rfl, fun _ => rfl, .object hd hnd⟩

theorem jtok_parses (env : Env) {p : Part} {ts : List Tok} (h : JTok A K p ts) : PP A K env p ts := by
  induction h with
  | @scalar v text line hA =>
    refine ⟨rfl, _, [], rfl, trivial, rfl, ?_⟩
    intro fl f rest
    cases f with
    | zero => left; rw [parseValue]
    | succ f =>
      right
      refine ⟨.simple (.value v text line), by rw [parseValue]; rfl, rfl, rfl, ?_, .scalar hA⟩
      simp [Tok.isOpenCurly]
  | @emptyArr w hw =>
    exact pv_array (by simp) (fun fl f rest => arrA_empty env fl f w rest hw)
  | arr h ih => exact pv_array ih.1 ih.2.1
  | @emptyObj w hw =>
    exact pv_object (by simp [keysOf]) (fun fl f rest => tailO_loop_close env fl f false [] w rest hw (fun _ => rfl))
  | obj h hn ih => exact pv_object hn (fun fl f rest => ih.2 hn fl f false [] rest (by simp))
  | @elem w1 ts w2 v h1 hv h2 ih =>
    refine ⟨by simpa using ih.1, ?_, ?_⟩
    · intro fl f rest
      exact arrA_cons ih fl f h1 h2 trivial (fun f w2' hw => tailA_close env fl f w2' rest hw)
    · intro fl f w rest hw
      exact tailA_cons ih fl f hw h1 h2 trivial (fun f w2' hw => tailA_close env fl f w2' rest hw)
  | @elemCons w1 ts w2 us v vs h1 hv h2 hus ihv ihs =>
    refine ⟨?_, ?_, ?_⟩
    · intro x hx
      simp at hx
      rcases hx with rfl | hx
      · exact ihv.1
      · exact ihs.1 x hx
    · intro fl f rest
      have := arrA_cons ihv fl f (r := us ++ .closeSquare :: rest) h1 h2 (s := .comma) trivial
        (fun f w2' hw => ihs.2.2 fl f w2' rest hw)
      simpa using this
    · intro fl f w rest hw
      have := tailA_cons ihv fl f (r := us ++ .closeSquare :: rest) hw h1 h2 (s := .comma) trivial
        (fun f w2' hw => ihs.2.2 fl f w2' rest hw)
      simpa using this
  | @member w1 w2 w3 ts w4 k text q line v h1 hkt h2 h3 hv h4 ih =>
    refine ⟨by simpa using ih.1, ?_⟩
    intro hnd fl f ac keys rest hk
    have := tailO_member ih fl f (ac := ac) (keys := keys) (q := q) (text := text) (l := line)
      (r := rest) (s := .closeCurly) (fs := []) (rest := rest) h1 h2 h3 h4 trivial (hk k (by simp [keysOf])) hkt
      (fun f w' hw' => tailO_sep_close env fl f _ w' rest hw')
    simpa using this
  | @memberCons w1 w2 w3 ts w4 us k text q line v fs h1 hkt h2 h3 hv h4 hus ihv ihs =>
    refine ⟨?_, ?_⟩
    · intro x hx
      simp at hx
      rcases hx with rfl | hx
      · exact ihv.1
      · exact ihs.1 x hx
    · intro hnd fl f ac keys rest hk
      have hnd' : k ∉ keysOf fs ∧ (keysOf fs).Nodup := by
        simpa [keysOf] using hnd
      have hk' : ∀ k' ∈ keysOf fs, k' ∉ k :: keys := by
        intro k' hm hm'
        simp at hm'
        rcases hm' with rfl | hm'
        · exact hnd'.1 hm
        · refine hk k' ?_ hm'
          rw [keysOf, List.map_cons]
          exact .tail _ hm
      have := tailO_member ihv fl f (ac := ac) (keys := keys) (q := q) (text := text) (l := line)
        (r := us ++ .closeCurly :: rest) (s := .comma) (fs := fs) (rest := rest) h1 h2 h3 h4 trivial
        (hk k (by simp [keysOf])) hkt
        (fun f w' hw' => tailO_sep_comma (by cases hus <;> simp) hw' (fun f => ihs.2 hnd'.2 fl f true _ rest hk'))
      simpa using this

/-! ### What the nodes denote -/

/-- A field node for one key that parses to `v`. -/
def FieldDen (env : Env) (k : Str) (v : Value) (n : Node) : Prop :=
  ∃ cs, n = .field cs ∧ (∃ pt, Node.fieldPath cs = .ok ([k], pt)) ∧ ConfigParser.isPlusEquals cs = false ∧
    ∀ inc json arr outer m, ConfigParser.parseFieldValue env inc json arr outer cs m = .ok (v, m)

theorem fieldDen_of {env : Env} {k : Str} {v : Value} {pt : List Tok} {w2 w3 : List Node} {n : Node} (h2 : Bl w2)
    (h3 : Bl w3) (hv : n.isValue = true) (ht : n.singleToken? = none) (hd : Denotes env n v) :
    FieldDen env k v (.field (.path [k] pt :: (w2 ++ .single .colon :: (w3 ++ [n])))) := by
  refine ⟨_, rfl, ⟨pt, rfl⟩, ?_, ?_⟩
  · apply noPlus
    intro m hm
    have hquiet : ∀ {qs : List Node}, Quiet qs → m ∈ qs → m.singleToken? ≠ some .plusEquals := by
      intro qs hqs hm
      obtain ⟨t, rfl, ht⟩ := hqs m hm
      simpa [Node.singleToken?] using ht
    simp at hm
    rcases hm with rfl | hn | rfl | hn | rfl
    · simp [Node.singleToken?]
    · exact hquiet h2.quiet hn
    · simp [Node.singleToken?]
    · exact hquiet h3.quiet hn
    · simp [ht]
  · intro inc json arr outer m
    rw [show (.path [k] pt :: (w2 ++ .single .colon :: (w3 ++ [n])) : List Node)
      = .path [k] pt :: ((w2 ++ ([.single .colon] ++ w3)) ++ [n]) by simp]
    rw [ConfigParser.parseFieldValue]
    simp only [Node.isValue, Bool.false_eq_true, if_false]
    rw [fieldValue_quiet (h2.quiet.append ((Quiet.one _ (by simp)).append h3.quiet)), ConfigParser.parseFieldValue]
    simp only [hv, if_true]
    exact hd inc json arr outer m

theorem DenotesF.field {env : Env} {k : Str} {v : Value} {n : Node} {ns : List Node} {fs : Fields}
    (hn : FieldDen env k v n) (h : DenotesF env ns fs) (hk : k ∉ keysOf fs) :
    DenotesF env (n :: ns) ((k, v) :: fs) := by
  obtain ⟨cs, rfl, ⟨pt, hp⟩, hpe, hval⟩ := hn
  intro inc json arr outer fs0 m hd
  have hk0 : k ∉ keysOf fs0 := hd k (by simp [keysOf])
  rw [ConfigParser.parseFields_field env inc json arr outer cs ns fs0 m hpe, hp]
  simp only [Res.ok_bind, hval]
  have hput : ConfigParser.putField json fs0 [k] v = .ok (fs0 ++ [(k, v)]) := by
    simp [ConfigParser.putField, ConfigParser.putMerged, findKey_not_mem hk0, putKey_not_mem' hk0]
  rw [hput]
  simp only [Res.ok_bind]
  have := h inc json arr outer (fs0 ++ [(k, v)]) m (by
    intro k' hk' hmem
    simp [keysOf] at hmem hk' hd
    rcases hmem with hmem | rfl
    · obtain ⟨a, ha⟩ := hmem
      obtain ⟨b, hb⟩ := hk'
      exact hd.2 k' b hb a ha
    · obtain ⟨b, hb⟩ := hk'
      exact hk (by simp [keysOf]; exact ⟨b, hb⟩))
  rw [this]
  simp

theorem denotes_array {env : Env} {ns : List Node} {vs : List Value} (h : DenotesL env ns vs) :
    Denotes env (.array ns) (.list vs) := by
  intro inc json arr outer n
  rw [ConfigParser.parseValue, h inc json (arr + 1) outer n]
  rfl

theorem denotes_object {env : Env} {ns : List Node} {fs : Fields} (h : DenotesF env ns fs)
    (hr : ∀ f ∈ fs, f.2.resolved = true) :
    Denotes env (.object (.single .openCurly :: ns)) (.obj fs true false) := by
  intro inc json arr outer n
  rw [ConfigParser.parseValue]
  have := DenotesF.quiet (Quiet.one .openCurly (by simp)) h inc json arr outer [] n (by simp [keysOf])
  simp only [List.singleton_append, List.nil_append] at this
  rw [this]
  simp [Value.newObj, resolvedFields_of hr]

/-- What is shown of the nodes. -/
def Den (env : Env) : Kind → List Node → Prop
  | .value v, ns => v.resolved = true ∧ ∀ n, ns = [n] → Denotes env n v
  | .arr vs, ns => (∀ v ∈ vs, v.resolved = true) ∧ DenotesL env ns vs
  | .arrT vs, ns => (∀ v ∈ vs, v.resolved = true) ∧ DenotesL env ns vs
  | .obj fs, ns => (∀ f ∈ fs, f.2.resolved = true) ∧ ((keysOf fs).Nodup → DenotesF env ns fs)
  | .objT fs, ns => (∀ f ∈ fs, f.2.resolved = true) ∧ ((keysOf fs).Nodup → DenotesF env ns fs)

theorem Sh.den (env : Env) {kd : Kind} {ns : List Node} (h : Sh A K kd ns) : Den env kd ns := by
  have comma : Quiet [.single .comma] := Quiet.one _ (by simp)
  have sq : Quiet [.single .closeSquare] := Quiet.one _ (by simp)
  have cu : Quiet [.single .closeCurly] := Quiet.one _ (by simp)
  induction h with
  | @scalar v text line _ =>
    refine ⟨rfl, ?_⟩
    rintro n hn
    cases hn
    intro inc json arr outer n
    rw [ConfigParser.parseValue]; rfl
  | array h ih =>
    refine ⟨by simp [Value.resolved]; exact resolvedAll_of ih.1, ?_⟩
    rintro n hn
    cases hn
    exact denotes_array (DenotesL.quiet (Quiet.one .openSquare (by simp)) ih.2)
  | object h hnd ih =>
    refine ⟨rfl, ?_⟩
    rintro n hn
    cases hn
    exact denotes_object (ih.2 hnd) ih.1
  | arrNil hw => exact ⟨by simp, by simpa using DenotesL.quiet (hw.quiet.append sq) (DenotesL.nil env)⟩
  | arrTNil hw => exact ⟨by simp, by simpa using DenotesL.quiet (hw.quiet.append sq) (DenotesL.nil env)⟩
  | arrCons hw hv hs ihv ihs =>
    refine ⟨by simpa using ⟨ihv.1, ihs.1⟩, DenotesL.quiet hw.quiet (DenotesL.cons hv.isValue.1 (ihv.2 _ rfl) ihs.2)⟩
  | arrTCons hw hs ihs => exact ⟨ihs.1, by simpa using DenotesL.quiet (hw.quiet.append comma) ihs.2⟩
  | objNil hw => exact ⟨by simp, fun _ => by simpa using DenotesF.quiet (hw.quiet.append cu) (DenotesF.nil env)⟩
  | objTNil hw => exact ⟨by simp, fun _ => by simpa using DenotesF.quiet (hw.quiet.append cu) (DenotesF.nil env)⟩
  | objCons hw _ h2 h3 hv hs ihv ihs =>
    refine ⟨?_, fun hnd => ?_⟩
    · intro f hf
      rcases List.mem_cons.1 hf with rfl | hf
      · exact ihv.1
      · exact ihs.1 f hf
    · rw [keysOf, List.map_cons, List.nodup_cons] at hnd
      exact DenotesF.quiet hw.quiet (DenotesF.field (fieldDen_of h2 h3 hv.isValue.1 hv.isValue.2 (ihv.2 _ rfl)) (ihs.2 hnd.2) hnd.1)
  | objTCons hw hs ihs => exact ⟨ihs.1, fun hnd => by simpa using DenotesF.quiet (hw.quiet.append comma) (ihs.2 hnd)⟩

end

end JsonParse
end Hocon
