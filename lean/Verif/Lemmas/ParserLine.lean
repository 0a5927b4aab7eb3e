import Verif.Lemmas.LexLine
import Verif.Lemmas.DocParserTotal

/-!
# The document parser does not look at line numbers
-/

set_option autoImplicit false
set_option linter.unusedSimpArgs false

namespace Hocon

mutual
theorem Tok.text_unline (t : Tok) : t.unline.text = t.text := by
  cases t with
  | subst o e l => simp [Tok.unline, Tok.text, Tok.textList_unline e]
  | comment d t l => cases d <;> rfl
  | _ => rfl
theorem Tok.textList_unline (ts : List Tok) : Tok.textList (Tok.unlineList ts) = Tok.textList ts := by
  cases ts with
  | nil => rfl
  | cons t ts => simp [Tok.unlineList, Tok.textList, Tok.text_unline t, Tok.textList_unline ts]
end

mutual
/-- The node without line numbers. -/
def Node.unline : Node → Node
  | .single t => .single t.unline
  | .comment t => .comment t.unline
  | .path p ts => .path p (ts.map Tok.unline)
  | .simple t => .simple t.unline
  | .field cs => .field (Node.unlineList cs)
  | .incl cs k => .incl (Node.unlineList cs) k
  | .object cs => .object (Node.unlineList cs)
  | .array cs => .array (Node.unlineList cs)
  | .concat cs => .concat (Node.unlineList cs)
/-- The nodes without line numbers. -/
def Node.unlineList : List Node → List Node
  | [] => []
  | n :: ns => Node.unline n :: Node.unlineList ns
end

namespace Node

theorem unlineList_eq (ns : List Node) : unlineList ns = ns.map unline := by
  induction ns with
  | nil => rfl
  | cons n ns ih => simp [unlineList, ih]

mutual
theorem tokens_unline (n : Node) : n.unline.tokens = n.tokens.map Tok.unline := by
  cases n with
  | field cs => simp only [unline, tokens]; exact tokensList_unline cs
  | incl cs k => simp only [unline, tokens]; exact tokensList_unline cs
  | object cs => simp only [unline, tokens]; exact tokensList_unline cs
  | array cs => simp only [unline, tokens]; exact tokensList_unline cs
  | concat cs => simp only [unline, tokens]; exact tokensList_unline cs
  | _ => rfl
theorem tokensList_unline (ns : List Node) : tokensList (unlineList ns) = (tokensList ns).map Tok.unline := by
  cases ns with
  | nil => rfl
  | cons n ns => simp [unlineList, tokensList, tokens_unline n, tokensList_unline ns]
end

/-- The text does not depend on the lines. -/
theorem renderList_unline (ns : List Node) : renderList (unlineList ns) = renderList ns := by
  rw [renderList, tokensList_unline, ← Tok.unlineList_eq, Tok.textList_unline, renderList]

theorem isValue_unline (n : Node) : n.unline.isValue = n.isValue := by cases n <;> rfl

theorem singleToken_unline (n : Node) : n.unline.singleToken? = n.singleToken?.map Tok.unline := by
  cases n <;> rfl

end Node

/-- The function applied to a normal return. -/
def mapRes {α β : Type} (u : α → β) (r : Res α) : Res β := r >>= fun x => .ok (u x)

theorem mapRes_ok {α β : Type} (u : α → β) (x : α) : mapRes u (.ok x) = .ok (u x) := rfl
theorem mapRes_err {α β : Type} (u : α → β) (e : Err) : mapRes u (.err e : Res α) = .err e := rfl
theorem mapRes_ub {α β : Type} (u : α → β) : mapRes u (.ub : Res α) = .ub := rfl
theorem mapRes_fuel {α β : Type} (u : α → β) : mapRes u (.fuel : Res α) = .fuel := rfl

theorem mapRes_bind {α β γ : Type} (u : β → γ) (a : Res α) (k : α → Res β) :
    mapRes u (a >>= k) = a >>= fun x => mapRes u (k x) := by
  cases a <;> rfl

theorem bind_mapRes {α β γ : Type} (u : α → β) (a : Res α) (k : β → Res γ) :
    mapRes u a >>= k = a >>= fun x => k (u x) := by
  cases a <;> rfl

theorem bind_same {α β : Type} {a : Res α} {k k' : α → Res β} (h : ∀ x, k x = k' x) : a >>= k = a >>= k' := by
  rw [funext h]

theorem bind_line {α β γ : Type} {u : α → α} {v : β → γ} {a a' : Res α} {k : α → Res β} {k' : α → Res γ}
    (ha : a' = mapRes u a) (hk : ∀ x, k' (u x) = mapRes v (k x)) : a' >>= k' = mapRes v (a >>= k) := by
  rw [ha, bind_mapRes, mapRes_bind]
  exact bind_same hk

theorem mapRes_if {α β : Type} (u : α → β) (c : Prop) [Decidable c] (a b : Res α) :
    mapRes u (if c then a else b) = if c then mapRes u a else mapRes u b := by
  split <;> rfl

namespace PathParser

theorem pieceTokens_unline (fl : Syntax) (l l' : Int) (ss : List Str) :
    (pieceTokens fl l ss).map Tok.unline = (pieceTokens fl l' ss).map Tok.unline := by
  induction ss with
  | nil => rfl
  | cons s ss ih => cases fl <;> simp [pieceTokens, Tok.unline, ih]

theorem pieceTokens_zero (fl : Syntax) (ss : List Str) :
    (pieceTokens fl 0 ss).map Tok.unline = pieceTokens fl 0 ss := by
  induction ss with
  | nil => rfl
  | cons s ss ih => cases fl <;> simp [pieceTokens, Tok.unline, ih]

theorem splitToken_unline (fl : Syntax) {t : Tok} (h : tokLine t.unline = 0) :
    splitTokenOnPeriod fl t.unline = mapRes (List.map Tok.unline) (splitTokenOnPeriod fl t) := by
  unfold splitTokenOnPeriod
  simp only [Tok.text_unline, h]
  split
  · rfl
  · split
    · rfl
    · split
      · rw [mapRes_ok, pieceTokens_unline fl (tokLine t) 0, pieceTokens_zero]
      · rw [mapRes_ok, List.map_dropLast, pieceTokens_unline fl (tokLine t) 0, pieceTokens_zero]

theorem exprLoop_unline (env : Env) (fl : Syntax) (ho : Bool) (es : Elems) (pt ts : List Tok) :
    exprLoop env fl ho es (pt.map Tok.unline) (ts.map Tok.unline)
      = mapRes (fun x => (x.1, x.2.map Tok.unline)) (exprLoop env fl ho es pt ts) := by
  induction ts generalizing es pt with
  | nil => rfl
  | cons t ts ih =>
    have e1 : ∀ t : Tok, pt.map Tok.unline ++ [t.unline] = (pt ++ [t]).map Tok.unline := by simp
    have e2 : ∀ s : List Tok, pt.map Tok.unline ++ s.map Tok.unline = (pt ++ s).map Tok.unline := by simp
    rw [List.map_cons]
    cases t with
    | value v x l =>
      cases v with
      | str s b => simp only [Tok.unline, exprLoop]; rw [← ih]; simp [Tok.unline]
      | _ =>
        simp only [Tok.unline, exprLoop]
        refine bind_line (splitToken_unline fl (t := .value _ x l) rfl) fun s => ?_
        rw [e2, ih]
    | unquoted x l =>
      simp only [Tok.unline, exprLoop]
      refine bind_line (splitToken_unline fl (t := .unquoted x l) rfl) fun s => ?_
      rw [e2, ih]
    | ws s l => simp only [Tok.unline, exprLoop]; rw [← ih]; simp [Tok.unline]
    | end_ => simp only [Tok.unline, exprLoop]; rw [← ih]; simp [Tok.unline]
    | _ => simp only [Tok.unline, exprLoop, badPath]; cases ho <;> rfl

theorem node_unline (env : Env) (fl : Syntax) (ho : Bool) (ts : List Tok) :
    parsePathNodeExpression env fl ho (ts.map Tok.unline)
      = mapRes (fun x => (x.1, x.2.map Tok.unline)) (parsePathNodeExpression env fl ho ts) := by
  unfold parsePathNodeExpression
  rw [List.isEmpty_map]
  split
  · unfold badPath; cases ho <;> rfl
  · refine bind_line (u := fun x => (x.1, x.2.map Tok.unline)) (exprLoop_unline env fl ho _ [] ts) fun x => ?_
    simp only [mapRes_bind]
    rfl

end PathParser

namespace DocParser
open PathParser (Syntax)
open Node

/-- Nodes, token and rest without lines. -/
abbrev uNTT : List Node × Tok × List Tok → List Node × Tok × List Tok :=
  fun x => (unlineList x.1, x.2.1.unline, x.2.2.map Tok.unline)
/-- Nodes, flag and rest without lines. -/
abbrev uNBT : List Node × Bool × List Tok → List Node × Bool × List Tok :=
  fun x => (unlineList x.1, x.2.1, x.2.2.map Tok.unline)
/-- Nodes, optional value and rest without lines. -/
abbrev uNOT : List Node × Option Node × List Tok → List Node × Option Node × List Tok :=
  fun x => (unlineList x.1, x.2.1.map unline, x.2.2.map Tok.unline)
/-- Nodes, value and rest without lines. -/
abbrev uNVT : List Node × Node × List Tok → List Node × Node × List Tok :=
  fun x => (unlineList x.1, x.2.1.unline, x.2.2.map Tok.unline)
/-- Node and rest without lines. -/
abbrev uVT : Node × List Tok → Node × List Tok := fun x => (x.1.unline, x.2.map Tok.unline)
/-- Nodes and rest without lines. -/
abbrev uNT : List Node × List Tok → List Node × List Tok := fun x => (unlineList x.1, x.2.map Tok.unline)
/-- Token and rest without lines. -/
abbrev uTT : Tok × List Tok → Tok × List Tok := fun x => (x.1.unline, x.2.map Tok.unline)
/-- Path, node and rest without lines. -/
abbrev uPVT : Path × Node × List Tok → Path × Node × List Tok := fun x => (x.1, x.2.1.unline, x.2.2.map Tok.unline)
/-- Path, tokens and rest without lines. -/
abbrev uPTT : Path × List Tok × List Tok → Path × List Tok × List Tok :=
  fun x => (x.1, x.2.1.map Tok.unline, x.2.2.map Tok.unline)

theorem unlineList_append (a b : List Node) : unlineList (a ++ b) = unlineList a ++ unlineList b := by
  simp [unlineList_eq]

theorem isUnquotedWs_unline (t : Tok) : isUnquotedWs t.unline = isUnquotedWs t := by cases t <;> rfl

theorem nextToken_unline (fl : Syntax) (ts : List Tok) :
    nextToken fl (ts.map Tok.unline) = mapRes uTT (nextToken fl ts) := by
  cases ts with
  | nil => rfl
  | cons t ts =>
    cases fl
    · cases t with
      | unquoted s l =>
        simp only [List.map_cons, nextToken, Tok.unline, mapRes_if]
        rfl
      | _ => rfl
    · rfl

theorem collectNode_unline (t : Tok) : collectNode t.unline = (collectNode t).map unline := by
  cases t with
  | unquoted s l =>
    by_cases h : isUnquotedWs (.unquoted s l) = true
    · have h' : isUnquotedWs (.unquoted s 0) = true := h
      simp only [Tok.unline, collectNode, h, h', if_true]; rfl
    · have h' : ¬ isUnquotedWs (.unquoted s 0) = true := h
      simp only [Tok.unline, collectNode, h, h', if_false]; rfl
  | _ => rfl

theorem nextCollect_unline (fl : Syntax) (ts : List Tok) :
    nextCollect fl (ts.map Tok.unline) = mapRes uNTT (nextCollect fl ts) := by
  induction ts with
  | nil => rfl
  | cons t ts ih =>
    rw [List.map_cons, nextCollect, nextCollect, ← List.map_cons]
    refine bind_line (nextToken_unline fl (t :: ts)) fun _ => ?_
    rw [collectNode_unline]
    cases collectNode t with
    | none => rfl
    | some n =>
      simp only [Option.map_some]
      exact bind_line ih fun _ => rfl

theorem sepLoop_unline (b : Bool) (ts : List Tok) :
    sepLoop b (ts.map Tok.unline) = mapRes uNBT (sepLoop b ts) := by
  induction ts generalizing b with
  | nil => rfl
  | cons t ts ih =>
    rw [List.map_cons]
    cases t with
    | unquoted s l =>
      by_cases h : isUnquotedWs (.unquoted s l) = true
      · have h' : isUnquotedWs (.unquoted s 0) = true := h
        simp only [Tok.unline, sepLoop, collectNode, h, h', if_true]
        exact bind_line (ih _) fun _ => rfl
      · have h' : ¬ isUnquotedWs (.unquoted s 0) = true := h
        simp only [Tok.unline, sepLoop, collectNode, h, h', if_false]; rfl
    | newline l => simp only [Tok.unline, sepLoop, collectNode]; exact bind_line (ih _) fun _ => rfl
    | ws s l => simp only [Tok.unline, sepLoop, collectNode]; exact bind_line (ih _) fun _ => rfl
    | comment d s l => simp only [Tok.unline, sepLoop, collectNode]; exact bind_line (ih _) fun _ => rfl
    | _ => rfl

theorem checkSep_unline (fl : Syntax) (ts : List Tok) :
    checkSep fl (ts.map Tok.unline) = mapRes uNBT (checkSep fl ts) := by
  cases fl with
  | conf => exact sepLoop_unline _ _
  | json =>
    unfold checkSep
    refine bind_line (nextCollect_unline .json ts) fun x => ?_
    obtain ⟨ns, t, r⟩ := x
    cases t <;> simp [Tok.unline, mapRes_ok, unlineList_append, unlineList, Node.unline]

theorem keyRun_unline (ts : List Tok) :
    keyRun (ts.map Tok.unline) = ((keyRun ts).1.map Tok.unline, (keyRun ts).2.map Tok.unline) := by
  induction ts with
  | nil => rfl
  | cons t ts ih => cases t <;> simp [keyRun, Tok.unline, ih]

theorem parseKey_unline (env : Env) (fl : Syntax) (t : Tok) (ts : List Tok) :
    parseKey env fl t.unline (ts.map Tok.unline) = mapRes uPTT (parseKey env fl t ts) := by
  cases fl with
  | json =>
    cases t with
    | value v x l =>
      cases v with
      | str s b =>
        simp only [parseKey, Tok.unline]
        exact bind_line (PathParser.node_unline env .conf false [.value (.str s b) x l]) fun _ => rfl
      | _ => rfl
    | _ => rfl
  | conf =>
    unfold parseKey
    rw [← List.map_cons, keyRun_unline]
    cases keyRun (t :: ts) with
    | mk e r =>
      cases e with
      | nil => rfl
      | cons a e =>
        cases r with
        | nil => rfl
        | cons b r => exact bind_line (PathParser.node_unline env .conf false (a :: e)) fun _ => rfl

theorem isStringValue_unline (t : Tok) : isStringValue t.unline = isStringValue t := by
  cases t with
  | value v x l => cases v <;> rfl
  | _ => rfl

theorem parseInclude_unline (pre : List Node) (ts : List Tok) :
    parseInclude (unlineList pre) (ts.map Tok.unline) = mapRes uVT (parseInclude pre ts) := by
  unfold parseInclude
  refine bind_line (nextCollect_unline .conf ts) fun x => ?_
  obtain ⟨ws, t, r⟩ := x
  have other : (if isStringValue t.unline = true then
        (Res.ok (Node.incl (unlineList pre ++ unlineList ws ++ [Node.simple t.unline]) IncludeKind.heuristic, r.map Tok.unline))
      else .err .parse) = mapRes uVT (if isStringValue t = true then
        (Res.ok (Node.incl (pre ++ ws ++ [Node.simple t]) IncludeKind.heuristic, r)) else .err .parse) := by
    rw [mapRes_if, isStringValue_unline]
    simp [uNTT, uNOT, uNVT, uVT, uNT, uPVT, mapRes_ok, mapRes_err, Node.unline, unlineList_append, unlineList]
  cases t with
  | unquoted s l =>
    simp only [Tok.unline]
    cases includeKind s with
    | none => rfl
    | some k =>
      simp only
      refine bind_line (nextCollect_unline .conf r) fun x => ?_
      simp only [isStringValue_unline, mapRes_if]
      split
      · refine bind_line (nextCollect_unline .conf _) fun y => ?_
        simp only [Tok.text_unline, mapRes_if]
        split
        · simp [uNTT, uNOT, uNVT, uVT, uNT, uPVT, mapRes_ok, Node.unline, unlineList_append, unlineList, Tok.unline]
        · rfl
      · rfl
  | _ => exact other

theorem startsValue_unline (t : Tok) : startsValue t.unline = startsValue t := by cases t <;> rfl

theorem putBackFrom_unline (ns : List Node) (ts : List Tok) :
    putBackFrom (unlineList ns) (ts.map Tok.unline) = (putBackFrom ns ts).map Tok.unline := by
  induction ns generalizing ts with
  | nil => rfl
  | cons n ns ih =>
    rw [unlineList, putBackFrom, putBackFrom, ← ih, tokens_unline]
    congr 1
    cases n.tokens <;> simp

theorem splitSingle_unline (ns : List Node) (ts : List Tok) :
    splitSingle (unlineList ns) (ts.map Tok.unline) = uNOT (splitSingle ns ts) := by
  induction ns with
  | nil => rfl
  | cons n ns ih =>
    rw [unlineList, splitSingle, splitSingle, isValue_unline]
    split
    · simp [putBackFrom_unline, unlineList]
    · rw [ih]; rfl

theorem dropTrailing_unline (ns : List Node) (ts : List Tok) :
    dropTrailing (unlineList ns) (ts.map Tok.unline) = uNT (dropTrailing ns ts) := by
  induction ns generalizing ts with
  | nil => rfl
  | cons n ns ih =>
    rw [unlineList, dropTrailing, dropTrailing, singleToken_unline]
    cases n.singleToken? with
    | none => rfl
    | some t => simp only [Option.map_some]; rw [← ih]; rfl

theorem consFinish_unline (ns : List Node) (t : Tok) (ts : List Tok) :
    consFinish (unlineList ns) t.unline (ts.map Tok.unline) = uNOT (consFinish ns t ts) := by
  unfold consFinish
  have e : (unlineList ns).countP Node.isValue = ns.countP Node.isValue := by
    rw [unlineList_eq, List.countP_map]
    congr 1
    funext n
    exact isValue_unline n
  have e2 : (unlineList ns).reverse = unlineList ns.reverse := by simp [unlineList_eq]
  rw [e, ← List.map_cons]
  split
  · exact splitSingle_unline _ _
  · rw [e2, dropTrailing_unline]
    simp [unlineList, Node.unline, unlineList_eq]

/-- What is shown of the parser functions. -/
structure UnlineP (env : Env) (fl : Syntax) (f : Nat) : Prop where
  value : ∀ t toks, parseValue env fl f t.unline (toks.map Tok.unline) = mapRes uVT (parseValue env fl f t toks)
  loop : ∀ t toks, consLoop env fl f t.unline (toks.map Tok.unline) = mapRes uNTT (consLoop env fl f t toks)
  cons : ∀ toks, consolidate env fl f (toks.map Tok.unline) = mapRes uNOT (consolidate env fl f toks)
  fval : ∀ toks, fieldVal env fl f (toks.map Tok.unline) = mapRes uNVT (fieldVal env fl f toks)
  field : ∀ t toks, parseField env fl f t.unline (toks.map Tok.unline) = mapRes uPVT (parseField env fl f t toks)
  obj : ∀ ho ac keys toks, objectLoop env fl f ho ac keys (toks.map Tok.unline)
    = mapRes uNT (objectLoop env fl f ho ac keys toks)
  sep : ∀ ho keys toks, objectSep env fl f ho keys (toks.map Tok.unline) = mapRes uNT (objectSep env fl f ho keys toks)
  array : ∀ toks, parseArray env fl f (toks.map Tok.unline) = mapRes uVT (parseArray env fl f toks)
  aloop : ∀ toks, arrayLoop env fl f (toks.map Tok.unline) = mapRes uNT (arrayLoop env fl f toks)

theorem isEnd_unline (t : Tok) : t.unline.isEnd = t.isEnd := by cases t <;> rfl
theorem isOpenCurly_unline (t : Tok) : t.unline.isOpenCurly = t.isOpenCurly := by cases t <;> rfl
theorem isCloseSquare_unline (t : Tok) : t.unline.isCloseSquare = t.isCloseSquare := by cases t <;> rfl
theorem isIncludeKeyword_unline (t : Tok) : isIncludeKeyword t.unline = isIncludeKeyword t := by cases t <;> rfl
theorem isKVS_unline (fl : Syntax) (t : Tok) : isKeyValueSeparator fl t.unline = isKeyValueSeparator fl t := by
  cases t <;> rfl

theorem unline_all (env : Env) (fl : Syntax) (f : Nat) : UnlineP env fl f := by
  induction f with
  | zero =>
    constructor <;> intros <;>
      simp [parseValue, consLoop, consolidate, fieldVal, parseField, objectLoop, objectSep, parseArray, arrayLoop, mapRes_fuel]
  | succ f ih =>
    constructor
    · intro t toks
      cases t with
      | openCurly =>
        simp only [Tok.unline, parseValue]
        exact bind_line (ih.obj ..) fun _ => rfl
      | openSquare => simp only [Tok.unline, parseValue]; exact ih.array _
      | _ => rfl
    · intro t toks
      have other : (if startsValue t.unline then do
          let (v, toks1) ← parseValue env fl f t.unline (toks.map Tok.unline)
          let (t', toks') ← nextToken fl toks1
          let (vs, t'', toks'') ← consLoop env fl f t' toks'
          Res.ok (v :: vs, t'', toks'')
        else .ok ([], t.unline, toks.map Tok.unline)) = mapRes uNTT (if startsValue t then do
          let (v, toks1) ← parseValue env fl f t toks
          let (t', toks') ← nextToken fl toks1
          let (vs, t'', toks'') ← consLoop env fl f t' toks'
          Res.ok (v :: vs, t'', toks'')
        else .ok ([], t, toks)) := by
        rw [startsValue_unline, mapRes_if]
        split
        · refine bind_line (ih.value _ _) fun x => ?_
          refine bind_line (nextToken_unline _ _) fun y => ?_
          exact bind_line (ih.loop _ _) fun z => rfl
        · rfl
      cases t with
      | ws s l =>
        simp only [Tok.unline, consLoop]
        refine bind_line (nextToken_unline _ _) fun y => ?_
        exact bind_line (ih.loop _ _) fun z => rfl
      | _ => exact other
    · intro toks
      cases fl with
      | json => rfl
      | conf =>
        simp only [consolidate]
        refine bind_line (nextCollect_unline _ _) fun x => ?_
        refine bind_line (ih.loop _ _) fun y => ?_
        simp only [consFinish_unline, mapRes_ok, uNOT, unlineList_append]
    · intro toks
      simp only [fieldVal]
      refine bind_line (ih.cons _) fun x => ?_
      obtain ⟨ws, v, r⟩ := x
      cases v with
      | some v => rfl
      | none =>
        simp only [Option.map_none]
        refine bind_line (nextCollect_unline _ _) fun y => ?_
        refine bind_line (ih.value _ _) fun z => ?_
        simp only [uNTT, uNOT, uNVT, uVT, uNT, uPVT, mapRes_ok, unlineList_append]
    · intro t toks
      simp only [parseField]
      refine bind_line (parseKey_unline env fl t toks) fun x => ?_
      refine bind_line (nextCollect_unline _ _) fun y => ?_
      simp only [isOpenCurly_unline, isKVS_unline, mapRes_if]
      split
      · refine bind_line (ih.value _ _) fun z => ?_
        simp [uNTT, uNOT, uNVT, uVT, uNT, uPVT, mapRes_ok, Node.unline, unlineList_append, unlineList]
      · split
        · refine bind_line (ih.fval _) fun z => ?_
          simp [uNTT, uNOT, uNVT, uVT, uNT, uPVT, mapRes_ok, Node.unline, unlineList_append, unlineList]
        · rfl
    · intro ho ac keys toks
      simp only [objectLoop]
      refine bind_line (nextCollect_unline _ _) fun x => ?_
      obtain ⟨ws, t, r⟩ := x
      have other : (if t.unline.isEnd && !ho then Res.ok (unlineList ws, t.unline :: r.map Tok.unline)
        else if fl = .conf && isIncludeKeyword t.unline then do
          let (inc, toks2) ← parseInclude [.single t.unline] (r.map Tok.unline)
          let (ns, toks3) ← objectSep env fl f ho keys toks2
          .ok (unlineList ws ++ inc :: ns, toks3)
        else do
          let (p, fld, toks2) ← parseField env fl f t.unline (r.map Tok.unline)
          let keys' ← addKey fl keys p
          let (ns, toks3) ← objectSep env fl f ho keys' toks2
          .ok (unlineList ws ++ fld :: ns, toks3)) = mapRes uNT (if t.isEnd && !ho then Res.ok (ws, t :: r)
        else if fl = .conf && isIncludeKeyword t then do
          let (inc, toks2) ← parseInclude [.single t] r
          let (ns, toks3) ← objectSep env fl f ho keys toks2
          .ok (ws ++ inc :: ns, toks3)
        else do
          let (p, fld, toks2) ← parseField env fl f t r
          let keys' ← addKey fl keys p
          let (ns, toks3) ← objectSep env fl f ho keys' toks2
          .ok (ws ++ fld :: ns, toks3)) := by
        simp only [isEnd_unline, isIncludeKeyword_unline, mapRes_if]
        split
        · rfl
        · split
          · refine bind_line (parseInclude_unline [.single t] r) fun y => ?_
            refine bind_line (ih.sep _ _ _) fun z => ?_
            simp [uNTT, uNOT, uNVT, uVT, uNT, uPVT, mapRes_ok, unlineList_append, unlineList]
          · refine bind_line (ih.field _ _) fun y => ?_
            simp only [mapRes_bind]
            refine bind_same fun k => ?_
            rw [ih.sep, bind_mapRes]
            refine bind_same fun z => ?_
            simp [uNTT, uNOT, uNVT, uVT, uNT, uPVT, mapRes_ok, unlineList_append, unlineList]
      cases t with
      | closeCurly =>
        simp only [Tok.unline, mapRes_if]
        split
        · rfl
        · split
          · rfl
          · simp [uNTT, uNOT, uNVT, uVT, uNT, uPVT, mapRes_ok, unlineList_append, unlineList, Node.unline, Tok.unline]
      | _ => exact other
    · intro ho keys toks
      simp only [objectSep]
      refine bind_line (checkSep_unline _ _) fun x => ?_
      simp only [mapRes_if]
      split
      · refine bind_line (ih.obj _ _ _ _) fun z => ?_
        simp [uNTT, uNOT, uNVT, uVT, uNT, uPVT, mapRes_ok, unlineList_append]
      · refine bind_line (nextCollect_unline _ _) fun y => ?_
        obtain ⟨ws, t, r⟩ := y
        cases t with
        | closeCurly =>
          simp only [Tok.unline, mapRes_if]
          split
          · simp [uNTT, uNOT, uNVT, uVT, uNT, uPVT, mapRes_ok, unlineList_append, unlineList, Node.unline, Tok.unline]
          · rfl
        | end_ =>
          simp only [Tok.unline, mapRes_if]
          split
          · rfl
          · simp [uNTT, uNOT, uNVT, uVT, uNT, uPVT, mapRes_ok, unlineList_append, Tok.unline]
        | _ => rfl
    · intro toks
      simp only [parseArray]
      refine bind_line (ih.cons _) fun x => ?_
      obtain ⟨ws, v, r⟩ := x
      cases v with
      | some v =>
        simp only [Option.map_some]
        refine bind_line (ih.aloop _) fun y => ?_
        simp [uNTT, uNOT, uNVT, uVT, uNT, uPVT, mapRes_ok, unlineList_append, unlineList, Node.unline, Tok.unline]
      | none =>
        simp only [Option.map_none]
        refine bind_line (nextCollect_unline _ _) fun y => ?_
        obtain ⟨ws2, t, r⟩ := y
        have other : (if startsValue t.unline then do
              let (v, toks3) ← parseValue env fl f t.unline (r.map Tok.unline)
              let (ns, toks4) ← arrayLoop env fl f toks3
              Res.ok (Node.array (.single .openSquare :: unlineList ws ++ unlineList ws2 ++ v :: ns), toks4)
            else .err .parse) = mapRes uVT (if startsValue t then do
              let (v, toks3) ← parseValue env fl f t r
              let (ns, toks4) ← arrayLoop env fl f toks3
              Res.ok (Node.array (.single .openSquare :: ws ++ ws2 ++ v :: ns), toks4)
            else .err .parse) := by
          rw [startsValue_unline, mapRes_if]
          split
          · refine bind_line (ih.value _ _) fun x => ?_
            refine bind_line (ih.aloop _) fun y => ?_
            simp [uNTT, uNOT, uNVT, uVT, uNT, uPVT, mapRes_ok, unlineList_append, unlineList, Node.unline, Tok.unline]
          · rfl
        cases t with
        | closeSquare => simp [uNTT, uNOT, uNVT, uVT, uNT, uPVT, mapRes_ok, unlineList_append, unlineList, Node.unline, Tok.unline]
        | _ => exact other
    · intro toks
      simp only [arrayLoop]
      refine bind_line (checkSep_unline _ _) fun x => ?_
      simp only [mapRes_if]
      split
      · refine bind_line (ih.cons _) fun y => ?_
        obtain ⟨ws, v, r⟩ := y
        cases v with
        | some v =>
          simp only [Option.map_some]
          refine bind_line (ih.aloop _) fun y => ?_
          simp [uNTT, uNOT, uNVT, uVT, uNT, uPVT, mapRes_ok, unlineList_append, unlineList]
        | none =>
          simp only [Option.map_none]
          refine bind_line (nextCollect_unline _ _) fun z => ?_
          simp only [startsValue_unline, isCloseSquare_unline, mapRes_if]
          split
          · refine bind_line (ih.value _ _) fun x => ?_
            refine bind_line (ih.aloop _) fun y => ?_
            simp [uNTT, uNOT, uNVT, uVT, uNT, uPVT, mapRes_ok, unlineList_append, unlineList]
          · split
            · refine bind_line (ih.aloop (_ :: _)) fun y => ?_
              simp [uNTT, uNOT, uNVT, uVT, uNT, uPVT, mapRes_ok, unlineList_append]
            · rfl
      · refine bind_line (nextCollect_unline _ _) fun y => ?_
        obtain ⟨ws, t, r⟩ := y
        cases t with
        | closeSquare => simp [uNTT, uNOT, uNVT, uVT, uNT, uPVT, mapRes_ok, unlineList_append, unlineList, Node.unline, Tok.unline]
        | _ => rfl

theorem parseEnd_unline (fl : Syntax) (m : Bool) (cs : List Node) (ts : List Tok) :
    parseEnd fl m (unlineList cs) (ts.map Tok.unline) = mapRes unlineList (parseEnd fl m cs ts) := by
  unfold parseEnd
  refine bind_line (nextCollect_unline _ _) fun y => ?_
  obtain ⟨ws, t, r⟩ := y
  cases t with
  | end_ => cases m <;> simp [uNTT, uNOT, uNVT, uVT, uNT, uPVT, mapRes_ok, unlineList_append, unlineList, Node.unline, Tok.unline]
  | _ => rfl

/-- The parser on tokens without lines. -/
theorem parse_unline (env : Env) (fl : Syntax) (ts : List Tok) :
    parse env fl (ts.map Tok.unline) = mapRes unlineList (parse env fl ts) := by
  unfold parse
  have ef : fuelFor (ts.map Tok.unline) = fuelFor ts := by simp [fuelFor]
  rw [ef]
  have H := unline_all env fl (fuelFor ts)
  refine bind_line (nextToken_unline fl ts) fun x => ?_
  obtain ⟨t, r⟩ := x
  cases t with
  | start =>
    simp only [Tok.unline]
    refine bind_line (nextCollect_unline _ _) fun y => ?_
    obtain ⟨ws, t, r⟩ := y
    cases t with
    | openCurly =>
      refine bind_line (H.value .openCurly r) fun z => ?_
      rw [← parseEnd_unline, unlineList_append]; rfl
    | openSquare =>
      refine bind_line (H.value .openSquare r) fun z => ?_
      rw [← parseEnd_unline, unlineList_append]; rfl
    | _ =>
      cases fl with
      | json => rfl
      | conf =>
        refine bind_line (H.obj _ _ _ (_ :: r)) fun z => ?_
        rw [← parseEnd_unline, unlineList_append]
  | _ => rfl

/-- Token lists that differ in their lines only are parsed alike. -/
theorem parse_sim {env : Env} {fl : Syntax} {a b : List Tok} {ns : List Node}
    (h : a.map Tok.unline = b.map Tok.unline) (hp : parse env fl a = .ok ns) :
    ∃ ns2, parse env fl b = .ok ns2 ∧ unlineList ns2 = unlineList ns := by
  have h1 := parse_unline env fl a
  have h2 := parse_unline env fl b
  rw [h, hp, h2] at h1
  cases hb : parse env fl b with
  | ok ns2 =>
    rw [hb, mapRes_ok, mapRes_ok] at h1
    simp only [Res.ok.injEq] at h1
    exact ⟨ns2, rfl, h1⟩
  | _ => rw [hb] at h1; simp [mapRes] at h1

end DocParser
end Hocon
