import Verif.ConfigParser
import Verif.Props.MergeProps
import Verif.Props.TokenizerProps

/-!
# Properties of value concatenation (C41)
-/

set_option autoImplicit false

namespace Hocon
namespace Value

open Spec

/-! ## Specification -/

/-- What is seen at a path through a stack of values, the topmost first: the first value that has
something there, unless a value above it hides it. -/
inductive Through : List Value → Path → Option Seen → Prop where
  | bottom (p : Path) : Through [] p none
  | here {v : Value} {vs : List Value} {p : Path} {s : Seen} :
      look v p = some s → Through (v :: vs) p (some s)
  | hidden {v : Value} {vs : List Value} {p : Path} :
      look v p = none → Hidden v p → Through (v :: vs) p none
  | lower {v : Value} {vs : List Value} {p : Path} {o : Option Seen} :
      look v p = none → ¬ Hidden v p → Through vs p o → Through (v :: vs) p o

/-- The kinds of values that can be concatenated with each other. -/
inductive Kind where
  | text
  | list
  | object
  deriving DecidableEq

/-- The kind of a value; substitutions have none yet. -/
def kind? : Value → Option Kind
  | .scalar _ => some .text
  | .list _ => some .list
  | .obj .. => some .object
  | _ => none

/-! ## Scalars -/

theorem join_scalars (env : Env) (a b : Scalar) (ha : a.transformToString env ≠ [])
    (hb : b.transformToString env ≠ []) : join env (.scalar a) (.scalar b) =
      .ok (some (.scalar (.str (a.transformToString env ++ b.transformToString env) true))) := by
  have h1 : (a.transformToString env).isEmpty = false := by simpa using ha
  have h2 : (b.transformToString env).isEmpty = false := by simpa using hb
  simp [join, isObject, isList, isConcat, isUnmergeable, toText, h1, h2]

theorem joinLoop_scalars (env : Env) (a : Scalar) (ss : List Scalar)
    (ha : a.transformToString env ≠ []) (h : ∀ s ∈ ss, s.transformToString env ≠ [])
    (hne : ss ≠ []) : joinLoop env [] (.scalar a) (ss.map .scalar) =
      .ok [.scalar (.str (((a :: ss).map fun s => s.transformToString env).flatten) true)] := by
  induction ss generalizing a with
  | nil => exact absurd rfl hne
  | cons b ss ih =>
    have hb := h b (by simp)
    simp only [List.map_cons, joinLoop, join_scalars env a b ha hb, Res.ok_bind]
    cases ss with
    | nil => simp [joinLoop]
    | cons c ss =>
      rw [ih (.str (a.transformToString env ++ b.transformToString env) true)
        (by show _ ++ _ ≠ []; simp [ha]) (fun s hs => h s (by simp_all)) (by simp)]
      simp [Scalar.transformToString]

theorem flattenPieces_id (vs : List Value) (h : ∀ v ∈ vs, v.isConcat = false) :
    flattenPieces vs = vs := by
  induction vs with
  | nil => rfl
  | cons v vs ih =>
    have hv := h v (by simp)
    have := ih fun w hw => h w (by simp [hw])
    cases v <;> first | (simp [isConcat] at hv; done) | simp [flattenPieces, this]

theorem concatenate_eq (env : Env) (v w : Value) (vs : List Value)
    (h : ∀ x ∈ v :: w :: vs, x.isConcat = false) :
    concatenate env (v :: w :: vs) = (joinLoop env [] v (w :: vs) >>= fun c =>
      match c with
      | [] => .ok none
      | [v] => .ok (some v)
      | vs => mkConcat vs >>= fun v => .ok (some v)) := by
  rw [concatenate, consolidate, if_neg (by simp), flattenPieces_id _ h]
  rfl

/-- **C41 (scalars).** Two or more scalars give the string of their texts in order. Only part of the
claim: a piece with the empty text (the string `""`) is excluded, see `C41_empty_throws`. -/
theorem C41_scalars_partial (env : Env) (ss : List Scalar) (hl : 2 ≤ ss.length)
    (h : ∀ s ∈ ss, s.transformToString env ≠ []) :
    concatenate env (ss.map .scalar) =
      .ok (some (.scalar (.str ((ss.map fun s => s.transformToString env).flatten) true))) := by
  match ss, hl with
  | a :: b :: ss, _ =>
    rw [List.map_cons, List.map_cons, concatenate_eq _ _ _ _ (by simp [isConcat]),
      ← List.map_cons, joinLoop_scalars env a (b :: ss) (h a (by simp))
        (fun s hs => h s (by simp_all)) (by simp)]
    simp

/-- The code treats an empty string as a list or object: `a = x ""` throws. -/
theorem C41_empty_throws (env : Env) (s : Str) :
    concatenate env [.scalar (.str s true), .scalar (.str [] true)] = .err .config := by
  simp [concatenate, consolidate, flattenPieces, joinLoop, join, isObject, isList, isConcat,
    isUnmergeable, toText, Scalar.transformToString]

/-- One piece stays what it is. -/
theorem C41_single (env : Env) (v : Value) : concatenate env [v] = .ok (some v) := by
  simp [concatenate, consolidate]

example : concatenate Tokenizer.exEnv [.scalar (.int 1 (ch "1")), .scalar (.str (ch " ") false),
    .scalar (.bool true)] = .ok (some (.scalar (.str (ch "1 true") true))) :=
  C41_scalars_partial Tokenizer.exEnv [.int 1 (ch "1"), .str (ch " ") false, .bool true]
    (by simp) (by decide)

/-! ## Lists -/

theorem joinLoop_lists (env : Env) (a : List Value) (ls : List (List Value)) :
    joinLoop env [] (.list a) (ls.map .list) = .ok [.list ((a :: ls).flatten)] := by
  induction ls generalizing a with
  | nil => simp [joinLoop]
  | cons b ls ih =>
    have : join env (.list a) (.list b) = .ok (some (.list (a ++ b))) := by
      simp [join, isObject, isList, appendLists]
    simp [joinLoop, this, ih]

/-- **C41 (lists).** Lists give all their elements in order. -/
theorem C41_lists (env : Env) (ls : List (List Value)) (hl : 1 ≤ ls.length) :
    concatenate env (ls.map .list) = .ok (some (.list ls.flatten)) := by
  match ls, hl with
  | [a], _ => simp [C41_single]
  | a :: b :: ls, _ =>
    rw [List.map_cons, List.map_cons, concatenate_eq _ _ _ _ (by simp [isConcat]),
      ← List.map_cons, joinLoop_lists]
    simp

example : concatenate Tokenizer.exEnv [.list [exInt 1], .list [], .list [exInt 2, exInt 3]] =
    .ok (some (.list [exInt 1, exInt 2, exInt 3])) :=
  C41_lists Tokenizer.exEnv [[exInt 1], [], [exInt 2, exInt 3]] (by simp)

/-! ## Objects -/

theorem isObject_pmerge {a : Value} (b : Value) (ha : a.Plain) (ho : a.isObject = true) :
    (pmerge a b).isObject = true := by
  rcases ha.cases with ⟨h, _, _⟩ | ⟨fs, i, rfl, hf⟩
  · rw [ho] at h; cases h
  · cases i with
    | true => rw [pmerge_sealed]; rfl
    | false =>
      rw [pmerge.eq_def]
      cases b <;> rfl

theorem isList_of_isObject {a : Value} (h : a.isObject = true) : a.isList = false := by
  cases a <;> simp_all [isObject, isList]

theorem isConcat_of_isObject {a : Value} (h : a.isObject = true) : a.isConcat = false := by
  cases a <;> simp_all [isObject, isConcat]

theorem join_objects (env : Env) (a b : Value) (ha : a.Plain) (hb : b.Plain)
    (hao : a.isObject = true) (hbo : b.isObject = true) :
    join env a b = .ok (some (pmerge b a)) := by
  simp [join, hao, hbo, isList_of_isObject hao, isList_of_isObject hbo,
    (withFallback_plain b a hb ha).1]

theorem joinLoop_objects (env : Env) (below : List Value) (a : Value) (vs : List Value)
    (ha : a.Plain) (hao : a.isObject = true) (h : ∀ v ∈ vs, v.Plain ∧ v.isObject = true)
    (hb : ∀ p, Through below p (look a p)) :
    ∃ o, joinLoop env [] a vs = .ok [o] ∧ o.Plain ∧ o.isObject = true ∧
      ∀ p, Through (vs.reverse ++ below) p (look o p) := by
  induction vs generalizing a below with
  | nil => exact ⟨a, rfl, ha, hao, by simpa using hb⟩
  | cons v vs ih =>
    obtain ⟨hv, hvo⟩ := h v (by simp)
    rw [joinLoop, join_objects env a v ha hv hao hvo]
    obtain ⟨o, h1, h2, h3, h4⟩ := ih (v :: below) (pmerge v a) (hv.merge ha)
      (isObject_pmerge a hv hvo) (fun w hw => h w (by simp [hw])) (by
        intro p
        obtain ⟨c1, c2, c3⟩ := pmerge_look p v a hv ha
        cases hl : look v p with
        | some s => rw [c1 s hl]; exact .here hl
        | none =>
          by_cases hh : Hidden v p
          · rw [c2 hl hh]; exact .hidden hl hh
          · rw [c3 hl hh]; exact .lower hl hh (hb p))
    exact ⟨o, h1, h2, h3, by simpa using h4⟩

/-- **C41 (objects).** Objects merge, later pieces winning: at every path one sees what the last
piece that has something there shows, unless a later piece hides it. -/
theorem C41_objects (env : Env) (vs : List Value) (hl : 1 ≤ vs.length)
    (h : ∀ v ∈ vs, v.Plain ∧ v.isObject = true) :
    ∃ o, concatenate env vs = .ok (some o) ∧ o.Plain ∧ o.isObject = true ∧
      ∀ p, Through vs.reverse p (look o p) := by
  have base : ∀ v : Value, ∀ p, Through [v] p (look v p) := by
    intro v p
    cases hl : look v p with
    | some s => exact .here hl
    | none =>
      by_cases hh : Hidden v p
      · exact .hidden hl hh
      · exact .lower hl hh (.bottom p)
  match vs, hl with
  | [a], _ => exact ⟨a, C41_single env a, (h a (by simp)).1, (h a (by simp)).2, base a⟩
  | a :: b :: vs, _ =>
    have hc : ∀ x ∈ a :: b :: vs, x.isConcat = false := fun x hx =>
      isConcat_of_isObject (h x hx).2
    obtain ⟨ha, hao⟩ := h a (by simp)
    obtain ⟨o, h1, h2, h3, h4⟩ := joinLoop_objects env [a] a (b :: vs) ha hao
      (fun v hv => h v (by simp_all)) (base a)
    refine ⟨o, ?_, h2, h3, by simpa using h4⟩
    rw [concatenate_eq _ _ _ _ hc, h1]
    rfl

/-- `Through` determines what is seen. -/
theorem Through.unique {vs : List Value} {p : Path} {a b : Option Seen} (h1 : Through vs p a)
    (h2 : Through vs p b) : a = b := by
  induction h1 with
  | bottom p => cases h2; rfl
  | here h => cases h2 <;> simp_all
  | hidden h hh => cases h2 <;> simp_all
  | lower h hh _ ih => cases h2 <;> simp_all

example : ∃ o, concatenate Tokenizer.exEnv [exA, exB] = .ok (some o) ∧
    look o [ch "x", ch "p"] = look exB [ch "x", ch "p"] ∧ look o [ch "w"] = some (.leaf (exInt 5)) :=
  ⟨_, rfl, by decide, by decide⟩

/-! ## Mixtures -/

theorem join_kinds (env : Env) (a b : Value) (o : Option Value) (ha : a.Plain) (hb : b.Plain)
    (hq : b.isIgnoredWhitespace = false) (h : join env a b = .ok o) :
    kind? a = kind? b ∧ ∃ j, o = some j ∧ j.Plain ∧ kind? j = kind? b := by
  rcases ha.cases with ⟨h1, h2, _⟩ | ⟨fs, i, rfl, hf⟩ <;>
  rcases hb.cases with ⟨h3, h4, _⟩ | ⟨gs, k, rfl, hg⟩
  · cases a <;> cases b <;> simp [isObject, isUnmergeable] at h1 h2 h3 h4
    · rename_i s _ t _
      by_cases hs : s.transformToString env = []
      · simp [join, isObject, isList, isConcat, isUnmergeable, toText, hs] at h
      by_cases ht : t.transformToString env = []
      · simp [join, isObject, isList, isConcat, isUnmergeable, toText, ht] at h
      rw [join_scalars env s t hs ht] at h
      simp only [Res.ok.injEq] at h
      exact ⟨rfl, _, h.symm, ⟨by simp [Wf], rfl⟩, rfl⟩
    · simp [join, isObject, isList, isConcat, isUnmergeable, toText] at h
    · simp [join, isObject, isList, isConcat, isUnmergeable, toText, hq] at h
    · rename_i vs ws
      simp [join, isObject, isList, appendLists] at h
      refine ⟨rfl, _, h.symm, ⟨?_, ?_⟩, rfl⟩
      · have e1 := ha.wf
        have e2 := hb.wf
        simp only [Wf, WfL.iff] at e1 e2 ⊢
        intro v hv
        rcases List.mem_append.1 hv with h | h
        · exact e1 v h
        · exact e2 v h
      · have e1 := ha.res
        have e2 := hb.res
        simp only [resolved, resolvedAll_iff] at e1 e2 ⊢
        intro v hv
        rcases List.mem_append.1 hv with h | h
        · exact e1 v h
        · exact e2 v h
  · cases a <;> simp [isObject, isUnmergeable] at h1 h2 <;>
      simp [join, isObject, isList, isConcat, isUnmergeable, toText, isIgnoredWhitespace] at h
  · cases b <;> simp [isObject, isUnmergeable] at h3 h4
    · simp [join, isObject, isList, isConcat, isUnmergeable, toText, hq] at h
    · simp [join, isObject, isList] at h
  · rw [join_objects env _ _ ha hb rfl rfl] at h
    simp only [Res.ok.injEq] at h
    refine ⟨rfl, _, h.symm, hb.merge ha, ?_⟩
    have := isObject_pmerge (.obj fs true i) hb rfl
    have hp := (hb.merge ha).res
    cases hm : pmerge (.obj gs true k) (.obj fs true i) <;> rw [hm] at this hp <;>
      simp_all [isObject, kind?, resolved]

theorem joinLoop_kinds (env : Env) (a : Value) (vs c : List Value) (ha : a.Plain)
    (hv : ∀ v ∈ vs, v.Plain ∧ v.isIgnoredWhitespace = false) (h : joinLoop env [] a vs = .ok c) :
    ∀ v ∈ vs, kind? v = kind? a := by
  induction vs generalizing a with
  | nil => simp
  | cons b vs ih =>
    obtain ⟨hb, hq⟩ := hv b (by simp)
    rw [joinLoop, Res.bind_eq_ok] at h
    obtain ⟨o, ho, h⟩ := h
    obtain ⟨h1, j, rfl, h2, h3⟩ := join_kinds env a b o ha hb hq ho
    intro v hm
    rcases List.mem_cons.1 hm with rfl | hm
    · exact h1.symm
    · rw [ih j h2 (fun w hw => hv w (by simp [hw])) h v hm, h3, h1]

/-- **C41 (mixtures).** If the concatenation of values without substitutions succeeds, they are all
scalars, all lists or all objects. Only part of the claim: unquoted text after the first piece is
excluded, see `C41_text_after_list_dropped`. -/
theorem C41_mixture_throws_partial (env : Env) (v : Value) (vs : List Value) (o : Option Value)
    (h : ∀ w ∈ v :: vs, w.Plain) (hq : ∀ w ∈ vs, w.isIgnoredWhitespace = false)
    (hok : concatenate env (v :: vs) = .ok o) : ∀ w ∈ vs, kind? w = kind? v := by
  cases vs with
  | nil => simp
  | cons w vs =>
    have hc : ∀ x ∈ v :: w :: vs, x.isConcat = false := fun x hx => by
      have := (h x hx).res
      cases x <;> simp_all [resolved, isConcat]
    rw [concatenate_eq _ _ _ _ hc, Res.bind_eq_ok] at hok
    obtain ⟨c, hj, _⟩ := hok
    exact joinLoop_kinds env v (w :: vs) c (h v (by simp))
      (fun x hx => ⟨h x (by simp_all), hq x hx⟩) hj

/-- The code drops unquoted text after a list (or object) instead of throwing. -/
theorem C41_text_after_list_dropped (env : Env) (vs : List Value) (s t : Str) :
    concatenate env [.list vs, .scalar (.str s false), .scalar (.str t false)] =
      .ok (some (.list vs)) := by
  simp [concatenate, consolidate, flattenPieces, joinLoop, join, isObject, isList,
    isIgnoredWhitespace]

example : concatenate Tokenizer.exEnv [exInt 1, .list [exInt 2]] = .err .config := by decide
example : concatenate Tokenizer.exEnv [exA, .scalar (.bool true)] = .err .config := by decide

end Value

namespace ConfigParser

open Value Tokenizer

/-! ## Concatenations in documents -/

/-- An includer that finds nothing. -/
def noInc : Includer := ⟨fun _ _ => .err .io, fun _ _ => .err .io⟩

/-- A node whose text is the text of its value: unquoted text, numbers, `true`, `false`, `null`. -/
def Verbatim (env : Env) : Node → Prop
  | .simple (.value v text _) => v.transformToString env = text ∧ text ≠ []
  | .simple (.unquoted text _) => text ≠ []
  | _ => False

theorem parseElems_verbatim (env : Env) (inc : Includer) (json : Bool) (arr : Nat)
    (outer : Option Path) (cs : List Node) (n : Nat) (h : ∀ c ∈ cs, Verbatim env c) :
    ∃ ss : List Scalar, parseElems env inc json arr outer cs n = .ok (ss.map .scalar, n) ∧
      ss.length = cs.length ∧ (∀ s ∈ ss, s.transformToString env ≠ []) ∧
      (ss.map fun s => s.transformToString env).flatten = Node.renderList cs := by
  induction cs with
  | nil => exact ⟨[], by simp [parseElems], rfl, by simp, rfl⟩
  | cons c cs ih =>
    obtain ⟨ss, h1, h2, h3, h4⟩ := ih fun x hx => h x (by simp [hx])
    have hc := h c (by simp)
    have key : ∀ s : Scalar, (∀ n, parseValue env inc json arr outer c n = .ok (.scalar s, n)) →
        c.isValue = true → s.transformToString env = c.render → s.transformToString env ≠ [] →
        ∃ ss : List Scalar, parseElems env inc json arr outer (c :: cs) n = .ok (ss.map .scalar, n) ∧
          ss.length = (c :: cs).length ∧ (∀ s ∈ ss, s.transformToString env ≠ []) ∧
          (ss.map fun s => s.transformToString env).flatten = Node.renderList (c :: cs) := by
      intro s e1 e2 e3 e4
      refine ⟨s :: ss, ?_, by simp [h2], by simpa [e4] using h3, ?_⟩
      · simp [parseElems, e2, e1, h1]
      · simp only [List.map_cons, List.flatten_cons, h4, e3]
        simp [Node.render, Node.renderList, Node.tokensList, Tok.textList_append]
    cases c with
    | simple t =>
      cases t with
      | value v text l =>
        exact key v (fun n => by simp [parseValue, getValue]) rfl
          (by simp [Node.render, Node.tokens, Tok.textList, Tok.text, hc.1]) (hc.1 ▸ hc.2)
      | unquoted text l =>
        exact key (.str text false) (fun n => by simp [parseValue, getValue]) rfl
          (by simp [Node.render, Node.tokens, Tok.textList, Tok.text, Scalar.transformToString]) hc
      | _ => exact hc.elim
    | _ => exact hc.elim

/-- **C41 (text).** A concatenation of unquoted pieces (text, numbers, booleans, nulls and the
whitespace between them) has as its value exactly the source text of the concatenation. -/
theorem C41_source_text (env : Env) (inc : Includer) (arr : Nat) (outer : Option Path)
    (cs : List Node) (n : Nat) (hl : 2 ≤ cs.length) (h : ∀ c ∈ cs, Verbatim env c) :
    parseValue env inc false arr outer (.concat cs) n =
      .ok (.scalar (.str (Node.renderList cs) true), n) := by
  obtain ⟨ss, h1, h2, h3, h4⟩ := parseElems_verbatim env inc false arr outer cs n h
  rw [parseValue, if_neg (by simp), h1, Res.ok_bind]
  simp only [C41_scalars_partial env ss (by omega) h3, Res.ok_bind, nonNull, h4]

example : parseText exEnv noInc .conf (ch "a : 1  true x") 0 =
    .ok (newObj [(ch "a", .scalar (.str (ch "1  true x") true))], 0) := by decide +kernel

/-- At the level of documents: `a : [1] foo` is accepted as `a : [1]`. -/
theorem C41_text_after_list_document :
    parseText exEnv noInc .conf (ch "a : [1] foo") 0 =
      .ok (newObj [(ch "a", .list [.scalar (.int 1 (ch "1"))])], 0) := by decide +kernel

end ConfigParser
end Hocon
