import Verif.Spec.SubstText
import Verif.ConfigParser
import Verif.Lemmas.ConfigParserLemmas

/-!
# HOCON token sequences parse to the value they denote
-/

set_option autoImplicit false

namespace Hocon
namespace HoconParse

open Spec DocParser

/-- Whitespace, newline and comment tokens. -/
def Wt : Tok → Prop
  | .ws .. => True
  | .newline _ => True
  | .comment .. => True
  | _ => False

/-- Only such tokens. -/
def Wts (w : List Tok) : Prop := ∀ t ∈ w, Wt t

theorem Wts.cons {t : Tok} {w : List Tok} (h : Wts (t :: w)) : Wt t ∧ Wts w :=
  ⟨h t (.head _), fun x hx => h x (.tail _ hx)⟩

theorem Wts.append {a b : List Tok} (ha : Wts a) (hb : Wts b) : Wts (a ++ b) := by
  intro t ht
  rcases List.mem_append.1 ht with h | h
  · exact ha t h
  · exact hb t h

theorem Wts.nil : Wts [] := fun _ h => by cases h

/-- There is a newline token. -/
def HasNl (w : List Tok) : Prop := ∃ l, Tok.newline l ∈ w

theorem HasNl.append_right {a b : List Tok} (h : HasNl b) : HasNl (a ++ b) :=
  let ⟨l, h⟩ := h; ⟨l, by simp [h]⟩

theorem HasNl.append_left {a b : List Tok} (h : HasNl a) : HasNl (a ++ b) :=
  let ⟨l, h⟩ := h; ⟨l, by simp [h]⟩

/-- Only single tokens other than `+=`. -/
def Quiet (ns : List Node) : Prop := ∀ n ∈ ns, ∃ t, (n = .single t ∨ n = .comment t) ∧ t ≠ .plusEquals

theorem Quiet.append {a b : List Node} (ha : Quiet a) (hb : Quiet b) : Quiet (a ++ b) := by
  intro t ht
  rcases List.mem_append.1 ht with h | h
  · exact ha t h
  · exact hb t h

theorem Quiet.nil : Quiet [] := fun _ h => by cases h

theorem Quiet.one (t : Tok) (h : t ≠ .plusEquals) : Quiet [.single t] := by
  intro n hn
  simp at hn
  exact ⟨t, Or.inl hn, h⟩

theorem collect_wt {t : Tok} (h : Wt t) : ∃ n, collectNode t = some n ∧ Quiet [n] := by
  cases t <;> simp [Wt] at h
  · exact ⟨_, rfl, Quiet.one _ (by simp)⟩
  · exact ⟨_, rfl, Quiet.one _ (by simp)⟩
  · refine ⟨_, rfl, ?_⟩
    intro n hn
    simp at hn
    exact ⟨_, Or.inr hn, by simp⟩

theorem nextCollect_stop (w : List Tok) (t : Tok) (rest : List Tok) (hw : Wts w) (ht : collectNode t = none) :
    ∃ ns, nextCollect .conf (w ++ t :: rest) = .ok (ns, t, rest) ∧ Quiet ns := by
  induction w with
  | nil =>
    refine ⟨[], ?_, Quiet.nil⟩
    rw [List.nil_append, nextCollect]
    simp [nextToken, ht]
  | cons x w ih =>
    obtain ⟨ns, h1, h2⟩ := ih hw.cons.2
    obtain ⟨n, hn, hq⟩ := collect_wt hw.cons.1
    refine ⟨n :: ns, ?_, Quiet.append hq h2⟩
    rw [List.cons_append, nextCollect]
    simp [nextToken, hn, h1]

theorem sepLoop_comma (b : Bool) (w rest : List Tok) (hw : Wts w) :
    ∃ ns, Quiet ns ∧ sepLoop b (w ++ .comma :: rest) = .ok (ns, true, rest) := by
  induction w generalizing b with
  | nil => exact ⟨[.single .comma], Quiet.one _ (by simp), rfl⟩
  | cons x w ih =>
    obtain ⟨n, hn, hq⟩ := collect_wt hw.cons.1
    obtain ⟨ns, h1, h2⟩ := ih (match x with | .newline _ => true | _ => b) hw.cons.2
    refine ⟨n :: ns, hq.append h1, ?_⟩
    have hx := hw.cons.1
    rw [List.cons_append, sepLoop.eq_def]
    cases x <;> simp [Wt] at hx <;> simp only [hn, h2, Res.ok_bind]

theorem sepLoop_other (b : Bool) (w : List Tok) (t : Tok) (rest : List Tok) (hw : Wts w)
    (ht : collectNode t = none) (hc : t ≠ .comma) :
    ∃ ns c, Quiet ns ∧ sepLoop b (w ++ t :: rest) = .ok (ns, c, t :: rest) ∧
      (c = true ↔ b = true ∨ HasNl w) := by
  induction w generalizing b with
  | nil =>
    refine ⟨[], b, Quiet.nil, ?_, by simp [HasNl]⟩
    rw [List.nil_append, sepLoop.eq_def]
    cases t <;> first | exact absurd rfl hc | simp only [ht]
  | cons x w ih =>
    obtain ⟨n, hn, hq⟩ := collect_wt hw.cons.1
    obtain ⟨ns, c, h1, h2, h3⟩ := ih (match x with | .newline _ => true | _ => b) hw.cons.2
    refine ⟨n :: ns, c, hq.append h1, ?_, ?_⟩
    · have hx := hw.cons.1
      rw [List.cons_append, sepLoop.eq_def]
      cases x <;> simp [Wt] at hx <;> simp only [hn, h2, Res.ok_bind]
    · rw [h3]
      have hx := hw.cons.1
      cases x <;> simp [Wt] at hx <;> simp [HasNl]

/-! ### What nodes denote -/

open ConfigParser (nonNull plusValue pushPath putField)

mutual
/-- What `config_parser` makes of a value written as `Syn`. -/
def runV (env : Env) (arr : Nat) (outer : Option Path) : Syn → Nat → Res (Value × Nat)
  | .scalar s, n => .ok (.scalar s, n)
  | .ref p o, n => .ok (.ref n p o 0, n + 1)
  | .list vs, n => do
    let (ws, n) ← runL env (arr + 1) outer vs n
    .ok (.list ws, n)
  | .obj ms, n => do
    let (fs, n) ← runM env arr outer ms [] n
    .ok (Value.newObj fs, n)
  | .concat ps, n => do
    let (vs, n) ← runL env arr outer ps n
    let v ← Value.concatenate env vs
    let v ← nonNull v
    .ok (v, n)
/-- Elements and pieces. -/
def runL (env : Env) (arr : Nat) (outer : Option Path) : List Syn → Nat → Res (List Value × Nat)
  | [], n => .ok ([], n)
  | v :: vs, n => do
    let (w, n) ← runV env arr outer v n
    let (ws, n) ← runL env arr outer vs n
    .ok (w :: ws, n)
/-- Members. -/
def runM (env : Env) (arr : Nat) (outer : Option Path) :
    List (Path × Bool × Syn) → Fields → Nat → Res (Fields × Nat)
  | [], fs, n => .ok (fs, n)
  | (p, true, v) :: ms, fs, n =>
    if arr > 0 then .err .parse
    else do
      let (v, n) ← runV env (arr + 1) (some (pushPath outer p)) v n
      let (v, n) ← plusValue env (pushPath outer p) v n
      let fs ← putField false fs p v
      runM env arr outer ms fs n
  | (p, false, v) :: ms, fs, n => do
    let (v, n) ← runV env arr (some (pushPath outer p)) v n
    let fs ← putField false fs p v
    runM env arr outer ms fs n
end

/-- The node parses to what `s` stands for. -/
def Denotes (env : Env) (node : Node) (s : Syn) : Prop :=
  ∀ inc arr outer n, ConfigParser.parseValue env inc false arr outer node n = runV env arr outer s n

/-- The children of an array parse to `vs`. -/
def DenotesL (env : Env) (ns : List Node) (vs : List Syn) : Prop :=
  ∀ inc arr outer n, ConfigParser.parseElems env inc false arr outer ns n = runL env arr outer vs n

/-- The children of an object make the assignments `ms`. -/
def DenotesF (env : Env) (ns : List Node) (ms : List (Path × Bool × Syn)) : Prop :=
  ∀ inc arr outer fs n, ConfigParser.parseFields env inc false arr outer ns fs n = runM env arr outer ms fs n

theorem quiet_head {x : Node} {q : List Node} (hq : Quiet (x :: q)) :
    x.isValue = false ∧ x.isComplex = false ∧ (∀ cs, x ≠ .field cs) ∧ (∀ cs k, x ≠ .incl cs k) ∧
      x.singleToken? ≠ some .plusEquals ∧ Quiet q := by
  obtain ⟨t, h, ht⟩ := hq x (.head _)
  refine ⟨?_, ?_, ?_, ?_, ?_, fun n hn => hq n (.tail _ hn)⟩
  all_goals rcases h with rfl | rfl <;> simp_all [Node.isValue, Node.isComplex, Node.singleToken?]

theorem DenotesL.nil (env : Env) : DenotesL env [] [] := by
  intro inc arr outer n
  rw [ConfigParser.parseElems, runL]

theorem DenotesL.quiet {env : Env} {q ns : List Node} {vs : List Syn} (hq : Quiet q)
    (h : DenotesL env ns vs) : DenotesL env (q ++ ns) vs := by
  induction q with
  | nil => exact h
  | cons x q ih =>
    obtain ⟨h1, _, _, _, _, h2⟩ := quiet_head hq
    intro inc arr outer n
    rw [List.cons_append, ConfigParser.parseElems]
    simp only [h1, Bool.false_eq_true, if_false]
    exact ih h2 inc arr outer n

theorem DenotesL.cons {env : Env} {node : Node} {v : Syn} {ns : List Node} {vs : List Syn}
    (hv : node.isValue = true) (h1 : Denotes env node v) (h : DenotesL env ns vs) :
    DenotesL env (node :: ns) (v :: vs) := by
  intro inc arr outer n
  rw [ConfigParser.parseElems, runL]
  simp only [hv, if_true, h1 inc arr outer n]
  congr 1
  funext r
  simp only [h inc arr outer r.2]

theorem DenotesF.nil (env : Env) : DenotesF env [] [] := by
  intro inc arr outer fs n
  rw [ConfigParser.parseFields, runM]

theorem DenotesF.quiet {env : Env} {q ns : List Node} {as : List (Path × Bool × Syn)} (hq : Quiet q)
    (h : DenotesF env ns as) : DenotesF env (q ++ ns) as := by
  induction q with
  | nil => exact h
  | cons x q ih =>
    obtain ⟨_, _, h1, h2, _, h3⟩ := quiet_head hq
    intro inc arr outer fs n
    rw [List.cons_append, ConfigParser.parseFields_skip _ _ _ _ _ _ _ _ _ h1 h2]
    exact ih h3 inc arr outer fs n

theorem noPlus {ns : List Node} (h : ∀ n ∈ ns, n.singleToken? ≠ some .plusEquals) :
    ConfigParser.isPlusEquals ns = false := by
  have key : Node.fieldSeparator ns ≠ some .plusEquals := by
    induction ns with
    | nil => simp [Node.fieldSeparator]
    | cons n ns ih =>
      rw [Node.fieldSeparator]
      have hn := h n (.head _)
      have ih := ih (fun m hm => h m (.tail _ hm))
      split <;> simp_all
  rw [ConfigParser.isPlusEquals]
  split <;> simp_all

theorem fieldValue_quiet {env : Env} {q ns : List Node} (hq : Quiet q) (inc arr outer n) :
    ConfigParser.parseFieldValue env inc false arr outer (q ++ ns) n
      = ConfigParser.parseFieldValue env inc false arr outer ns n := by
  induction q with
  | nil => rfl
  | cons x q ih =>
    obtain ⟨h1, _, _, _, _, h2⟩ := quiet_head hq
    rw [List.cons_append, ConfigParser.parseFieldValue]
    simp only [h1, Bool.false_eq_true, if_false]
    exact ih h2

/-! ### Assignments -/

theorem any_keys (fs : Fields) (k : Str) : (fs.any fun f => f.1 == k) = (keysOf fs).contains k := by
  induction fs with
  | nil => rfl
  | cons f fs ih =>
    rw [List.any_cons, ih]
    simp only [keysOf, List.map_cons, List.contains_cons]
    congr 1
    exact BEq.comm

theorem find_findKey (fs : Fields) (k : Str) :
    (fs.find? fun g => g.1 == k) = (findKey fs k).map fun v => (k, v) := by
  induction fs with
  | nil => rfl
  | cons f fs ih =>
    obtain ⟨k', v⟩ := f
    rw [List.find?_cons, findKey]
    by_cases h : k' = k
    · subst h; simp
    · rw [if_neg h, ← ih, show (k' == k) = false by simpa using h]

mutual
theorem over_eq (a b : Value) : over a b = Value.pmerge a b := by
  match a with
  | .obj fs r true => rw [over.eq_def, Value.pmerge_sealed]
  | .obj fs r false =>
    rw [over.eq_def]
    cases b with
    | obj gs r' j =>
      rw [Value.pmerge_obj]
      simp only [overFields_eq fs gs, Value.extraFields, any_keys]
    | _ => rw [Value.pmerge.eq_def]; rfl
  | .scalar s => rw [over.eq_def, Value.pmerge_nonobj _ rfl]
  | .list vs => rw [over.eq_def, Value.pmerge_nonobj _ rfl]
  | .ref n p o k => rw [over.eq_def, Value.pmerge_nonobj _ rfl]
  | .concat ps => rw [over.eq_def, Value.pmerge_nonobj _ rfl]
  | .dm st => rw [over.eq_def, Value.pmerge_nonobj _ rfl]
  | .dmo st => rw [over.eq_def, Value.pmerge_dmo]
theorem overFields_eq (fs gs : Fields) : overFields fs gs = Value.pmergeF fs gs := by
  match fs with
  | [] => rw [overFields, Value.pmergeF]
  | (k, v) :: fs =>
    rw [overFields, Value.pmergeF, overFields_eq fs gs, find_findKey]
    cases findKey gs k with
    | none => rfl
    | some w => simp [over_eq v w]
end

theorem under_eq {v : Value} (hv : v.Plain) (p : Path) : under p v = Value.nest p v := by
  induction p with
  | nil => rfl
  | cons k p ih =>
    rw [under, Value.nest, ih, Value.newObj]
    have := (ConfigParser.nest_plain hv p).2
    simp [Value.resolvedFields, this]

theorem setField_new (k : Str) (v : Value) (fs : Fields) (h : findKey fs k = none) :
    setField k v fs = putKey k v fs := by
  induction fs with
  | nil => rfl
  | cons f fs ih =>
    obtain ⟨k', w⟩ := f
    rw [findKey] at h
    split at h
    · cases h
    · rename_i hk
      rw [setField, putKey, if_neg hk, if_neg hk, ih h]

theorem setField_old (k : Str) (v old : Value) (fs : Fields) (h : findKey fs k = some old) :
    setField k v fs = putKey k (over v old) fs := by
  induction fs with
  | nil => simp [findKey] at h
  | cons f fs ih =>
    obtain ⟨k', w⟩ := f
    rw [findKey] at h
    split at h
    · rename_i hk
      cases h
      subst hk
      rw [setField, putKey, if_pos rfl, if_pos rfl]
    · rename_i hk
      rw [setField, putKey, if_neg hk, if_neg hk, ih h]

/-- Assigning a value stores what the parser stores. -/
theorem putField_assign {fs : Fields} {p : Path} {v : Value} (hf : Value.PlainF fs) (hv : v.Plain) (hp : p ≠ []) :
    ConfigParser.putField false fs p v = .ok (assign fs (p, v)) ∧ Value.PlainF (assign fs (p, v)) := by
  cases p with
  | nil => exact absurd rfl hp
  | cons k p =>
    obtain ⟨m, h1, h2, h3⟩ := ConfigParser.putMerged_plain (k := k) hf (ConfigParser.nest_plain hv p)
    have e : assign fs (k :: p, v) = putKey k m fs := by
      rw [assign, under_eq hv]
      cases hfk : findKey fs k with
      | none =>
        rw [hfk] at h3
        simp only at h3
        rw [setField_new _ _ _ hfk, h3]
      | some old =>
        rw [hfk] at h3
        simp only at h3
        rw [setField_old _ _ _ _ hfk, over_eq, h3]
    have e2 := ConfigParser.putField_conf fs k p v
    rw [h1, ← e] at e2
    exact ⟨e2, ConfigParser.putField_plain hf hv e2⟩

theorem assign_plainF (as : List (Path × Value)) (fs : Fields) (hf : Value.PlainF fs) (h : ∀ a ∈ as, a.1 ≠ [] ∧ a.2.Plain) :
    Value.PlainF (as.foldl assign fs) := by
  induction as generalizing fs with
  | nil => exact hf
  | cons a as ih =>
    rw [List.foldl_cons]
    obtain ⟨h1, h2⟩ := h a (.head _)
    exact ih _ (putField_assign hf h2 h1).2 (fun b hb => h b (.tail _ hb))

theorem plainF_nil : Value.PlainF [] := ⟨by simp [keysOf], by simp⟩

theorem assigned_plain (as : List (Path × Value)) (h : ∀ a ∈ as, a.1 ≠ [] ∧ a.2.Plain) : (assigned as).Plain :=
  Value.plain_obj.2 ⟨rfl, assign_plainF as [] plainF_nil h⟩

end HoconParse
end Hocon
