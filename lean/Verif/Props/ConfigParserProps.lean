import Verif.Lemmas.ConfigParserLemmas

/-!
# Properties of the config parser: repeated keys, dotted keys, `+=` (C21, C22, C46)
-/

set_option autoImplicit false

namespace Hocon
namespace ConfigParser

open Value Spec Tokenizer

/-! ## C21: repeated keys -/

/-- The assignments an object makes, in order: the path of each field and the value of its value
node. -/
inductive Assigned (env : Env) (inc : Includer) (json : Bool) (arr : Nat) (outer : Option Path) :
    List Node → List (Path × Value) → Prop where
  | nil : Assigned env inc json arr outer [] []
  | field {ds cs : List Node} {p : Path} {ts : List Tok} {v : Value} {n m : Nat}
      {as : List (Path × Value)} :
      Node.fieldPath ds = .ok (p, ts) →
      parseFieldValue env inc json arr (some (pushPath outer p)) ds n = .ok (v, m) →
      Assigned env inc json arr outer cs as →
      Assigned env inc json arr outer (.field ds :: cs) ((p, v) :: as)
  | other {c : Node} {cs : List Node} {as : List (Path × Value)} :
      (∀ ds, c ≠ .field ds) → Assigned env inc json arr outer cs as →
      Assigned env inc json arr outer (c :: cs) as

theorem nofalse {P : Prop} : false = true → P := fun h => by cases h

/-- The nested objects of the assignments, the last one on top. -/
def layers (as : List (Path × Value)) : List Value := (as.map fun a => nest a.1 a.2).reverse

theorem look_newObj_put (fs : Fields) (k k' : Str) (v : Value) (q : Path) :
    look (newObj (putKey k v fs)) (k' :: q) =
      if k = k' then look v q else look (newObj fs) (k' :: q) := by
  simp only [look_cons, newObj, child_obj, findKey_putKey]
  split <;> simp

theorem hidden_single (k k' : Str) (w : Value) (q : Path) :
    Hidden (newObj [(k, w)]) (k' :: q) ↔ k = k' ∧ Hidden w q := by
  by_cases h : k = k'
  · subst h
    rw [hidden_cons (w := w) rfl (by simp [newObj, child_obj, findKey_cons])]
    simp
  · simp only [h, false_and, iff_false]
    exact not_hidden_of_none rfl (by simp [newObj, child_obj, findKey_cons, h])

theorem look_single (k k' : Str) (w : Value) (q : Path) :
    look (newObj [(k, w)]) (k' :: q) = if k = k' then look w q else none := by
  simp only [look_cons, newObj, child_obj, findKey_cons]
  split <;> simp

/-- One assignment puts its nested objects on top of what was there. -/
theorem putField_layer {fs fs' : Fields} {p : Path} {v : Value} (hf : PlainF fs) (hv : v.Plain)
    (h : putField false fs p v = .ok fs') (below : List Value)
    (hb : ∀ q, q ≠ [] → Through below q (look (newObj fs) q)) :
    ∀ q, q ≠ [] → Through (nest p v :: below) q (look (newObj fs') q) := by
  cases p with
  | nil => simp [putField] at h
  | cons k p =>
    rw [putField_conf] at h
    obtain ⟨m, h1, _, h3⟩ := putMerged_plain (k := k) hf (nest_plain hv p)
    rw [h1] at h
    simp only [Res.ok.injEq] at h
    subst h
    intro q hq
    cases q with
    | nil => exact absurd rfl hq
    | cons k' q =>
      rw [look_newObj_put]
      by_cases hk : k = k'
      · subst hk
        rw [if_pos rfl]
        have hb' := hb (k :: q) (by simp)
        simp only [look_cons, newObj, child_obj] at hb'
        cases hfk : findKey fs k with
        | none =>
          rw [hfk] at h3 hb'
          simp only at h3
          subst h3
          cases hl : look (nest p v) q with
          | some s => exact .here (by rw [nest, look_single]; simp [hl])
          | none =>
            have e : look (nest (k :: p) v) (k :: q) = none := by rw [nest, look_single]; simp [hl]
            by_cases hh : Hidden (nest p v) q
            · exact .hidden e ((hidden_single ..).2 ⟨rfl, hh⟩)
            · exact .lower e (fun hx => hh ((hidden_single ..).1 hx).2) hb'
        | some old =>
          rw [hfk] at h3 hb'
          simp only [Option.bind_some] at h3 hb'
          subst h3
          obtain ⟨c1, c2, c3⟩ := pmerge_look q (nest p v) old (nest_plain hv p) (hf.find hfk)
          cases hl : look (nest p v) q with
          | some s =>
            rw [c1 s hl]
            exact .here (by rw [nest, look_single]; simp [hl])
          | none =>
            have e : look (nest (k :: p) v) (k :: q) = none := by rw [nest, look_single]; simp [hl]
            by_cases hh : Hidden (nest p v) q
            · rw [c2 hl hh]; exact .hidden e ((hidden_single ..).2 ⟨rfl, hh⟩)
            · rw [c3 hl hh]; exact .lower e (fun hx => hh ((hidden_single ..).1 hx).2) hb'
      · rw [if_neg hk]
        refine .lower (by rw [nest, look_single, if_neg hk]) (fun hx => ?_) (hb _ hq)
        exact hk ((hidden_single ..).1 hx).1

theorem parseFields_layers (env : Env) (inc : Includer) (arr : Nat) (outer : Option Path)
    (cs : List Node) (fs fs' : Fields) (n m : Nat) (below : List Value)
    (hs : staticL false cs = true) (hf : PlainF fs)
    (hb : ∀ q, q ≠ [] → Through below q (look (newObj fs) q))
    (h : parseFields env inc false arr outer cs fs n = .ok (fs', m)) :
    ∃ as, Assigned env inc false arr outer cs as ∧ (∀ a ∈ as, a.2.Plain) ∧
      ∀ q, q ≠ [] → Through (layers as ++ below) q (look (newObj fs') q) := by
  induction cs generalizing fs n below with
  | nil =>
    simp only [parseFields, Res.ok.injEq, Prod.mk.injEq] at h
    exact ⟨[], .nil, by simp, h.1 ▸ hb⟩
  | cons c cs ih =>
    simp only [staticL, Bool.and_eq_true] at hs
    by_cases h1 : ∃ ds, c = .field ds
    · obtain ⟨ds, rfl⟩ := h1
      simp only [static, Bool.and_eq_true, Bool.not_eq_true'] at hs
      rw [parseFields_field _ _ _ _ _ _ _ _ _ hs.1.1] at h
      simp only [Res.bind_eq_ok] at h
      obtain ⟨⟨p, ts⟩, e1, ⟨v, n1⟩, e2, gs, e3, e4⟩ := h
      have hv := parseFieldValue_plain env inc nofalse false arr _ ds n n1 v hs.1.2 e2
      obtain ⟨as, a1, a2, a3⟩ := ih gs n1 (nest p v :: below) hs.2 (putField_plain hf hv e3)
        (putField_layer hf hv e3 below hb) e4
      refine ⟨(p, v) :: as, .field e1 e2 a1, ?_, ?_⟩
      · intro a ha
        rcases List.mem_cons.1 ha with rfl | ha
        · exact hv
        · exact a2 a ha
      · simpa [layers] using a3
    · have e1 : ∀ ds, c ≠ .field ds := fun ds e => h1 ⟨ds, e⟩
      have e2 : ∀ ds k, c ≠ .incl ds k := fun ds k e => by rw [e] at hs; simp [static] at hs
      rw [parseFields_skip _ _ _ _ _ _ _ _ _ e1 e2] at h
      obtain ⟨as, a1, a2, a3⟩ := ih fs n below hs.2 hf hb h
      exact ⟨as, .other e1 a1, a2, a3⟩

/-- **C21.** In an object without substitutions, at every path one sees what the last assignment
that has something there shows, unless a later assignment of a value that is not an object hides
it: later values replace earlier ones and objects merge. -/
theorem C21_last_wins (env : Env) (inc : Includer) (arr : Nat) (outer : Option Path)
    (cs : List Node) (n m : Nat) (o : Value) (hs : static false (.object cs) = true)
    (h : parseValue env inc false arr outer (.object cs) n = .ok (o, m)) :
    ∃ as, Assigned env inc false arr outer cs as ∧ o.Plain ∧ o.isObject = true ∧
      ∀ q, q ≠ [] → Through (layers as) q (look o q) := by
  have hp := parseValue_plain env inc nofalse false arr outer (.object cs) n m o hs h
  simp only [parseValue, Res.bind_eq_ok] at h
  obtain ⟨⟨fs, n'⟩, h1, h2⟩ := h
  simp only [Res.ok.injEq, Prod.mk.injEq] at h2
  rw [static] at hs
  obtain ⟨as, a1, a2, a3⟩ := parseFields_layers env inc arr outer cs [] fs n n' [] hs
    ⟨by simp [keysOf], by simp⟩ (by
      intro q hq
      cases q with
      | nil => exact absurd rfl hq
      | cons k q =>
        have : look (newObj []) (k :: q) = none := by simp [look_cons, newObj, child_obj]
        rw [this]; exact .bottom _) h1
  exact ⟨as, a1, hp, h2.1 ▸ rfl, by simpa [h2.1] using a3⟩

theorem look_nest_other {p q : Path} {v : Value} (h1 : ¬ p <+: q) (h2 : ¬ q <+: p) :
    look (nest p v) q = none ∧ ¬ Hidden (nest p v) q := by
  induction p generalizing q with
  | nil => exact absurd List.nil_prefix h1
  | cons k p ih =>
    cases q with
    | nil => exact absurd List.nil_prefix h2
    | cons k' q =>
      by_cases hk : k = k'
      · subst hk
        obtain ⟨e1, e2⟩ := ih (q := q) (fun hx => h1 (by simpa using hx))
          (fun hx => h2 (by simpa using hx))
        exact ⟨by rw [nest, look_single]; simpa using e1, fun hx => e2 ((hidden_single ..).1 hx).2⟩
      · exact ⟨by rw [nest, look_single, if_neg hk], fun hx => hk ((hidden_single ..).1 hx).1⟩

theorem look_nest_self (p : Path) (v : Value) : look (nest p v) p = some (seen v) := by
  induction p with
  | nil => rfl
  | cons k p ih => rw [nest, look_single, if_pos rfl, ih]

theorem Through.skip {top below : List Value} {q : Path} {o : Option Seen}
    (ht : ∀ v ∈ top, look v q = none ∧ ¬ Hidden v q) (h : Through (top ++ below) q o) :
    Through below q o := by
  induction top with
  | nil => exact h
  | cons v top ih =>
    obtain ⟨h1, h2⟩ := ht v (by simp)
    cases h with
    | here h => rw [h1] at h; cases h
    | hidden _ h => exact absurd h h2
    | lower _ _ h => exact ih (fun w hw => ht w (by simp [hw])) h

/-- **C21 (overwriting).** If no later assignment touches the path, a path above it or a path below
it, then at the path of an assignment one sees exactly its value; a value that is not an object
replaces whatever was assigned before. -/
theorem C21_overwrites (env : Env) (inc : Includer) (arr : Nat) (outer : Option Path)
    (cs : List Node) (n m : Nat) (o : Value) (hs : static false (.object cs) = true)
    (h : parseValue env inc false arr outer (.object cs) n = .ok (o, m)) :
    ∃ as, Assigned env inc false arr outer cs as ∧
      ∀ before after p v, as = before ++ (p, v) :: after → p ≠ [] →
        (∀ a ∈ after, ¬ a.1 <+: p ∧ ¬ p <+: a.1) →
        look o p = some (seen v) ∧
        (v.isObject = false → ∀ q, p <+: q → q ≠ p → look o q = none) := by
  obtain ⟨as, a1, hp, _, a3⟩ := C21_last_wins env inc arr outer cs n m o hs h
  refine ⟨as, a1, ?_⟩
  rintro before after p v rfl hne haft
  have sk : ∀ q, p <+: q → Through (nest p v :: layers before) q (look o q) := by
    intro q hq
    have hq' : q ≠ [] := by
      rintro rfl
      exact hne (List.prefix_nil.1 hq)
    have := a3 q hq'
    have e : layers (before ++ (p, v) :: after) =
        layers after ++ (nest p v :: layers before) := by simp [layers]
    rw [e] at this
    refine Through.skip ?_ this
    intro w hw
    simp only [layers, List.mem_reverse, List.mem_map] at hw
    obtain ⟨a, ha, rfl⟩ := hw
    obtain ⟨b1, b2⟩ := haft a ha
    refine look_nest_other ?_ ?_
    · intro hx
      rcases List.prefix_or_prefix_of_prefix hx hq with hy | hy
      · exact b1 hy
      · exact b2 hy
    · exact fun hx => b2 (hq.trans hx)
  constructor
  · exact (sk p (List.prefix_refl p)).unique (.here (look_nest_self p v))
  · intro hv q hq hqp
    refine (sk q hq).unique (.hidden ?_ ?_)
    · obtain ⟨r, rfl⟩ := hq
      have : look (nest p v) (p ++ r) = look v r := by
        clear sk haft a3 a1 hqp hne
        induction p with
        | nil => rfl
        | cons k p ih => rw [List.cons_append, nest, look_single, if_pos rfl, ih]
      rw [this]
      cases r with
      | nil => simp at hqp
      | cons k r =>
        rw [look_cons]
        rw [child_nonobj (Plain.ne_of_nonobj hv)]
        rfl
    · refine ⟨p, v, hq, fun e => hqp e.symm, ?_, ?_⟩
      · clear sk haft a3 a1 hqp hq hne
        induction p with
        | nil => rfl
        | cons k p ih => simp [nest, at?, newObj, child_obj, findKey_cons, ih]
      · cases v <;> simp_all [closed, isObject]

/-- A document with repeated keys: objects merge, other values are replaced. -/
example : (parseText exEnv noInc .conf
      (ch "a : {x : 1, y : 2}, b : 1, a : {x : 3}, b.c : 2, a.z : 4") 0 >>= fun r => Res.ok
        [look r.1 [ch "a", ch "x"], look r.1 [ch "a", ch "y"], look r.1 [ch "a", ch "z"],
          look r.1 [ch "b"]]) =
    .ok [some (.leaf (.scalar (.int 3 (ch "3")))), some (.leaf (.scalar (.int 2 (ch "2")))),
      some (.leaf (.scalar (.int 4 (ch "4")))), some .object] := by decide +kernel

theorem parseFields_json (env : Env) (inc : Includer) (arr : Nat) (outer : Option Path)
    (cs : List Node) (fs fs' : Fields) (n m : Nat) (hs : staticL false cs = true)
    (h : parseFields env inc true arr outer cs fs n = .ok (fs', m)) :
    ∃ as : List (Str × Value), fs' = fs ++ as ∧
      Assigned env inc true arr outer cs (as.map fun a => ([a.1], a.2)) := by
  induction cs generalizing fs n with
  | nil =>
    simp only [parseFields, Res.ok.injEq, Prod.mk.injEq] at h
    exact ⟨[], by simp [h.1], .nil⟩
  | cons c cs ih =>
    simp only [staticL, Bool.and_eq_true] at hs
    by_cases h1 : ∃ ds, c = .field ds
    · obtain ⟨ds, rfl⟩ := h1
      simp only [static, Bool.and_eq_true, Bool.not_eq_true'] at hs
      rw [parseFields_field _ _ _ _ _ _ _ _ _ hs.1.1] at h
      simp only [Res.bind_eq_ok] at h
      obtain ⟨⟨p, ts⟩, e1, ⟨v, n1⟩, e2, gs, e3, e4⟩ := h
      obtain ⟨as, a1, a2⟩ := ih gs n1 hs.2 e4
      match p with
      | [] => simp [putField] at e3
      | [k] =>
        simp only [putField, Bool.true_and] at e3
        split at e3
        · cases e3
        · rename_i hk
          have hk' : findKey fs k = none := by simpa using hk
          simp only [putMerged, hk', Res.ok.injEq] at e3
          rw [putKey_not_mem (findKey_none.1 hk')] at e3
          refine ⟨(k, v) :: as, by simp [a1, ← e3], .field e1 e2 a2⟩
      | k :: k' :: p => simp [putField] at e3
    · have e1 : ∀ ds, c ≠ .field ds := fun ds e => h1 ⟨ds, e⟩
      have e2 : ∀ ds k, c ≠ .incl ds k := fun ds k e => by rw [e] at hs; simp [static] at hs
      rw [parseFields_skip _ _ _ _ _ _ _ _ _ e1 e2] at h
      obtain ⟨as, a1, a2⟩ := ih fs n hs.2 h
      exact ⟨as, a1, .other e1 a2⟩

/-- **C21 (JSON).** In JSON mode a parsed object has exactly the assigned fields, with distinct
keys: a repeated key makes the parser throw. -/
theorem C21_json_distinct (env : Env) (inc : Includer) (arr : Nat) (outer : Option Path)
    (cs : List Node) (n m : Nat) (o : Value) (hs : static false (.object cs) = true)
    (h : parseValue env inc true arr outer (.object cs) n = .ok (o, m)) :
    ∃ as : List (Str × Value), Assigned env inc true arr outer cs (as.map fun a => ([a.1], a.2)) ∧
      (as.map Prod.fst).Nodup ∧ o = newObj as := by
  have hp := parseValue_plain env inc nofalse true arr outer (.object cs) n m o hs h
  simp only [parseValue, Res.bind_eq_ok] at h
  obtain ⟨⟨fs, n'⟩, h1, h2⟩ := h
  simp only [Res.ok.injEq, Prod.mk.injEq] at h2
  rw [static] at hs
  obtain ⟨as, a1, a2⟩ := parseFields_json env inc arr outer cs [] fs n n' hs h1
  simp only [List.nil_append] at a1
  subst a1
  refine ⟨fs, a2, ?_, h2.1.symm⟩
  rw [← h2.1] at hp
  exact (plain_obj.1 hp).2.nodup

example : parseText exEnv noInc .json (ch "{\"a\" : 1, \"a\" : 2}") 0 = .err .parse := by
  decide +kernel

/-! ## C22: dotted keys -/

theorem isValue_path (p : Path) (ts : List Tok) : (Node.path p ts).isValue = false := rfl
theorem isValue_single (t : Tok) : (Node.single t).isValue = false := rfl
theorem isValue_concat (cs : List Node) : (Node.concat cs).isValue = true := rfl
theorem isValue_simple (t : Tok) : (Node.simple t).isValue = true := rfl
theorem isValue_array (cs : List Node) : (Node.array cs).isValue = true := rfl

/-- `p : w` -/
def fieldNode (p : Path) (w : Node) : Node := .field [.path p [], .single .colon, w]

/-- `p1 : { p2 : { ... { pn : w } } }` -/
def nestedFields : Path → Node → Node
  | [], w => w
  | [k], w => fieldNode [k] w
  | k :: p, w => fieldNode [k] (.object [nestedFields p w])

theorem noPlus_fieldNode (p : Path) (w : Node) (h : noPlus w = true) :
    noPlus (fieldNode p w) = true := by
  have : isPlusEquals [.path p [], .single .colon, w] = false := by
    simp [isPlusEquals, Node.fieldSeparator, Node.singleToken?]
  simp [fieldNode, noPlus, noPlusL, h, this]

theorem noPlus_nestedFields (p : Path) (w : Node) (h : noPlus w = true) :
    noPlus (nestedFields p w) = true := by
  induction p with
  | nil => exact h
  | cons k p ih =>
    cases p with
    | nil => exact noPlus_fieldNode _ _ h
    | cons k' p =>
      rw [nestedFields]
      · exact noPlus_fieldNode _ _ (by simp [noPlus, noPlusL, ih])
      · simp

theorem nestedFields_eq (k : Str) (p : Path) (w : Node) : ∃ x, nestedFields (k :: p) w =
    fieldNode [k] x ∧ x.isValue = (w.isValue || !p.isEmpty) ∧
    x = (if p = [] then w else .object [nestedFields p w]) := by
  cases p with
  | nil => exact ⟨w, rfl, by simp, by simp⟩
  | cons k' p => exact ⟨.object [nestedFields (k' :: p) w], by rw [nestedFields]; simp,
      by simp [Node.isValue], by simp⟩

theorem parse_fieldNode (env : Env) (inc : Includer) (json : Bool) (arr : Nat)
    (outer : Option Path) (p : Path) (w : Node) (rest : List Node) (fs : Fields) (n : Nat)
    (hw : w.isValue = true) :
    parseFields env inc json arr outer (fieldNode p w :: rest) fs n =
      (parseValue env inc json arr (some (pushPath outer p)) w n >>= fun vn =>
        putField json fs p vn.1 >>= fun fs =>
        parseFields env inc json arr outer rest fs vn.2) := by
  have : isPlusEquals [.path p [], .single .colon, w] = false := by
    simp [isPlusEquals, Node.fieldSeparator, Node.singleToken?]
  rw [fieldNode, parseFields_field _ _ _ _ _ _ _ _ _ this]
  simp [Node.fieldPath, parseFieldValue, isValue_path, isValue_single, hw]

/-- Parsing nested fields is parsing the value and wrapping it. -/
theorem parse_nested (env : Env) (inc : Includer) (arr : Nat) (outer : Option Path) (p : Path)
    (k : Str) (w : Node) (rest : List Node) (fs : Fields) (n : Nat) (hw : w.isValue = true)
    (hp : noPlus w = true) :
    parseFields env inc false arr outer (nestedFields (k :: p) w :: rest) fs n =
      (parseValue env inc false arr outer w n >>= fun vn =>
        putMerged fs k (nest p vn.1) >>= fun fs =>
        parseFields env inc false arr outer rest fs vn.2) := by
  induction p generalizing k rest fs outer n with
  | nil =>
    rw [nestedFields, parse_fieldNode _ _ _ _ _ _ _ _ _ _ hw,
      parseValue_outer _ _ _ _ _ outer w n hp]
    simp only [putField_conf]
  | cons k' p ih =>
    have e : nestedFields (k :: k' :: p) w = fieldNode [k] (.object [nestedFields (k' :: p) w]) := by
      rw [nestedFields]; simp
    rw [e, parse_fieldNode _ _ _ _ _ _ _ _ _ _ rfl, parseValue, ih]
    rw [parseValue_outer _ _ _ _ (some (pushPath outer [k])) outer w n hp]
    cases parseValue env inc false arr outer w n with
    | ok vn =>
      simp only [Res.ok_bind, putField_conf, putMerged, findKey_nil, putKey, parseFields, nest]
    | err e => rfl
    | ub => rfl
    | fuel => rfl

/-- **C22.** A field with a dotted key can be replaced by the nested objects it stands for, at any
position in an object, with the same outcome. (A `+=` inside the value refers to the enclosing path
and is excluded here; see C46.) -/
theorem C22_dotted_is_nested (env : Env) (inc : Includer) (arr : Nat) (outer : Option Path)
    (before rest : List Node) (p : Path) (w : Node) (n : Nat) (hne : p ≠ [])
    (hw : w.isValue = true) (hp : noPlus w = true) :
    parseValue env inc false arr outer (.object (before ++ fieldNode p w :: rest)) n =
      parseValue env inc false arr outer (.object (before ++ nestedFields p w :: rest)) n := by
  cases p with
  | nil => exact absurd rfl hne
  | cons k p =>
    have : ∀ fs n, parseFields env inc false arr outer (fieldNode (k :: p) w :: rest) fs n =
        parseFields env inc false arr outer (nestedFields (k :: p) w :: rest) fs n := by
      intro fs n
      rw [parse_nested _ _ _ _ _ _ _ _ _ _ hw hp, parse_fieldNode _ _ _ _ _ _ _ _ _ _ hw,
        parseValue_outer _ _ _ _ _ outer w n hp]
      simp only [putField_conf]
    simp only [parseValue, parseFields_append, this]

/-- **C22 (contents).** Whatever its value, a field with the dotted key `k.p` stores under `k` the
nested objects for `p` around the value, merged over the value already there. -/
theorem C22_contributes (env : Env) (inc : Includer) (arr : Nat) (outer : Option Path)
    (rest : List Node) (k : Str) (p : Path) (w : Node) (fs : Fields) (n m : Nat) (v : Value)
    (hw : w.isValue = true)
    (hv : parseValue env inc false arr (some (pushPath outer (k :: p))) w n = .ok (v, m)) :
    parseFields env inc false arr outer (fieldNode (k :: p) w :: rest) fs n =
      ((match findKey fs k with
        | none => Res.ok (nest p v)
        | some old => withFallback (nest p v) old) >>= fun x =>
      parseFields env inc false arr outer rest (putKey k x fs) m) := by
  rw [parse_fieldNode _ _ _ _ _ _ _ _ _ _ hw, hv]
  simp only [Res.ok_bind, putField_conf, putMerged]
  cases findKey fs k with
  | none => rfl
  | some old =>
    simp only
    cases withFallback (nest p v) old <;> rfl

example : parseText exEnv noInc .conf (ch "x.y.z : [1], x.y.w : 2") 0 =
    parseText exEnv noInc .conf (ch "x : {y : {z : [1]}}, x {y {w = 2}}") 0 := by decide +kernel
example : (parseText exEnv noInc .conf (ch "x.y.z : [1], x.y.w : 2") 0).isOk = true := by
  decide +kernel

/-! ## C46: `+=` -/

/-- `p += w` -/
def plusNode (p : Path) (w : Node) : Node := .field [.path p [], .single .plusEquals, w]

/-- `p = ${?q} [w]`, where `q` is written as the tokens `ts`. -/
def selfAppendNode (p : Path) (ts : List Tok) (l : Int) (w : Node) : Node :=
  .field [.path p [], .single .equals,
    .concat [.simple (.subst true ts l), .array [.single .openSquare, w, .single .closeSquare]]]

theorem parse_plusNode (env : Env) (inc : Includer) (outer : Option Path) (p : Path) (w : Node)
    (rest : List Node) (fs : Fields) (n m : Nat) (v : Value) (hw : w.isValue = true)
    (hv : parseValue env inc false 1 (some (pushPath outer p)) w n = .ok (v, m)) :
    parseFields env inc false 0 outer (plusNode p w :: rest) fs n =
      (putField false fs p (.concat [.ref m (pushPath outer p) true 0, .list [v]]) >>= fun fs =>
        parseFields env inc false 0 outer rest fs (m + 1)) := by
  have h1 : isPlusEquals [.path p [], .single .plusEquals, w] = true := by
    simp [isPlusEquals, Node.fieldSeparator, Node.singleToken?]
  have h2 : ∀ q : Path, concatenate env [.ref m q true 0, .list [v]] =
      .ok (some (.concat [.ref m q true 0, .list [v]])) := by
    intro q
    simp [concatenate, consolidate, flattenPieces, joinLoop, join, isObject, isList, isConcat,
      isUnmergeable, isIgnoredWhitespace, mkConcat]
  simp [plusNode, parseFields, h1, Node.fieldPath, parseFieldValue, isValue_path, isValue_single, hw, hv,
    plusValue, h2]

/-- **C46.** A `+=` field that is not inside another field stores the same as the assignment of
`${?p} [w]`: a concatenation of an optional reference to the path and a list of the one value. Only
part of the claim: inside another field the reference is wrong, see `C46_nested_wrong`. (The two
sides count the reference objects in a different order.) -/
theorem C46_top_partial (env : Env) (inc : Includer) (p : Path) (ts : List Tok) (l : Int) (w : Node)
    (rest : List Node) (fs : Fields) (n m m' : Nat) (v v' : Value) (hw : w.isValue = true)
    (hts : PathParser.parsePathExpression env true ts = .ok p)
    (hv : parseValue env inc false 1 (some p) w n = .ok (v, m))
    (hv' : parseValue env inc false 1 (some p) w (n + 1) = .ok (v', m')) :
    parseFields env inc false 0 none (plusNode p w :: rest) fs n =
      (putField false fs p (.concat [.ref m p true 0, .list [v]]) >>= fun fs =>
        parseFields env inc false 0 none rest fs (m + 1)) ∧
    parseFields env inc false 0 none (selfAppendNode p ts l w :: rest) fs n =
      (putField false fs p (.concat [.ref n p true 0, .list [v']]) >>= fun fs =>
        parseFields env inc false 0 none rest fs m') := by
  refine ⟨parse_plusNode env inc none p w rest fs n m v hw hv, ?_⟩
  have h1 : ∀ x, isPlusEquals [.path p [], .single .equals, x] = false := by
    intro x
    simp [isPlusEquals, Node.fieldSeparator, Node.singleToken?]
  have h2 : concatenate env [.ref n p true 0, .list [v']] =
      .ok (some (.concat [.ref n p true 0, .list [v']])) := by
    simp [concatenate, consolidate, flattenPieces, joinLoop, join, isObject, isList, isConcat,
      isUnmergeable, isIgnoredWhitespace, mkConcat]
  rw [selfAppendNode, parseFields_field _ _ _ _ _ _ _ _ _ (h1 _)]
  simp [Node.fieldPath, parseFieldValue, isValue_path, isValue_single, isValue_concat,
    isValue_simple, isValue_array, parseValue, parseElems, getValue, hts, hw,
    hv', h2, nonNull, pushPath]

/-- When the value contains no substitution the two sides are equal. -/
theorem C46_top_equal_partial (env : Env) (inc : Includer) (p : Path) (ts : List Tok) (l : Int)
    (w : Node) (rest : List Node) (fs : Fields) (n : Nat) (v : Value) (hw : w.isValue = true)
    (hts : PathParser.parsePathExpression env true ts = .ok p)
    (hv : ∀ n, parseValue env inc false 1 (some p) w n = .ok (v, n)) :
    parseFields env inc false 0 none (plusNode p w :: rest) fs n =
      parseFields env inc false 0 none (selfAppendNode p ts l w :: rest) fs n := by
  obtain ⟨h1, h2⟩ := C46_top_partial env inc p ts l w rest fs n n (n + 1) v v hw hts (hv n)
    (hv (n + 1))
  rw [h1, h2]

example : parseText exEnv noInc .conf (ch "a.b += 1\nc : 2, a.b += {x : 2}") 0 =
    parseText exEnv noInc .conf (ch "a.b = ${?a.b} [1]\nc : 2, a.b = ${?a.b} [{x : 2}]") 0 := by
  decide +kernel
example : (parseText exEnv noInc .conf (ch "a.b += 1\nc : 2, a.b += {x : 2}") 0).isOk = true := by
  decide +kernel

/-- Inside a field with the path `q` a `+=` refers to `q`, whatever the full path of its key. -/
theorem C46_refers_to_outermost (env : Env) (inc : Includer) (q p : Path) (w : Node)
    (rest : List Node) (fs : Fields) (n m : Nat) (v : Value) (hw : w.isValue = true)
    (hv : parseValue env inc false 1 (some q) w n = .ok (v, m)) :
    parseFields env inc false 0 (some q) (plusNode p w :: rest) fs n =
      (putField false fs p (.concat [.ref m q true 0, .list [v]]) >>= fun fs =>
        parseFields env inc false 0 (some q) rest fs (m + 1)) :=
  parse_plusNode env inc (some q) p w rest fs n m v hw hv

/-- So `a { b += 1 }` is not `a { b = ${?a.b} [1] }`: it is `a { b = ${?a} [1] }`. -/
theorem C46_nested_wrong :
    parseText exEnv noInc .conf (ch "a { b += 1 }") 0 =
      parseText exEnv noInc .conf (ch "a { b = ${?a} [1] }") 0 ∧
    parseText exEnv noInc .conf (ch "a { b += 1 }") 0 ≠
      parseText exEnv noInc .conf (ch "a { b = ${?a.b} [1] }") 0 ∧
    (parseText exEnv noInc .conf (ch "a { b += 1 }") 0).isOk = true := by
  decide +kernel

/-- Inside a list `+=` throws. -/
theorem C46_in_list_throws (env : Env) (inc : Includer) (json : Bool) (arr : Nat)
    (outer : Option Path) (p : Path) (w : Node) (rest : List Node) (fs : Fields) (n : Nat)
    (ha : 0 < arr) :
    parseFields env inc json arr outer (plusNode p w :: rest) fs n = .err .parse := by
  have h1 : isPlusEquals [.path p [], .single .plusEquals, w] = true := by
    simp [isPlusEquals, Node.fieldSeparator, Node.singleToken?]
  simp [plusNode, parseFields, Node.fieldPath, h1, ha]

end ConfigParser
end Hocon
