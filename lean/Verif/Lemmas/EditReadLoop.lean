import Verif.Lemmas.EditRead
import Verif.Props.ConfigParserProps

/-!
# Reading the children of an edited object
-/

set_option autoImplicit false

namespace Hocon
namespace EditRead
open Value ConfigParser
open DocEdit (changeLoop changeNode changeField changeInObject changeNode_field changeNode_other WfNode WfList Flat
  dropSep setField changeField_spec changeLoop_spec length_drop_facts replaceValue_spec tokNode_notField)
open Node (fieldPath fieldValue fieldSeparator replaceValue isValue)

/-! ## Includers -/

/-- The includer returns only objects without substitutions, and counts no references. -/
structure Tame (inc : Includer) : Prop where
  plain : IncPlain inc
  file : ∀ name n v m, inc.file name n = .ok (v, m) → m = n
  heuristic : ∀ name n v m, inc.heuristic name n = .ok (v, m) → m = n

theorem includeName_count {env : Env} {b : Bool} : ∀ {cs : List Node} {n m : Nat} {s : Str}, staticL b cs = true →
    includeName env cs n = .ok (s, m) → m = n
  | [], n, m, s, _, h => by
    simp only [includeName, Res.ok.injEq, Prod.mk.injEq] at h
    exact h.2.symm
  | c :: cs, n, m, s, hs, h => by
    simp only [staticL, Bool.and_eq_true] at hs
    cases c with
    | simple t =>
      rw [includeName, Res.bind_eq_ok] at h
      obtain ⟨⟨v, n1⟩, h1, h2⟩ := h
      simp only [Res.ok.injEq, Prod.mk.injEq] at h2
      cases t with
      | subst => simp [static] at hs
      | value | unquoted =>
        simp only [ConfigParser.getValue, Res.ok.injEq, Prod.mk.injEq] at h1
        exact h2.2.symm.trans h1.2.symm
      | _ => simp [ConfigParser.getValue] at h1
    | _ => exact includeName_count hs.2 (by simpa only [includeName] using h)

theorem Tame.parseInclude {inc : Includer} (hi : Tame inc) {env : Env} {arr : Nat} {k : IncludeKind} {b : Bool}
    {ds : List Node} {fs gs : Fields} {n m : Nat} (hs : staticL b ds = true)
    (h : ConfigParser.parseInclude env inc arr k ds fs n = .ok (gs, m)) : m = n := by
  simp only [ConfigParser.parseInclude, Res.bind_eq_ok] at h
  obtain ⟨⟨o, n1⟩, h1, fs1, _, h3⟩ := h
  simp only [Res.ok.injEq, Prod.mk.injEq] at h3
  rw [← h3.2]
  cases k with
  | file =>
    rw [callIncluder, Res.bind_eq_ok] at h1
    obtain ⟨⟨name, n2⟩, h4, h5⟩ := h1
    exact (hi.file _ _ _ _ h5).trans (includeName_count hs h4)
  | heuristic =>
    rw [callIncluder, Res.bind_eq_ok] at h1
    obtain ⟨⟨name, n2⟩, h4, h5⟩ := h1
    exact (hi.heuristic _ _ _ _ h5).trans (includeName_count hs h4)
  | classpath => cases h1
  | url => cases h1

/-! ## Without substitutions no reference is counted -/

mutual
theorem parseValue_count (env : Env) (inc : Includer) {b : Bool} (hi : b = true → Tame inc) (json : Bool) (arr : Nat)
    (outer : Option Path) (c : Node) (n m : Nat) (v : Value) (hs : static b c = true)
    (h : parseValue env inc json arr outer c n = .ok (v, m)) : m = n := by
  match c with
  | .simple t =>
    rw [parseValue] at h
    cases t with
    | subst => simp [static] at hs
    | value | unquoted => simp only [ConfigParser.getValue, Res.ok.injEq, Prod.mk.injEq] at h; exact h.2.symm
    | _ => simp [ConfigParser.getValue] at h
  | .object cs =>
    simp only [parseValue, Res.bind_eq_ok] at h
    obtain ⟨⟨fs, n'⟩, h1, h2⟩ := h
    simp only [Res.ok.injEq, Prod.mk.injEq] at h2
    rw [static] at hs
    exact h2.2 ▸ parseFields_count env inc hi json arr outer cs [] fs n n' hs h1
  | .array cs =>
    simp only [parseValue, Res.bind_eq_ok] at h
    obtain ⟨⟨vs, n'⟩, h1, h2⟩ := h
    simp only [Res.ok.injEq, Prod.mk.injEq] at h2
    rw [static] at hs
    exact h2.2 ▸ parseElems_count env inc hi json (arr + 1) outer cs n n' vs hs h1
  | .concat cs =>
    rw [parseValue] at h
    split at h
    · cases h
    · simp only [Res.bind_eq_ok] at h
      obtain ⟨⟨vs, n'⟩, h1, o, h2, w, h3, h4⟩ := h
      simp only [Res.ok.injEq, Prod.mk.injEq] at h4
      rw [static] at hs
      exact h4.2 ▸ parseElems_count env inc hi json arr outer cs n n' vs hs h1
  | .single t => simp [parseValue] at h
  | .comment t => simp [parseValue] at h
  | .path p ts => simp [parseValue] at h
  | .field cs => simp [parseValue] at h
  | .incl cs k => simp [parseValue] at h
theorem parseElems_count (env : Env) (inc : Includer) {b : Bool} (hi : b = true → Tame inc) (json : Bool) (arr : Nat)
    (outer : Option Path) (cs : List Node) (n m : Nat) (vs : List Value) (hs : staticL b cs = true)
    (h : parseElems env inc json arr outer cs n = .ok (vs, m)) : m = n := by
  match cs with
  | [] =>
    simp only [parseElems, Res.ok.injEq, Prod.mk.injEq] at h
    exact h.2.symm
  | c :: cs =>
    simp only [staticL, Bool.and_eq_true] at hs
    rw [parseElems] at h
    split at h
    · simp only [Res.bind_eq_ok] at h
      obtain ⟨⟨v, n1⟩, h1, ⟨ws, n2⟩, h2, h3⟩ := h
      simp only [Res.ok.injEq, Prod.mk.injEq] at h3
      have e1 := parseValue_count env inc hi json arr outer c n n1 _ hs.1 h1
      have e2 := parseElems_count env inc hi json arr outer cs n1 n2 ws hs.2 h2
      omega
    · exact parseElems_count env inc hi json arr outer cs n m vs hs.2 h
theorem parseFieldValue_count (env : Env) (inc : Includer) {b : Bool} (hi : b = true → Tame inc) (json : Bool) (arr : Nat)
    (outer : Option Path) (cs : List Node) (n m : Nat) (v : Value) (hs : staticL b cs = true)
    (h : parseFieldValue env inc json arr outer cs n = .ok (v, m)) : m = n := by
  match cs with
  | [] => simp [parseFieldValue] at h
  | c :: cs =>
    simp only [staticL, Bool.and_eq_true] at hs
    rw [parseFieldValue] at h
    split at h
    · exact parseValue_count env inc hi json arr outer c n m v hs.1 h
    · exact parseFieldValue_count env inc hi json arr outer cs n m v hs.2 h
theorem parseFields_count (env : Env) (inc : Includer) {b : Bool} (hi : b = true → Tame inc) (json : Bool) (arr : Nat)
    (outer : Option Path) (cs : List Node) (fs fs' : Fields) (n m : Nat) (hs : staticL b cs = true)
    (h : parseFields env inc json arr outer cs fs n = .ok (fs', m)) : m = n := by
  match cs with
  | [] =>
    simp only [parseFields, Res.ok.injEq, Prod.mk.injEq] at h
    exact h.2.symm
  | .incl ds k :: cs =>
    simp only [staticL, static, Bool.and_eq_true] at hs
    cases json with
    | true =>
      rw [parseFields, if_pos rfl] at h
      exact parseFields_count env inc hi true arr outer cs fs fs' n m hs.2 h
    | false =>
      simp only [parseFields, Bool.false_eq_true, if_false, Res.bind_eq_ok] at h
      obtain ⟨⟨gs, n1⟩, h1, h2⟩ := h
      have e1 := (hi hs.1.1).parseInclude hs.1.2 h1
      have e2 := parseFields_count env inc hi false arr outer cs gs fs' n1 m hs.2 h2
      omega
  | .field ds :: cs =>
    simp only [staticL, static, Bool.and_eq_true, Bool.not_eq_true'] at hs
    simp only [parseFields, Res.bind_eq_ok, hs.1.1, Bool.false_eq_true, if_false] at h
    obtain ⟨⟨p, ts⟩, h1, ⟨v, n1⟩, h2, gs, h3, h4⟩ := h
    have e1 := parseFieldValue_count env inc hi json arr _ ds n n1 v hs.1.2 h2
    have e2 := parseFields_count env inc hi json arr outer cs gs fs' n1 m hs.2 h4
    omega
  | .single t :: cs | .comment t :: cs | .path _ t :: cs | .simple t :: cs | .object t :: cs | .array t :: cs
  | .concat t :: cs =>
    simp only [staticL, Bool.and_eq_true] at hs
    rw [parseFields] at h
    exact parseFields_count env inc hi json arr outer cs fs fs' n m hs.2 h
    all_goals simp
end

/-! ## The new value -/

/-- A value without substitutions that can be read. -/
structure Readable (env : Env) (inc : Includer) (w : Node) : Prop where
  fixed : static false w = true
  reads : ∀ arr outer n, ∃ v, parseValue env inc false arr outer w n = .ok (v, n)

mutual
theorem static_weaken {b : Bool} : (c : Node) → static false c = true → static b c = true
  | .field cs, h => by
    simp only [static, Bool.and_eq_true] at h ⊢
    exact ⟨h.1, staticL_weaken cs h.2⟩
  | .object cs, h | .array cs, h | .concat cs, h => by
    rw [static] at h ⊢
    exact staticL_weaken cs h
  | .simple t, h => by cases t <;> exact h
  | .incl _ _, h => by simp [static] at h
  | .single _, _ | .comment _, _ | .path _ _, _ => rfl
termination_by structural c => c
theorem staticL_weaken {b : Bool} : (cs : List Node) → staticL false cs = true → staticL b cs = true
  | [], _ => rfl
  | c :: cs, h => by
    simp only [staticL, Bool.and_eq_true] at h ⊢
    exact ⟨static_weaken c h.1, staticL_weaken cs h.2⟩
termination_by structural cs => cs
end

theorem isPlusEquals_eq {cs cs' : List Node} (h : fieldSeparator cs' = fieldSeparator cs) :
    isPlusEquals cs' = isPlusEquals cs := by unfold isPlusEquals; rw [h]

theorem single_value {n : Node} (h : n.isValue = true) : n.singleToken? = none := by
  cases n <;> first | rfl | cases h

theorem fieldSeparator_value {n n' : Node} (h : n.isValue = true) (h' : n'.isValue = true) (ns : List Node) :
    fieldSeparator (n' :: ns) = fieldSeparator (n :: ns) := by
  rw [fieldSeparator, fieldSeparator, single_value h, single_value h']

theorem fieldSeparator_cons {n : Node} {ns ns' : List Node} (h : fieldSeparator ns' = fieldSeparator ns) :
    fieldSeparator (n :: ns') = fieldSeparator (n :: ns) := by
  rw [fieldSeparator, fieldSeparator, h]

theorem replaceValue_read {env : Env} {inc : Includer} {b : Bool} {w : Node} (hv : w.isValue = true) (hr : Readable env inc w) :
    ∀ {cs cs' : List Node}, replaceValue w cs = .ok cs' → staticL b cs = true →
      staticL b cs' = true ∧ fieldSeparator cs' = fieldSeparator cs ∧
      ∀ arr outer n, ∃ v, parseFieldValue env inc false arr outer cs' n = .ok (v, n)
  | [], _, h, _ => by cases h
  | c :: cs, cs', h, hs => by
    simp only [staticL, Bool.and_eq_true] at hs
    rw [replaceValue] at h
    by_cases hc : c.isValue = true
    · rw [if_pos hc] at h
      cases h
      refine ⟨by simp [staticL, static_weaken (b := b) w hr.fixed, hs.2], fieldSeparator_value hc hv _, fun arr outer n => ?_⟩
      rw [parseFieldValue, if_pos hv]
      exact hr.reads arr outer n
    · rw [if_neg hc, Res.bind_eq_ok] at h
      obtain ⟨cs1, h1, h⟩ := h
      cases h
      obtain ⟨a1, a2, a3⟩ := replaceValue_read hv hr h1 hs.2
      refine ⟨by simp [staticL, hs.1, a1], fieldSeparator_cons a2, fun arr outer n => ?_⟩
      rw [parseFieldValue, if_neg hc]
      exact a3 arr outer n

/-! ## The loop -/

/-- The children `r` read like `ns` off the path. -/
def Kept (b : Bool) (env : Env) (inc : Includer) (p : Path) (ns r : List Node) : Prop :=
  staticL b r = true ∧ ∀ arr outer fs fs' gs n m, PlainF fs → PlainF fs' → AlikeF p fs fs' →
    parseFields env inc false arr outer ns fs n = .ok (gs, m) →
    ∃ gs', parseFields env inc false arr outer r fs' n = .ok (gs', m) ∧ AlikeF p gs gs'

theorem parseFields_dropSep (env : Env) (inc : Includer) (arr : Nat) (outer : Option Path) (fs : Fields) (n : Nat) :
    ∀ (r : List Node), parseFields env inc false arr outer (dropSep r) fs n = parseFields env inc false arr outer r fs n
  | [] => rfl
  | c :: cs => by
    rw [dropSep]
    split
    · rename_i h
      rw [parseFields_dropSep env inc arr outer fs n cs]
      rw [Bool.or_eq_true] at h
      cases c <;> simp_all [Node.hasTok, Node.singleToken?, parseFields]
    · rfl

theorem static_dropSep {b : Bool} : ∀ {r : List Node}, staticL b r = true → staticL b (dropSep r) = true
  | [], _ => rfl
  | c :: cs, h => by
    rw [dropSep]
    split
    · simp only [staticL, Bool.and_eq_true] at h
      exact static_dropSep h.2
    · exact h

theorem Kept.sep {b : Bool} {env : Env} {inc : Includer} {p : Path} {ns r : List Node} (h : Kept b env inc p ns r) :
    Kept b env inc p ns (dropSep r) :=
  ⟨static_dropSep h.1, fun arr outer fs fs' gs n m h1 h2 h3 h4 => by
    rw [parseFields_dropSep]; exact h.2 arr outer fs fs' gs n m h1 h2 h3 h4⟩

/-- A field of the same key, whose value is read as one that is the same off the path. -/
theorem Kept.field {b : Bool} {env : Env} {inc : Includer} (hi : b = true → Tame inc) {p : Path} {ns r cs cs' : List Node} (h : Kept b env inc p ns r)
    {key : Path} {ts ts' : List Tok} (hk : key ≠ []) (h1 : fieldPath cs = .ok (key, ts)) (h2 : fieldPath cs' = .ok (key, ts'))
    (hs : static b (.field cs) = true) (hs' : static b (.field cs') = true)
    (hv : ∀ arr outer n v, parseFieldValue env inc false arr outer cs n = .ok (v, n) →
      ∃ v', parseFieldValue env inc false arr outer cs' n = .ok (v', n) ∧
        Alike p (some (nest key v)) (some (nest key v'))) :
    Kept b env inc p (.field cs :: ns) (.field cs' :: r) := by
  refine ⟨by simp [staticL, hs', h.1], fun arr outer fs fs' gs n m p1 p2 p3 p4 => ?_⟩
  simp only [static, Bool.and_eq_true, Bool.not_eq_true'] at hs hs'
  rw [parseFields_field _ _ _ _ _ _ _ _ _ hs.1, h1] at p4
  simp only [Res.ok_bind, Res.bind_eq_ok] at p4
  obtain ⟨⟨v, n1⟩, q1, fs1, q2, q3⟩ := p4
  have hn := parseFieldValue_count env inc hi false arr _ cs n n1 v hs.2 q1
  simp only at hn q2 q3
  rw [hn] at q1 q3
  obtain ⟨v', q4, q5⟩ := hv _ _ _ _ q1
  have pv := parseFieldValue_plain env inc (fun e => (hi e).plain) false arr _ cs n n v hs.2 q1
  have pv' := parseFieldValue_plain env inc (fun e => (hi e).plain) false arr _ cs' n n v' hs'.2 q4
  obtain ⟨gs', r1, r2, r3, r4⟩ := put_alike hk p1 p2 pv pv' p3 q5 q2
  obtain ⟨hs1, hs2⟩ := h.2 arr outer fs1 gs' gs n m r2 r3 r4 q3
  refine ⟨hs1, ?_⟩
  rw [parseFields_field _ _ _ _ _ _ _ _ _ hs'.1, h2]
  simp only [Res.ok_bind]
  rw [q4]
  simp only [Res.ok_bind]
  rw [r1]
  exact hs2

/-- A field at or below the path left out. -/
theorem Kept.drop {b : Bool} {env : Env} {inc : Includer} (hi : b = true → Tame inc) {p : Path} {ns r cs : List Node} (h : Kept b env inc p ns r)
    {key : Path} {ts : List Tok} (hk : key ≠ []) (h1 : fieldPath cs = .ok (key, ts)) (hp : p <+: key)
    (hs : static b (.field cs) = true) : Kept b env inc p (.field cs :: ns) r := by
  refine ⟨h.1, fun arr outer fs fs' gs n m p1 p2 p3 p4 => ?_⟩
  simp only [static, Bool.and_eq_true, Bool.not_eq_true'] at hs
  rw [parseFields_field _ _ _ _ _ _ _ _ _ hs.1, h1] at p4
  simp only [Res.ok_bind, Res.bind_eq_ok] at p4
  obtain ⟨⟨v, n1⟩, q1, fs1, q2, q3⟩ := p4
  have hn := parseFieldValue_count env inc hi false arr _ cs n n1 v hs.2 q1
  simp only at hn q2 q3
  rw [hn] at q1 q3
  have pv := parseFieldValue_plain env inc (fun e => (hi e).plain) false arr _ cs n n v hs.2 q1
  obtain ⟨r1, r2⟩ := put_alike_left hk p1 p2 pv p3 (nest_below v hp) q2
  exact h.2 arr outer fs1 fs' gs n m r1 p2 r2 q3

theorem putAll_total {fs : Fields} : ∀ (gs : Fields), PlainF fs → PlainF gs → ∃ fs', putAll fs gs = .ok fs'
  | [], _, _ => ⟨_, rfl⟩
  | (k, v) :: gs, hf, hg => by
    obtain ⟨hv, hg', _⟩ := hg.cons
    obtain ⟨m, h1, h2, _⟩ := putMerged_plain (k := k) hf hv
    obtain ⟨fs', h3⟩ := putAll_total gs (PlainF.put hf h2) hg'
    exact ⟨fs', by rw [putAll, h1, Res.ok_bind, h3]⟩

/-- Storing an included object puts it over the fields stored before. -/
theorem putAll_over {fs fs' gs : Fields} (hf : PlainF fs) (hg : PlainF gs) (h : putAll fs gs = .ok fs') :
    PlainF fs' ∧ ∀ k, findKey fs' k = over (findKey gs k) (findKey fs k) := by
  obtain ⟨h1, h2⟩ := putAll_plain gs fs fs' hf hg h
  refine ⟨h1, fun k => ?_⟩
  rw [h2]
  cases findKey gs k <;> cases findKey fs k <;> rfl

theorem parseInclude_both {env : Env} {inc : Includer} (hi : IncPlain inc) {arr : Nat} {k : IncludeKind}
    {ds : List Node} {fs fs' : Fields} {n m : Nat} (h : parseInclude env inc arr k ds fs n = .ok (fs', m)) :
    ∃ gs, PlainF gs ∧ putAll fs gs = .ok fs' ∧
      ∀ hs hs', putAll hs gs = .ok hs' → parseInclude env inc arr k ds hs n = .ok (hs', m) := by
  have h0 := h
  simp only [parseInclude, Res.bind_eq_ok] at h
  obtain ⟨⟨o, n1⟩, h1, gs', h2, h4⟩ := h
  simp only [Res.ok.injEq, Prod.mk.injEq] at h4
  obtain ⟨rfl, rfl⟩ := h4
  have hn : ∃ name n', inc.file name n' = .ok (o, n1) ∨ inc.heuristic name n' = .ok (o, n1) := by
    cases k with
    | file =>
      simp only [callIncluder, Res.bind_eq_ok] at h1
      obtain ⟨⟨name, n'⟩, _, h1⟩ := h1
      exact ⟨name, n', .inl h1⟩
    | heuristic =>
      simp only [callIncluder, Res.bind_eq_ok] at h1
      obtain ⟨⟨name, n'⟩, _, h1⟩ := h1
      exact ⟨name, n', .inr h1⟩
    | _ => cases h1
  obtain ⟨name, n', hn⟩ := hn
  obtain ⟨hp, ho, _⟩ := hi name n' o n1 hn
  simp only at h2
  cases o with
  | obj gs r i =>
    obtain ⟨rfl, hg⟩ := plain_obj.1 hp
    have hput : ∀ hs, putIncluded arr hs (.obj gs true i) = putAll hs gs := fun hs => by simp [putIncluded, resolved]
    rw [hput] at h2
    refine ⟨gs, hg, h2, fun hs hs' e => ?_⟩
    rw [parseInclude, h1, Res.ok_bind]
    simp only
    rw [hput, e]
    rfl
  | dmo st => exact absurd hp.res (by simp [resolved])
  | _ => simp [isObject] at ho

/-- An include on both sides. -/
theorem Kept.incl {b : Bool} {env : Env} {inc : Includer} (hi : b = true → Tame inc) {p : Path} {ns r ds : List Node}
    {k : IncludeKind} (h : Kept b env inc p ns r) (hs : static b (.incl ds k) = true) :
    Kept b env inc p (.incl ds k :: ns) (.incl ds k :: r) := by
  refine ⟨by simp [staticL, hs, h.1], fun arr outer fs fs' gs n m p1 p2 p3 p4 => ?_⟩
  simp only [static, Bool.and_eq_true] at hs
  simp only [parseFields, Bool.false_eq_true, if_false, Res.bind_eq_ok] at p4
  obtain ⟨⟨fs1, n1⟩, q1, q2⟩ := p4
  have hn := (hi hs.1).parseInclude hs.2 q1
  simp only at hn q2
  subst hn
  obtain ⟨is, a1, a2, e1⟩ := parseInclude_both (hi hs.1).plain q1
  have b1 := putAll_over p1 a1 a2
  obtain ⟨fs2, c1⟩ := putAll_total is p2 a1
  have b2 := putAll_over p2 a1 c1
  have hal : AlikeF p fs1 fs2 := by
    match p with
    | [] => trivial
    | k0 :: p0 =>
      obtain ⟨x1, x2⟩ := alikeF_iff.1 p3
      refine alikeF_iff.2 ⟨fun k' hk => ?_, ?_⟩
      · rw [b1.2, b2.2, x1 k' hk]
      · rw [b1.2, b2.2]
        exact (Alike.refl _ _).over x2 (fun v hv => p1.find hv) (fun v hv => p2.find hv)
  obtain ⟨gs', r1, r2⟩ := h.2 arr outer fs1 fs2 gs n1 m b1.1 b2.1 hal q2
  refine ⟨gs', ?_, r2⟩
  simp only [parseFields, Bool.false_eq_true, if_false, e1 fs' fs2 c1, Res.ok_bind]
  exact r1

mutual
theorem read_loop (env : Env) (inc : Includer) {b : Bool} (hi : b = true → Tame inc) {p : Path} (hd : p ≠ []) {ov : Option Node}
    (hf : ∀ w, ov = some w → Flat .conf w) (hr : ∀ w, ov = some w → Readable env inc w) :
    (ns : List Node) → WfList .conf ns → staticL b ns = true → ∀ (i : Nat) (prev : Option Node) x,
      changeLoop .conf p ov i prev ns = .ok x → Kept b env inc p ns x.1
  | [], _, _, _, _, _, h => by
    cases h
    refine ⟨rfl, fun arr outer fs fs' gs n m _ _ h1 h2 => ?_⟩
    cases h2
    exact ⟨fs', rfl, h1⟩
  | n :: ns, hw, hs, i, prev, x, h => by
    rw [changeLoop, Res.bind_eq_ok] at h
    obtain ⟨⟨r, s, vc⟩, h3, h⟩ := h
    simp only [staticL, Bool.and_eq_true] at hs
    have ih := read_loop env inc hi hd hf hr ns hw.2 hs.2 _ _ _ h3
    obtain ⟨_, _, _, g1, _, g3, _⟩ := changeLoop_spec hd (fun w hw => (hf w hw).toVOk) ns hw.2 (i + 1) (some n)
    rw [h3] at g1
    cases g1
    refine read_node env inc hi hd ?_ ?_ ih n hw.1 hs.1 i prev x h
    · intro v h
      rcases g3 with g | g
      · exact hf v (g ▸ h)
      · rw [g] at h; cases h
    · intro v h
      rcases g3 with g | g
      · exact hr v (g ▸ h)
      · rw [g] at h; cases h
termination_by structural ns => ns
theorem read_node (env : Env) (inc : Includer) {b : Bool} (hi : b = true → Tame inc) {p : Path} (hd : p ≠ []) {vc : Option Node} {ns r : List Node} {s : Bool}
    (hf : ∀ w, vc = some w → Flat .conf w) (hr : ∀ w, vc = some w → Readable env inc w) (ih : Kept b env inc p ns r) :
    (n : Node) → WfNode .conf n → static b n = true → ∀ (i : Nat) (prev : Option Node) x,
      changeNode .conf p i prev r s vc n = .ok x → Kept b env inc p (n :: ns) x.1
  | .field cs, hn, hs, i, prev, x, h => by
    obtain ⟨⟨k, ks, ts, hkey⟩, ⟨v, hval⟩, hcs⟩ := hn
    have hs0 := hs
    simp only [static, Bool.and_eq_true, Bool.not_eq_true'] at hs0
    have hrefl : Kept b env inc p (.field cs :: ns) (.field cs :: r) :=
      ih.field hi (by simp) hkey hkey hs hs fun arr outer n v hv => ⟨v, hv, Alike.refl _ _⟩
    rw [changeNode_field hd hkey] at h
    by_cases e1 : k :: ks = p
    · rw [if_pos e1] at h
      cases vc with
      | none =>
        cases h
        exact (ih.drop hi (by simp) hkey (by rw [e1]; exact List.prefix_refl _) hs).sep
      | some w =>
        rw [if_neg (by simp), Res.bind_eq_ok] at h
        obtain ⟨cs', h3, h⟩ := h
        cases h
        simp only [setField, (hf w rfl).indented, Res.ok_bind] at h3
        obtain ⟨a1, a2, a3⟩ := replaceValue_read (hf w rfl).isValue (hr w rfl) h3 hs0.2
        obtain ⟨cs2, b1, b2, _⟩ := replaceValue_spec (hf w rfl).isValue hval
        rw [h3] at b1
        cases b1
        refine ih.field hi (by simp) hkey (b2.trans hkey) hs (by simp [static, isPlusEquals_eq a2, hs0.1, a1])
          fun arr outer n v hv => ?_
        obtain ⟨v', hv'⟩ := a3 arr outer n
        refine ⟨v', hv', ?_⟩
        have := nest_alike [] (v := v) (v' := v') trivial (k :: ks)
        rw [List.append_nil] at this
        rw [← e1]
        exact this
    · rw [if_neg e1] at h
      by_cases e2 : p <+: k :: ks
      · rw [if_pos e2] at h
        cases h
        exact (ih.drop hi (by simp) hkey e2 hs).sep
      · rw [if_neg e2] at h
        by_cases e3 : k :: ks <+: p
        · rw [if_pos e3, Res.bind_eq_ok] at h
          obtain ⟨cs', h3, h⟩ := h
          cases h
          obtain ⟨rem, t1, t2, t3⟩ := length_drop_facts (by simp) e3 e1
          rw [t3] at h3
          obtain ⟨cs2, _, b1, b2, _⟩ := changeField_spec t1 (fun w hw => (hf w hw).toVOk) cs hcs v hval
          rw [h3] at b1
          cases b1
          obtain ⟨a1, a2, a3⟩ := read_field env inc hi t1 hf hr cs hcs hs0.2 _ h3
          refine ih.field hi (by simp) hkey (b2.trans hkey) hs (by simp [static, isPlusEquals_eq a2, hs0.1, a1])
            fun arr outer n v hv => ?_
          obtain ⟨v', hv', h5⟩ := a3 arr outer n v hv
          refine ⟨v', hv', ?_⟩
          rw [t2]
          exact nest_alike rem h5 (k :: ks)
        · rw [if_neg e3] at h
          cases h
          exact hrefl
  | .single _, _, hs, _, _, _, h | .comment _, _, hs, _, _, _, h | .path _ _, _, hs, _, _, _, h
  | .simple _, _, hs, _, _, _, h | .object _, _, hs, _, _, _, h | .array _, _, hs, _, _, _, h
  | .concat _, _, hs, _, _, _, h => by
    rw [changeNode_other rfl, if_neg (by simp)] at h
    cases h
    refine ⟨by rw [staticL, hs, ih.1]; rfl, fun arr outer fs fs' gs n m p1 p2 p3 p4 => ?_⟩
    rw [parseFields_skip _ _ _ _ _ _ _ _ _ (by simp) (by simp)] at p4 ⊢
    exact ih.2 arr outer fs fs' gs n m p1 p2 p3 p4
  | .incl ds k, _, hs, _, _, _, h => by
    rw [changeNode_other rfl, if_neg (by simp)] at h
    cases h
    exact ih.incl hi hs
termination_by structural n => n
theorem read_field (env : Env) (inc : Includer) {b : Bool} (hi : b = true → Tame inc) {rem : Path} (hd : rem ≠ []) {ov : Option Node}
    (hf : ∀ w, ov = some w → Flat .conf w) (hr : ∀ w, ov = some w → Readable env inc w) :
    (cs : List Node) → WfList .conf cs → staticL b cs = true → ∀ cs', changeField .conf rem ov cs = .ok cs' →
      staticL b cs' = true ∧ fieldSeparator cs' = fieldSeparator cs ∧
      ∀ arr outer n v, parseFieldValue env inc false arr outer cs n = .ok (v, n) →
        ∃ v', parseFieldValue env inc false arr outer cs' n = .ok (v', n) ∧ Alike rem (some v) (some v')
  | [], _, _, _, h => by cases h
  | c :: cs, hw, hs, cs', h => by
    simp only [staticL, Bool.and_eq_true] at hs
    rw [changeField] at h
    by_cases hc : c.isValue = true
    · rw [if_pos hc, Res.bind_eq_ok] at h
      obtain ⟨c', h1, h⟩ := h
      cases h
      obtain ⟨a1, a2, a3⟩ := read_value env inc hi hd hf hr c hw.1 hs.1 c' h1
      have hc' : c'.isValue = true := a2.trans hc
      refine ⟨by simp [staticL, a1, hs.2], fieldSeparator_value hc hc' _, fun arr outer n v hv => ?_⟩
      rw [parseFieldValue, if_pos hc] at hv
      rw [parseFieldValue, if_pos hc']
      exact a3 arr outer n v hv
    · rw [if_neg hc, Res.bind_eq_ok] at h
      obtain ⟨cs1, h1, h⟩ := h
      cases h
      obtain ⟨a1, a2, a3⟩ := read_field env inc hi hd hf hr cs hw.2 hs.2 cs1 h1
      refine ⟨by simp [staticL, a1, hs.1], fieldSeparator_cons a2, fun arr outer n v hv => ?_⟩
      rw [parseFieldValue, if_neg hc] at hv ⊢
      exact a3 arr outer n v hv
termination_by structural cs => cs
theorem read_value (env : Env) (inc : Includer) {b : Bool} (hi : b = true → Tame inc) {rem : Path} (hd : rem ≠ []) {ov : Option Node}
    (hf : ∀ w, ov = some w → Flat .conf w) (hr : ∀ w, ov = some w → Readable env inc w) :
    (c : Node) → WfNode .conf c → static b c = true → ∀ c', changeInObject .conf rem ov c = .ok c' →
      static b c' = true ∧ c'.isValue = c.isValue ∧
      ∀ arr outer n v, parseValue env inc false arr outer c n = .ok (v, n) →
        ∃ v', parseValue env inc false arr outer c' n = .ok (v', n) ∧ Alike rem (some v) (some v')
  | .object ocs, hw, hs, c', h => by
    rw [changeInObject, Res.bind_eq_ok] at h
    obtain ⟨⟨r, s, vc⟩, h1, h⟩ := h
    cases h
    rw [static] at hs
    obtain ⟨a1, a2⟩ := read_loop env inc hi hd hf hr ocs hw.2.2 hs _ _ _ h1
    refine ⟨by rw [static]; exact a1, rfl, fun arr outer n v hv => ?_⟩
    simp only [parseValue, Res.bind_eq_ok] at hv ⊢
    obtain ⟨⟨gs, m⟩, h2, h3⟩ := hv
    cases h3
    have hnil : PlainF [] := ⟨by simp [keysOf], by simp⟩
    obtain ⟨gs', h4, h5⟩ := a2 arr outer [] [] gs _ _ hnil hnil (Alike.refl _ _) h2
    exact ⟨newObj gs', ⟨_, h4, rfl⟩, h5⟩
  | .single _, _, hs, _, h | .comment _, _, hs, _, h | .path _ _, _, hs, _, h
  | .simple _, _, hs, _, h | .field _, _, hs, _, h | .array _, _, hs, _, h
  | .concat _, _, hs, _, h | .incl _ _, _, hs, _, h => by
    cases h
    exact ⟨hs, rfl, fun arr outer n v hv => ⟨v, hv, Alike.refl _ _⟩⟩
termination_by structural c => c
end

end EditRead
end Hocon
