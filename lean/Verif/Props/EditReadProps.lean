import Verif.Lemmas.EditReadSeen
import Verif.Lemmas.TameFiles
import Verif.Props.EditReparseProps

/-!
# The config read from the text of an edited HOCON document: C96
-/

set_option autoImplicit false

namespace Hocon
namespace EditRead
open Value ConfigParser
open PathParser (Syntax newPath parsePathNode)
open DocEdit
open Node (fieldPath fieldValue unlineList)
open Tokenizer (exEnv)

/-! ## The root of a document -/

theorem plain_complex {ws : List Node} (h : ∀ n ∈ ws, DocParser.Plain n) : ∀ n ∈ ws, n.isComplex = false := by
  intro n hn
  obtain ⟨t, rfl | ⟨rfl, _⟩⟩ := h n hn <;> rfl

/-- Around the object of a document there are only blanks, newlines and comments. -/
theorem parse_edges {env : Env} {T : List Tok} {root a cs b : List Node}
    (h : DocParser.parse env .conf T = .ok root) (hf : findObject root = .ok (a, cs, b)) :
    (∀ n ∈ a, n.isComplex = false) ∧ ∀ n ∈ b, n.isComplex = false := by
  rw [DocParser.parse, Res.bind_eq_ok] at h
  obtain ⟨⟨t, T1⟩, h0, h⟩ := h
  simp only at h
  split at h
  · rw [Res.bind_eq_ok] at h
    obtain ⟨⟨ws, t0, T2⟩, h1, h⟩ := h
    obtain ⟨_, p1, _⟩ := DocParser.nextCollect_spec h1
    simp only at h
    have hone : ∀ {x : Res (Node × List Tok)} {ws : List Node}, (∀ n ∈ ws, DocParser.Plain n) →
        (x >>= fun y => DocParser.parseEnd .conf false (ws ++ [y.1]) y.2) = .ok root →
        (∀ n ∈ a, n.isComplex = false) ∧ ∀ n ∈ b, n.isComplex = false := by
      intro x ws p1 h
      rw [Res.bind_eq_ok] at h
      obtain ⟨⟨n, R⟩, _, h⟩ := h
      obtain ⟨wse, rest, h3, h4⟩ := DocParser.parseEnd_ok h
      obtain ⟨_, p2, _⟩ := DocParser.nextCollect_spec h3
      simp only [Bool.false_eq_true, if_false] at h4
      rw [h4, List.append_assoc, List.singleton_append, DocParser.findObject_plain p1] at hf
      have hno : ∀ {y : List Node}, (∀ n ∈ y, DocParser.Plain n) → ∀ z, findObject y ≠ .ok z := by
        intro y hy
        induction y with
        | nil => intro z e; cases e
        | cons m y ih =>
          intro z e
          obtain ⟨t, rfl | ⟨rfl, _⟩⟩ := hy m (by simp) <;>
          · simp only [findObject, Res.bind_eq_ok] at e
            obtain ⟨z', e1, _⟩ := e
            exact ih (fun n hn => hy n (by simp [hn])) z' e1
      cases n with
      | object xs =>
        simp only [findObject, Res.ok_bind, Res.ok.injEq, Prod.mk.injEq, List.append_nil] at hf
        obtain ⟨rfl, rfl, rfl⟩ := hf
        exact ⟨plain_complex p1, plain_complex p2⟩
      | array xs => simp [findObject] at hf
      | _ =>
        exfalso
        simp only [findObject, Res.bind_eq_ok] at hf
        obtain ⟨_, ⟨z, hz, _⟩, _⟩ := hf
        exact hno p2 _ hz
    split at h
    · exact hone p1 h
    · exact hone p1 h
    · rw [Res.bind_eq_ok] at h
      obtain ⟨⟨ns, R⟩, _, h⟩ := h
      obtain ⟨wse, rest, h3, h4⟩ := DocParser.parseEnd_ok h
      simp only [if_true] at h4
      rw [h4] at hf
      simp only [findObject, Res.ok.injEq, Prod.mk.injEq] at hf
      obtain ⟨rfl, rfl, rfl⟩ := hf
      exact ⟨by simp, by simp⟩
  · cases h

theorem parseRoot_tail (env : Env) (inc : Includer) (json : Bool) (v : Value) (n : Nat) : ∀ (b : List Node),
    (∀ c ∈ b, c.isComplex = false) → parseRoot env inc json b (some v) n = .ok (some v, n)
  | [], _ => rfl
  | c :: b, h => by
    have hc := h c (by simp)
    have ih := parseRoot_tail env inc json v n b fun x hx => h x (by simp [hx])
    cases c with
    | single t => cases t <;> simp [parseRoot, Node.isComplex, ih]
    | object | array | concat => cases hc
    | _ => simp [parseRoot, Node.isComplex, ih]

theorem parseRoot_around (env : Env) (inc : Includer) (json : Bool) (cs b : List Node) (n : Nat)
    (hb : ∀ c ∈ b, c.isComplex = false) : ∀ (a : List Node), (∀ c ∈ a, c.isComplex = false) →
    parseRoot env inc json (a ++ .object cs :: b) none n =
      parseValue env inc json 0 none (.object cs) n >>= fun x => .ok (some x.1, x.2)
  | [], _ => by
    rw [List.nil_append, parseRoot.eq_def]
    simp only [Node.isComplex, if_true, parseRoot_tail env inc json _ _ b hb]
  | c :: a, h => by
    have hc := h c (by simp)
    have ih := parseRoot_around env inc json cs b n hb a fun x hx => h x (by simp [hx])
    rw [List.cons_append, ← ih]
    cases c with
    | object | array | concat => cases hc
    | _ => simp [parseRoot, Node.isComplex]

/-- Reading a text whose tree is known, up to the lines. -/
theorem parseText_around {t : Bool} {env : Env} {inc : Includer} {s : Str} {root a cs b : List Node}
    (h : DocParser.parseDocument env .conf s = .ok root) (hu : unlineList root = unlineList (a ++ .object cs :: b))
    (hs : staticL t (a ++ .object cs :: b) = true) (ha : ∀ c ∈ a, c.isComplex = false)
    (hb : ∀ c ∈ b, c.isComplex = false) (n : Nat) :
    parseText env inc .conf s n = parseValue env inc false 0 none (.object cs) n := by
  rw [parseText, h, Res.ok_bind]
  change (parseRoot env inc false root none n >>= _) = _
  rw [parseRoot_lines hu hs, parseRoot_around env inc false cs b n hb a ha]
  cases parseValue env inc false 0 none (.object cs) n <;> rfl

theorem staticL_append {t : Bool} {a b : List Node} : staticL t (a ++ b) = (staticL t a && staticL t b) := by
  induction a with
  | nil => simp [staticL]
  | cons n a ih => simp [staticL, ih, Bool.and_assoc]

theorem noJoinL_mem {ns : List Node} {n : Node} (h : noJoinL ns = true) (hm : n ∈ ns) : noJoin n = true := by
  induction ns with
  | nil => cases hm
  | cons m ns ih =>
    simp only [noJoinL, Bool.and_eq_true] at h
    rcases List.mem_cons.1 hm with rfl | hm
    · exact h.1
    · exact ih h.2 hm

/-! ## Edits join nothing -/

theorem noJoin_dropSep : ∀ {r : List Node}, noJoinL r = true → noJoinL (dropSep r) = true
  | [], _ => rfl
  | c :: cs, h => by
    rw [dropSep]
    split
    · simp only [noJoinL, Bool.and_eq_true] at h
      exact noJoin_dropSep h.2
    · exact h

theorem noJoin_replace {w : Node} (hw : noJoin w = true) : ∀ {cs cs' : List Node}, Node.replaceValue w cs = .ok cs' →
    noJoinL cs = true → noJoinL cs' = true
  | [], _, h, _ => by cases h
  | c :: cs, cs', h, hs => by
    simp only [noJoinL, Bool.and_eq_true] at hs
    rw [Node.replaceValue] at h
    by_cases hc : c.isValue = true
    · rw [if_pos hc] at h
      cases h
      simp only [noJoinL, hw, hs.2, Bool.and_self]
    · rw [if_neg hc, Res.bind_eq_ok] at h
      obtain ⟨cs1, h1, h⟩ := h
      cases h
      simp only [noJoinL, hs.1, noJoin_replace hw h1 hs.2, Bool.and_self]

mutual
theorem noJoin_loop {p : Path} (hd : p ≠ []) {ov : Option Node} (hf : ∀ w, ov = some w → Flat .conf w)
    (hv : ∀ w, ov = some w → noJoin w = true) : (ns : List Node) → WfList .conf ns → noJoinL ns = true →
    ∀ (i : Nat) (prev : Option Node) x, changeLoop .conf p ov i prev ns = .ok x → noJoinL x.1 = true
  | [], _, _, _, _, _, h => by cases h; rfl
  | n :: ns, hw, hs, i, prev, x, h => by
    rw [changeLoop, Res.bind_eq_ok] at h
    obtain ⟨⟨r, s, vc⟩, h3, h⟩ := h
    simp only [noJoinL, Bool.and_eq_true] at hs
    have ih := noJoin_loop hd hf hv ns hw.2 hs.2 _ _ _ h3
    obtain ⟨_, _, _, g1, _, g3, _⟩ := changeLoop_spec hd (fun w hw => (hf w hw).toVOk) ns hw.2 (i + 1) (some n)
    rw [h3] at g1
    cases g1
    refine noJoin_node hd ?_ ?_ ih n hw.1 hs.1 i prev x h
    · intro v h
      rcases g3 with g | g
      · exact hf v (g ▸ h)
      · rw [g] at h; cases h
    · intro v h
      rcases g3 with g | g
      · exact hv v (g ▸ h)
      · rw [g] at h; cases h
termination_by structural ns => ns
theorem noJoin_node {p : Path} (hd : p ≠ []) {vc : Option Node} (hf : ∀ w, vc = some w → Flat .conf w)
    (hv : ∀ w, vc = some w → noJoin w = true) {r : List Node} {s : Bool} (ih : noJoinL r = true) :
    (n : Node) → WfNode .conf n → noJoin n = true → ∀ (i : Nat) (prev : Option Node) x,
      changeNode .conf p i prev r s vc n = .ok x → noJoinL x.1 = true
  | .field cs, hn, hs, i, prev, x, h => by
    obtain ⟨⟨k, ks, ts, hkey⟩, ⟨v, hval⟩, hcs⟩ := hn
    rw [noJoin] at hs
    rw [changeNode_field hd hkey] at h
    by_cases e1 : k :: ks = p
    · rw [if_pos e1] at h
      cases vc with
      | none =>
        cases h
        exact noJoin_dropSep ih
      | some w =>
        rw [if_neg (by simp), Res.bind_eq_ok] at h
        obtain ⟨cs', h3, h⟩ := h
        cases h
        simp only [setField, (hf w rfl).indented, Res.ok_bind] at h3
        simp only [noJoinL, noJoin, noJoin_replace (hv w rfl) h3 hs, ih, Bool.and_self]
    · rw [if_neg e1] at h
      by_cases e2 : p <+: k :: ks
      · rw [if_pos e2] at h
        cases h
        exact noJoin_dropSep ih
      · rw [if_neg e2] at h
        by_cases e3 : k :: ks <+: p
        · rw [if_pos e3, Res.bind_eq_ok] at h
          obtain ⟨cs', h3, h⟩ := h
          cases h
          obtain ⟨rem, t1, t2, t3⟩ := length_drop_facts (by simp) e3 e1
          rw [t3] at h3
          simp only [noJoinL, noJoin, noJoin_field t1 hf hv cs hcs hs _ h3, ih, Bool.and_self]
        · rw [if_neg e3] at h
          cases h
          simp only [noJoinL, noJoin, hs, ih, Bool.and_self]
  | .single _, _, hs, _, _, _, h | .comment _, _, hs, _, _, _, h | .path _ _, _, hs, _, _, _, h
  | .simple _, _, hs, _, _, _, h | .object _, _, hs, _, _, _, h | .array _, _, hs, _, _, _, h
  | .concat _, _, hs, _, _, _, h | .incl _ _, _, hs, _, _, _, h => by
    rw [changeNode_other rfl, if_neg (by simp)] at h
    cases h
    rw [noJoinL, hs, ih]; rfl
termination_by structural n => n
theorem noJoin_field {rem : Path} (hd : rem ≠ []) {ov : Option Node} (hf : ∀ w, ov = some w → Flat .conf w)
    (hv : ∀ w, ov = some w → noJoin w = true) : (cs : List Node) → WfList .conf cs → noJoinL cs = true →
    ∀ cs', changeField .conf rem ov cs = .ok cs' → noJoinL cs' = true
  | [], _, _, _, h => by cases h
  | c :: cs, hw, hs, cs', h => by
    simp only [noJoinL, Bool.and_eq_true] at hs
    rw [changeField] at h
    by_cases hc : c.isValue = true
    · rw [if_pos hc, Res.bind_eq_ok] at h
      obtain ⟨c', h1, h⟩ := h
      cases h
      rw [noJoinL, noJoin_value hd hf hv c hw.1 hs.1 c' h1, hs.2]; rfl
    · rw [if_neg hc, Res.bind_eq_ok] at h
      obtain ⟨cs1, h1, h⟩ := h
      cases h
      rw [noJoinL, hs.1, noJoin_field hd hf hv cs hw.2 hs.2 cs1 h1]; rfl
termination_by structural cs => cs
theorem noJoin_value {rem : Path} (hd : rem ≠ []) {ov : Option Node} (hf : ∀ w, ov = some w → Flat .conf w)
    (hv : ∀ w, ov = some w → noJoin w = true) : (c : Node) → WfNode .conf c → noJoin c = true →
    ∀ c', changeInObject .conf rem ov c = .ok c' → noJoin c' = true
  | .object ocs, hw, hs, c', h => by
    rw [changeInObject, Res.bind_eq_ok] at h
    obtain ⟨⟨r, s, vc⟩, h1, h⟩ := h
    cases h
    rw [noJoin] at hs ⊢
    exact noJoin_loop hd hf hv ocs hw.2.2 hs _ _ _ h1
  | .single _, _, hs, _, h | .comment _, _, hs, _, h | .path _ _, _, hs, _, h
  | .simple _, _, hs, _, h | .field _, _, hs, _, h | .array _, _, hs, _, h
  | .concat _, _, hs, _, h | .incl _ _, _, hs, _, h => by
    cases h
    exact hs
termination_by structural c => c
end

/-! ## The theorems -/

/-- Reading the new text, when the loop over the fields is all that happens. -/
theorem read_edited {t : Bool} {env : Env} {inc : Includer} (hi : t = true → Tame inc) {s : Str} {d d' : Doc} (h : Doc.parse env .conf s = .ok d)
    {a cs b r : List Node} (hf : findObject d.root = .ok (a, cs, b)) (hst : staticL t d.root = true)
    (hroot : d'.root = a ++ .object r :: b) (hfl : d'.fl = .conf) (hre : Reparses env d')
    {p : Path} {ov : Option Node} (hne : p ≠ [])
    (hov : ∀ w, ov = some w → Flat .conf w) (hrd : ∀ w, ov = some w → Readable env inc w)
    {i : Nat} {prev : Option Node} {seen : Bool} {vc : Option Node}
    (hl : changeLoop .conf p ov i prev cs = .ok (r, seen, vc))
    {n m : Nat} {v : Value} (hv : parseText env inc .conf s n = .ok (v, m)) :
    ∃ v', parseText env inc .conf d'.render n = .ok (v', m) ∧ Alike p (some v) (some v') ∧
      parseValue env inc false 0 none (.object r) n = .ok (v', m) ∧
      (staticL false cs = true → staticL false r = true) ∧ WfList .conf r := by
  have hwf := (Reachable.parsed h).wf
  rw [Doc.parse, Res.bind_eq_ok] at h
  obtain ⟨root, hpd, h⟩ := h
  simp only [Res.ok.injEq] at h
  subst h
  simp only at hf hst
  have hroot0 := (findObject_spec hf).1
  have hpd0 := hpd
  rw [DocParser.parseDocument, Res.bind_eq_ok] at hpd0
  obtain ⟨T, _, hpp⟩ := hpd0
  obtain ⟨ha, hb⟩ := parse_edges hpp hf
  have hwcs : WfList .conf cs := by
    unfold DocWf at hwf
    simp only at hwf
    rw [hroot0, WfList.iff] at hwf
    exact (hwf (.object cs) (by simp)).2.2
  have hst0 := hst
  rw [hroot0] at hst0
  have hst1 := hst0
  rw [staticL_append, staticL, static] at hst1
  simp only [Bool.and_eq_true] at hst1
  have hk := read_loop env inc hi hne hov hrd cs hwcs hst1.2.1 _ _ _ hl
  have hval : Kept t env inc p cs r := hk
  rw [parseText_around hpd (by rw [hroot0]) hst0 ha hb] at hv
  simp only [parseValue, Res.bind_eq_ok] at hv
  obtain ⟨⟨gs, m'⟩, h2, h3⟩ := hv
  simp only [Res.ok.injEq, Prod.mk.injEq] at h3
  obtain ⟨rfl, rfl⟩ := h3
  have hnil : PlainF [] := ⟨by simp [keysOf], by simp⟩
  obtain ⟨gs', h4, h5⟩ := hval.2 0 none [] [] gs n m' hnil hnil (Alike.refl _ _) h2
  have hobj : parseValue env inc false 0 none (.object r) n = .ok (newObj gs', m') := by
    rw [parseValue, h4]; rfl
  obtain ⟨d1, q1, q2⟩ := hre
  rw [hfl, Doc.parse, Res.bind_eq_ok] at q1
  obtain ⟨root1, q3, q1⟩ := q1
  simp only [Res.ok.injEq] at q1
  subst q1
  simp only at q2
  rw [hroot] at q2
  have hst2 : staticL t (a ++ .object r :: b) = true := by
    rw [staticL_append, staticL, static, hst1.1, hval.1, hst1.2.2]; rfl
  obtain ⟨_, _, _, g1, g2, _⟩ := changeLoop_spec hne (fun w hw => (hov w hw).toVOk) cs hwcs i prev
  rw [hl] at g1
  cases g1
  exact ⟨_, by rw [parseText_around q3 q2 hst2 ha hb, hobj], h5, hobj,
    fun hs => (read_loop env inc nofalse hne hov hrd cs hwcs hs _ _ _ hl).1, g2.wf⟩

/-- **C96.** A HOCON text without substitutions and `+=`, in which no line begins with a comma, that is read as a config; if
there are includes (`t = true`), then the includer returns only objects without substitutions, and counts no references. The text of the document without a path is read as a config that has, at every path that is neither at or below
nor above the removed one, exactly what was there before, be it a value or nothing. If there are no
includes and no object is part of a concatenation, there is nothing at the removed path. -/
theorem C96_removed_partial (env : Env) (hpd : NoDigitNoNumber env) (inc : Includer) {t : Bool}
    (hi : t = true → Tame inc) (s : Str) (d d' : Doc) (path : Str)
    (h : Doc.parse env .conf s = .ok d) (hr : d.render = s) (hs : NoCommaFirst s) (hst : staticL t d.root = true)
    {p : Path} (hp : newPath env path = .ok p) (hw : d.withoutPath env path = .ok d')
    {n m : Nat} {v : Value} (hv : parseText env inc .conf s n = .ok (v, m)) :
    ∃ v', parseText env inc .conf d'.render n = .ok (v', m) ∧
      (∀ q, Unrelated p q → Spec.at? v' q = Spec.at? v q) ∧
      (staticL false d.root = true → noJoinL d.root = true → Spec.at? v' p = none) := by
  have hfl : d.fl = .conf := by
    rw [Doc.parse, Res.bind_eq_ok] at h
    obtain ⟨_, _, h⟩ := h
    simp only [Res.ok.injEq] at h
    rw [← h]
  have hre := C81_removals_reparse_partial env s d d' h hr hs (.step path .refl hw)
  obtain ⟨h1, h2⟩ := withoutPath_root hw
  rw [hfl] at h2 h1
  have hdw : WfList .conf d.root := by
    have := (Reachable.parsed h).wf
    unfold DocWf at this
    rwa [hfl] at this
  obtain ⟨a, cs, b, cs', p', pt, e1, e2, hf, _, _, hp', _, hgone, _⟩ := rootSet_spec hdw (by simp) h1
  have hpp : p' = p := by
    have := newPath_of_edit hpd hp' (by simp)
    rw [hp] at this
    cases this; rfl
  subst hpp
  obtain ⟨hne, _⟩ := parsePathNode_dots hp'
  unfold rootSet at h1
  rw [hf, Res.ok_bind] at h1
  simp only at h1
  rw [hp', Res.ok_bind] at h1
  simp only [objectSet, changeValue] at h1
  rw [Res.bind_eq_ok] at h1
  obtain ⟨cs2, h3, h1⟩ := h1
  rw [Res.bind_eq_ok] at h3
  obtain ⟨⟨r, seen, vc⟩, h3, h4⟩ := h3
  simp only [Res.ok.injEq] at h1 h4
  subst h4
  have ecs : r = cs' := by
    rw [e2] at h1
    have := List.append_cancel_left h1
    simp only [List.cons.injEq, Node.object.injEq] at this
    exact this.1
  subst ecs
  obtain ⟨v', r1, r2, r3, r4, r5⟩ := read_edited hi h hf hst h1.symm h2 hre hne (ov := none) (by simp) (by simp) h3 hv
  refine ⟨v', r1, fun q hq => ?_, fun hst0 hj => ?_⟩
  · exact (r2.off hq).symm
  · by_contra hsome
    have hmem : Node.object cs ∈ d.root := by rw [e1]; simp
    have hsc : staticL false cs = true := by
      rw [e1, staticL_append, staticL, static] at hst0
      simp only [Bool.and_eq_true] at hst0
      exact hst0.2.1
    have hj1 := noJoinL_mem hj hmem
    have hw1 := WfList.iff.1 hdw _ hmem
    rw [noJoin] at hj1
    have hj2 := noJoin_loop hne (ov := none) (by simp) (by simp) cs hw1.2.2 hj1 _ _ _ h3
    have hwr : WfNode .conf (.object r) := by
      obtain ⟨_, _, _, g1, g2, _⟩ := changeLoop_spec hne (value := none) (by simp) cs hw1.2.2 0 none
      rw [h3] at g1
      cases g1
      exact ⟨g2.sim.braces hw1.1, by simp, g2.wf⟩
    obtain ⟨ocs, e, ho⟩ := has_value env inc (.object r) hwr (by rw [static]; exact r4 hsc) (by rw [noJoin]; exact hj2)
      0 none n m v' p' hne r3 hsome
    cases e
    exact (hgone rfl).1 ho

theorem atO_append : ∀ (p q : Path) (a : Option Value), atO a (p ++ q) = atO (atO a p) q
  | [], q, a => by rw [atO_nil]; rfl
  | k :: p, q, a => by rw [List.cons_append, atO_cons, atO_cons]; exact atO_append p q _

/-- What is read at the path that was set. -/
theorem read_set {env : Env} {inc : Includer} {cs r : List Node} {p : Path} (hne : p ≠ []) {w : Node} {x : Value}
    (hflat : Flat .conf w) (hg : Gives env inc w x) (hwf : WfList .conf cs) (hst : staticL false cs = true)
    (hj : noJoinL cs = true) {i : Nat} {prev : Option Node} {seen : Bool} {vc : Option Node}
    (hl : changeLoop .conf p (some w) i prev cs = .ok (r, seen, vc)) (hwr : WfList .conf r) (hsr : staticL false r = true)
    {n m : Nat} {v' : Value} (hv : parseValue env inc false 0 none (.object r) n = .ok (v', m)) :
    (Spec.at? v' p = none ∨ Spec.at? v' p = some x) ∧ (Occurs r p → ¬ Shut cs p → Spec.at? v' p = some x) := by
  simp only [parseValue, Res.bind_eq_ok] at hv
  obtain ⟨⟨gs, m'⟩, h2, h3⟩ := hv
  simp only [Res.ok.injEq, Prod.mk.injEq] at h3
  obtain ⟨rfl, rfl⟩ := h3
  have hnil : PlainF [] := ⟨by simp [keysOf], by simp⟩
  have hthru : Thru p x (some (newObj gs)) := by
    refine at_loop env inc hne hg.plain (by intro y hy; cases hy; exact hflat) (by intro y hy; cases hy; exact hg) cs hwf hst hj
      _ _ _ hl 0 none [] gs n m' hnil ?_ h2
    match p with
    | [] => exact absurd rfl hne
    | k :: p => exact .inl (by rw [atO_cons, sub_newObj]; rfl)
  refine ⟨hthru, fun ho hs => hthru.resolve_left ?_⟩
  have hs' := shut_loop hne (by intro y hy; cases hy; exact hflat.toVOk) cs hwf hs _ _ _ hl
  refine (seen_loop env inc r hwr hsr p hne hs' 0 none [] gs n m' hnil ?_ h2).2 (.inr ho)
  match p with
  | [] => exact absurd rfl hne
  | k :: p => exact ⟨rfl, loose_none p⟩

/-- **C96.** The same for `with_value_text` on a path that is set by fields of its own, each with its value on the line of
its separator, and a value on one line without substitutions that is read as `x`: what is read at the other paths is what
was there before. If there are no includes and no object is part of a concatenation, the path is read as `x`, with what is in `x` below it, or not
at all; and it is read as `x` if every field above it has an object as its value. -/
theorem C96_replaced_partial (env : Env) (hpd : NoDigitNoNumber env) (inc : Includer) {t : Bool}
    (hi : t = true → Tame inc) (s : Str) (d d' : Doc) (path text : Str) (h : Doc.parse env .conf s = .ok d) (hr : d.render = s) (hs : NoCommaFirst s)
    (hst : staticL t d.root = true) {a cs b : List Node} (hf : findObject d.root = .ok (a, cs, b))
    {p : Path} (hp : newPath env path = .ok p) (hex : Exact cs p) (hbare : ¬ Bare cs p)
    (htext : '\n' ∉ text ∧ '\x00' ∉ text ∧ '$' ∉ text ∧ '(' ∉ text) (hslash : text.getLast? ≠ some '/')
    {x : Value} (hrd : ∀ toks w, Tokenizer.tokenize env true text = .ok toks →
      DocParser.parseSingleValue env .conf toks = .ok (some w) →
      static false w = true ∧ parseValue env inc false 0 none w 0 = .ok (x, 0))
    (hw : d.withValueText env path text = .ok d')
    {n m : Nat} {v : Value} (hv : parseText env inc .conf s n = .ok (v, m)) :
    ∃ v', parseText env inc .conf d'.render n = .ok (v', m) ∧
      (∀ q, Unrelated p q → Spec.at? v' q = Spec.at? v q) ∧
      (staticL false d.root = true → noJoinL d.root = true → Spec.at? v' p = none ∨ ∀ q, Spec.at? v' (p ++ q) = Spec.at? x q) ∧
      (staticL false d.root = true → noJoinL d.root = true → ¬ Shut cs p → Spec.at? v' p = some x) := by
  have hfl : d.fl = .conf := by
    rw [Doc.parse, Res.bind_eq_ok] at h
    obtain ⟨_, _, h⟩ := h
    simp only [Res.ok.injEq] at h
    rw [← h]
  obtain ⟨toks, w, ht, hpv, hvok, h1, h2⟩ := withValueText_root hw
  rw [hfl] at ht hpv hvok h1 h2
  have hvt := singleValue_text htext.2.1 (.inl htext.2.2.1) htext.2.2.2 ht hpv
  have hwn : WfNode .conf (.object cs) := by
    have := (Reachable.parsed h).wf
    unfold DocWf at this
    rw [(findObject_spec hf).1, WfList.iff, hfl] at this
    exact this _ (by simp)
  unfold rootSet at h1
  rw [hf, Res.ok_bind] at h1
  simp only at h1
  rw [Res.bind_eq_ok] at h1
  obtain ⟨⟨p', pt⟩, hp', h1⟩ := h1
  have hpp : p' = p := by
    have := newPath_of_edit hpd hp' (by simp)
    rw [hp] at this
    cases this; rfl
  subst hpp
  obtain ⟨hne, _⟩ := parsePathNode_dots hp'
  have hin := inLine_of_text h hr hs hf
  obtain ⟨r, seen, vc, g1, g2, _⟩ := changeLoop_spec hne (value := some w) (by intro x hx; cases hx; exact hvok) cs hwn.2.2 0 none
  have hset := changeLoop_set (by rw [hvt]; exact htext.1) hvok.isValue
    (fun ocs e => (single_inline ht hpv htext.1 e).1) hne cs hwn.2.2 hin hbare 0 none _ _ _ g1
  obtain ⟨bb, k1, k2⟩ := hasValue_spec hne r g2.wf
  simp only [objectSet, setValue, changeValue] at h1
  rw [g1] at h1
  simp only [Res.ok_bind] at h1
  rw [k1, k2.2 (hset.here hex)] at h1
  simp only [Res.ok_bind, if_true, Res.ok.injEq] at h1
  have hre := (C50_set_reparses_partial env d d' path text (.parsed h) hfl (.parsed h hr) hf hin hp' hex hbare
    htext.1 htext.2.1 (.inl htext.2.2.1) htext.2.2.2 hslash hw).1
  have hg : Gives env inc w x := Gives.of (hrd toks w ht hpv).1 (hrd toks w ht hpv).2
  have hflat : Flat .conf w := ⟨hvok, by rw [hvt]; exact htext.1⟩
  obtain ⟨v', r1, r2, r3, r4, r5⟩ := read_edited hi h hf hst h1.symm h2 hre hne (ov := some w)
    (by intro x hx; cases hx; exact hflat) (by intro x hx; cases hx; exact hg.readable) g1 hv
  have hmem : Node.object cs ∈ d.root := by rw [(findObject_spec hf).1]; simp
  have hat : staticL false d.root = true → noJoinL d.root = true → (Spec.at? v' p' = none ∨ Spec.at? v' p' = some x) ∧
      (Occurs r p' → ¬ Shut cs p' → Spec.at? v' p' = some x) := fun hst0 hj => by
    rw [(findObject_spec hf).1, staticL_append, staticL, static] at hst0
    simp only [Bool.and_eq_true] at hst0
    have hsc : staticL false cs = true := hst0.2.1
    have hj1 := noJoinL_mem hj hmem
    rw [noJoin] at hj1
    exact read_set hne hflat hg hwn.2.2 hsc hj1 g1 r5 (r4 hsc) r3
  refine ⟨v', r1, fun q hq => (r2.off hq).symm, fun h0 hj => ?_, fun h0 hj hs => (hat h0 hj).2 (hset.here hex) hs⟩
  rcases (hat h0 hj).1 with h | h
  · exact .inl h
  · refine .inr fun q => ?_
    have := atO_append p' q (some v')
    change Spec.at? v' (p' ++ q) = atO (Spec.at? v' p') q at this
    rw [h] at this
    exact this

/-! ## Sequences of edits -/

/-- The tree of a HOCON document without substitutions (and includes, unless `t`), and the config read from it. -/
structure Reads (t : Bool) (env : Env) (inc : Includer) (d : Doc) (a cs b : List Node) (n m : Nat) (v : Value) : Prop where
  fl : d.fl = .conf
  wf : WfList .conf d.root
  fixed : staticL t d.root = true
  find : findObject d.root = .ok (a, cs, b)
  before : ∀ c ∈ a, c.isComplex = false
  after : ∀ c ∈ b, c.isComplex = false
  read : parseValue env inc false 0 none (.object cs) n = .ok (v, m)

theorem Reads.parsed {t : Bool} {env : Env} {inc : Includer} {s : Str} {d : Doc} (h : Doc.parse env .conf s = .ok d) {a cs b : List Node}
    (hf : findObject d.root = .ok (a, cs, b)) (hst : staticL t d.root = true) {n m : Nat} {v : Value}
    (hv : parseText env inc .conf s n = .ok (v, m)) : Reads t env inc d a cs b n m v := by
  have hwf := (Reachable.parsed h).wf
  rw [Doc.parse, Res.bind_eq_ok] at h
  obtain ⟨root, hpd, h⟩ := h
  simp only [Res.ok.injEq] at h
  subst h
  have hpd0 := hpd
  rw [DocParser.parseDocument, Res.bind_eq_ok] at hpd0
  obtain ⟨T, _, hpp⟩ := hpd0
  obtain ⟨ha, hb⟩ := parse_edges hpp hf
  have hroot0 := (findObject_spec hf).1
  simp only at hroot0 hst
  rw [parseText_around hpd (by rw [hroot0]) (hroot0 ▸ hst) ha hb] at hv
  exact ⟨rfl, hwf, hst, hf, ha, hb, hv⟩

/-- The text of a document that parses to itself is read like its tree. -/
theorem Reads.text {t : Bool} {env : Env} {inc : Includer} {d : Doc} {a cs b : List Node} {n m : Nat} {v : Value}
    (h : Reads t env inc d a cs b n m v) (hre : Reparses env d) : parseText env inc .conf d.render n = .ok (v, m) := by
  obtain ⟨d1, q1, q2⟩ := hre
  rw [h.fl, Doc.parse, Res.bind_eq_ok] at q1
  obtain ⟨root1, q3, q1⟩ := q1
  simp only [Res.ok.injEq] at q1
  subst q1
  simp only at q2
  have hroot := (findObject_spec h.find).1
  rw [hroot] at q2
  rw [parseText_around q3 q2 (hroot ▸ h.fixed) h.before h.after, h.read]

theorem Reads.object {t : Bool} {env : Env} {inc : Includer} {d : Doc} {a cs b : List Node} {n m : Nat} {v : Value}
    (h : Reads t env inc d a cs b n m v) : v.isObject = true := by
  have hv := h.read
  simp only [parseValue, Res.bind_eq_ok] at hv
  obtain ⟨_, _, h3⟩ := hv
  cases h3
  rfl

/-- The loop over the fields, read. -/
theorem Reads.step {t : Bool} {env : Env} {inc : Includer} (hi : t = true → Tame inc) {d d' : Doc} {a cs b r : List Node} {n m : Nat} {v : Value}
    (h : Reads t env inc d a cs b n m v) (hroot : d'.root = a ++ .object r :: b) (hfl : d'.fl = .conf)
    {p : Path} {ov : Option Node} (hne : p ≠ []) (hov : ∀ w, ov = some w → Flat .conf w)
    (hrd : ∀ w, ov = some w → Readable env inc w) {i : Nat} {prev : Option Node} {seen : Bool} {vc : Option Node}
    (hl : changeLoop .conf p ov i prev cs = .ok (r, seen, vc)) :
    ∃ v', Reads t env inc d' a r b n m v' ∧ Alike p (some v) (some v') ∧ WfList .conf cs ∧
      (staticL false cs = true → staticL false r = true) ∧ WfList .conf r := by
  have hroot0 := (findObject_spec h.find).1
  have hwn : WfNode .conf (.object cs) := WfList.iff.1 h.wf _ (by rw [hroot0]; simp)
  have hwcs := hwn.2.2
  have hst := h.fixed
  rw [hroot0, staticL_append, staticL, static] at hst
  simp only [Bool.and_eq_true] at hst
  have hval : Kept t env inc p cs r := read_loop env inc hi hne hov hrd cs hwcs hst.2.1 _ _ _ hl
  have hv := h.read
  simp only [parseValue, Res.bind_eq_ok] at hv
  obtain ⟨⟨gs, m'⟩, h2, h3⟩ := hv
  simp only [Res.ok.injEq, Prod.mk.injEq] at h3
  obtain ⟨rfl, rfl⟩ := h3
  have hnil : PlainF [] := ⟨by simp [keysOf], by simp⟩
  obtain ⟨gs', h4, h5⟩ := hval.2 0 none [] [] gs n m' hnil hnil (Alike.refl _ _) h2
  obtain ⟨_, _, _, g1, g2, _⟩ := changeLoop_spec hne (fun w hw => (hov w hw).toVOk) cs hwcs i prev
  rw [hl] at g1
  cases g1
  have hwf : WfList .conf d'.root := by
    rw [hroot, WfList.iff]
    intro x hx
    have h0 := WfList.iff.1 h.wf
    rw [hroot0] at h0
    rcases List.mem_append.1 hx with hx | hx
    · exact h0 x (by simp [hx])
    · rcases List.mem_cons.1 hx with rfl | hx
      · exact ⟨g2.sim.braces hwn.1, by simp, g2.wf⟩
      · exact h0 x (by simp [hx])
  refine ⟨newObj gs', ⟨hfl, hwf, ?_, ?_, h.before, h.after, by rw [parseValue, h4]; rfl⟩, h5, hwcs,
    fun hs => (read_loop env inc nofalse hne hov hrd cs hwcs hs _ _ _ hl).1, g2.wf⟩
  · rw [hroot, staticL_append, staticL, static, hst.1, hval.1, hst.2.2]; rfl
  · rw [hroot]
    exact (findObject_spec h.find).2 _

/-- What is at the path after an edit: nothing after a removal; after a replacement the new value, unless it is hidden. -/
def Done (v : Value) : Path × Option Value → Prop
  | (p, none) => Spec.at? v p = none
  | (p, some x) => Spec.at? v p = none ∨ Spec.at? v p = some x

/-- A sequence of edits, the last one first: paths that were removed, and paths that were replaced with the value that the
new text is read as. -/
inductive Edits (env : Env) (inc : Includer) (cs0 : List Node) (d : Doc) : List (Path × Option Value) → Doc → Prop
  | refl : Edits env inc cs0 d [] d
  | removed {d1 d2 : Doc} {es : List (Path × Option Value)} {path : Str} {p : Path} (h0 : Edits env inc cs0 d es d1)
      (hp : newPath env path = .ok p) (h : d1.withoutPath env path = .ok d2) : Edits env inc cs0 d ((p, none) :: es) d2
  | set {d1 d2 : Doc} {es : List (Path × Option Value)} {path text : Str} {a cs b toks : List _} {w : Node} {x : Value} {p : Path}
      (h0 : Edits env inc cs0 d es d1) (hf : findObject d1.root = .ok (a, cs, b))
      (hp : newPath env path = .ok p) (hex : Exact cs p) (hb : ¬ Bare cs0 p)
      (hc : ∀ c ∈ text, c ≠ '\n' ∧ c ≠ '\x00' ∧ c ≠ '$' ∧ c ≠ '(' ∧ c ≠ '{') (hslash : text.getLast? ≠ some '/')
      (ht : Tokenizer.tokenize env true text = .ok toks) (hv : DocParser.parseSingleValue env .conf toks = .ok (some w))
      (hst : static false w = true) (hj : noJoin w = true) (hrd : parseValue env inc false 0 none w 0 = .ok (x, 0))
      (h : d1.withValueText env path text = .ok d2) : Edits env inc cs0 d ((p, some x) :: es) d2

theorem Done.keep {v v' : Value} {e : Path × Option Value} (h : Done v e) (hq : Spec.at? v' e.1 = Spec.at? v e.1) : Done v' e := by
  obtain ⟨p, o⟩ := e
  cases o <;> simp only [Done] at h hq ⊢ <;> rw [hq] <;> exact h

/-- Where the path of an edit was. -/
theorem set_path {env : Env} (hpd : NoDigitNoNumber env) {path : Str} {p : Path} (hp : newPath env path = .ok p) {pt : List Tok}
    {p' : Path} (hp' : parsePathNode env .conf path = .ok (p', pt)) : p' = p := by
  have := newPath_of_edit hpd hp' (by simp)
  rw [hp] at this
  cases this; rfl

/-- **C96.** Any number of removals and replacements, starting with a parsed text: the config read from the new text has, at
every path unrelated to all the edited ones, what was there before. If there are no includes and no object is part of
a concatenation, then at the path of every edit that no later one is related to, there is nothing after a removal, and
nothing but the new value after a replacement. -/
theorem C96_edits_partial (env : Env) (hpd : NoDigitNoNumber env) (inc : Includer) {t : Bool}
    (hi : t = true → Tame inc) (s : Str) (d d' : Doc) (h : Doc.parse env .conf s = .ok d) (hr : d.render = s)
    (hs : NoCommaFirst s) (hst : staticL t d.root = true)
    {a0 cs0 b0 : List Node} (hf0 : findObject d.root = .ok (a0, cs0, b0)) {es : List (Path × Option Value)}
    (he : Edits env inc cs0 d es d') {n m : Nat} {v : Value} (hv : parseText env inc .conf s n = .ok (v, m)) :
    ∃ v', parseText env inc .conf d'.render n = .ok (v', m) ∧ v'.isObject = true ∧
      (∀ q, (∀ e ∈ es, Unrelated e.1 q) → Spec.at? v' q = Spec.at? v q) ∧
      (staticL false d.root = true → noJoinL d.root = true → ∀ later e earlier, es = later ++ e :: earlier →
        (∀ e' ∈ later, Unrelated e'.1 e.1) → Done v' e) := by
  have hfl : d.fl = .conf := by
    rw [Doc.parse, Res.bind_eq_ok] at h
    obtain ⟨_, _, h⟩ := h
    simp only [Res.ok.injEq] at h
    rw [← h]
  have key : Reparses env d' ∧ Reachable env d' ∧ ∃ cs v', Reads t env inc d' a0 cs b0 n m v' ∧ InLine cs ∧
      (∀ q, Bare cs q → Bare cs0 q) ∧ (∀ q, (∀ e ∈ es, Unrelated e.1 q) → Spec.at? v' q = Spec.at? v q) ∧
      (staticL false cs0 = true → noJoinL cs0 = true → staticL false cs = true ∧ noJoinL cs = true ∧ ∀ later e earlier, es = later ++ e :: earlier →
        (∀ e' ∈ later, Unrelated e'.1 e.1) → Done v' e) := by
    have done : ∀ {v1 v2 : Value} {es : List (Path × Option Value)} {e0 : Path × Option Value},
        Alike e0.1 (some v1) (some v2) → Done v2 e0 →
        (∀ later e earlier, es = later ++ e :: earlier → (∀ e' ∈ later, Unrelated e'.1 e.1) → Done v1 e) →
        ∀ later e earlier, e0 :: es = later ++ e :: earlier → (∀ e' ∈ later, Unrelated e'.1 e.1) → Done v2 e := by
      intro v1 v2 es e0 hal h0 ih later e earlier e1 hu
      match later with
      | [] =>
        cases e1
        exact h0
      | e' :: later =>
        simp only [List.cons_append, List.cons.injEq] at e1
        obtain ⟨rfl, e1⟩ := e1
        exact (ih later e earlier e1 fun x hx => hu x (by simp [hx])).keep (hal.off (hu _ (by simp))).symm
    induction he with
    | refl =>
      exact ⟨.parsed h hr, .parsed h, cs0, v, .parsed h hf0 hst hv, inLine_of_text h hr hs hf0, fun _ h => h, fun _ _ => rfl,
        fun hs0 hj => ⟨hs0, hj, fun later e earlier e1 => by simp at e1⟩⟩
    | @removed d1 d2 es path p h0 hp hw ih =>
      obtain ⟨i1, i2, cs, v1, i3, i5, i6, i7, i8⟩ := ih
      obtain ⟨h1, h2⟩ := withoutPath_root hw
      rw [i3.fl] at h1 h2
      obtain ⟨_, _, _, cs', p', pt, _, e2, hf, _, _, hp', _, hgone, _⟩ := rootSet_spec i3.wf (by simp) h1
      rw [i3.find] at hf
      cases hf
      have hpp := set_path hpd hp hp'
      subst hpp
      obtain ⟨hne, _⟩ := parsePathNode_dots hp'
      unfold rootSet at h1
      rw [i3.find, Res.ok_bind] at h1
      simp only at h1
      rw [hp', Res.ok_bind] at h1
      simp only [objectSet, changeValue] at h1
      rw [Res.bind_eq_ok] at h1
      obtain ⟨_, h3, h1⟩ := h1
      rw [Res.bind_eq_ok] at h3
      obtain ⟨⟨r, seen, vc⟩, h3, h4⟩ := h3
      simp only [Res.ok.injEq] at h1 h4
      subst h4
      have ecs : r = cs' := by
        rw [e2] at h1
        have := List.append_cancel_left h1
        simp only [List.cons.injEq, Node.object.injEq] at this
        exact this.1
      subst ecs
      obtain ⟨_, hrm⟩ := changeLoop_cuts cs i5 _ _ _ _ _ h3
      obtain ⟨k1, k2, cs', k3, k4⟩ := C81_remove_reparses_partial env _ _ _ i3.fl i1 i3.find i5 hw
      obtain ⟨v2, r1, r2, r4, r5, r6⟩ := i3.step hi h1.symm h2 hne (ov := none) (by simp) (by simp) h3
      rw [r1.find] at k3
      cases k3
      refine ⟨k1, .removed i2 hw, r, v2, r1, k4, fun q hq => i6 q (cuts_bare hrm.cuts q hq), fun q hq => ?_, fun hs0 hj => ?_⟩
      · rw [← i7 q fun e he => hq e (by simp [he])]
        exact (r2.off (hq (p', none) (by simp))).symm
      · obtain ⟨j0, j1, j2⟩ := i8 hs0 hj
        have hj2 := noJoin_loop hne (ov := none) (by simp) (by simp) cs r4 j1 _ _ _ h3
        refine ⟨r5 j0, hj2, done r2 ?_ j2⟩
        change Spec.at? v2 p' = none
        by_contra hsome
        have hroot := (findObject_spec r1.find).1
        have hwr : WfNode .conf (.object r) := WfList.iff.1 r1.wf _ (by rw [hroot]; simp)
        obtain ⟨ocs, e, ho⟩ := has_value env inc (.object r) hwr (by rw [static]; exact r5 j0) (by rw [noJoin]; exact hj2)
          0 none n m v2 p' hne r1.read hsome
        cases e
        exact (hgone rfl).1 ho
    | @set d1 d2 es path text a cs1 b toks w x p h0 hf hp hex hb hc hslash ht hpv hst hj hrd hw ih =>
      obtain ⟨i1, i2, cs, v1, i3, i5, i6, i7, i8⟩ := ih
      rw [i3.find] at hf
      cases hf
      obtain ⟨toks', w', ht', hpv', hvok, h1, h2⟩ := withValueText_root hw
      rw [i3.fl] at ht' hpv' hvok h1 h2
      rw [show decide (Syntax.conf = Syntax.conf) = true from rfl, ht] at ht'
      cases ht'
      rw [hpv] at hpv'
      cases hpv'
      have hnl : '\n' ∉ text := fun h => (hc _ h).1 rfl
      have hnul : '\x00' ∉ text := fun h => (hc _ h).2.1 rfl
      have hdol : '$' ∉ text := fun h => (hc _ h).2.2.1 rfl
      have hpar : '(' ∉ text := fun h => (hc _ h).2.2.2.1 rfl
      have hvt := singleValue_text hnul (.inl hdol) hpar ht hpv
      have hflat : Flat .conf w := ⟨hvok, by rw [hvt]; exact hnl⟩
      have hg : Gives env inc w x := Gives.of hst hrd
      unfold rootSet at h1
      rw [i3.find, Res.ok_bind] at h1
      simp only at h1
      rw [Res.bind_eq_ok] at h1
      obtain ⟨⟨p', pt⟩, hp', h1⟩ := h1
      have hpp := set_path hpd hp hp'
      subst hpp
      obtain ⟨hne, _⟩ := parsePathNode_dots hp'
      have hwn : WfNode .conf (.object cs1) := WfList.iff.1 i3.wf _ (by rw [(findObject_spec i3.find).1]; simp)
      obtain ⟨r, seen, vc, g1, g2, _⟩ := changeLoop_spec hne (value := some w) (by intro x hx; cases hx; exact hvok) cs1
        hwn.2.2 0 none
      have hset := changeLoop_set (by rw [hvt]; exact hnl) hvok.isValue
        (fun ocs e => (single_inline ht hpv hnl e).1) hne cs1 hwn.2.2 i5 (fun h => hb (i6 _ h)) 0 none _ _ _ g1
      obtain ⟨bb, k1, k2⟩ := hasValue_spec hne r g2.wf
      simp only [objectSet, setValue, changeValue] at h1
      rw [g1] at h1
      simp only [Res.ok_bind] at h1
      rw [k1, k2.2 (hset.here hex)] at h1
      simp only [Res.ok_bind, if_true, Res.ok.injEq] at h1
      obtain ⟨l1, l2, cs', l3, l4, l5⟩ := C50_set_reparses_partial env _ _ _ _ i2 i3.fl i1 i3.find i5 hp' hex
        (fun h => hb (i6 _ h)) hnl hnul (.inl hdol) hpar hslash hw
      obtain ⟨v2, r1, r2, r4, r5, r6⟩ := i3.step hi h1.symm h2 hne (ov := some w)
        (by intro x hx; cases hx; exact hflat) (by intro x hx; cases hx; exact hg.readable) g1
      rw [r1.find] at l3
      cases l3
      refine ⟨l1, .set i2 hw, r, v2, r1, l4, fun q hq => i6 q (l5 (fun h => (hc _ h).2.2.2.2 rfl) q hq), fun q hq => ?_,
        fun hs0 hj0 => ?_⟩
      · rw [← i7 q fun e he => hq e (by simp [he])]
        exact (r2.off (hq (p', some x) (by simp))).symm
      · obtain ⟨j0, j1, j2⟩ := i8 hs0 hj0
        have hj2 := noJoin_loop hne (ov := some w) (by intro x hx; cases hx; exact hflat) (by intro x hx; cases hx; exact hj)
          cs1 r4 j1 _ _ _ g1
        exact ⟨r5 j0, hj2, done r2 (read_set hne hflat hg r4 j0 j1 g1 r6 (r5 j0) r1.read).1 j2⟩
  obtain ⟨k1, _, cs, v', k2, _, _, k3, k4⟩ := key
  refine ⟨v', k2.text k1, k2.object, k3, fun hs0 hj => (k4 ?_ ?_).2.2⟩
  · rw [(findObject_spec hf0).1, staticL_append, staticL, static] at hs0
    simp only [Bool.and_eq_true] at hs0
    exact hs0.2.1
  have := noJoinL_mem hj (n := .object cs0) (by rw [(findObject_spec hf0).1]; simp)
  rwa [noJoin] at this

/-- **C96.** `config_document::parse_string`, any number of edits, and `config::parse_string` on the text before and after,
where no file that can be included has a substitution or `+=`: both give a config, with the same values at every path
unrelated to the edited ones. `include file(..)` calls `config::resolve`. -/
theorem C96_files_partial {ι : Type} (env : Env) (hpd : NoDigitNoNumber env) (fs : Files.FS) (hfs : PlainFiles env fs)
    (k : Nat) (ro : Resolve.Options) (fuel : Nat) {res : Value → Res Value}
    (hres : res = fun x => (Resolve.configResolve env k x ro).bind fun o => nonNull o)
    (s : Str) (d d' : Doc) (h : Doc.parse env .conf s = .ok d) (hr : d.render = s)
    (hs : NoCommaFirst s) (hst : staticL true d.root = true)
    {a0 cs0 b0 : List Node} (hf0 : findObject d.root = .ok (a0, cs0, b0)) {es : List (Path × Option Value)}
    (he : Edits env (Files.includer (Files.loadFile env fs res fuel) res []) cs0 d es d') (o o' : ParseOptions ι) {v : Value}
    (hv : Files.parseString env fs res fuel s o = .ok v) :
    ∃ v', Files.parseString env fs res fuel d'.render o' = .ok v' ∧
      ∀ q, (∀ e ∈ es, Unrelated e.1 q) → Spec.at? v' q = Spec.at? v q := by
  have hi : true = true → Tame (Files.includer (Files.loadFile env fs res fuel) res []) := fun _ =>
    files_tame hfs (hres ▸ resolve_idle env k ro) fuel []
  simp only [Files.parseString, Files.parseableParseString, Res.bind_eq_ok] at hv ⊢
  obtain ⟨⟨w, m⟩, h1, h2⟩ := hv
  have hvw : w = v := by
    simp only [Files.forceObject] at h2
    split at h2
    · cases h2; rfl
    · split at h2 <;> cases h2
  subst hvw
  obtain ⟨v', h3, h4, h5, _⟩ := C96_edits_partial env hpd _ hi s d d' h hr hs hst hf0 he h1
  exact ⟨v', ⟨_, h3, by simp [Files.forceObject, h4]⟩, h5⟩

/-! ## Cases -/

/-- An includer that finds nothing; it is not called. -/
def noFiles : Includer := ⟨fun _ _ => .err .io, fun _ _ => .err .io⟩

/-- A document in which `a.y` is set in a section, by a long key, and in a section again. -/
def readText : Str := ch "a {x:1, y:[2] #n\n}\nb=2,\n a.y:3\na { y {z:4} }"

/-- What is read at `a.x`, `a.y`, `a.y.z` and `b`. -/
def seenAt (s : Str) : Res (List (Option Value)) :=
  parseText exEnv noFiles .conf s 0 >>= fun r =>
    .ok ([[ch "a", ch "x"], [ch "a", ch "y"], [ch "a", ch "y", ch "z"], [ch "b"]].map (Spec.at? r.1))

example : seenAt readText = .ok [some (.scalar (.int 1 (ch "1"))), some (.obj [(ch "z", .scalar (.int 4 (ch "4")))] true true),
    some (.scalar (.int 4 (ch "4"))), some (.scalar (.int 2 (ch "2")))] := by decide +kernel

/-- The conditions of the first theorem hold for it. -/
example : (Doc.parse exEnv .conf readText >>= fun d => newPath exEnv (ch "a.y") >>= fun p =>
    .ok (decide (d.render = readText), staticL false d.root, noJoinL d.root, p))
    = .ok (true, true, true, [ch "a", ch "y"]) := by decide +kernel

example : NoCommaFirst readText := .check (by decide)

/-- The removal takes out all three. -/
example : (Doc.parse exEnv .conf readText >>= fun d => d.withoutPath exEnv (ch "a.y") >>= fun d' => seenAt d'.render)
    = .ok [some (.scalar (.int 1 (ch "1"))), none, none, some (.scalar (.int 2 (ch "2")))] := by decide +kernel

/-- A value is replaced; the others are read as before. -/
example : (Doc.parse exEnv .conf readText >>= fun d => d.withValueText exEnv (ch "b") (ch "5") >>= fun d' => seenAt d'.render)
    = .ok [some (.scalar (.int 1 (ch "1"))), some (.obj [(ch "z", .scalar (.int 4 (ch "4")))] true true),
      some (.scalar (.int 4 (ch "4"))), some (.scalar (.int 5 (ch "5")))] := by decide +kernel

/-- The value is read as a number. -/
example : ∃ w, (Tokenizer.tokenize exEnv true (ch "5") >>= DocParser.parseSingleValue exEnv .conf) = .ok (some w) ∧
    static false w = true ∧ parseValue exEnv noFiles false 0 none w 0 = .ok (.scalar (.int 5 (ch "5")), 0) :=
  ⟨_, rfl, rfl, rfl⟩

mutual
/-- Computes `Shut`. -/
def shutList (p : Path) : List Node → Bool
  | [] => false
  | n :: ns => shutNode p n || shutList p ns
/-- Computes `Shut` for one child. -/
def shutNode (p : Path) : Node → Bool
  | .field cs =>
    match fieldPath cs with
    | .ok (key, _) => key.isPrefixOf p && !(p.drop key.length).isEmpty && shutIn (p.drop key.length) cs
    | _ => false
  | _ => false
/-- Computes `Shut` for the value of a field. -/
def shutIn (p : Path) : List Node → Bool
  | [] => false
  | n :: ns => if n.isValue then shutObj p n else shutIn p ns
/-- Computes `Shut` for a value. -/
def shutObj (p : Path) : Node → Bool
  | .object ocs => shutList p ocs
  | _ => true
end

theorem shutList_mem {p : Path} {n : Node} {ns : List Node} (hm : n ∈ ns) (h : shutNode p n = true) : shutList p ns = true := by
  induction ns with
  | nil => simp at hm
  | cons m ns ih =>
    rw [shutList, Bool.or_eq_true]
    rcases List.mem_cons.1 hm with rfl | hm
    · exact Or.inl h
    · exact Or.inr (ih hm)

theorem shutIn_value {p : Path} : ∀ {cs : List Node} {v : Node}, fieldValue cs = .ok v → shutIn p cs = shutObj p v
  | [], _, h => by cases h
  | c :: cs, v, h => by
    rw [fieldValue] at h
    rw [shutIn]
    split at h
    · rename_i hc
      cases h
      rw [if_pos hc]
    · rename_i hc
      rw [if_neg hc]
      exact shutIn_value h

/-- The computation finds every path that is shut. -/
theorem Shut.check {ns : List Node} {p : Path} (h : shutList p ns = false) : ¬ Shut ns p := by
  intro hb
  suffices shutList p ns = true by rw [h] at this; cases this
  clear h
  induction hb with
  | @here ns cs v key rem ts hm hk hr hv ho =>
    refine shutList_mem hm ?_
    rw [shutNode, hk]
    simp only [List.drop_left, shutIn_value hv]
    cases v <;> simp_all [shutObj]
  | @inside ns cs ocs key rem ts hm hk hr hv ho ih =>
    refine shutList_mem hm ?_
    rw [shutNode, hk]
    simp only [List.drop_left, shutIn_value hv, shutObj, ih]
    simp_all

/-- In a document that sets `a.b` in a section, by long keys and in a section again, the conditions hold for it. -/
example : (Doc.parse exEnv .conf manyText >>= fun d => findObject d.root >>= fun x =>
    .ok (decide (d.render = manyText), staticL false d.root, noJoinL d.root, exactList [ch "a", ch "b"] x.2.1,
      bareList [ch "a", ch "b"] x.2.1, shutList [ch "a", ch "b"] x.2.1)) = .ok (true, true, true, true, false, false) := by
  decide +kernel

/-- The new value is read there. -/
example : (Doc.parse exEnv .conf manyText >>= fun d => d.withValueText exEnv (ch "a.b") (ch "5") >>= fun d' =>
    parseText exEnv noFiles .conf d'.render 0 >>= fun r =>
    .ok ([[ch "a", ch "b"], [ch "a", ch "c"], [ch "a", ch "b", ch "d"]].map (Spec.at? r.1)))
    = .ok [some (.scalar (.int 5 (ch "5"))), some (.scalar (.int 2 (ch "2"))), none] := by decide +kernel

/-- A removal and a replacement. -/
example : ∃ d d' a cs b, Doc.parse exEnv .conf (ch "a:1,b:2") = .ok d ∧ findObject d.root = .ok (a, cs, b) ∧
    Edits exEnv noFiles cs d [([ch "b"], some (.scalar (.int 5 (ch "5")))), ([ch "a"], none)] d' ∧ d'.render = ch "b:5" :=
  ⟨_, _, _, _, _, rfl, rfl, .set (path := ch "b") (text := ch "5") (.removed (path := ch "a") .refl rfl rfl) rfl rfl
    (Exact.check _ rfl) (Bare.check rfl) (by decide) (by decide) rfl rfl rfl rfl rfl rfl, rfl⟩

/-- **C96 fails for concatenated objects.** A setting inside objects that are written side by side is not found by the
editor: `has_path` is false, `without_path` changes nothing, and the config read from the text has it. -/
theorem C96_concat_violated : ∃ d d' v, Doc.parse exEnv .conf (ch "a : {b : 1} {c : 2}") = .ok d ∧
    d.withoutPath exEnv (ch "a.b") = .ok d' ∧ d'.hasPath exEnv (ch "a.b") = .ok false ∧
    parseText exEnv noFiles .conf d'.render 0 = .ok (v, 0) ∧
    Spec.at? v [ch "a", ch "b"] = some (.scalar (.int 1 (ch "1"))) := ⟨_, _, _, rfl, rfl, rfl, rfl, rfl⟩

/-- **C96 fails for a value that a later one hides.** `with_value_text` replaces the value of the field that is there, and
the config read from the text does not have the path. -/
theorem C96_hidden_violated : ∃ d d' v, Doc.parse exEnv .conf (ch "a.b : 1\na : 5\n") = .ok d ∧
    d.withValueText exEnv (ch "a.b") (ch "2") = .ok d' ∧ d'.hasPath exEnv (ch "a.b") = .ok true ∧
    d'.render = ch "a.b : 2\na : 5\n" ∧ parseText exEnv noFiles .conf d'.render 0 = .ok (v, 0) ∧
    Spec.at? v [ch "a", ch "b"] = none := ⟨_, _, _, rfl, rfl, rfl, rfl, rfl, rfl⟩

/-! ## Includes -/

/-- An includer for which every file contains `a = 7, c = 8`. -/
def twoFiles : Includer :=
  let o := newObj [(ch "a", .scalar (.int 7 (ch "7"))), (ch "c", .scalar (.int 8 (ch "8")))]
  ⟨fun _ n => .ok (o, n), fun _ n => .ok (o, n)⟩

example : Tame twoFiles where
  plain := by
    intro name n v m h
    have : v = newObj [(ch "a", .scalar (.int 7 (ch "7"))), (ch "c", .scalar (.int 8 (ch "8")))] := by
      rcases h with h | h <;>
      · simp only [twoFiles, Res.ok.injEq, Prod.mk.injEq] at h
        exact h.1.symm
    subst this
    exact ⟨⟨by simp [newObj, Wf, WfF, keysOf, resolvedFields, resolved], by decide⟩, rfl, rfl⟩
  file := fun name n v m h => by simp only [twoFiles, Res.ok.injEq, Prod.mk.injEq] at h; exact h.2.symm
  heuristic := fun name n v m h => by simp only [twoFiles, Res.ok.injEq, Prod.mk.injEq] at h; exact h.2.symm

/-- The conditions hold for a document with an include. -/
example : (Doc.parse exEnv .conf (ch "b {include \"x\"\n d:1}\na:1\n") >>= fun d =>
    .ok (decide (d.render = ch "b {include \"x\"\n d:1}\na:1\n"), staticL true d.root, staticL false d.root))
    = .ok (true, true, false) := by decide +kernel

/-- **C96 fails for a path that an included file sets.** `without_path` removes the fields of the document, and the config
read from the text still has the path. -/
theorem C96_include_violated : ∃ d d' v, Doc.parse exEnv .conf (ch "include \"x\"\na:1\n") = .ok d ∧
    d.withoutPath exEnv (ch "a") = .ok d' ∧ d'.hasPath exEnv (ch "a") = .ok false ∧
    parseText exEnv twoFiles .conf d'.render 0 = .ok (v, 0) ∧
    Spec.at? v [ch "a"] = some (.scalar (.int 7 (ch "7"))) := ⟨_, _, _, rfl, rfl, rfl, rfl, rfl⟩

/-- A file system with one file, which has no substitution. -/
def oneFile : Files.FS := fun f => if f = ch "x.conf" then some (ch "a=7, c=8") else none

example : PlainFiles exEnv oneFile := by
  have h1 : ∀ fl root, DocParser.parseDocument exEnv fl (ch "a=7, c=8") = .ok root → staticL true root = true := by
    intro fl root h
    cases fl <;> cases h <;> rfl
  have h2 : ∀ fl root, DocParser.parseDocument exEnv fl [] = .ok root → staticL true root = true := by
    intro fl root h
    cases fl <;> cases h <;> rfl
  intro f fl root h
  unfold Files.contents oneFile at h
  split at h
  · exact h1 fl root h
  · exact h2 fl root h

/-- A text that includes it. -/
example : (Files.parseString exEnv oneFile (fun x => (Resolve.configResolve exEnv 1 x Resolve.Options.default).bind fun o => nonNull o)
    5 (ch "b {include \"x.conf\"\n d:1}\na:1\n") (ParseOptions.new (ι := Unit)) >>= fun v =>
    .ok ([[ch "b", ch "c"], [ch "b", ch "d"], [ch "a"]].map (Spec.at? v)))
    = .ok [some (.scalar (.int 8 (ch "8"))), some (.scalar (.int 1 (ch "1"))), some (.scalar (.int 1 (ch "1")))] := by
  decide +kernel

end EditRead
end Hocon
