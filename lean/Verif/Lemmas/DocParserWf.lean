import Verif.Lemmas.DocEditLemmas
import Verif.Lemmas.DocParserLemmas

/-!
# The document parser builds well-formed trees
-/

set_option autoImplicit false

namespace Hocon
namespace DocEdit
open PathParser (Syntax)
open DocParser
open Node

/-- Whitespace, newlines and comments. -/
def Blank (n : Node) : Prop := ∃ t, collectNode t = some n

theorem Blank.facts {n : Node} (h : Blank n) :
    n.isField = false ∧ n.isValue = false ∧ n.hasTok Tok.isComma = false ∧
      n.hasTok Tok.isOpenCurly = false ∧ n.hasTok Tok.isCloseCurly = false ∧
      (∀ fl, WfNode fl n) ∧ ∀ p ts, n ≠ .path p ts := by
  obtain ⟨t, ht⟩ := h
  unfold collectNode at ht
  split at ht
  · simp only [Option.some.injEq] at ht; subst ht; simp [isField, isValue, hasTok, singleToken?, WfNode, Tok.isComma, Tok.isOpenCurly, Tok.isCloseCurly]
  · simp only [Option.some.injEq] at ht; subst ht; simp [isField, isValue, hasTok, singleToken?, WfNode, Tok.isComma, Tok.isOpenCurly, Tok.isCloseCurly]
  · simp only [Option.some.injEq] at ht; subst ht; simp [isField, isValue, hasTok, singleToken?, WfNode, Tok.isComma, Tok.isOpenCurly, Tok.isCloseCurly]
  · split at ht
    · simp only [Option.some.injEq] at ht; subst ht; simp [isField, isValue, hasTok, singleToken?, WfNode, Tok.isComma, Tok.isOpenCurly, Tok.isCloseCurly]
    · simp at ht
  · simp at ht

theorem Blank.wfList {fl : Syntax} {ns : List Node} (h : ∀ n ∈ ns, Blank n) : WfList fl ns := by
  rw [WfList.iff]
  exact fun n hn => (h n hn).facts.2.2.2.2.2.1 fl

theorem Blank.noBrace {ns : List Node} (h : ∀ n ∈ ns, Blank n) : NoBrace ns :=
  fun n hn => ⟨(h n hn).facts.2.2.2.1, (h n hn).facts.2.2.2.2.1⟩

theorem nextCollect_blank {fl : Syntax} {toks : List Tok} {ns : List Node} {t : Tok} {ts : List Tok}
    (h : nextCollect fl toks = .ok (ns, t, ts)) : ∀ n ∈ ns, Blank n := by
  induction toks generalizing ns with
  | nil => simp [nextCollect] at h
  | cons x xs ih =>
    rw [nextCollect, Res.bind_eq_ok] at h
    obtain ⟨_, _, h⟩ := h
    split at h
    · rename_i n hn
      rw [Res.bind_eq_ok] at h
      obtain ⟨⟨ns1, t1, ts1⟩, h1, h⟩ := h
      simp only [Res.ok.injEq, Prod.mk.injEq] at h
      obtain ⟨rfl, rfl, rfl⟩ := h
      intro m hm
      rcases List.mem_cons.1 hm with rfl | hm
      · exact ⟨x, hn⟩
      · exact ih h1 m hm
    · simp only [Res.ok.injEq, Prod.mk.injEq] at h
      obtain ⟨rfl, rfl, rfl⟩ := h
      simp

theorem sepLoop_blank {saw : Bool} {toks : List Tok} {ns : List Node} {b : Bool} {ts : List Tok}
    (h : sepLoop saw toks = .ok (ns, b, ts)) : ∀ n ∈ ns, Blank n ∨ n = .single .comma := by
  induction toks generalizing ns saw with
  | nil => simp [sepLoop] at h
  | cons x xs ih =>
    rw [sepLoop.eq_def] at h
    simp only at h
    split at h
    · simp only [Res.ok.injEq, Prod.mk.injEq] at h
      obtain ⟨rfl, rfl, rfl⟩ := h
      simp
    · split at h
      · rename_i n hn
        rw [Res.bind_eq_ok] at h
        obtain ⟨⟨ns1, t1, ts1⟩, h1, h⟩ := h
        simp only [Res.ok.injEq, Prod.mk.injEq] at h
        obtain ⟨rfl, rfl, rfl⟩ := h
        intro m hm
        rcases List.mem_cons.1 hm with rfl | hm
        · exact Or.inl ⟨x, hn⟩
        · exact ih h1 m hm
      · simp only [Res.ok.injEq, Prod.mk.injEq] at h
        obtain ⟨rfl, rfl, rfl⟩ := h
        simp

theorem checkSep_blank {fl : Syntax} {toks : List Tok} {ns : List Node} {b : Bool} {ts : List Tok}
    (h : checkSep fl toks = .ok (ns, b, ts)) :
    (∀ n ∈ ns, Blank n ∨ n = .single .comma) ∧ (fl = .json → b = false → ∀ n ∈ ns, Blank n) := by
  unfold checkSep at h
  split at h
  · exact ⟨sepLoop_blank h, by simp⟩
  · rw [Res.bind_eq_ok] at h
    obtain ⟨⟨ns1, t1, ts1⟩, h1, h⟩ := h
    have hb := nextCollect_blank h1
    simp only at h
    split at h
    · simp only [Res.ok.injEq, Prod.mk.injEq] at h
      obtain ⟨rfl, rfl, rfl⟩ := h
      refine ⟨?_, by simp⟩
      intro n hn
      rcases List.mem_append.1 hn with hn | hn
      · exact Or.inl (hb n hn)
      · right; simpa using hn
    · simp only [Res.ok.injEq, Prod.mk.injEq] at h
      obtain ⟨rfl, rfl, rfl⟩ := h
      exact ⟨fun n hn => Or.inl (hb n hn), fun _ _ => hb⟩

theorem sep_noBrace {ns : List Node} (h : ∀ n ∈ ns, Blank n ∨ n = .single .comma) : NoBrace ns := by
  intro n hn
  rcases h n hn with h | rfl
  · exact ⟨h.facts.2.2.2.1, h.facts.2.2.2.2.1⟩
  · exact ⟨rfl, rfl⟩

theorem sep_wf {fl : Syntax} {ns : List Node} (h : ∀ n ∈ ns, Blank n ∨ n = .single .comma) :
    WfList fl ns := by
  rw [WfList.iff]
  intro n hn
  rcases h n hn with h | rfl
  · exact h.facts.2.2.2.2.2.1 fl
  · trivial

theorem NoBrace.append {a b : List Node} (ha : NoBrace a) (hb : NoBrace b) : NoBrace (a ++ b) := by
  intro n hn
  rcases List.mem_append.1 hn with hn | hn
  · exact ha n hn
  · exact hb n hn

theorem NoTrail.sep {a b : List Node} (ha : ∀ n ∈ a, Blank n ∨ n = .single .comma)
    (hf : ∃ f ∈ b, f.isField = true) (hb : NoTrail b) : NoTrail (a ++ b) := by
  induction a with
  | nil => exact hb
  | cons n a ih =>
    rw [List.cons_append, NoTrail.cons]
    refine ⟨ih fun m hm => ha m (by simp [hm]), fun _ => ?_⟩
    obtain ⟨f, h1, h2⟩ := hf
    exact ⟨f, by simp [h1], h2⟩

theorem NoTrail.blank {a b : List Node} (ha : ∀ n ∈ a, Blank n) (hb : NoTrail b) : NoTrail (a ++ b) := by
  induction a with
  | nil => exact hb
  | cons n a ih =>
    rw [List.cons_append, NoTrail.cons]
    refine ⟨ih fun m hm => ha m (by simp [hm]), fun hc => ?_⟩
    rw [(ha n (by simp)).facts.2.2.1] at hc
    simp at hc

theorem NoTrail.single {n : Node} (h : n.hasTok Tok.isComma = false) : NoTrail [n] := by
  rw [NoTrail.cons]
  exact ⟨NoTrail.nil, by simp [h]⟩

theorem parseKey_ne {env : Env} {fl : Syntax} {t : Tok} {toks : List Tok} {p : Path}
    {pt toks' : List Tok} (h : parseKey env fl t toks = .ok (p, pt, toks')) : p ≠ [] := by
  have key : ∀ e, PathParser.parsePathNodeExpression env .conf false e = .ok (p, pt) → p ≠ [] := by
    intro e h
    unfold PathParser.parsePathNodeExpression at h
    split at h
    · simp [PathParser.badPath] at h
    · rw [Res.bind_eq_ok] at h
      obtain ⟨⟨es, pt1⟩, h1, h⟩ := h
      rw [Res.bind_eq_ok] at h
      obtain ⟨p1, h2, h⟩ := h
      simp only [Res.ok.injEq, Prod.mk.injEq] at h
      obtain ⟨rfl, rfl⟩ := h
      rw [(PathParser.finish_ok h2).2]
      simp [PathParser.Elems.all]
  unfold parseKey at h
  split at h
  · split at h
    · rw [Res.bind_eq_ok] at h
      obtain ⟨⟨p1, pt1⟩, h1, h⟩ := h
      simp only [Res.ok.injEq, Prod.mk.injEq] at h
      obtain ⟨rfl, rfl, rfl⟩ := h
      exact key _ h1
    · simp at h
  · split at h
    · simp at h
    · simp at h
    · rw [Res.bind_eq_ok] at h
      obtain ⟨⟨p1, pt1⟩, h1, h⟩ := h
      simp only [Res.ok.injEq, Prod.mk.injEq] at h
      obtain ⟨rfl, rfl, rfl⟩ := h
      exact key _ h1

/-- The nodes collected by `consolidate_values`. -/
def ValsOk (fl : Syntax) (vs : List Node) : Prop := ∀ n ∈ vs, WfNode fl n ∧ (n.isValue = true → VOk fl n)

theorem splitSingle_wf {fl : Syntax} {vs : List Node} (h : ValsOk fl vs) {toks toks' : List Tok}
    {pre : List Node} {v : Option Node} (hs : splitSingle vs toks = (pre, v, toks')) :
    WfList fl pre ∧ ∀ w, v = some w → VOk fl w := by
  induction vs generalizing pre with
  | nil =>
    simp only [splitSingle, Prod.mk.injEq] at hs
    obtain ⟨rfl, rfl, _⟩ := hs
    exact ⟨trivial, by simp⟩
  | cons n vs ih =>
    rw [splitSingle] at hs
    split at hs
    · rename_i hv
      simp only [Prod.mk.injEq] at hs
      obtain ⟨rfl, rfl, _⟩ := hs
      refine ⟨trivial, ?_⟩
      intro w hw
      simp only [Option.some.injEq] at hw
      subst hw
      exact (h n (by simp)).2 hv
    · cases hq : splitSingle vs toks with
      | mk pre1 rest =>
        obtain ⟨v1, toks1⟩ := rest
        rw [hq] at hs
        simp only [Prod.mk.injEq] at hs
        obtain ⟨rfl, rfl, rfl⟩ := hs
        have := ih (fun m hm => h m (by simp [hm])) hq
        exact ⟨⟨(h n (by simp)).1, this.1⟩, this.2⟩

theorem dropTrailing_mem {vs : List Node} {toks : List Tok} {n : Node}
    (h : n ∈ (dropTrailing vs toks).1) : n ∈ vs := by
  induction vs generalizing toks with
  | nil => simp [dropTrailing] at h
  | cons m vs ih =>
    rw [dropTrailing] at h
    split at h
    · exact List.mem_cons_of_mem _ (ih h)
    · exact h

theorem dropTrailing_value {vs : List Node} {toks : List Tok} {n : Node} (h : n ∈ vs)
    (hv : n.isValue = true) : n ∈ (dropTrailing vs toks).1 := by
  induction vs generalizing toks with
  | nil => exact h
  | cons m vs ih =>
    rw [dropTrailing]
    split
    · rename_i t ht
      rcases List.mem_cons.1 h with rfl | h
      · cases n <;> simp [isValue, singleToken?] at hv ht
      · exact ih h
    · exact h

theorem consFinish_wf {fl : Syntax} {vs : List Node} (h : ValsOk fl vs) {t : Tok} {toks toks' : List Tok}
    {pre : List Node} {v : Option Node} (hs : consFinish vs t toks = (pre, v, toks')) :
    WfList fl pre ∧ ∀ w, v = some w → VOk fl w := by
  unfold consFinish at hs
  split at hs
  · exact splitSingle_wf h hs
  · simp only [Prod.mk.injEq] at hs
    obtain ⟨rfl, rfl, _⟩ := hs
    refine ⟨trivial, ?_⟩
    intro w hw
    simp only [Option.some.injEq] at hw
    subst hw
    refine ⟨rfl, rfl, ?_⟩
    rw [WfNode, WfList.iff]
    refine ⟨?_, ?_⟩
    · rename_i hcnt
      have : ∃ c ∈ vs, c.isValue = true := List.countP_pos_iff.1 (by omega)
      obtain ⟨c, hc, hcv⟩ := this
      exact ⟨c, List.mem_reverse.2 (dropTrailing_value (List.mem_reverse.2 hc) hcv), hcv⟩
    intro n hn
    exact (h n (List.mem_reverse.1 (dropTrailing_mem (List.mem_reverse.1 hn)))).1

/-- What the children of an object look like from some point on. -/
structure ObjOk (fl : Syntax) (ho : Bool) (ns : List Node) : Prop where
  wf : WfList fl ns
  opened : ho = true → ∃ mid, ns = mid ++ [.single .closeCurly] ∧ NoBrace mid
  bare : ho = false → NoBrace ns
  trail : fl = .json → ho = true → NoTrail ns

theorem ObjOk.prepend {fl : Syntax} {ho : Bool} {a ns : List Node} (h : ObjOk fl ho ns)
    (hw : WfList fl a) (hb : NoBrace a) (ht : fl = .json → ho = true → NoTrail (a ++ ns)) :
    ObjOk fl ho (a ++ ns) := by
  refine ⟨hw.append h.wf, ?_, fun hh => hb.append (h.bare hh), ht⟩
  intro hh
  obtain ⟨mid, rfl, hm⟩ := h.opened hh
  exact ⟨a ++ mid, by simp, hb.append hm⟩

structure ParseWf (env : Env) (fl : Syntax) (f : Nat) : Prop where
  value : ∀ t toks v toks', parseValue env fl f t toks = .ok (v, toks') → VOk fl v
  loop : ∀ t toks vs t' toks', consLoop env fl f t toks = .ok (vs, t', toks') → ValsOk fl vs
  cons : ∀ toks ns v toks', consolidate env fl f toks = .ok (ns, v, toks') →
    WfList fl ns ∧ ∀ w, v = some w → VOk fl w
  fval : ∀ toks ns v toks', fieldVal env fl f toks = .ok (ns, v, toks') → WfList fl ns ∧ VOk fl v
  field : ∀ t toks p n toks', parseField env fl f t toks = .ok (p, n, toks') →
    WfNode fl n ∧ n.isField = true
  obj : ∀ ho ac keys toks ns toks', objectLoop env fl f ho ac keys toks = .ok (ns, toks') →
    ObjOk fl ho ns ∧ (fl = .json → ho = true → ac = true → ∃ n ∈ ns, n.isField = true)
  sep : ∀ ho keys toks ns toks', objectSep env fl f ho keys toks = .ok (ns, toks') → ObjOk fl ho ns
  arr : ∀ toks n toks', parseArray env fl f toks = .ok (n, toks') → VOk fl n
  aloop : ∀ toks ns toks', arrayLoop env fl f toks = .ok (ns, toks') → WfList fl ns

theorem fieldValue_last {a : List Node} {v : Node} (hv : v.isValue = true) :
    ∃ w, fieldValue (a ++ [v]) = .ok w := by
  induction a with
  | nil => exact ⟨v, by rw [List.nil_append, fieldValue, if_pos hv]⟩
  | cons n a ih =>
    rw [List.cons_append, fieldValue]
    split
    · exact ⟨n, rfl⟩
    · exact ih

theorem mkField_wf {fl : Syntax} {p : Path} (hp : p ≠ []) {pt : List Tok} {a : List Node} {v : Node}
    (ha : WfList fl a) (hv : VOk fl v) : WfNode fl (.field (.path p pt :: a ++ [v])) := by
  obtain ⟨k, ks, rfl⟩ := List.exists_cons_of_ne_nil hp
  refine ⟨⟨k, ks, pt, rfl⟩, fieldValue_last hv.isValue, ?_⟩
  exact WfList.append (a := .path (k :: ks) pt :: a) ⟨trivial, ha⟩ ⟨hv.wf, trivial⟩

theorem parseWf_all (env : Env) (fl : Syntax) (f : Nat) : ParseWf env fl f := by
  induction f with
  | zero =>
    constructor <;> intros <;>
      simp_all [parseValue, consLoop, consolidate, fieldVal, parseField, objectLoop, objectSep,
        parseArray, arrayLoop]
  | succ f ih =>
    constructor
    · intro t toks v toks' h
      rw [parseValue.eq_def] at h
      simp only at h
      split at h
      · cases h; exact ⟨rfl, rfl, trivial⟩
      · cases h; exact ⟨rfl, rfl, trivial⟩
      · cases h; exact ⟨rfl, rfl, trivial⟩
      · rw [Res.bind_eq_ok] at h
        obtain ⟨⟨ns, ts1⟩, h1, h⟩ := h
        simp only [Res.ok.injEq, Prod.mk.injEq] at h
        obtain ⟨rfl, rfl⟩ := h
        have hb := (ih.obj _ _ _ _ _ _ h1).1
        obtain ⟨mid, rfl, hm⟩ := hb.opened rfl
        refine ⟨rfl, rfl, Or.inl ⟨mid, rfl, hm⟩, fun hj => ?_, trivial, hb.wf⟩
        rw [NoTrail.cons]
        exact ⟨hb.trail hj rfl, by simp [hasTok, singleToken?, Tok.isComma]⟩
      · exact ih.arr _ _ _ h
      · simp at h
    · intro t toks vs t' toks' h
      rw [consLoop.eq_def] at h
      simp only at h
      split at h
      · rw [Res.bind_eq_ok] at h
        obtain ⟨⟨t1, ts1⟩, h1, h⟩ := h
        rw [Res.bind_eq_ok] at h
        obtain ⟨⟨vs1, t2, ts2⟩, h2, h⟩ := h
        simp only [Res.ok.injEq, Prod.mk.injEq] at h
        obtain ⟨rfl, rfl, rfl⟩ := h
        intro n hn
        rcases List.mem_cons.1 hn with rfl | hn
        · exact ⟨trivial, by simp [isValue]⟩
        · exact ih.loop _ _ _ _ _ h2 n hn
      · split at h
        · rw [Res.bind_eq_ok] at h
          obtain ⟨⟨v, ts0⟩, h0, h⟩ := h
          rw [Res.bind_eq_ok] at h
          obtain ⟨⟨t1, ts1⟩, h1, h⟩ := h
          rw [Res.bind_eq_ok] at h
          obtain ⟨⟨vs1, t2, ts2⟩, h2, h⟩ := h
          simp only [Res.ok.injEq, Prod.mk.injEq] at h
          obtain ⟨rfl, rfl, rfl⟩ := h
          intro n hn
          rcases List.mem_cons.1 hn with rfl | hn
          · have := ih.value _ _ _ _ h0
            exact ⟨this.wf, fun _ => this⟩
          · exact ih.loop _ _ _ _ _ h2 n hn
        · simp only [Res.ok.injEq, Prod.mk.injEq] at h
          obtain ⟨rfl, rfl, rfl⟩ := h
          intro n hn
          simp at hn
    · intro toks ns v toks' h
      rw [consolidate.eq_def] at h
      simp only at h
      split at h
      · simp only [Res.ok.injEq, Prod.mk.injEq] at h
        obtain ⟨rfl, rfl, rfl⟩ := h
        exact ⟨trivial, by simp⟩
      · rw [Res.bind_eq_ok] at h
        obtain ⟨⟨ws, t, ts1⟩, h1, h⟩ := h
        rw [Res.bind_eq_ok] at h
        obtain ⟨⟨vs, t2, ts2⟩, h2, h⟩ := h
        simp only at h2 h
        cases hf : consFinish vs t2 ts2 with
        | mk pre rest =>
        obtain ⟨v1, ts3⟩ := rest
        rw [hf] at h
        simp only [Res.ok.injEq, Prod.mk.injEq] at h
        obtain ⟨rfl, rfl, rfl⟩ := h
        obtain ⟨k1, k2⟩ := consFinish_wf (ih.loop _ _ _ _ _ h2) hf
        exact ⟨(Blank.wfList (nextCollect_blank h1)).append k1, k2⟩
    · intro toks ns v toks' h
      rw [fieldVal, Res.bind_eq_ok] at h
      obtain ⟨⟨ws, v1, ts1⟩, h1, h⟩ := h
      obtain ⟨b1, g1⟩ := ih.cons _ _ _ _ h1
      simp only at h
      split at h
      · simp only [Res.ok.injEq, Prod.mk.injEq] at h
        obtain ⟨rfl, rfl, rfl⟩ := h
        exact ⟨b1, g1 _ rfl⟩
      · rw [Res.bind_eq_ok] at h
        obtain ⟨⟨ws2, t, ts2⟩, h2, h⟩ := h
        rw [Res.bind_eq_ok] at h
        obtain ⟨⟨v2, ts3⟩, h3, h⟩ := h
        simp only [Res.ok.injEq, Prod.mk.injEq] at h
        obtain ⟨rfl, rfl, rfl⟩ := h
        exact ⟨b1.append (Blank.wfList (nextCollect_blank h2)), ih.value _ _ _ _ h3⟩
    · intro t toks p n toks' h
      rw [parseField, Res.bind_eq_ok] at h
      obtain ⟨⟨p1, pt, ts1⟩, h1, h⟩ := h
      have hpne := parseKey_ne h1
      rw [Res.bind_eq_ok] at h
      obtain ⟨⟨ws, ak, ts2⟩, h2, h⟩ := h
      have b2 := Blank.wfList (fl := fl) (nextCollect_blank h2)
      simp only at h
      split at h
      · rw [Res.bind_eq_ok] at h
        obtain ⟨⟨v, ts3⟩, h3, h⟩ := h
        simp only [Res.ok.injEq, Prod.mk.injEq] at h
        obtain ⟨rfl, rfl, rfl⟩ := h
        exact ⟨mkField_wf hpne b2 (ih.value _ _ _ _ h3), rfl⟩
      · split at h
        · rw [Res.bind_eq_ok] at h
          obtain ⟨⟨ws2, v, ts3⟩, h3, h⟩ := h
          simp only [Res.ok.injEq, Prod.mk.injEq] at h
          obtain ⟨rfl, rfl, rfl⟩ := h
          obtain ⟨b3, k2⟩ := ih.fval _ _ _ _ h3
          refine ⟨?_, rfl⟩
          have := mkField_wf (pt := pt) hpne (b2.append (b := .single ak :: ws2) ⟨trivial, b3⟩) k2
          simpa using this
        · simp at h
    · intro ho ac keys toks ns toks' h
      rw [objectLoop, Res.bind_eq_ok] at h
      obtain ⟨⟨ws, t, ts1⟩, h1, h⟩ := h
      have b1 := nextCollect_blank h1
      simp only at h
      split at h
      · split at h
        · simp at h
        · rename_i hac
          split at h
          · simp at h
          · rename_i hho
            simp only [Res.ok.injEq, Prod.mk.injEq] at h
            obtain ⟨rfl, rfl⟩ := h
            refine ⟨⟨(Blank.wfList b1).append ⟨trivial, trivial⟩, fun _ => ⟨ws, rfl, Blank.noBrace b1⟩,
              fun hh => by simp [hh] at hho, fun _ _ => NoTrail.blank b1 (NoTrail.single rfl)⟩, ?_⟩
            intro hj _ hac2
            simp [hj, hac2] at hac
      · split at h
        · rename_i hend
          simp only [Bool.and_eq_true, Bool.not_eq_true'] at hend
          simp only [Res.ok.injEq, Prod.mk.injEq] at h
          obtain ⟨rfl, rfl⟩ := h
          refine ⟨⟨Blank.wfList b1, fun hh => ?_, fun _ => Blank.noBrace b1, fun _ hh => ?_⟩, fun _ hh => ?_⟩
          all_goals (rw [hend.2] at hh; simp at hh)
        · split at h
          · rename_i hinc
            simp only [Bool.and_eq_true, decide_eq_true_eq] at hinc
            rw [Res.bind_eq_ok] at h
            obtain ⟨⟨inc, ts2⟩, h2, h⟩ := h
            rw [Res.bind_eq_ok] at h
            obtain ⟨⟨ns1, ts3⟩, h3, h⟩ := h
            simp only [Res.ok.injEq, Prod.mk.injEq] at h
            obtain ⟨rfl, rfl⟩ := h
            have hsep := ih.sep _ _ _ _ _ h3
            have hin : ∃ cs k, inc = .incl cs k := by
              unfold parseInclude at h2
              rw [Res.bind_eq_ok] at h2
              obtain ⟨⟨ws', t', ts'⟩, _, h2⟩ := h2
              simp only at h2
              split at h2
              · split at h2
                · simp at h2
                · rw [Res.bind_eq_ok] at h2
                  obtain ⟨⟨ws3, t3, ts3⟩, _, h2⟩ := h2
                  simp only at h2
                  split at h2
                  · rw [Res.bind_eq_ok] at h2
                    obtain ⟨⟨ws4, t4, ts4⟩, _, h2⟩ := h2
                    simp only at h2
                    split at h2
                    · cases h2; exact ⟨_, _, rfl⟩
                    · simp at h2
                  · simp at h2
              · split at h2
                · cases h2; exact ⟨_, _, rfl⟩
                · simp at h2
            obtain ⟨ics, k, rfl⟩ := hin
            have hiw : WfList fl [.incl ics k] := ⟨trivial, trivial⟩
            have hpre := ObjOk.prepend (a := ws ++ [.incl ics k]) hsep
              ((Blank.wfList b1).append hiw)
              ((Blank.noBrace b1).append (by intro n hn; simp only [List.mem_singleton] at hn; subst hn; exact ⟨rfl, rfl⟩))
              (fun hj => by rw [hj] at hinc; simp at hinc)
            refine ⟨by simpa using hpre, fun hj => ?_⟩
            rw [hj] at hinc; simp at hinc
          · rw [Res.bind_eq_ok] at h
            obtain ⟨⟨p, fld, ts2⟩, h2, h⟩ := h
            rw [Res.bind_eq_ok] at h
            obtain ⟨keys', h4, h⟩ := h
            rw [Res.bind_eq_ok] at h
            obtain ⟨⟨ns1, ts3⟩, h3, h⟩ := h
            simp only [Res.ok.injEq, Prod.mk.injEq] at h
            obtain ⟨rfl, rfl⟩ := h
            obtain ⟨hfw, hff⟩ := ih.field _ _ _ _ _ h2
            have hsep := ih.sep _ _ _ _ _ h3
            obtain ⟨fcs, rfl⟩ : ∃ c, fld = .field c := by cases fld <;> simp_all [isField]
            have hpre := ObjOk.prepend (a := ws ++ [.field fcs]) hsep
              ((Blank.wfList b1).append ⟨hfw, trivial⟩)
              ((Blank.noBrace b1).append (by intro n hn; simp only [List.mem_singleton] at hn; subst hn; exact ⟨rfl, rfl⟩))
              (fun hj hh => by
                rw [List.append_assoc]
                refine NoTrail.blank b1 ?_
                rw [List.singleton_append, NoTrail.cons]
                exact ⟨hsep.trail hj hh, by simp [hasTok, singleToken?]⟩)
            exact ⟨by simpa using hpre, fun _ _ _ => ⟨.field fcs, by simp, rfl⟩⟩
    · intro ho keys toks ns toks' h
      rw [objectSep, Res.bind_eq_ok] at h
      obtain ⟨⟨ws, sep, ts1⟩, h1, h⟩ := h
      obtain ⟨b1, b1'⟩ := checkSep_blank h1
      simp only at h
      split at h
      · rw [Res.bind_eq_ok] at h
        obtain ⟨⟨ns1, ts2⟩, h2, h⟩ := h
        simp only [Res.ok.injEq, Prod.mk.injEq] at h
        obtain ⟨rfl, rfl⟩ := h
        obtain ⟨k1, k2⟩ := ih.obj _ _ _ _ _ _ h2
        exact k1.prepend (sep_wf b1) (sep_noBrace b1)
          (fun hj hh => NoTrail.sep b1 (k2 hj hh rfl) (k1.trail hj hh))
      · rename_i hsep
        rw [Res.bind_eq_ok] at h
        obtain ⟨⟨ws2, t, ts2⟩, h2, h⟩ := h
        have b2 := nextCollect_blank h2
        simp only at h
        have hw := (sep_wf (fl := fl) b1).append (Blank.wfList b2)
        have hb := (sep_noBrace b1).append (Blank.noBrace b2)
        split at h
        · split at h
          · rename_i hho
            simp only [Res.ok.injEq, Prod.mk.injEq] at h
            obtain ⟨rfl, rfl⟩ := h
            refine ⟨hw.append ⟨trivial, trivial⟩, fun _ => ⟨_, rfl, hb⟩, fun hh => by simp [hh] at hho, ?_⟩
            intro hj hh
            rw [List.append_assoc]
            exact NoTrail.blank (b1' hj (by simpa using hsep)) (NoTrail.blank b2 (NoTrail.single rfl))
          · simp at h
        · split at h
          · simp at h
          · rename_i hho
            simp only [Res.ok.injEq, Prod.mk.injEq] at h
            obtain ⟨rfl, rfl⟩ := h
            exact ⟨hw, fun hh => absurd hh hho, fun _ => hb, fun _ hh => absurd hh hho⟩
        · simp at h
    · intro toks n toks' h
      rw [parseArray, Res.bind_eq_ok] at h
      obtain ⟨⟨ws, v, ts1⟩, h1, h⟩ := h
      obtain ⟨b1, g1⟩ := ih.cons _ _ _ _ h1
      simp only at h
      split at h
      · rw [Res.bind_eq_ok] at h
        obtain ⟨⟨ns, ts2⟩, h2, h⟩ := h
        simp only [Res.ok.injEq, Prod.mk.injEq] at h
        obtain ⟨rfl, rfl⟩ := h
        exact ⟨rfl, rfl, WfList.append (a := .single .openSquare :: ws) ⟨trivial, b1⟩
          ⟨(g1 _ rfl).wf, ih.aloop _ _ _ h2⟩⟩
      · rw [Res.bind_eq_ok] at h
        obtain ⟨⟨ws2, t, ts2⟩, h2, h⟩ := h
        have b2 := Blank.wfList (fl := fl) (nextCollect_blank h2)
        simp only at h
        split at h
        · simp only [Res.ok.injEq, Prod.mk.injEq] at h
          obtain ⟨rfl, rfl⟩ := h
          exact ⟨rfl, rfl, WfList.append (WfList.append (a := .single .openSquare :: ws) ⟨trivial, b1⟩ b2)
            ⟨trivial, trivial⟩⟩
        · split at h
          · rw [Res.bind_eq_ok] at h
            obtain ⟨⟨v, ts3⟩, h3, h⟩ := h
            rw [Res.bind_eq_ok] at h
            obtain ⟨⟨ns, ts4⟩, h4, h⟩ := h
            simp only [Res.ok.injEq, Prod.mk.injEq] at h
            obtain ⟨rfl, rfl⟩ := h
            exact ⟨rfl, rfl, WfList.append (WfList.append (a := .single .openSquare :: ws) ⟨trivial, b1⟩ b2)
              ⟨(ih.value _ _ _ _ h3).wf, ih.aloop _ _ _ h4⟩⟩
          · simp at h
    · intro toks ns toks' h
      rw [arrayLoop, Res.bind_eq_ok] at h
      obtain ⟨⟨ws, sep, ts1⟩, h1, h⟩ := h
      have b1 := sep_wf (fl := fl) (checkSep_blank h1).1
      simp only at h
      split at h
      · rw [Res.bind_eq_ok] at h
        obtain ⟨⟨ws2, v, ts2⟩, h2, h⟩ := h
        obtain ⟨b2, g2⟩ := ih.cons _ _ _ _ h2
        simp only at h
        split at h
        · rw [Res.bind_eq_ok] at h
          obtain ⟨⟨ns1, ts3⟩, h3, h⟩ := h
          simp only [Res.ok.injEq, Prod.mk.injEq] at h
          obtain ⟨rfl, rfl⟩ := h
          exact (b1.append b2).append ⟨(g2 _ rfl).wf, ih.aloop _ _ _ h3⟩
        · rw [Res.bind_eq_ok] at h
          obtain ⟨⟨ws3, t, ts3⟩, h3, h⟩ := h
          have b3 := Blank.wfList (fl := fl) (nextCollect_blank h3)
          simp only at h
          split at h
          · rw [Res.bind_eq_ok] at h
            obtain ⟨⟨v, ts4⟩, h4, h⟩ := h
            rw [Res.bind_eq_ok] at h
            obtain ⟨⟨ns1, ts5⟩, h5, h⟩ := h
            simp only [Res.ok.injEq, Prod.mk.injEq] at h
            obtain ⟨rfl, rfl⟩ := h
            exact ((b1.append b2).append b3).append ⟨(ih.value _ _ _ _ h4).wf, ih.aloop _ _ _ h5⟩
          · split at h
            · rw [Res.bind_eq_ok] at h
              obtain ⟨⟨ns1, ts4⟩, h4, h⟩ := h
              simp only [Res.ok.injEq, Prod.mk.injEq] at h
              obtain ⟨rfl, rfl⟩ := h
              exact ((b1.append b2).append b3).append (ih.aloop _ _ _ h4)
            · simp at h
      · rw [Res.bind_eq_ok] at h
        obtain ⟨⟨ws2, t, ts2⟩, h2, h⟩ := h
        have b2 := Blank.wfList (fl := fl) (nextCollect_blank h2)
        simp only at h
        split at h
        · simp only [Res.ok.injEq, Prod.mk.injEq] at h
          obtain ⟨rfl, rfl⟩ := h
          exact (b1.append b2).append ⟨trivial, trivial⟩
        · simp at h

theorem parse_wf {env : Env} {fl : Syntax} {toks : List Tok} {ns : List Node}
    (h : parse env fl toks = .ok ns) : WfList fl ns := by
  unfold parse at h
  rw [Res.bind_eq_ok] at h
  obtain ⟨⟨t, toks1⟩, _, h⟩ := h
  have hend : ∀ mc cs toks', parseEnd fl mc cs toks' = .ok ns →
      (mc = false → WfList fl cs) → (mc = true → WfList fl cs ∧ NoBrace cs ∧ fl = .conf) → WfList fl ns := by
    intro mc cs toks' h hf ht
    unfold parseEnd at h
    rw [Res.bind_eq_ok] at h
    obtain ⟨⟨ws, t, ts⟩, h1, h⟩ := h
    have b1 := nextCollect_blank h1
    simp only at h
    split at h
    · simp only [Res.ok.injEq] at h
      subst h
      cases mc with
      | false => exact (hf rfl).append (Blank.wfList b1)
      | true =>
        obtain ⟨k1, k2, k3⟩ := ht rfl
        exact ⟨⟨Or.inr (k2.append (Blank.noBrace b1)), fun hj => by rw [hj] at k3; simp at k3,
          k1.append (Blank.wfList b1)⟩, trivial⟩
    · simp at h
  simp only at h
  split at h
  · rw [Res.bind_eq_ok] at h
    obtain ⟨⟨ws, t, toks2⟩, h1, h⟩ := h
    have b1 := nextCollect_blank h1
    simp only at h
    split at h
    · rw [Res.bind_eq_ok] at h
      obtain ⟨⟨v, toks3⟩, h2, h⟩ := h
      exact hend _ _ _ h (fun _ => (Blank.wfList b1).append
        ⟨((parseWf_all env fl _).value _ _ _ _ h2).wf, trivial⟩) (by simp)
    · rw [Res.bind_eq_ok] at h
      obtain ⟨⟨v, toks3⟩, h2, h⟩ := h
      exact hend _ _ _ h (fun _ => (Blank.wfList b1).append
        ⟨((parseWf_all env fl _).value _ _ _ _ h2).wf, trivial⟩) (by simp)
    · split at h
      · simp at h
      · rw [Res.bind_eq_ok] at h
        obtain ⟨⟨ns1, toks3⟩, h2, h⟩ := h
        have hob := ((parseWf_all env .conf _).obj _ _ _ _ _ _ h2).1
        exact hend _ _ _ h (by simp) (fun _ => ⟨(Blank.wfList b1).append hob.wf,
          (Blank.noBrace b1).append (hob.bare rfl), rfl⟩)
  · simp at h

theorem parseSingleValue_wf {env : Env} {fl : Syntax} {toks : List Tok} {v : Option Node}
    (h : parseSingleValue env fl toks = .ok v) : ∀ w, v = some w → VOk fl w := by
  unfold parseSingleValue at h
  rw [Res.bind_eq_ok] at h
  obtain ⟨⟨t, toks1⟩, _, h⟩ := h
  simp only at h
  split at h
  · rw [Res.bind_eq_ok] at h
    obtain ⟨⟨t, toks2⟩, h1, h⟩ := h
    simp only at h
    split at h
    · simp at h
    · split at h
      · simp at h
      · split at h
        · rw [Res.bind_eq_ok] at h
          obtain ⟨⟨n, toks3⟩, h2, h⟩ := h
          rw [Res.bind_eq_ok] at h
          obtain ⟨⟨t', toks4⟩, h3, h⟩ := h
          simp only at h
          split at h
          · cases h
            intro w hw
            cases hw
            exact (parseWf_all env _ _).value _ _ _ _ h2
          · simp at h
        · rw [Res.bind_eq_ok] at h
          obtain ⟨⟨ns, v1, toks3⟩, h2, h⟩ := h
          rw [Res.bind_eq_ok] at h
          obtain ⟨⟨t', toks4⟩, h3, h⟩ := h
          simp only at h
          split at h
          · cases h
            exact ((parseWf_all env _ _).cons _ _ _ _ h2).2
          · simp at h
  · simp at h

end DocEdit
end Hocon
