import Verif.Lemmas.DocParserWf
import Verif.Lemmas.PathDots
import Verif.Lemmas.PathLine
import Verif.Props.PathParserProps
import Verif.Props.TokenizerProps

/-!
# From the node trees to the document API
-/

set_option autoImplicit false

namespace Hocon
namespace DocEdit
open PathParser (Syntax newPath parsePathNode parsePathSlow fastParse exprLoop plainLoop Elems)
open DocParser
open Node Tokenizer

/-! ## The two path parsers -/

theorem plain_of_expr {env : Env} {ho : Bool} {fl : Syntax} {es es' : Elems} {pt pt' ts : List Tok}
    (h : exprLoop env fl ho es pt ts = .ok (es', pt')) : plainLoop env ho es ts = .ok es' := by
  induction ts generalizing es pt with
  | nil =>
    simp only [exprLoop, Res.ok.injEq, Prod.mk.injEq] at h
    rw [plainLoop, h.1]
  | cons t ts ih =>
    rw [exprLoop.eq_def] at h
    rw [plainLoop.eq_def]
    simp only at h ⊢
    split at h
    · exact ih h
    · exact ih h
    · exact ih h
    · rw [Res.bind_eq_ok] at h
      obtain ⟨sp, _, h⟩ := h
      rename_i v _ _ hv
      cases v <;> first | exact ih h | exact absurd rfl (hv _ _)
    · rw [Res.bind_eq_ok] at h
      obtain ⟨sp, _, h⟩ := h
      exact ih h
    · unfold PathParser.badPath at h
      split at h <;> simp at h

/-- With and without comments the path text has the same tokens. -/
def SameTokens (env : Env) (fl : Syntax) (path : Str) : Prop :=
  fl = .json → tokenize env false path = tokenize env true path

theorem slow_of_node {env : Env} {fl : Syntax} {path : Str} {p : Path} {pt : List Tok}
    (h : parsePathNode env fl path = .ok (p, pt)) (hs : SameTokens env fl path) :
    parsePathSlow env path = .ok p := by
  unfold parsePathNode at h
  rw [Res.bind_eq_ok] at h
  obtain ⟨toks, h1, h⟩ := h
  have h1' : tokenize env true path = .ok toks := by
    cases fl with
    | conf => exact h1
    | json => rw [← hs rfl]; exact h1
  unfold parsePathSlow
  rw [h1', Res.ok_bind]
  unfold PathParser.parsePathNodeExpression at h
  unfold PathParser.parsePathExpression
  split at h
  · simp [PathParser.badPath] at h
  · rename_i hne
    rw [if_neg hne]
    rw [Res.bind_eq_ok] at h
    obtain ⟨⟨es, pt1⟩, h2, h⟩ := h
    rw [Res.bind_eq_ok] at h
    obtain ⟨p1, h3, h⟩ := h
    simp only [Res.ok.injEq, Prod.mk.injEq] at h
    obtain ⟨rfl, rfl⟩ := h
    rw [plain_of_expr h2, Res.ok_bind]
    exact h3

/-- The fact about `boost::lexical_cast<double>` used for the fast path parser. -/
def NoDigitNoNumber (env : Env) : Prop :=
  ∀ t, (∀ c ∈ t, c ∈ numberChars ∧ isDigit c = false) → env.parseDouble t = none

theorem newPath_of_node {env : Env} {fl : Syntax} {path : Str} {p : Path} {pt : List Tok}
    (hpd : NoDigitNoNumber env)
    (h : parsePathNode env fl path = .ok (p, pt)) (hs : SameTokens env fl path) :
    newPath env path = .ok p := by
  have hslow := slow_of_node h hs
  unfold newPath
  have hfast : ∃ q, fastParse path = .ok q := by
    unfold fastParse
    simp only
    split
    · exact ⟨_, rfl⟩
    · exact ⟨_, PathParser.fastPathBuild_eq _ _ _ (Nat.le_refl _)⟩
  obtain ⟨q, hq⟩ := hfast
  rw [hq, Res.ok_bind]
  cases q with
  | nil => simpa [PathM.beq] using hslow
  | cons k q =>
    have := PathParser.C02_fast_agrees_partial env _ _ hpd (PathParser.both_no_newline hq (by simp) hslow) hq (by simp)
    rw [hslow] at this
    simpa [PathM.beq] using this.symm

/-- Texts without `#` and `/` have the same tokens with and without comments. -/
def NoComment (s : Str) : Prop := '#' ∉ s ∧ '/' ∉ s

theorem NoComment.tail {c : Char} {s : Str} (h : NoComment (c :: s)) : NoComment s := by
  simp only [NoComment, List.mem_cons, not_or] at *
  exact ⟨h.1.2, h.2.2⟩

theorem NoComment.start {c : Char} {s : Str} (h : NoComment (c :: s)) (allow : Bool) (r : Str) :
    startOfComment allow c r = false := by
  simp only [NoComment, List.mem_cons, not_or] at h
  have h1 : ¬ c = '#' := fun e => h.1.1 e.symm
  have h2 : ¬ c = '/' := fun e => h.2.1 e.symm
  simp [startOfComment, h1, h2]

theorem NoComment.right {a s : Str} (h : NoComment (a ++ s)) : NoComment s := by
  simp only [NoComment, List.mem_append, not_or] at *
  exact ⟨h.1.2, h.2.2⟩

theorem pullUnquoted_allow {s : Str} (h : NoComment s) (line : Nat) (acc : Str) :
    pullUnquoted false line acc s = pullUnquoted true line acc s := by
  induction s generalizing acc with
  | nil => rfl
  | cons c s ih =>
    rw [pullUnquoted, pullUnquoted, h.start false s, h.start true s]
    simp only [ih h.tail]

theorem pullPlain_allow {env : Env} {c : Char} {s : Str} (h : NoComment (c :: s)) (line : Nat) :
    pullPlain env false c s line = pullPlain env true c s line := by
  unfold pullPlain pullWord
  rw [h.start false s, h.start true s, pullUnquoted_allow h]

theorem nextChar_suffix {ws s ws' : Str} {c : Char} {r : Str}
    (h : nextCharAfterWhitespace ws s = (ws', some (c, r))) : ∃ a, s = a ++ c :: r := by
  induction s generalizing ws with
  | nil => simp [nextCharAfterWhitespace] at h
  | cons d s ih =>
    rw [nextCharAfterWhitespace] at h
    split at h
    · obtain ⟨a, rfl⟩ := ih h
      exact ⟨d :: a, rfl⟩
    · simp only [Prod.mk.injEq, Option.some.injEq] at h
      obtain ⟨_, rfl, rfl⟩ := h
      exact ⟨[], rfl⟩

theorem pull_allow (env : Env) (fuel : Nat) :
    (∀ sv s line, NoComment s → pullNext env false fuel sv s line = pullNext env true fuel sv s line) ∧
    (∀ s line, NoComment s → pullSubst env false fuel s line = pullSubst env true fuel s line) ∧
    (∀ sv e s line, NoComment s →
      substLoop env false fuel sv e s line = substLoop env true fuel sv e s line) := by
  induction fuel with
  | zero => exact ⟨fun _ _ _ _ => rfl, fun _ _ _ => rfl, fun _ _ _ _ _ => rfl⟩
  | succ fuel ih =>
    refine ⟨?_, ?_, ?_⟩
    · intro sv s line h
      rw [pullNext, pullNext]
      split
      · rfl
      · rename_i ws c r heq
        obtain ⟨a, rfl⟩ := nextChar_suffix heq
        rw [ih.2.1 r line h.right.tail, pullPlain_allow h.right]
    · intro s line h
      rw [pullSubst, pullSubst]
      split
      · rename_i o r heq
        have hr : NoComment r := by
          have := substOpen_spec heq
          rw [this] at h
          exact h.right
        rw [ih.2.2 _ _ r line hr]
      · rfl
    · intro sv e s line h
      rw [substLoop, substLoop, ih.1 sv s line h]
      cases hp : pullNext env true fuel sv s line with
      | ok x =>
        obtain ⟨t, sv', r, line'⟩ := x
        have hr : NoComment r := by
          obtain ⟨w, _, _, _, hh⟩ := pullNext_spec hp
          rcases hh with ⟨_, rfl, _⟩ | ⟨u, rfl, _⟩
          · exact ⟨by simp, by simp⟩
          · exact h.right
        have := fun sv e => ih.2.2 sv e r line' hr
        cases t <;> simp only [this]
      | err e => rfl
      | ub => rfl
      | fuel => rfl

theorem tokenLoop_allow (env : Env) (fuel : Nat) (sv : Saver) (s : Str) (line : Nat)
    (h : NoComment s) : tokenLoop env false fuel sv s line = tokenLoop env true fuel sv s line := by
  induction fuel generalizing sv s line with
  | zero => rfl
  | succ fuel ih =>
    rw [tokenLoop, tokenLoop, (pull_allow env _).1 _ _ _ h]
    cases hp : pullNext env true (2 * s.length + 1) sv s line with
    | ok x =>
      obtain ⟨t, sv', r, line'⟩ := x
      have hr : NoComment r := by
        obtain ⟨w, _, _, _, hh⟩ := pullNext_spec hp
        rcases hh with ⟨_, rfl, _⟩ | ⟨u, rfl, _⟩
        · exact ⟨by simp, by simp⟩
        · exact h.right
      simp only [ih _ r _ hr]
    | err e => rfl
    | ub => rfl
    | fuel => rfl

theorem sameTokens_of_noComment (env : Env) (fl : Syntax) {path : Str} (h : NoComment path) :
    SameTokens env fl path := by
  intro _
  unfold tokenize
  rw [tokenLoop_allow env _ _ _ _ h]

/-- The path texts that `has_path` accepts are such texts. -/
theorem sameTokens_of_newPath {env : Env} (fl : Syntax) {path : Str} {p : Path} (h : newPath env path = .ok p) :
    SameTokens env fl path := by
  unfold newPath at h
  rw [Res.bind_eq_ok] at h
  obtain ⟨q, hq, h⟩ := h
  cases q with
  | nil => exact fun _ => PathParser.tokenize_of_slow (by simpa [PathM.beq] using h)
  | cons k q =>
    refine sameTokens_of_noComment env fl ?_
    have hmem := PathParser.fastParse_chars hq (by simp)
    constructor <;> intro m <;> rcases hmem _ m with e | e <;> revert e <;> simp [PathParser.RawChar] <;> decide

/-- The path an edit uses is the one that `has_path` uses. -/
theorem newPath_of_edit {env : Env} {fl : Syntax} {path : Str} {p : Path} {pt : List Tok}
    (hpd : NoDigitNoNumber env) (h : parsePathNode env fl path = .ok (p, pt))
    (hs : fl = .json → ∃ q, newPath env path = .ok q) : newPath env path = .ok p :=
  newPath_of_node hpd h fun e => by
    obtain ⟨q, hq⟩ := hs e
    exact sameTokens_of_newPath fl hq e

/-! ## Setting a value -/

theorem splitSingle_none {vs : List Node} {toks toks' : List Tok} {pre : List Node}
    (hs : splitSingle vs toks = (pre, none, toks')) : toks' = toks ∧ ∀ n ∈ vs, n.isValue = false := by
  induction vs generalizing pre with
  | nil =>
    simp only [splitSingle, Prod.mk.injEq] at hs
    exact ⟨hs.2.2.symm, by simp⟩
  | cons n vs ih =>
    rw [splitSingle] at hs
    split at hs
    · simp at hs
    · rename_i hv
      cases hq : splitSingle vs toks with
      | mk pre1 rest =>
        obtain ⟨v1, toks1⟩ := rest
        rw [hq] at hs
        simp only [Prod.mk.injEq] at hs
        obtain ⟨rfl, rfl, rfl⟩ := hs
        obtain ⟨h1, h2⟩ := ih hq
        refine ⟨h1, ?_⟩
        intro m hm
        rcases List.mem_cons.1 hm with rfl | hm
        · simpa using hv
        · exact h2 m hm

/-- `parse_single_value` never returns null. -/
theorem parseSingleValue_some {env : Env} {fl : Syntax} {toks : List Tok} {v : Option Node}
    (h : parseSingleValue env fl toks = .ok v) : ∃ w, v = some w ∧ VOk fl w := by
  have hwf := parseSingleValue_wf h
  cases v with
  | some w => exact ⟨w, rfl, hwf w rfl⟩
  | none =>
    exfalso
    unfold parseSingleValue at h
    rw [Res.bind_eq_ok] at h
    obtain ⟨⟨t, toks1⟩, _, h⟩ := h
    simp only at h
    split at h
    · rw [Res.bind_eq_ok] at h
      obtain ⟨⟨t, toks2⟩, h1, h⟩ := h
      simp only at h
      split at h
      · simp at h
      · rename_i hcol
        simp only [Bool.not_eq_true, Option.isSome_eq_false_iff, Option.isNone_iff_eq_none] at hcol
        split at h
        · simp at h
        · rename_i hne
          split at h
          · rw [Res.bind_eq_ok] at h
            obtain ⟨⟨n, toks3⟩, h2, h⟩ := h
            rw [Res.bind_eq_ok] at h
            obtain ⟨⟨t', toks4⟩, h3, h⟩ := h
            simp only at h
            split at h <;> simp at h
          · rw [Res.bind_eq_ok] at h
            obtain ⟨⟨ns, v1, toks3⟩, h2, h⟩ := h
            rw [Res.bind_eq_ok] at h
            obtain ⟨⟨t', toks4⟩, h3, h⟩ := h
            simp only at h
            split at h
            · simp only [Res.ok.injEq] at h
              subst h
              simp only at h3
              unfold fuelFor at h2
              rw [show 8 * toks.length + 8 = (8 * toks.length + 7) + 1 from rfl, consolidate] at h2
              simp only at h2
              rw [Res.bind_eq_ok] at h2
              obtain ⟨⟨ws, t1, ts1⟩, h4, h2⟩ := h2
              rw [nextCollect, Res.bind_eq_ok] at h4
              obtain ⟨_, _, h4⟩ := h4
              rw [hcol] at h4
              simp only [Res.ok.injEq, Prod.mk.injEq] at h4
              obtain ⟨rfl, rfl, rfl⟩ := h4
              rw [Res.bind_eq_ok] at h2
              obtain ⟨⟨vs, t2, ts2⟩, h5, h2⟩ := h2
              simp only at h5 h2
              cases hf : consFinish vs t2 ts2 with
              | mk pre rest =>
              obtain ⟨v1, ts3⟩ := rest
              rw [hf] at h2
              simp only [Res.ok.injEq, Prod.mk.injEq] at h2
              obtain ⟨_, rfl, rfl⟩ := h2
              unfold consFinish at hf
              split at hf
              · obtain ⟨hts, hvs⟩ := splitSingle_none hf
                rw [show 8 * toks.length + 7 = (8 * toks.length + 6) + 1 from rfl,
                  consLoop.eq_def] at h5
                simp only at h5
                split at h5
                · simp [collectNode] at hcol
                · split at h5
                  · rw [Res.bind_eq_ok] at h5
                    obtain ⟨⟨v, ts0⟩, h0, h5⟩ := h5
                    rw [Res.bind_eq_ok] at h5
                    obtain ⟨⟨t1, ts1⟩, h1, h5⟩ := h5
                    rw [Res.bind_eq_ok] at h5
                    obtain ⟨⟨vs1, t2, ts2⟩, h6, h5⟩ := h5
                    simp only [Res.ok.injEq, Prod.mk.injEq] at h5
                    obtain ⟨rfl, rfl, rfl⟩ := h5
                    have := hvs v (by simp)
                    rw [((parseWf_all env _ _).value _ _ _ _ h0).isValue] at this
                    simp at this
                  · simp only [Res.ok.injEq, Prod.mk.injEq] at h5
                    obtain ⟨rfl, rfl, rfl⟩ := h5
                    subst hts
                    rw [nextToken] at h3
                    simp only [Res.ok.injEq, Prod.mk.injEq] at h3
                    exact hne h3.1
              · simp at hf
            · simp at h
    · simp at h

structure SetSpec (fl : Syntax) (p : Path) (cs r : List Node) : Prop where
  wf : WfNode fl (.object r)
  occ : Occurs r p
  frame : ∀ q, Incomparable p q → (Occurs r q ↔ Occurs cs q)

theorem setValue_spec {fl : Syntax} {p : Path} (hp : p ≠ []) {toks : List Tok}
    (hd : dots toks + 1 = p.length) {v : Node} (hv : VOk fl v) {cs r : List Node}
    (hn : WfNode fl (.object cs)) (h : setValue fl p toks v cs = .ok r) : SetSpec fl p cs r := by
  unfold setValue changeValue at h
  rw [Res.bind_eq_ok] at h
  obtain ⟨cs1, h1, h⟩ := h
  rw [Res.bind_eq_ok] at h1
  obtain ⟨⟨cs2, seen, vc⟩, h1, h2⟩ := h1
  simp only [Res.ok.injEq] at h2
  subst h2
  obtain ⟨r', seen', vc', g1, g2, _, g4⟩ := changeLoop_spec hp (value := some v)
    (by intro w hw; cases hw; exact hv) cs hn.2.2 0 none
  rw [h1] at g1
  simp only [Res.ok.injEq, Prod.mk.injEq] at g1
  obtain ⟨rfl, rfl, rfl⟩ := g1
  have hw1 : WfNode fl (.object cs2) := ⟨g2.sim.braces hn.1, fun hj => (g4 hj).1, g2.wf⟩
  rw [Res.bind_eq_ok] at h
  obtain ⟨b, h3, h⟩ := h
  obtain ⟨b', g5, g6⟩ := hasValue_spec hp cs2 g2.wf
  rw [h3] at g5
  simp only [Res.ok.injEq] at g5
  subst g5
  split at h
  · rename_i hb
    simp only [Res.ok.injEq] at h
    subst h
    exact ⟨hw1, g6.1 hb, g2.frame⟩
  · have ha := addValue_spec hv hp hd hw1 h
    exact ⟨⟨ha.braces hw1.1, fun hj => ha.trail (hw1.2.1 hj), ha.wf⟩, ha.occ,
      fun q hq => (ha.frame q hq).trans (g2.frame q hq)⟩

/-! ## Documents -/

/-- Well-formed documents. -/
def DocWf (d : Doc) : Prop := WfList d.fl d.root

theorem findObject_spec {root a cs b : List Node} (h : findObject root = .ok (a, cs, b)) :
    root = a ++ .object cs :: b ∧ ∀ cs', findObject (a ++ .object cs' :: b) = .ok (a, cs', b) := by
  induction root generalizing a with
  | nil => simp [findObject] at h
  | cons n ns ih =>
    rw [findObject.eq_def] at h
    simp only at h
    split at h
    · simp at h
    · simp only [Res.ok.injEq, Prod.mk.injEq] at h
      obtain ⟨rfl, rfl, rfl⟩ := h
      exact ⟨rfl, fun _ => rfl⟩
    · rename_i hn1 hn2
      rw [Res.bind_eq_ok] at h
      obtain ⟨⟨a1, cs1, b1⟩, h1, h⟩ := h
      simp only [Res.ok.injEq, Prod.mk.injEq] at h
      obtain ⟨rfl, rfl, rfl⟩ := h
      obtain ⟨g1, g2⟩ := ih h1
      refine ⟨by rw [g1]; rfl, fun cs' => ?_⟩
      rw [List.cons_append, findObject.eq_def]
      simp only
      rw [g2]
      cases n <;> first | rfl | exact absurd rfl (hn1 _) | exact absurd rfl (hn2 _)

theorem hasPath_spec {env : Env} {d : Doc} (hd : DocWf d) {path : Str} {p : Path}
    (hp : newPath env path = .ok p) {a cs b : List Node} (hf : findObject d.root = .ok (a, cs, b)) :
    ∃ r, d.hasPath env path = .ok r ∧ (r = true ↔ Occurs cs p) := by
  have hne := (PathParser.C04_accepted_paths env path p hp).1
  have hw : WfNode d.fl (.object cs) := by
    have := hd
    unfold DocWf at this
    rw [(findObject_spec hf).1, WfList.iff] at this
    exact this _ (by simp)
  obtain ⟨r, h1, h2⟩ := hasValue_spec hne cs hw.2.2
  refine ⟨r, ?_, h2⟩
  unfold Doc.hasPath
  rw [hp, Res.ok_bind, hf, Res.ok_bind]
  exact h1

/-- What an edit at `p` does. -/
theorem rootSet_spec {env : Env} {fl : Syntax} {path : Str} {value : Option Node} {root r : List Node}
    (hw : WfList fl root) (hv : ∀ v, value = some v → VOk fl v)
    (h : rootSet env fl path value root = .ok r) :
    ∃ a cs b cs' p pt, root = a ++ .object cs :: b ∧ r = a ++ .object cs' :: b ∧
      findObject root = .ok (a, cs, b) ∧ findObject r = .ok (a, cs', b) ∧ WfList fl r ∧
      parsePathNode env fl path = .ok (p, pt) ∧
      (∀ q, Incomparable p q → (Occurs cs' q ↔ Occurs cs q)) ∧
      (value = none → ¬ Occurs cs' p ∧ (¬ Occurs cs p → cs' = cs)) ∧
      (∀ v, value = some v → Occurs cs' p) := by
  unfold rootSet at h
  rw [Res.bind_eq_ok] at h
  obtain ⟨⟨a, cs, b⟩, h1, h⟩ := h
  rw [Res.bind_eq_ok] at h
  obtain ⟨⟨p, pt⟩, h2, h⟩ := h
  rw [Res.bind_eq_ok] at h
  obtain ⟨cs', h3, h⟩ := h
  simp only [Res.ok.injEq] at h
  subst h
  obtain ⟨hroot, hfind⟩ := findObject_spec h1
  obtain ⟨hne, hdots⟩ := parsePathNode_dots h2
  have hwl := hw
  rw [hroot, WfList.iff] at hwl
  have hwo : WfNode fl (.object cs) := hwl _ (by simp)
  have hfin : WfNode fl (.object cs') → WfList fl (a ++ .object cs' :: b) := by
    intro hc
    rw [WfList.iff]
    intro n hn
    simp only [List.mem_append, List.mem_cons] at hn
    rcases hn with hn | rfl | hn
    · exact hwl n (by simp [hn])
    · exact hc
    · exact hwl n (by simp [hn])
  refine ⟨a, cs, b, cs', p, pt, hroot, rfl, h1, hfind cs', ?_⟩
  cases value with
  | none =>
    simp only [objectSet, changeValue] at h3
    rw [Res.bind_eq_ok] at h3
    obtain ⟨⟨cs2, seen, vc⟩, h4, h5⟩ := h3
    simp only [Res.ok.injEq] at h5
    subst h5
    obtain ⟨r', seen', vc', g1, g2, _, g4⟩ := changeLoop_spec hne (value := none) hv cs hwo.2.2 0 none
    rw [h4] at g1
    simp only [Res.ok.injEq, Prod.mk.injEq] at g1
    obtain ⟨rfl, rfl, rfl⟩ := g1
    refine ⟨hfin ⟨g2.sim.braces hwo.1, fun hj => (g4 hj).1, g2.wf⟩, h2, g2.frame, ?_, by simp⟩
    refine fun _ => ⟨g2.gone rfl, fun ho => ?_⟩
    obtain ⟨s1, k1, _⟩ := changeLoop_absent hne (value := none) cs hwo.2.2 hwo.2.1 ho 0 none
    rw [h4] at k1
    simp only [Res.ok.injEq, Prod.mk.injEq] at k1
    exact k1.1
  | some v =>
    have := setValue_spec hne hdots (hv v rfl) hwo h3
    exact ⟨hfin this.wf, h2, this.frame, by simp, fun _ _ => this.occ⟩

theorem parse_docWf {env : Env} {fl : Syntax} {s : Str} {d : Doc} (h : Doc.parse env fl s = .ok d) :
    DocWf d := by
  unfold Doc.parse at h
  rw [Res.bind_eq_ok] at h
  obtain ⟨root, h1, h⟩ := h
  simp only [Res.ok.injEq] at h
  subst h
  unfold parseDocument at h1
  rw [Res.bind_eq_ok] at h1
  obtain ⟨toks, _, h1⟩ := h1
  exact parse_wf h1

theorem withValueText_root {env : Env} {d d' : Doc} {path text : Str}
    (h : d.withValueText env path text = .ok d') :
    ∃ toks v, tokenize env (d.fl = .conf) text = .ok toks ∧
      parseSingleValue env d.fl toks = .ok (some v) ∧ VOk d.fl v ∧
      rootSet env d.fl path (some v) d.root = .ok d'.root ∧ d'.fl = d.fl := by
  unfold Doc.withValueText at h
  split at h
  · simp at h
  · rw [Res.bind_eq_ok] at h
    obtain ⟨toks, h1, h⟩ := h
    rw [Res.bind_eq_ok] at h
    obtain ⟨v, h2, h⟩ := h
    rw [Res.bind_eq_ok] at h
    obtain ⟨root, h3, h⟩ := h
    simp only [Res.ok.injEq] at h
    subst h
    obtain ⟨w, rfl, hw⟩ := parseSingleValue_some h2
    exact ⟨toks, w, h1, h2, hw, h3, rfl⟩

theorem withoutPath_root {env : Env} {d d' : Doc} {path : Str}
    (h : d.withoutPath env path = .ok d') :
    rootSet env d.fl path none d.root = .ok d'.root ∧ d'.fl = d.fl := by
  unfold Doc.withoutPath at h
  rw [Res.bind_eq_ok] at h
  obtain ⟨root, h3, h⟩ := h
  simp only [Res.ok.injEq] at h
  subst h
  exact ⟨h3, rfl⟩

/-- Documents a user can have: parsed from a text, then edited any number of times. -/
inductive Reachable (env : Env) : Doc → Prop where
  | parsed {fl : Syntax} {s : Str} {d : Doc} (h : Doc.parse env fl s = .ok d) : Reachable env d
  | removed {d d' : Doc} {path : Str} (hd : Reachable env d) (h : d.withoutPath env path = .ok d') :
      Reachable env d'
  | set {d d' : Doc} {path text : Str} (hd : Reachable env d)
      (h : d.withValueText env path text = .ok d') : Reachable env d'

theorem Reachable.wf {env : Env} {d : Doc} (h : Reachable env d) : DocWf d := by
  induction h with
  | parsed h => exact parse_docWf h
  | removed _ h ih =>
    obtain ⟨h1, h2⟩ := withoutPath_root h
    obtain ⟨_, _, _, _, _, _, _, _, _, _, hw, _⟩ := rootSet_spec ih (by simp) h1
    unfold DocWf
    rw [h2]
    exact hw
  | set _ h ih =>
    obtain ⟨_, v, _, _, hv, h1, h2⟩ := withValueText_root h
    obtain ⟨_, _, _, _, _, _, _, _, _, _, hw, _⟩ := rootSet_spec ih (by intro w hw; cases hw; exact hv) h1
    unfold DocWf
    rw [h2]
    exact hw

end DocEdit
end Hocon
