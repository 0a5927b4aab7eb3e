import Verif.Lemmas.SetEdit
import Verif.Props.RemoveReparseProps

/-!
# The text of an edited HOCON document parses again, for keys that are set several times: C50
-/

set_option autoImplicit false

namespace Hocon
namespace DocEdit
open PathParser (Syntax newPath parsePathNode)
open DocParser
open Node Tokenizer

theorem reparses_steps {env : Env} {d : Doc} (hfl : d.fl = .conf) (hre : Reparses env d) {a cs b cs' : List Node}
    (hf : findObject d.root = .ok (a, cs, b)) {text : Str} {toks : List Tok} {w : Node}
    (ht : tokenize env (Syntax.conf = .conf) text = .ok toks) (hpv : parseSingleValue env .conf toks = .ok (some w))
    (hvt : w.render = text) (hslash : text.getLast? ≠ some '/') (hc : Steps w cs cs') :
    Reparses env ⟨a ++ .object cs' :: b, .conf⟩ := by
  induction hc with
  | refl =>
    rw [← (findObject_spec hf).1, ← hfl]
    exact hre
  | cut _ h1 ih => exact reparses_cut rfl ih ((findObject_spec hf).2 _) h1
  | swap _ _ h1 ih => exact reparses_swap rfl ih ((findObject_spec hf).2 _) ht hpv hvt hslash h1

/-- **C50.** HOCON documents in which every comma is on the line of the field it follows: if the text of the document parses
to the document, the path is set by at least one field of its own (there may be others, before and behind it, in sections
and with longer keys), and each of these fields has a separator and its value on the line of the separator, then the text of
`with_value_text(path, text)` parses to the result, for every one-line value text. The condition on the commas still holds,
and if the value contains no object, no path has become one that is set without a separator. -/
theorem C50_set_reparses_partial (env : Env) (d d' : Doc) (path text : Str) (hd : Reachable env d) (hfl : d.fl = .conf)
    (hre : Reparses env d) {a cs b : List Node} (hf : findObject d.root = .ok (a, cs, b)) (hin : InLine cs)
    {p : Path} {pt : List Tok} (hp : parsePathNode env .conf path = .ok (p, pt)) (hex : Exact cs p) (hbare : ¬ Bare cs p)
    (hnl : '\n' ∉ text) (hnul : '\x00' ∉ text)
    (hblank : '$' ∉ text ∨ ∀ a x b, text = a ++ x :: '}' :: b → isWhitespaceNotNewline x = false)
    (hparen : '(' ∉ text) (hslash : text.getLast? ≠ some '/')
    (h : d.withValueText env path text = .ok d') :
    Reparses env d' ∧ d'.fl = .conf ∧ ∃ cs', findObject d'.root = .ok (a, cs', b) ∧ InLine cs' ∧
      ('{' ∉ text → ∀ q, Bare cs' q → Bare cs q) := by
  obtain ⟨toks, v, ht, hpv, hv, h1, h2⟩ := withValueText_root h
  have hvt := singleValue_text hnul hblank hparen ht hpv
  have hwn : WfNode d.fl (.object cs) := by
    have := hd.wf
    unfold DocWf at this
    rw [(findObject_spec hf).1, WfList.iff] at this
    exact this _ (by simp)
  obtain ⟨hne, _⟩ := parsePathNode_dots hp
  obtain ⟨r, seen, vc, g1, g2, _⟩ := changeLoop_spec hne (value := some v) (by intro w hw; cases hw; exact hv) cs hwn.2.2 0 none
  rw [hfl] at g1 ht hpv h2 hwn
  have hset := changeLoop_set (by rw [hvt]; exact hnl) hv.isValue
    (fun ocs e => (single_inline ht hpv hnl e).1) hne cs hwn.2.2 hin hbare 0 none _ _ _ g1
  obtain ⟨bb, k1, k2⟩ := hasValue_spec hne r g2.wf
  unfold rootSet at h1
  rw [hf, Res.ok_bind] at h1
  simp only at h1
  rw [hfl, hp, Res.ok_bind] at h1
  simp only [objectSet, setValue, changeValue] at h1
  rw [g1] at h1
  simp only [Res.ok_bind] at h1
  rw [k1, k2.2 (hset.here hex)] at h1
  simp only [Res.ok_bind, if_true, Res.ok.injEq] at h1
  refine ⟨?_, h2, r, ?_, hset.line, ?_⟩
  · have := reparses_steps hfl hre hf ht hpv hvt hslash hset.steps
    rw [h1, ← h2] at this
    exact this
  · rw [← h1]
    exact (findObject_spec hf).2 _
  · intro hcur
    exact steps_bare hv.isValue (fun ocs e => hcur (single_inline ht hpv hnl e).2) hset.steps

/-- A sequence of edits of a document with the children `cs0`: paths removed, and paths set that have a field of their own
and are not set without a separator. -/
inductive Changed (env : Env) (cs0 : List Node) (d : Doc) : Doc → Prop
  | refl : Changed env cs0 d d
  | removed {d1 d2 : Doc} {path : Str} (h0 : Changed env cs0 d d1) (h : d1.withoutPath env path = .ok d2) : Changed env cs0 d d2
  | set {d1 d2 : Doc} {path text : Str} {a cs b : List Node} {p : Path} {pt : List Tok}
      (h0 : Changed env cs0 d d1) (hf : findObject d1.root = .ok (a, cs, b))
      (hp : parsePathNode env .conf path = .ok (p, pt)) (hex : Exact cs p) (hb : ¬ Bare cs0 p)
      (hc : ∀ c ∈ text, c ≠ '\n' ∧ c ≠ '\x00' ∧ c ≠ '$' ∧ c ≠ '(' ∧ c ≠ '{') (hslash : text.getLast? ≠ some '/')
      (h : d1.withValueText env path text = .ok d2) : Changed env cs0 d d2

/-- **C50.** Any number of removals and replacements, starting with a parsed text in which no line begins with a comma: the
text parses to the edited document, which has the same settings. -/
theorem C50_changes_reparse_partial (env : Env) (s : Str) (d d' : Doc) (h : Doc.parse env .conf s = .ok d) (hr : d.render = s)
    (hs : NoCommaFirst s) {a0 cs0 b0 : List Node} (hf0 : findObject d.root = .ok (a0, cs0, b0)) (he : Changed env cs0 d d') :
    Reparses env d' := by
  have hfl : d.fl = .conf := by
    rw [Doc.parse, Res.bind_eq_ok] at h
    obtain ⟨_, _, h⟩ := h
    simp only [Res.ok.injEq] at h
    rw [← h]
  have key : Reparses env d' ∧ Reachable env d' ∧ d'.fl = .conf ∧
      ∃ cs, findObject d'.root = .ok (a0, cs, b0) ∧ InLine cs ∧ ∀ q, Bare cs q → Bare cs0 q := by
    induction he with
    | refl => exact ⟨.parsed h hr, .parsed h, hfl, cs0, hf0, inLine_of_text h hr hs hf0, fun _ h => h⟩
    | removed h0 hw ih =>
      obtain ⟨i1, i2, i3, cs, i4, i5, i6⟩ := ih
      obtain ⟨h1, h2⟩ := withoutPath_root hw
      unfold rootSet at h1
      rw [i4, Res.ok_bind] at h1
      simp only at h1
      rw [Res.bind_eq_ok] at h1
      obtain ⟨⟨p, toks⟩, hp, h1⟩ := h1
      simp only [objectSet, changeValue] at h1
      rw [i3, Res.bind_eq_ok] at h1
      obtain ⟨cs', h3, h1⟩ := h1
      rw [Res.bind_eq_ok] at h3
      obtain ⟨⟨r, seen, vc⟩, h3, h4⟩ := h3
      simp only [Res.ok.injEq] at h1 h4
      subst h4
      obtain ⟨_, hrm⟩ := changeLoop_cuts cs i5 _ _ _ _ _ h3
      obtain ⟨k1, k2, cs', k3, k4⟩ := C81_remove_reparses_partial env _ _ _ i3 i1 i4 i5 hw
      have e : findObject (a0 ++ .object r :: b0) = .ok (a0, r, b0) := (findObject_spec i4).2 _
      rw [h1, k3] at e
      simp only [Res.ok.injEq, Prod.mk.injEq, true_and, and_true] at e
      subst e
      refine ⟨k1, .removed i2 hw, k2, _, k3, k4, fun q hq => i6 q ?_⟩
      exact cuts_bare hrm.cuts q hq
    | set h0 hf hp hex hb hc hslash hw ih =>
      obtain ⟨i1, i2, i3, cs, i4, i5, i6⟩ := ih
      rw [i4] at hf
      simp only [Res.ok.injEq, Prod.mk.injEq] at hf
      obtain ⟨rfl, rfl, rfl⟩ := hf
      obtain ⟨k1, k2, cs', k3, k4, k5⟩ := C50_set_reparses_partial env _ _ _ _ i2 i3 i1 i4 i5 hp hex (fun h => hb (i6 _ h))
        (fun h => (hc _ h).1 rfl) (fun h => (hc _ h).2.1 rfl) (Or.inl fun h => (hc _ h).2.2.1 rfl)
        (fun h => (hc _ h).2.2.2.1 rfl) hslash hw
      exact ⟨k1, .set i2 hw, k2, cs', k3, k4, fun q hq => i6 q (k5 (fun h => (hc _ h).2.2.2.2 rfl) q hq)⟩
  exact key.1

/-! ## Checking the conditions on a document -/

/-- The value of the field is behind a separator, on its line. -/
def endsSep (cs : List Node) : Bool :=
  match cs.reverse with
  | _ :: .single (.ws _ _) :: .single s :: _ => isKeyValueSeparator .conf s
  | _ :: .single s :: _ => isKeyValueSeparator .conf s
  | _ => false

mutual
/-- Computes `Bare`. -/
def bareList (p : Path) : List Node → Bool
  | [] => false
  | n :: ns => bareNode p n || bareList p ns
/-- Computes `Bare` for one child. -/
def bareNode (p : Path) : Node → Bool
  | .field cs =>
    match fieldPath cs with
    | .ok (key, _) => (decide (key = p) && !endsSep cs) || (key.isPrefixOf p && bareIn (p.drop key.length) cs)
    | _ => false
  | _ => false
/-- Computes `Bare` for the objects in a field. -/
def bareIn (p : Path) : List Node → Bool
  | [] => false
  | n :: ns => bareObj p n || bareIn p ns
/-- Computes `Bare` for an object. -/
def bareObj (p : Path) : Node → Bool
  | .object ocs => bareList p ocs
  | _ => false
end

theorem endsSep_sound {cs : List Node} (h : endsSep cs = true) : ∃ fa v, cs = fa ++ [v] ∧ EndsInSep fa := by
  unfold endsSep at h
  split at h
  · rename_i v w l s r e
    have e2 : cs = r.reverse ++ .single s :: [.single (.ws w l)] ++ [v] := by
      rw [← List.reverse_reverse cs, e]; simp
    exact ⟨_, v, e2, r.reverse, s, [.ws w l], h, Or.inr ⟨_, _, rfl⟩, rfl⟩
  · rename_i v s r _ e
    have e2 : cs = r.reverse ++ [.single s] ++ [v] := by
      rw [← List.reverse_reverse cs, e]; simp
    exact ⟨_, v, e2, r.reverse, s, [], h, Or.inl rfl, rfl⟩
  · simp at h

theorem bareList_mem {p : Path} {n : Node} {ns : List Node} (hm : n ∈ ns) (h : bareNode p n = true) : bareList p ns = true := by
  induction ns with
  | nil => simp at hm
  | cons m ns ih =>
    rw [bareList, Bool.or_eq_true]
    rcases List.mem_cons.1 hm with rfl | hm
    · exact Or.inl h
    · exact Or.inr (ih hm)

theorem bareIn_mem {p : Path} {ocs : List Node} {ns : List Node} (hm : Node.object ocs ∈ ns) (h : bareList p ocs = true) :
    bareIn p ns = true := by
  induction ns with
  | nil => simp at hm
  | cons m ns ih =>
    rw [bareIn, Bool.or_eq_true]
    rcases List.mem_cons.1 hm with rfl | hm
    · exact Or.inl (by rw [bareObj]; exact h)
    · exact Or.inr (ih hm)

/-- The computation finds every path that is set without a separator. -/
theorem Bare.check {ns : List Node} {p : Path} (h : bareList p ns = false) : ¬ Bare ns p := by
  intro hb
  suffices bareList p ns = true by rw [h] at this; cases this
  clear h
  induction hb with
  | @here ns cs p ts hm hk hb =>
    refine bareList_mem hm ?_
    rw [bareNode, hk]
    simp only [decide_true, Bool.true_and, Bool.or_eq_true, Bool.not_eq_true']
    left
    rw [← Bool.not_eq_true]
    exact fun h => hb (endsSep_sound h)
  | @inside ns cs ocs key rem ts hm hk hr hv ho ih =>
    refine bareList_mem hm ?_
    rw [bareNode, hk]
    simp only [Bool.or_eq_true, Bool.and_eq_true]
    right
    refine ⟨by simp, ?_⟩
    rw [List.drop_left]
    exact bareIn_mem hv ih

mutual
/-- Computes `Exact`. -/
def exactList (p : Path) : List Node → Bool
  | [] => false
  | n :: ns => exactNode p n || exactList p ns
/-- Computes `Exact` for one child. -/
def exactNode (p : Path) : Node → Bool
  | .field cs =>
    match fieldPath cs with
    | .ok (key, _) => decide (key = p) ||
        (decide (key ++ p.drop key.length = p) && !(p.drop key.length).isEmpty && exactIn (p.drop key.length) cs)
    | _ => false
  | _ => false
/-- Computes `Exact` for the value of a field. -/
def exactIn (p : Path) : List Node → Bool
  | [] => false
  | n :: ns => if n.isValue then exactObj p n else exactIn p ns
/-- Computes `Exact` for an object. -/
def exactObj (p : Path) : Node → Bool
  | .object ocs => exactList p ocs
  | _ => false
end

theorem Exact.head {n : Node} {ns : List Node} {p : Path} (h : Exact [n] p) : Exact (n :: ns) p := h.mono (by simp +contextual)

mutual
/-- What the computation finds is there. -/
theorem Exact.check {p : Path} : (ns : List Node) → exactList p ns = true → Exact ns p
  | [], h => by simp [exactList] at h
  | n :: ns, h => by
    rw [exactList, Bool.or_eq_true] at h
    rcases h with h | h
    · exact (Exact.checkNode n h).head
    · exact (Exact.check ns h).mono (by simp +contextual)
theorem Exact.checkNode {p : Path} : (n : Node) → exactNode p n = true → Exact [n] p
  | .field cs, h => by
    rw [exactNode] at h
    split at h
    · rename_i key ts hk
      simp only [Bool.or_eq_true, Bool.and_eq_true, decide_eq_true_eq, Bool.not_eq_true', List.isEmpty_eq_false_iff] at h
      rcases h with h | ⟨⟨h1, h2⟩, h3⟩
      · subst h
        exact .here (by simp) hk
      · obtain ⟨ocs, h4, h5⟩ := Exact.checkIn cs h3
        rw [← h1]
        exact .inside (List.mem_singleton.2 rfl) hk h2 h4 h5
    · simp at h
  | .single t, h => by simp [exactNode] at h
  | .comment t, h => by simp [exactNode] at h
  | .simple t, h => by simp [exactNode] at h
  | .path q ts, h => by simp [exactNode] at h
  | .object cs, h => by simp [exactNode] at h
  | .array cs, h => by simp [exactNode] at h
  | .concat cs, h => by simp [exactNode] at h
  | .incl cs k, h => by simp [exactNode] at h
theorem Exact.checkIn {p : Path} : (cs : List Node) → exactIn p cs = true → ∃ ocs, fieldValue cs = .ok (.object ocs) ∧ Exact ocs p
  | [], h => by simp [exactIn] at h
  | n :: ns, h => by
    rw [exactIn] at h
    split at h
    · rename_i hv
      obtain ⟨ocs, rfl, h2⟩ := Exact.checkObj n h
      exact ⟨ocs, by rw [fieldValue, if_pos hv], h2⟩
    · rename_i hv
      obtain ⟨ocs, h1, h2⟩ := Exact.checkIn ns h
      exact ⟨ocs, by rw [fieldValue, if_neg hv]; exact h1, h2⟩
theorem Exact.checkObj {p : Path} : (n : Node) → exactObj p n = true → ∃ ocs, n = .object ocs ∧ Exact ocs p
  | .object ocs, h => ⟨ocs, rfl, Exact.check ocs (by rw [exactObj] at h; exact h)⟩
  | .single t, h => by simp [exactObj] at h
  | .comment t, h => by simp [exactObj] at h
  | .simple t, h => by simp [exactObj] at h
  | .path q ts, h => by simp [exactObj] at h
  | .field cs, h => by simp [exactObj] at h
  | .array cs, h => by simp [exactObj] at h
  | .concat cs, h => by simp [exactObj] at h
  | .incl cs k, h => by simp [exactObj] at h
end

/-- A document that sets `a.b` three times: in a section, with a dotted key, and in a second section. -/
def manyText : Str := ch "a { b = 1 // x\n c : 2 }\na.b : [3], a.b.d = 4\na { b=5 }"

/-- The conditions are met by `a.b` (and not by `a`), and the edit: the last `a.b` and the one before it get the value, the
first one and the longer key go. -/
example : (Doc.parse exEnv .conf manyText >>= fun d => findObject d.root >>= fun x =>
    d.withValueText exEnv (ch "a.b") (ch "[6]") >>= fun d' => .ok (decide (d.render = manyText), exactList [ch "a", ch "b"] x.2.1,
      bareList [ch "a", ch "b"] x.2.1, bareList [ch "a"] x.2.1, d'.render))
    = .ok (true, true, false, true, ch "a { // x\n c : 2 }\na.b : [6], \na { b=[6] }") := by decide +kernel

example : NoCommaFirst manyText := .check (by decide)

end DocEdit
end Hocon
