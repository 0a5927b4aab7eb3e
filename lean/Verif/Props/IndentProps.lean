import Verif.Props.DocEditProps
import Verif.Lemmas.ReparseEdit
import Verif.Lemmas.DocReplace
import Verif.Lemmas.EditAgain
import Verif.Lemmas.PathDots

/-!
# The indentation of values of several lines: C99
-/

set_option autoImplicit false

namespace Hocon
namespace DocEdit
open Node (tokensList replaceValue fieldPath)
open PathParser (Syntax parsePathNode)
open DocParser (parseSingleValue)
open Tokenizer (tokenize)

/-- Every newline with the token `w` behind it. -/
def spread (w : Tok) : List Tok → List Tok
  | [] => []
  | t :: ts => if t.isNewline then t :: w :: spread w ts else t :: spread w ts

theorem spread_append (w : Tok) (a b : List Tok) : spread w (a ++ b) = spread w a ++ spread w b := by
  induction a with
  | nil => rfl
  | cons t a ih =>
    simp only [List.cons_append, spread]
    split <;> simp [ih]

/-- No token is a newline. -/
def oneLine (ts : List Tok) : Bool := ts.all fun t => !t.isNewline

theorem spread_oneLine {w : Tok} {ts : List Tok} (h : oneLine ts = true) : spread w ts = ts := by
  induction ts with
  | nil => rfl
  | cons t ts ih =>
    simp only [oneLine, List.all_cons, Bool.and_eq_true, Bool.not_eq_true'] at h ih
    rw [spread, if_neg (by simp [h.1]), ih h.2]

mutual
/-- The newlines stand between settings and elements: not between a key and its value, nor inside an include statement. -/
def laid : Node → Bool
  | .object cs | .array cs | .concat cs => laidList cs
  | .field cs => laidField cs
  | .single _ | .comment _ => true
  | .path _ ts => oneLine ts
  | .simple t => oneLine [t]
  | .incl cs _ => oneLine (tokensList cs)
def laidList : List Node → Bool
  | [] => true
  | n :: ns => laid n && laidList ns
def laidField : List Node → Bool
  | [] => false
  | n :: ns =>
    if n.isComplex then laid n && oneLine (tokensList ns)
    else oneLine n.tokens && (if n.isValue then oneLine (tokensList ns) else laidField ns)
end

mutual
theorem indentNode_spread (s : Str) (l : Int) : (n : Node) → laid n = true → ∃ n', indentNode (.single (.ws s l)) n = .ok n' ∧
      n'.isValue = n.isValue ∧
      n'.tokens ++ (if n.hasTok Tok.isNewline then [Tok.ws s l] else []) = spread (.ws s l) n.tokens
  | .object cs, h => by
    obtain ⟨cs', h1, h2⟩ := indentList_spread s l cs (by simpa [laid] using h)
    exact ⟨.object cs', by rw [indentNode, h1]; rfl, rfl, by simpa [Node.tokens, Node.hasTok, Node.singleToken?] using h2⟩
  | .array cs, h => by
    obtain ⟨cs', h1, h2⟩ := indentList_spread s l cs (by simpa [laid] using h)
    exact ⟨.array cs', by rw [indentNode, h1]; rfl, rfl, by simpa [Node.tokens, Node.hasTok, Node.singleToken?] using h2⟩
  | .concat cs, h => by
    obtain ⟨cs', h1, h2⟩ := indentList_spread s l cs (by simpa [laid] using h)
    exact ⟨.concat cs', by rw [indentNode, h1]; rfl, rfl, by simpa [Node.tokens, Node.hasTok, Node.singleToken?] using h2⟩
  | .field cs, h => by
    obtain ⟨cs', h1, h2⟩ := indentField_spread s l cs (by simpa [laid] using h)
    exact ⟨.field cs', by rw [indentNode, h1]; rfl, rfl, by simpa [Node.tokens, Node.hasTok, Node.singleToken?] using h2⟩
  | .single t, _ => ⟨.single t, by rw [indentNode] <;> simp, rfl, by
    cases ht : t.isNewline <;> simp [Node.tokens, Node.hasTok, Node.singleToken?, spread, ht]⟩
  | .comment t, _ => ⟨.comment t, by rw [indentNode] <;> simp, rfl, by
    cases ht : t.isNewline <;> simp [Node.tokens, Node.hasTok, Node.singleToken?, spread, ht]⟩
  | .path p ts, h => ⟨.path p ts, by rw [indentNode] <;> simp, rfl, by
    rw [Node.tokens, spread_oneLine (by simpa [laid] using h)]; simp [Node.hasTok, Node.singleToken?]⟩
  | .simple t, h => ⟨.simple t, by rw [indentNode] <;> simp, rfl, by
    rw [Node.tokens, spread_oneLine (by simpa [laid] using h)]; simp [Node.hasTok, Node.singleToken?]⟩
  | .incl cs k, h => ⟨.incl cs k, by rw [indentNode] <;> simp, rfl, by
    rw [Node.tokens, spread_oneLine (by simpa [laid] using h)]; simp [Node.hasTok, Node.singleToken?]⟩
termination_by structural n => n
theorem indentList_spread (s : Str) (l : Int) : (ns : List Node) → laidList ns = true →
    ∃ ns', indentList (.single (.ws s l)) ns = .ok ns' ∧ tokensList ns' = spread (.ws s l) (tokensList ns)
  | [], _ => ⟨[], rfl, rfl⟩
  | n :: ns, h => by
    simp only [laidList, Bool.and_eq_true] at h
    obtain ⟨n', h1, _, h2⟩ := indentNode_spread s l n h.1
    obtain ⟨ns', h3, h4⟩ := indentList_spread s l ns h.2
    rw [indentList, h1, Res.ok_bind, h3]
    rw [tokensList, spread_append, ← h2, ← h4]
    cases hn : n.hasTok Tok.isNewline with
    | true =>
      exact ⟨n' :: .single (.ws s l) :: ns', rfl, by simp [tokensList, Node.tokens]⟩
    | false => exact ⟨n' :: ns', rfl, by simp [tokensList]⟩
termination_by structural ns => ns
theorem indentField_spread (s : Str) (l : Int) : (ns : List Node) → laidField ns = true →
    ∃ ns', indentField (.single (.ws s l)) ns = .ok ns' ∧ tokensList ns' = spread (.ws s l) (tokensList ns)
  | [], h => by simp [laidField] at h
  | n :: ns, h => by
    rw [laidField] at h
    rw [indentField, tokensList, spread_append]
    by_cases hc : n.isComplex = true
    · rw [if_pos hc, Bool.and_eq_true] at h
      obtain ⟨n', h1, _, h2⟩ := indentNode_spread s l n h.1
      have hn : n.hasTok Tok.isNewline = false := by
        cases n <;> first | rfl | cases hc
      rw [if_pos hc, h1, ← h2, hn, spread_oneLine h.2]
      exact ⟨n' :: ns, rfl, by simp [tokensList]⟩
    · rw [if_neg hc, Bool.and_eq_true] at h
      rw [if_neg hc, spread_oneLine h.1]
      by_cases hv : n.isValue = true
      · rw [if_pos hv] at h
        rw [if_pos hv, spread_oneLine h.2]
        exact ⟨n :: ns, rfl, by simp [tokensList]⟩
      · rw [if_neg hv] at h
        obtain ⟨ns', h3, h4⟩ := indentField_spread s l ns h.2
        rw [if_neg hv, h3, ← h4]
        exact ⟨n :: ns', rfl, by simp [tokensList]⟩
termination_by structural ns => ns
end

/-- **C99 (partial).** A setting that stands behind whitespace `s` and is not among the first two children of its object, set
to an object, list or concatenation: the key, the separator and what follows the value stay, and the new value is written
with `s` behind each of its newlines. Missing: a setting at the very start of a document without braces
(`C99_first_violated`), newlines between a key and its value. -/
theorem C99_indented_partial (i : Nat) (hi : 2 ≤ i) (s : Str) (l : Int) (v : Node) (hv : v.isComplex = true) (hl : laid v = true)
    (a b : List Node) (old : Node) (ha : ∀ c ∈ a, c.isValue = false) (ho : old.isValue = true) :
    ∃ v', setField i (some (.single (.ws s l))) (some v) (a ++ old :: b) = .ok (a ++ v' :: b) ∧ v'.isValue = true ∧
      v'.tokens = spread (.ws s l) v.tokens := by
  obtain ⟨v', h1, h0, h2⟩ := indentNode_spread s l v hl
  have hn : v.hasTok Tok.isNewline = false := by
    cases v <;> first | rfl | cases hv
  rw [hn, if_neg (by simp), List.append_nil] at h2
  refine ⟨v', ?_, ?_, h2⟩
  · simp only [setField, indentedValue, hv]
    rw [if_pos (by simpa [Node.hasTok, Node.singleToken?, Tok.isWs] using hi), h1, Res.ok_bind, replaceValue_split ha ho]
  · rw [h0]
    cases v <;> first | rfl | cases hv

theorem tokensList_app (a b : List Node) : tokensList (a ++ b) = tokensList a ++ tokensList b := by
  induction a with
  | nil => simp [tokensList]
  | cons c a ih => simp [tokensList, ih]

/-- The loop behind children without the path: the index has been counted, and the child before is known. -/
theorem changeLoop_behind {fl : Syntax} {p : Path} (hp : p ≠ []) {value : Option Node} {w : Node} {rest r : List Node}
    {vc : Option Node} (pre : List Node) (hw : WfList fl (pre ++ [w])) (ha : ¬ Occurs (pre ++ [w]) p) (i : Nat)
    (prev : Option Node) (h : changeLoop fl p value (i + pre.length + 1) (some w) rest = .ok (r, true, vc)) :
    changeLoop fl p value i prev (pre ++ w :: rest) = .ok (pre ++ w :: r, true, vc) := by
  induction pre generalizing i prev with
  | nil =>
    rw [List.nil_append] at hw ha ⊢
    rw [changeLoop, show i + 1 = i + ([] : List Node).length + 1 from rfl, h]
    simp only [Res.ok_bind]
    obtain ⟨seen', h3, h4, _⟩ := changeNode_absent hp (value := vc) i prev (r := r) (seen := true)
      w (fun _ _ => rfl) hw.1 ha
    rw [h3, h4 rfl]
    rfl
  | cons n a ih =>
    rw [List.cons_append] at hw ha ⊢
    rw [Occurs.cons, not_or] at ha
    rw [changeLoop, ih hw.2 ha.2 (i + 1) (some n) (by
      rw [show i + 1 + a.length + 1 = i + (n :: a).length + 1 by simp; omega]; exact h)]
    simp only [Res.ok_bind]
    obtain ⟨seen', h3, h4, _⟩ := changeNode_absent hp (value := vc) i prev (r := a ++ w :: r) (seen := true)
      n (fun _ _ => rfl) hw.1 ha.1
    rw [h3, h4 rfl]
    rfl

/-- `Stands s l cs p x y`: the path `p` is set once in the object with the children `cs`, in this object or in one section of
it (written with braces, keys of one or several elements). Its setting stands behind the whitespace `s`, which is not the
first child of its object; `x` are the tokens of the object up to the value of the setting and `y` those behind the value. -/
inductive Stands (s : Str) (l : Int) : List Node → Path → List Tok → List Tok → Prop
  | here {pre post fa fb : List Node} {old : Node} {p : Path} {ts : List Tok} (hpre : pre ≠ [])
      (hk : fieldPath (fa ++ old :: fb) = .ok (p, ts)) (h1 : ¬ Occurs pre p) (h2 : ¬ Occurs post p)
      (ha : ∀ c ∈ fa, c.isValue = false) (ho : old.isValue = true) :
      Stands s l (pre ++ .single (.ws s l) :: .field (fa ++ old :: fb) :: post) p
        (tokensList pre ++ [.ws s l] ++ tokensList fa) (tokensList fb ++ tokensList post)
  | inside {pre post fa fb ocs : List Node} {key rem : Path} {ts x y : List Tok} (hr : rem ≠ [])
      (hk : fieldPath (fa ++ .object ocs :: fb) = .ok (key, ts)) (h1 : ¬ Occurs pre (key ++ rem)) (h2 : ¬ Occurs post (key ++ rem))
      (ha : ∀ c ∈ fa, c.isValue = false) (ho : Stands s l ocs rem x y) :
      Stands s l (pre ++ .field (fa ++ .object ocs :: fb) :: post) (key ++ rem)
        (tokensList pre ++ tokensList fa ++ x) (y ++ tokensList fb ++ tokensList post)

theorem Stands.change {fl : Syntax} {s : Str} {l : Int} {v : Node} (hc : v.isComplex = true) (hl : laid v = true) {cs : List Node} {p : Path}
    {x y : List Tok} (h : Stands s l cs p x y) : p ≠ [] → WfList fl cs → (fl = .json → NoTrail cs) → ∀ (i : Nat) (prev : Option Node),
      ∃ r vc, changeLoop fl p (some v) i prev cs = .ok (r, true, vc) ∧ Occurs r p ∧
        tokensList r = x ++ spread (.ws s l) v.tokens ++ y := by
  induction h with
  | @here pre post fa fb old p ts hpre hk h1 h2 ha ho =>
    intro hne hwl hj i prev
    have hall := WfList.iff.1 hwl
    obtain ⟨v', k1, k0, k2⟩ := C99_indented_partial (i + pre.length + 1) (by
      have := List.length_pos_iff.2 hpre; omega) s l v hc hl fa fb old ha ho
    obtain ⟨seen, k3, _⟩ := changeLoop_absent hne (value := some v) post
      (WfList.iff.2 fun n hn => hall n (by simp [hn])) (fun h => (NoTrail.cons.1 (NoTrail.cons.1 (hj h).right).1).1) h2 (i + pre.length + 1 + 1) (some (.field (fa ++ old :: fb)))
    have hstep : changeLoop fl p (some v) (i + pre.length + 1) (some (.single (.ws s l)))
        (.field (fa ++ old :: fb) :: post) = .ok (.field (fa ++ v' :: fb) :: post, true, none) := by
      obtain ⟨k, ks, rfl⟩ := List.exists_cons_of_ne_nil hne
      rw [changeLoop, k3]
      simp only [Res.ok_bind]
      rw [changeNode_field hne hk, if_pos rfl, if_neg (by simp), k1]
      rfl
    have hw : ¬ Occurs (pre ++ [.single (.ws s l)]) p := by
      rw [Occurs.append]
      rintro (h | h)
      · exact h1 h
      · exact Occurs.not_field rfl h
    have hloop := changeLoop_behind hne pre (WfList.iff.2 fun n hn => hall n (by
      rcases List.mem_append.1 hn with hn | hn
      · simp [hn]
      · simp at hn; simp [hn])) hw i prev hstep
    refine ⟨_, _, hloop, .here (cs := fa ++ v' :: fb) (by simp) (by rw [fieldPath_split ho k0]; exact hk) (List.prefix_refl _), ?_⟩
    simp [tokensList_app, tokensList, Node.tokens, k2]
  | @inside pre post fa fb ocs key rem ts x y hr hk h1 h2 ha ho ih =>
    intro hne hwl hj i prev
    have hall := WfList.iff.1 hwl
    obtain ⟨⟨k, ks, ts', hkey⟩, _, hfw⟩ := hall (.field (fa ++ .object ocs :: fb)) (by simp)
    rw [hk] at hkey
    simp only [Res.ok.injEq, Prod.mk.injEq] at hkey
    obtain ⟨rfl, rfl⟩ := hkey
    have hwo : WfNode fl (.object ocs) := (WfList.iff.1 hfw) _ (by simp)
    obtain ⟨i', prev', _, hfront⟩ := changeLoop_front hne (value := some v)
      (rest := .field (fa ++ .object ocs :: fb) :: post) (WfList.iff.2 fun n hn => hall n (by simp [hn])) h1 i prev
    obtain ⟨r, vc, k1, k2, k3⟩ := ih hr hwo.2.2 hwo.2.1 0 none
    have hstep : changeLoop fl (k :: ks ++ rem) (some v) i' prev' (.field (fa ++ .object ocs :: fb) :: post) =
        .ok (.field (fa ++ .object r :: fb) :: post, true, some v) := by
      obtain ⟨seen, k4, _⟩ := changeLoop_absent hne (value := some v) post
        (WfList.iff.2 fun n hn => hall n (by simp [hn])) (fun h => (NoTrail.cons.1 (hj h).right).1) h2 (i' + 1) (some (.field (fa ++ .object ocs :: fb)))
      rw [changeLoop, k4]
      simp only [Res.ok_bind]
      have hn1 : k :: ks ≠ k :: ks ++ rem := fun h => hr (List.self_eq_append_right.1 h)
      have hnp : ¬ (k :: ks ++ rem <+: k :: ks) := by
        intro h
        have := h.length_le
        have := List.length_pos_iff.2 hr
        simp at *
        omega
      have hpre : k :: ks <+: k :: ks ++ rem := List.prefix_append _ _
      obtain ⟨rem', hrem', hpe, hsub⟩ := length_drop_facts (by simp) hpre hn1
      have : rem' = rem := (List.append_cancel_left hpe).symm
      subst this
      rw [changeNode_field hne hk, if_neg hn1, if_neg hnp, if_pos hpre, hsub,
        changeField_split (w := .object r) ha rfl (by rw [changeInObject, k1]; rfl)]
      rfl
    refine ⟨_, _, hfront _ _ hstep, .inside (cs := fa ++ .object r :: fb) (by simp)
      (by rw [fieldPath_split (v := .object ocs) rfl rfl]; exact hk) hr ?_ k2, ?_⟩
    · exact fieldValue_split ha rfl
    · simp [tokensList_app, tokensList, Node.tokens, k3]

/-- **C99 (partial).** A document, HOCON or JSON, edited any number of times before, with one setting of a path, in its root object or in
sections, behind whitespace `s` that is not the first child of its object: setting the path to an object, list or
concatenation writes the new value with `s` behind each of its newlines, and every other token of the document stays as it
is. Missing: the first setting of a document without braces (`C99_first_violated`), paths set several times, newlines between
a key of the value and its value. -/
theorem C99_document_partial (env : Env) (d d' : Doc) (path text : Str) (hd : Reachable env d)
    {a b cs : List Node} {s : Str} {l : Int} {p : Path} {pt x y : List Tok} (hf : findObject d.root = .ok (a, cs, b))
    (hp : parsePathNode env d.fl path = .ok (p, pt)) (hs : Stands s l cs p x y)
    {toks : List Tok} {v : Node} (ht : tokenize env (d.fl = .conf) text = .ok toks)
    (hpv : parseSingleValue env d.fl toks = .ok (some v)) (hc : v.isComplex = true) (hl : laid v = true)
    (h : d.withValueText env path text = .ok d') :
    tokensList d'.root = tokensList a ++ (x ++ spread (.ws s l) v.tokens ++ y) ++ tokensList b := by
  obtain ⟨toks', w, ht', hpv', hv, g1, g2⟩ := withValueText_root h
  rw [ht] at ht'
  cases ht'
  rw [hpv] at hpv'
  cases hpv'
  have hwn : WfNode d.fl (.object cs) := by
    have := hd.wf
    unfold DocWf at this
    rw [(findObject_spec hf).1, WfList.iff] at this
    exact this _ (by simp)
  obtain ⟨hne, _⟩ := parsePathNode_dots hp
  obtain ⟨r, vc, hloop, hocc, htok⟩ := hs.change hc hl hne hwn.2.2 hwn.2.1 0 none
  obtain ⟨r', seen', vc', q1, q2, _⟩ := changeLoop_spec hne (value := some v) (by intro w hw; cases hw; exact hv) _ hwn.2.2 0 none
  rw [hloop] at q1
  cases q1
  obtain ⟨bb, b1, b2⟩ := hasValue_spec hne _ q2.wf
  unfold rootSet at g1
  rw [hf, Res.ok_bind] at g1
  simp only at g1
  rw [hp, Res.ok_bind] at g1
  simp only [objectSet, setValue, changeValue] at g1
  rw [hloop] at g1
  simp only [Res.ok_bind] at g1
  rw [b1, b2.2 hocc] at g1
  simp only [Res.ok_bind, if_true, Res.ok.injEq] at g1
  rw [← g1]
  simp [tokensList_app, tokensList, Node.tokens, htok]

theorem Stands.text {s : Str} {l : Int} {cs : List Node} {p : Path} {x y : List Tok} (h : Stands s l cs p x y) :
    ∃ old : Node, old.isValue = true ∧ tokensList cs = x ++ old.tokens ++ y := by
  induction h with
  | @here pre post fa fb old p ts hpre hk h1 h2 ha ho =>
    exact ⟨old, ho, by simp [tokensList_app, tokensList, Node.tokens]⟩
  | inside hr hk h1 h2 ha ho ih =>
    obtain ⟨old, h3, h4⟩ := ih
    exact ⟨old, h3, by simp [tokensList_app, tokensList, Node.tokens, h4]⟩

/-- A text with `s` behind each line break. -/
def indentText (s : Str) : Str → Str
  | [] => []
  | c :: cs => if c = '\n' then c :: (s ++ indentText s cs) else c :: indentText s cs

theorem indentText_front {s a b : Str} (h : '\n' ∉ a) : indentText s (a ++ b) = a ++ indentText s b := by
  induction a with
  | nil => rfl
  | cons c a ih =>
    simp only [List.mem_cons, not_or] at h
    rw [List.cons_append, indentText, if_neg (Ne.symm h.1), ih h.2, List.cons_append]

theorem spread_text {s : Str} {l : Int} {ts : List Tok} (h : ∀ t ∈ ts, t.isNewline = false → '\n' ∉ t.text) :
    Tok.textList (spread (.ws s l) ts) = indentText s (Tok.textList ts) := by
  induction ts with
  | nil => rfl
  | cons t ts ih =>
    have ih := ih fun u hu => h u (by simp [hu])
    rw [spread]
    cases ht : t.isNewline with
    | false =>
      rw [if_neg (by simp), Tok.textList, Tok.textList, indentText_front (h t (by simp) ht), ih]
    | true =>
      have : t.text = ['\n'] := by cases t <;> first | rfl | cases ht
      rw [if_pos rfl, Tok.textList, Tok.textList, Tok.textList, this, ih]
      simp [indentText, Tok.text]

/-- **C99 (partial).** The texts of the documents: that of the new one is that of the old one with the given text in place of
the old value and `s` behind each line break of it, if no token of the given text other than a newline has a line break
in it (a string in three quotes may). -/
theorem C99_text_partial (env : Env) (d d' : Doc) (path text : Str) (hd : Reachable env d)
    {a b cs : List Node} {s : Str} {l : Int} {p : Path} {pt x y : List Tok} (hf : findObject d.root = .ok (a, cs, b))
    (hp : parsePathNode env d.fl path = .ok (p, pt)) (hs : Stands s l cs p x y)
    {toks : List Tok} {v : Node} (ht : tokenize env (d.fl = .conf) text = .ok toks)
    (hpv : parseSingleValue env d.fl toks = .ok (some v)) (hc : v.isComplex = true) (hl : laid v = true)
    (hbr : ∀ t ∈ v.tokens, t.isNewline = false → '\n' ∉ t.text) (hnul : '\x00' ∉ text)
    (hblank : '$' ∉ text ∨ ∀ a x b, text = a ++ x :: '}' :: b → isWhitespaceNotNewline x = false)
    (hparen : '(' ∉ text) (h : d.withValueText env path text = .ok d') :
    ∃ (old : Node) (before after : Str), old.isValue = true ∧ d.render = before ++ old.render ++ after ∧
      d'.render = before ++ indentText s text ++ after ∧ before = Node.renderList a ++ Tok.textList x := by
  obtain ⟨old, ho, hold⟩ := hs.text
  refine ⟨old, _, Tok.textList y ++ Node.renderList b, ho, ?_, ?_, rfl⟩
  · unfold Doc.render Node.renderList Node.render
    rw [(findObject_spec hf).1]
    simp [tokensList_app, tokensList, Node.tokens, hold, Tok.textList_append]
  · have hvt : v.render = text := singleValue_text hnul hblank hparen ht hpv
    unfold Doc.render Node.renderList
    rw [C99_document_partial env d d' path text hd hf hp hs ht hpv hc hl h]
    unfold Node.render at hvt
    simp only [Tok.textList_append, spread_text hbr, hvt, List.append_assoc]

example : laid (.object [.single .openCurly, .single (.newline 1), .field [.path [ch "x"] [.unquoted (ch "x") 2],
    .single .colon, .simple (.unquoted (ch "y") 2)], .single (.newline 2), .single .closeCurly]) = true := by decide

/-- The value of the second setting of a document is indented like the setting. -/
example (env : Env) : ∃ d d', Doc.parse env .conf (ch "a:x\n  b:y\n") = .ok d ∧
    d.withValueText env (ch "b") (ch "{\nc:z\n}") = .ok d' ∧ d'.render = ch "a:x\n  b:{\n  c:z\n  }\n" := ⟨_, _, rfl, rfl, rfl⟩

/-- The hypotheses of the theorem are met by this document, with the setting in a section, and this value. -/
example (env : Env) : ∃ d a b cs s l p pt x y toks v, Doc.parse env .conf (ch "a { c:w\n  b:y }\n") = .ok d ∧
    findObject d.root = .ok (a, cs, b) ∧ parsePathNode env .conf (ch "a.b") = .ok (p, pt) ∧ Stands s l cs p x y ∧
    tokenize env true (ch "{\nc:z\n}") = .ok toks ∧ parseSingleValue env .conf toks = .ok (some v) ∧
    v.isComplex = true ∧ laid v = true ∧ ∀ t ∈ v.tokens, t.isNewline = false → '\n' ∉ t.text := by
  refine ⟨_, _, _, _, ch "  ", 2, [ch "a", ch "b"], _, _, _, _, _, rfl, rfl, rfl,
    .inside (pre := []) (post := [.single (.newline 2)]) (fa := [.path [ch "a"] [.unquoted (ch "a") 1], .single (.ws (ch " ") 1)])
      (fb := []) (key := [ch "a"]) (rem := [ch "b"])
      (ocs := [.single .openCurly, .single (.ws (ch " ") 1), .field [.path [ch "c"] [.unquoted (ch "c") 1], .single .colon,
        .simple (.unquoted (ch "w") 1)], .single (.newline 1)] ++ .single (.ws (ch "  ") 2) ::
        .field ([.path [ch "b"] [.unquoted (ch "b") 2], .single .colon] ++ .simple (.unquoted (ch "y") 2) :: []) ::
        [.single (.ws (ch " ") 2), .single .closeCurly])
      (by simp) rfl Occurs.nil (Occurs.not_field rfl) (by decide)
      (.here (by simp) rfl ?_ ?_ (by decide) rfl), rfl, rfl, rfl, rfl, by decide⟩
  · intro h
    replace h := (Occurs.cons.1 ((Occurs.cons.1 ((Occurs.cons.1 h).resolve_left (Occurs.not_field rfl))).resolve_left
      (Occurs.not_field rfl))).resolve_right (Occurs.not_field rfl)
    revert h
    rw [Occurs.field rfl]
    rintro (h | ⟨_, _, _, h, _⟩)
    · exact absurd h (by decide)
    · exact absurd (congrArg List.head? h) (by simp)
  · rw [Occurs.cons, not_or]
    exact ⟨Occurs.not_field rfl, Occurs.not_field rfl⟩

/-- **C99 (violated).** The value of the first setting of a document without braces is not indented, though the setting is: the
child at index 0 is never taken for the whitespace before a setting. -/
theorem C99_first_violated (env : Env) : ∃ d d', Doc.parse env .conf (ch "  b:y\n") = .ok d ∧
    d.withValueText env (ch "b") (ch "{\nc:z\n}") = .ok d' ∧ d'.render = ch "  b:{\nc:z\n}\n" := ⟨_, _, rfl, rfl, rfl⟩

end DocEdit
end Hocon
