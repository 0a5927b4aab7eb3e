import Verif.Spec.Lines
import Verif.ParseNotes
import Verif.Lemmas.HoconTokens

/-!
# Token sequences of lines parse to the settings with their comments
-/

set_option autoImplicit false

namespace Hocon
namespace Lines

open Spec DocParser HoconParse Notes

/-! ### Gaps -/

/-- The nodes of gap tokens. -/
def gn (w : List Tok) : List Node := w.filterMap collectNode

theorem gn_append (a b : List Tok) : gn (a ++ b) = gn a ++ gn b := by simp [gn]

@[simp] theorem gn_nil : gn [] = [] := rfl

theorem gn_cons {t : Tok} {n : Node} (w : List Tok) (h : collectNode t = some n) : gn (t :: w) = n :: gn w := by
  simp [gn, h]

theorem nextCollect_gap (w : List Tok) (t : Tok) (rest : List Tok) (hw : Wts w) (ht : collectNode t = none) :
    nextCollect .conf (w ++ t :: rest) = .ok (gn w, t, rest) := by
  induction w with
  | nil => rw [List.nil_append, nextCollect]; simp [nextToken, ht]
  | cons x w ih =>
    obtain ⟨n, hn, _⟩ := collect_wt hw.cons.1
    rw [List.cons_append, nextCollect]
    simp [nextToken, hn, ih hw.cons.2, gn_cons w hn]

theorem sepLoop_gapComma (b : Bool) (w rest : List Tok) (hw : Wts w) :
    sepLoop b (w ++ .comma :: rest) = .ok (gn w ++ [.single .comma], true, rest) := by
  induction w generalizing b with
  | nil => rfl
  | cons x w ih =>
    obtain ⟨n, hn, _⟩ := collect_wt hw.cons.1
    have hx := hw.cons.1
    rw [List.cons_append, sepLoop.eq_def, gn_cons w hn]
    cases x <;> simp [Wt] at hx <;> simp only [hn, ih _ hw.cons.2, Res.ok_bind] <;> rfl

theorem sepLoop_gap (b : Bool) (w : List Tok) (t : Tok) (rest : List Tok) (hw : Wts w)
    (ht : collectNode t = none) (hc : t ≠ .comma) :
    ∃ c, sepLoop b (w ++ t :: rest) = .ok (gn w, c, t :: rest) ∧ (c = true ↔ b = true ∨ HasNl w) := by
  induction w generalizing b with
  | nil =>
    refine ⟨b, ?_, by simp [HasNl]⟩
    rw [List.nil_append, sepLoop.eq_def]
    cases t <;> first | exact absurd rfl hc | (simp only [ht]; rfl)
  | cons x w ih =>
    obtain ⟨n, hn, _⟩ := collect_wt hw.cons.1
    obtain ⟨c, h2, h3⟩ := ih (match x with | .newline _ => true | _ => b) hw.cons.2
    have hx := hw.cons.1
    refine ⟨c, ?_, ?_⟩
    · rw [List.cons_append, sepLoop.eq_def, gn_cons w hn]
      cases x <;> simp [Wt] at hx <;> simp only [hn, h2, Res.ok_bind]
    · rw [h3]
      cases x <;> simp [Wt] at hx <;> simp [HasNl]

/-- At most one whitespace token, which has blanks as its text. -/
def Ws1 (w : List Tok) : Prop := w = [] ∨ ∃ a b, w = [.ws a b] ∧ a ≠ [] ∧ Blanks a

theorem Ws1.ws {w : List Tok} (h : Ws1 w) : Ws w := by
  rcases h with rfl | ⟨a, b, rfl, _⟩
  · exact Ws.nil
  · intro t ht; simp at ht; exact ⟨_, _, ht⟩

theorem Ws1.wts {w : List Tok} (h : Ws1 w) : Wts w := h.ws.wts

theorem Ws1.nil : Ws1 [] := Or.inl rfl

theorem Ws1.rev {w : List Tok} (h : Ws1 w) : w.reverse = w := by
  rcases h with rfl | ⟨a, b, rfl, _⟩ <;> rfl

theorem gn_ws {w : List Tok} (h : Ws w) : gn w = w.map .single := by
  induction w with
  | nil => rfl
  | cons t w ih =>
    obtain ⟨a, b, rfl⟩ := h t (.head _)
    rw [gn_cons w (n := .single (.ws a b)) rfl, ih (fun x hx => h x (.tail _ hx))]; rfl

/-- A token after which nothing belongs to the value before it. -/
def Stop : Tok → Prop
  | .newline _ => True
  | .comment .. => True
  | .closeCurly => True
  | .comma => True
  | .end_ => True
  | _ => False

/-- The loop of `consolidate_values` behind a value. -/
theorem consLoop_stop (env : Env) (f : Nat) (w : List Tok) (x : Tok) (rest : List Tok) (hw : Ws1 w) (hx : Stop x)
    (t : Tok) (toks : List Tok) (he : t :: toks = w ++ x :: rest) :
    consLoop env .conf f t toks = .fuel ∨ consLoop env .conf f t toks = .ok (w.map .single, x, rest) := by
  have h0 : ∀ f, consLoop env .conf f x rest = .fuel ∨ consLoop env .conf f x rest = .ok ([], x, rest) := by
    intro f
    cases f with
    | zero => left; rw [consLoop]
    | succ f => right; cases x <;> simp [Stop] at hx <;> simp [consLoop, startsValue]
  rcases hw with rfl | ⟨a, b, rfl, _⟩
  · simp at he
    obtain ⟨rfl, rfl⟩ := he
    exact h0 f
  · simp at he
    obtain ⟨rfl, rfl⟩ := he
    cases f with
    | zero => left; rw [consLoop]
    | succ f =>
      rw [consLoop]
      simp only [nextToken, Res.ok_bind]
      rcases h0 f with h | h
      · left; rw [h]; rfl
      · right; rw [h]; rfl

/-- A scalar as the value of a field. -/
theorem fieldVal_simple (env : Env) (f : Nat) (w w' : List Tok) (t x : Tok) (rest : List Tok) (hw : Wts w)
    (hw' : Ws1 w') (hs : (scalarOf t).isSome = true) (ht : collectNode t = none) (hx : Stop x) :
    fieldVal env .conf f (w ++ t :: (w' ++ x :: rest)) = .fuel ∨
    fieldVal env .conf f (w ++ t :: (w' ++ x :: rest)) = .ok (gn w, .simple t, w' ++ x :: rest) := by
  cases f with
  | zero => left; rw [fieldVal]
  | succ f =>
    rw [fieldVal]
    cases f with
    | zero => left; rw [consolidate]; rfl
    | succ f =>
      rw [consolidate, nextCollect_gap w t _ hw ht]
      simp only [Res.ok_bind]
      cases f with
      | zero => left; rw [consLoop]; rfl
      | succ f =>
        rw [consLoop_value env f t _ (startsValue_scalar hs)]
        cases f with
        | zero => left; rw [parseValue]; rfl
        | succ f =>
          rw [parseValue_scalar env f _ hs]
          simp only [Res.ok_bind]
          obtain ⟨t', toks', he'⟩ := cons_of w' x rest
          rw [he']
          simp only [nextToken, Res.ok_bind]
          rcases consLoop_stop env (f + 1) w' x rest hw' hx t' toks' he'.symm with h | h
          · left; rw [h]; rfl
          · right
            rw [h]
            simp only [Res.ok_bind]
            have : consFinish (.simple t :: w'.map .single) x rest = ([], some (.simple t), w'.reverse ++ (x :: rest)) := by
              rw [consFinish]
              simp only [List.countP_cons, countP_ws]
              simp [splitSingle, Node.isValue, putBack_ws]
            rw [this, hw'.rev, he']
            simp

/-! ### The children of an object -/

/-- The closing brace of an object. -/
def close (b : Bool) : List Node := if b then [.single .closeCurly] else []

/-- What ends the children of an object. -/
def Closing (q : List Node) : Prop := ∃ w b, Ws w ∧ q = gn w ++ close b

theorem trailing_ws {w : List Tok} (hw : Ws w) (q : List Node) : trailing (gn w ++ q) = trailing q := by
  rw [gn_ws hw]
  induction w with
  | nil => rfl
  | cons t w ih =>
    obtain ⟨a, b, rfl⟩ := hw t (.head _)
    rw [List.map_cons, List.cons_append, trailing]
    exact ih (fun x hx => hw x (.tail _ hx))

theorem Closing.trailing {q : List Node} (h : Closing q) : Notes.trailing q = none := by
  obtain ⟨w, b, hw, rfl⟩ := h
  rw [trailing_ws hw]
  cases b <;> rfl

section
variable {env : Env} {base : Origin} {inc : AIncluder} {arr : Nat} {outer : Option Path}

theorem parseFieldsA_ws {w : List Tok} (hw : Ws w) (q : List Node) (S : Notes.Loop) (tk : Bool) (fs : AFields) (n : Nat) :
    parseFieldsA env base inc false arr outer (gn w ++ q) S tk fs n
      = parseFieldsA env base inc false arr outer q S tk fs n := by
  rw [gn_ws hw]
  induction w with
  | nil => rfl
  | cons t w ih =>
    obtain ⟨a, b, rfl⟩ := hw t (.head _)
    rw [List.map_cons, List.cons_append, parseFieldsA]
    exact ih (fun x hx => hw x (.tail _ hx))
    all_goals simp

theorem parseFieldsA_single (t : Tok) (ht : ∀ l, t ≠ .newline l) (q : List Node) (S : Notes.Loop) (tk : Bool)
    (fs : AFields) (n : Nat) :
    parseFieldsA env base inc false arr outer (.single t :: q) S tk fs n
      = parseFieldsA env base inc false arr outer q S tk fs n := by
  rw [parseFieldsA]
  all_goals simp_all

theorem Closing.parse {q : List Node} (h : Closing q) (S : Notes.Loop) (tk : Bool) (fs : AFields) (n : Nat) :
    parseFieldsA env base inc false arr outer q S tk fs n = .ok (fs, S.line, n) := by
  obtain ⟨w, b, hw, rfl⟩ := h
  rw [parseFieldsA_ws hw]
  cases b with
  | false => rw [show close false = [] from rfl, parseFieldsA]
  | true => rw [show close true = [.single .closeCurly] from rfl, parseFieldsA_single _ (by simp), parseFieldsA]

end

/-! ### The settings -/

/-- The origin of a setting. -/
def at_ (base : Origin) (l : Nat) (cs : List Str) : Origin := { base with line := l, endLine := l, comments := cs }

mutual
/-- The setting an item makes, with its comments. -/
def itemTree (base : Origin) (l : Nat) (cs : List Str) : Item → AFields
  | .set k s o => [(k, .scalar (at_ base l (cs ++ o.toList)) s)]
  | .sect k o inner o' => [(k, .obj (at_ base l (cs ++ o'.toList)) (tree base (l + 1) o.toList inner) true false)]
  | _ => []
/-- The settings of the lines, the first of them on line `l` below the comments `cs`. -/
def tree (base : Origin) (l : Nat) (cs : List Str) : List Item → AFields
  | [] => []
  | it :: its => itemTree base l cs it ++ tree base (l + it.rows) (above cs [it]) its
end

mutual
theorem itemTree_resolved (base : Origin) (l : Nat) (cs : List Str) (it : Item) :
    (itemTree base l cs it).all (fun f => f.2.erase.resolved) = true := by
  match it with
  | .blank => simp [itemTree]
  | .remark c => simp [itemTree]
  | .set k s o => rw [itemTree]; rfl
  | .sect k o inner o' => rw [itemTree]; rfl
theorem tree_resolved (base : Origin) (l : Nat) (cs : List Str) (its : List Item) :
    (tree base l cs its).all (fun f => f.2.erase.resolved) = true := by
  match its with
  | [] => rw [tree]; rfl
  | it :: its => rw [tree, List.all_append, itemTree_resolved, tree_resolved]; rfl
end

/-- No key of the lines is present. -/
def New (fs : AFields) (its : List Item) : Prop := ∀ f ∈ fs, f.1 ∉ keysIn its

theorem findKeyA_new {fs : AFields} {k : Str} (h : ∀ f ∈ fs, f.1 ≠ k) : findKeyA fs k = none := by
  induction fs with
  | nil => rfl
  | cons f fs ih =>
    obtain ⟨k', v⟩ := f
    have h0 : k' ≠ k := h _ (.head _)
    rw [findKeyA, if_neg h0]
    exact ih fun f hf => h f (.tail _ hf)

theorem putKey_newA {fs : AFields} {k : Str} {v : AVal} (h : ∀ f ∈ fs, f.1 ≠ k) : putKey k v fs = fs ++ [(k, v)] := by
  induction fs with
  | nil => rfl
  | cons f fs ih =>
    obtain ⟨k', w⟩ := f
    have h0 : k' ≠ k := h _ (.head _)
    rw [putKey, if_neg h0, ih fun f hf => h f (.tail _ hf)]
    rfl

theorem putFieldA_new {fs : AFields} {k : Str} {v : AVal} (h : ∀ f ∈ fs, f.1 ≠ k) :
    putFieldA false fs [k] v = .ok (fs ++ [(k, v)]) := by
  rw [putFieldA]
  simp only [Bool.false_and, Bool.false_eq_true, if_false, putMergedA, findKeyA_new h, putKey_newA h]

/-! ### Lines -/

/-- What is shown of the nodes of the lines `its`: at the start of a line, or at the end of one. -/
def Run (env : Env) (z start : Bool) (line : Nat) (its : List Item) (ns : List Node) : Prop :=
  (start = false → ∀ q, Closing q → trailing (ns ++ q) = none) ∧
  ∀ base inc arr outer q ds nl cs fs n, base.comments = [] → Closing q → Tidy cs its → New fs its →
    (if start then cs = ds ∧ (nl = true ∨ ds = []) else cs = if nl then [] else ds) →
    ∃ L, parseFieldsA env base inc false arr outer (ns ++ q) ⟨ds, nl, line⟩ false fs n
      = .ok (fs ++ tree base (if start then line else line + 1) cs its, L, n) ∧
      (z = false → L = ((if start then line else line + 1) + rows its : Nat))

/-- The first token that is not in a gap does not open a brace or bracket. -/
def Head (ts : List Tok) : Prop :=
  Wts ts ∨ ∃ g t rest, ts = g ++ t :: rest ∧ Wts g ∧ collectNode t = none ∧ (scalarOf t).isSome = true

theorem Head.gap {g ts : List Tok} (hg : Wts g) (h : Head ts) : Head (g ++ ts) := by
  rcases h with h | ⟨g', t, rest, rfl, h1, h2, h3⟩
  · exact Or.inl (hg.append h)
  · exact Or.inr ⟨g ++ g', t, rest, by simp, hg.append h1, h2, h3⟩

/-- The tokens of the lines give these nodes. -/
def R (env : Env) (z start : Bool) (line : Nat) (its : List Item) (ts : List Tok) (ns : List Node) : Prop :=
  (start = false → (z = true ∧ ts = [] ∧ ns = []) ∨ ∃ l r r', ts = .newline l :: r ∧ ns = .single (.newline l) :: r') ∧
  Head ts ∧
  Run env z start line its ns ∧
    (∀ f ho ac keys w w' rest, Wts w → Ws w' → (z = true → w' = []) →
      objectLoop env .conf f ho ac keys (w ++ (ts ++ (w' ++ closer ho :: rest))) = .fuel ∨
      objectLoop env .conf f ho ac keys (w ++ (ts ++ (w' ++ closer ho :: rest)))
        = .ok (gn w ++ (ns ++ (gn w' ++ close ho)), left ho rest)) ∧
    (∀ f ho keys w w' rest, Wts w → Ws w' → (z = true → w' = []) → (start = true → HasNl w) →
      objectSep env .conf f ho keys (w ++ (ts ++ (w' ++ closer ho :: rest))) = .fuel ∨
      objectSep env .conf f ho keys (w ++ (ts ++ (w' ++ closer ho :: rest)))
        = .ok (gn w ++ (ns ++ (gn w' ++ close ho)), left ho rest))

theorem loop_close (env : Env) (f : Nat) (ho ac : Bool) (keys : List Str) (w rest : List Tok) (hw : Wts w) :
    objectLoop env .conf f ho ac keys (w ++ closer ho :: rest) = .fuel ∨
    objectLoop env .conf f ho ac keys (w ++ closer ho :: rest) = .ok (gn w ++ close ho, left ho rest) := by
  cases f with
  | zero => left; rw [objectLoop]
  | succ f =>
    right
    rw [objectLoop, nextCollect_gap w _ rest hw (closer_stop ho)]
    simp only [Res.ok_bind]
    cases ho with
    | true => simp [closer, close, left]
    | false => simp [closer, close, left, Tok.isEnd]

theorem sep_close (env : Env) (f : Nat) (ho : Bool) (keys : List Str) (w rest : List Tok) (hw : Wts w) :
    objectSep env .conf f ho keys (w ++ closer ho :: rest) = .fuel ∨
    objectSep env .conf f ho keys (w ++ closer ho :: rest) = .ok (gn w ++ close ho, left ho rest) := by
  cases f with
  | zero => left; rw [objectSep]
  | succ f =>
    rw [objectSep]
    obtain ⟨b, hc, _⟩ := sepLoop_gap false w (closer ho) rest hw (closer_stop ho) (closer_ne ho)
    rw [checkSep, hc]
    simp only [Res.ok_bind]
    cases b with
    | false =>
      right
      have hn := nextCollect_gap [] (closer ho) rest Wts.nil (closer_stop ho)
      rw [List.nil_append] at hn
      simp only [Bool.false_eq_true, if_false, hn, Res.ok_bind]
      cases ho with
      | true => simp [closer, close, left]
      | false => simp [closer, close, left]
    | true =>
      simp only [if_true]
      rcases loop_close env f ho true keys [] rest Wts.nil with h | h
      · left; rw [List.nil_append] at h; rw [h]; rfl
      · right
        rw [List.nil_append] at h; rw [h]
        rfl

theorem sep_comma {env : Env} {f : Nat} {ho : Bool} {keys : List Str} {w us rest : List Tok} {ns : List Node}
    (hw : Wts w)
    (h : ∀ f, objectLoop env .conf f ho true keys us = .fuel ∨ objectLoop env .conf f ho true keys us = .ok (ns, rest)) :
    objectSep env .conf f ho keys (w ++ .comma :: us) = .fuel ∨
    objectSep env .conf f ho keys (w ++ .comma :: us) = .ok (gn w ++ .single .comma :: ns, rest) := by
  cases f with
  | zero => left; rw [objectSep]
  | succ f =>
    rw [objectSep, checkSep, sepLoop_gapComma false w us hw]
    simp only [Res.ok_bind, if_true]
    rcases h f with h | h
    · left; rw [h]; rfl
    · right
      rw [h]
      simp

theorem sep_newline {env : Env} {f : Nat} {ho : Bool} {keys : List Str} {w us rest : List Tok} {s : Tok}
    {ns : List Node} (hw : Wts w) (hnl : HasNl w) (hs : collectNode s = none) (hc : s ≠ .comma)
    (h : ∀ f, objectLoop env .conf f ho true keys (s :: us) = .fuel ∨
      objectLoop env .conf f ho true keys (s :: us) = .ok (ns, rest)) :
    objectSep env .conf f ho keys (w ++ s :: us) = .fuel ∨
    objectSep env .conf f ho keys (w ++ s :: us) = .ok (gn w ++ ns, rest) := by
  cases f with
  | zero => left; rw [objectSep]
  | succ f =>
    rw [objectSep]
    obtain ⟨b, hc, hb⟩ := sepLoop_gap false w s us hw hs hc
    obtain rfl : b = true := hb.2 (Or.inr hnl)
    rw [checkSep, hc]
    simp only [Res.ok_bind, if_true]
    rcases h f with h | h
    · left; rw [h]; rfl
    · right
      rw [h]
      rfl

theorem R.nil (env : Env) (z : Bool) (line : Nat) : R env z true line [] [] [] := by
  refine ⟨by simp, Or.inl Wts.nil, ⟨by simp, ?_⟩, ?_, ?_⟩
  · intro base inc arr outer q ds nl cs fs n _ hq _ _ _
    rw [List.nil_append, hq.parse]
    refine ⟨_, by rw [tree, List.append_nil], fun _ => by simp [rows]⟩
  · intro f ho ac keys w w' rest hw hw' _
    have := loop_close env f ho ac keys (w ++ w') rest (hw.append hw'.wts)
    simpa [gn_append] using this
  · intro f ho keys w w' rest hw hw' _ _
    have := sep_close env f ho keys (w ++ w') rest (hw.append hw'.wts)
    simpa [gn_append] using this

theorem R.eof (env : Env) (line : Nat) : R env true false line [] [] [] := by
  refine ⟨fun _ => Or.inl ⟨rfl, rfl, rfl⟩, Or.inl Wts.nil, ⟨?_, ?_⟩, ?_, ?_⟩
  · intro _ q hq; exact hq.trailing
  · intro base inc arr outer q ds nl cs fs n _ hq _ _ _
    rw [List.nil_append, hq.parse]
    refine ⟨_, by rw [tree, List.append_nil], fun h => by cases h⟩
  · intro f ho ac keys w w' rest hw hw' _
    have := loop_close env f ho ac keys (w ++ w') rest (hw.append hw'.wts)
    simpa [gn_append] using this
  · intro f ho keys w w' rest hw hw' _ _
    have := sep_close env f ho keys (w ++ w') rest (hw.append hw'.wts)
    simpa [gn_append] using this

theorem R.newline {env : Env} {z : Bool} {line : Nat} {its : List Item} {w ts : List Tok} {l : Int} {ns : List Node} (hw0 : Ws w)
    (h : R env z true (line + 1) its ts ns) :
    R env z false line its (.newline l :: (w ++ ts)) (.single (.newline l) :: (gn w ++ ns)) := by
  obtain ⟨_, hhd, ⟨_, hr⟩, hl, hs⟩ := h
  have e : ∀ v, gn (v ++ .newline l :: w) = gn v ++ .single (.newline l) :: gn w := by
    intro v; rw [gn_append, gn_cons w (n := .single (.newline l)) rfl]
  have hg : ∀ {v}, Wts v → Wts (v ++ .newline l :: w) := by
    intro v hv
    refine hv.append ?_
    intro t ht
    rcases List.mem_cons.1 ht with rfl | ht
    · trivial
    · exact hw0.wts t ht
  refine ⟨fun _ => Or.inr ⟨_, _, _, rfl, rfl⟩, by simpa using hhd.gap (hg Wts.nil), ⟨?_, ?_⟩, ?_, ?_⟩
  · intro _ q hq; rfl
  · intro base inc arr outer q ds nl cs fs n hb hq ht hn hnl
    simp only [Bool.false_eq_true, if_false] at hnl ⊢
    rw [List.cons_append, parseFieldsA, List.append_assoc, parseFieldsA_ws hw0]
    have := hr base inc arr outer q cs true cs fs n hb hq ht hn (by simp)
    simpa [Notes.Loop.newline, ← hnl] using this
  · intro f ho ac keys v w' rest hv hw' hz
    have := hl f ho ac keys (v ++ .newline l :: w) w' rest (hg hv) hw' hz
    rw [e] at this
    simpa using this
  · intro f ho keys v w' rest hv hw' hz _
    have := hs f ho keys (v ++ .newline l :: w) w' rest (hg hv) hw' hz (fun _ => ⟨l, by simp⟩)
    rw [e] at this
    simpa using this

/-! ### The end of a line -/

/-- The tokens of the end of a line. -/
inductive NoteT : Option Str → List Tok → Prop
  | none : NoteT none []
  | some {d : Bool} {c : Str} {l : Int} {w : List Tok} : Ws1 w → Tok.textList w = [] →
      NoteT (some c) (.comment d c l :: w)

/-- The tokens behind a setting. -/
inductive TailT : Option Str → List Tok → Prop
  | plain {o : Option Str} {e : List Tok} : NoteT o e → TailT o e
  | comma {o : Option Str} {w e : List Tok} : Ws1 w → NoteT o e → TailT o (.comma :: (w ++ e))

theorem NoteT.wts {o : Option Str} {e : List Tok} (h : NoteT o e) : Wts e := by
  cases h with
  | none => exact Wts.nil
  | some hw _ =>
    intro t ht
    rcases List.mem_cons.1 ht with rfl | ht
    · trivial
    · exact hw.wts t ht

theorem R.note {env : Env} {z : Bool} {line : Nat} {its : List Item} {o : Option Str} {e ts : List Tok}
    {ns : List Node} (he : NoteT o e) (h : R env z false line its ts ns) :
    R env z true line (noteItem o :: its) (e ++ ts) (gn e ++ ns) := by
  obtain ⟨hh, hhd, ⟨_, hr⟩, hl, hs⟩ := h
  refine ⟨by simp, hhd.gap he.wts, ⟨by simp, ?_⟩, ?_, ?_⟩
  · intro base inc arr outer q ds nl cs fs n hb hq ht hn hnl
    simp only [if_true] at hnl ⊢
    obtain ⟨rfl, hnl⟩ := hnl
    cases he with
    | none =>
      cases ht with
      | blank ht =>
      have := hr base inc arr outer q cs nl [] fs n hb hq ht hn (by
        rcases hnl with rfl | rfl
        · rfl
        · cases nl <;> rfl)
      simpa [noteItem, tree, itemTree, Item.rows, above, rows, Nat.add_comm, Nat.add_left_comm, Int.add_assoc] using this
    | @some d c l w hw _ =>
      cases ht with
      | remark ht =>
      have := hr base inc arr outer q (cs ++ [c]) false (cs ++ [c]) fs n hb hq ht hn (by simp)
      rw [gn_cons w (n := .comment (.comment d c l)) rfl, List.append_assoc, List.cons_append, parseFieldsA,
        parseFieldsA_ws hw.ws]
      simpa [noteItem, tree, itemTree, Item.rows, above, rows, Nat.add_comm, Nat.add_left_comm, Int.add_assoc,
        Notes.Loop.comment, commentText] using this
  · intro f ho ac keys v w' rest hv hw' hz
    have := hl f ho ac keys (v ++ e) w' rest (hv.append he.wts) hw' hz
    simpa [gn_append] using this
  · intro f ho keys v w' rest hv hw' hz _
    have := hs f ho keys (v ++ e) w' rest (hv.append he.wts) hw' hz (by simp)
    simpa [gn_append] using this

theorem gn_text {w : List Tok} (hw : Wts w) : Node.renderList (gn w) = Tok.textList w := by
  induction w with
  | nil => rfl
  | cons t w ih =>
    have ih : Tok.textList (Node.tokensList (gn w)) = Tok.textList w := ih hw.cons.2
    have ht := hw.cons.1
    cases t <;> simp [Wt] at ht <;> rw [gn_cons w rfl] <;>
      simp [Node.renderList, Node.tokensList, Node.tokens, Tok.textList, ih]

/-- The node of a token between fields. -/
def bitNode (t : Tok) : Node := (collectNode t).getD (.single t)

/-- Nodes with the text of the tokens that are no fields. -/
def Bits (ts : List Tok) (gs : List Node) : Prop :=
  Node.renderList gs = Tok.textList ts ∧ (∀ n ∈ gs, ∀ cs, n ≠ .field cs) ∧ gs = ts.map bitNode

theorem gn_bits {w : List Tok} (hw : Wts w) : gn w = w.map bitNode := by
  induction w with
  | nil => rfl
  | cons t w ih =>
    obtain ⟨n, hn, _⟩ := collect_wt hw.cons.1
    rw [gn_cons w hn, ih hw.cons.2, List.map_cons, bitNode, hn]
    rfl

theorem Bits.gap {w : List Tok} (hw : Wts w) : Bits w (gn w) := by
  refine ⟨gn_text hw, ?_, gn_bits hw⟩
  rintro n hn cs rfl
  rw [gn, List.mem_filterMap] at hn
  obtain ⟨t, ht, e⟩ := hn
  have := hw t ht
  cases t <;> simp [Wt] at this <;> simp [collectNode] at e

theorem Bits.append {ts us : List Tok} {gs hs : List Node} (h : Bits ts gs) (h' : Bits us hs) :
    Bits (ts ++ us) (gs ++ hs) := by
  have h1 := h.1
  have h2 := h'.1
  simp only [Node.renderList] at h1 h2
  refine ⟨by simp [Node.renderList, Node.tokensList_append, Tok.textList_append, h1, h2], ?_, by simp [h.2.2, h'.2.2]⟩
  intro n hn
  rcases List.mem_append.1 hn with hn | hn
  · exact h.2.1 n hn
  · exact h'.2.1 n hn

theorem Bits.single (t : Tok) (ht : bitNode t = .single t := by rfl) : Bits [t] [.single t] :=
  ⟨by simp [Node.renderList, Node.tokensList, Node.tokens], by simp, by simp [ht]⟩

/-- What is read behind a setting. -/
theorem R.tail {env : Env} {z : Bool} {line : Nat} {its : List Item} {o : Option Str} {w e ts : List Tok}
    {ns0 : List Node} (hw : Ws1 w) (he : TailT o e) (h : R env z false line its ts ns0) :
    ∃ gs ns, Bits (w ++ e) gs ∧ ns = gs ++ ns0 ∧ (∀ q, Closing q → trailing (ns ++ q) = o) ∧
      (∀ base inc arr outer q fs n, base.comments = [] → Closing q → Tidy [] its → New fs its →
        ∃ L, parseFieldsA env base inc false arr outer (ns ++ q) { line := line } o.isSome fs n
          = .ok (fs ++ tree base (line + 1) [] its, L, n) ∧ (z = false → L = (line + 1 + rows its : Nat))) ∧
      (∀ f ho keys w' rest, Ws w' → (z = true → w' = []) →
        objectSep env .conf f ho keys (w ++ (e ++ (ts ++ (w' ++ closer ho :: rest)))) = .fuel ∨
        objectSep env .conf f ho keys (w ++ (e ++ (ts ++ (w' ++ closer ho :: rest))))
          = .ok (ns ++ (gn w' ++ close ho), left ho rest)) ∧
      (∀ w' c rest, (z = true → w' = []) → Stop c →
        ∃ w2 x rest2, w ++ (e ++ (ts ++ (w' ++ c :: rest))) = w2 ++ x :: rest2 ∧ Ws1 w2 ∧ Stop x) := by
  obtain ⟨hh, _, ⟨htr, hr⟩, hl, hs⟩ := h
  have hr' : ∀ base inc arr outer q fs n, base.comments = [] → Closing q → Tidy [] its → New fs its →
      ∃ L, parseFieldsA env base inc false arr outer (ns0 ++ q) { line := line } false fs n
        = .ok (fs ++ tree base (line + 1) [] its, L, n) ∧ (z = false → L = (line + 1 + rows its : Nat)) := by
    intro base inc arr outer q fs n h1 h2 h3 h4
    exact hr base inc arr outer q [] false [] fs n h1 h2 h3 h4 (by simp)
  have note : ∀ {o : Option Str} {e : List Tok}, NoteT o e →
      (∀ q, Closing q → trailing (gn e ++ (ns0 ++ q)) = o) ∧
      (∀ base inc arr outer q fs n,
        parseFieldsA env base inc false arr outer (gn e ++ (ns0 ++ q)) { line := line } o.isSome fs n
          = parseFieldsA env base inc false arr outer (ns0 ++ q) { line := line } false fs n) := by
    intro o e he
    cases he with
    | none => exact ⟨fun q hq => htr rfl q hq, fun base inc arr outer q fs n => rfl⟩
    | @some d c l w hw _ =>
      rw [gn_cons w (n := .comment (.comment d c l)) rfl]
      refine ⟨fun q hq => rfl, fun base inc arr outer q fs n => ?_⟩
      rw [List.cons_append, parseFieldsA, parseFieldsA_ws hw.ws]
      rfl
  have hstop : ∀ {o : Option Str} {e : List Tok} (w : List Tok), Ws1 w → NoteT o e → ∀ w' c rest, (z = true → w' = []) → Stop c →
      (∃ w2 x rest2, w ++ (e ++ (ts ++ (w' ++ c :: rest))) = w2 ++ x :: rest2 ∧ Ws1 w2 ∧ Stop x) := by
    intro o e w hw he w' c rest hw' hc
    cases he with
    | @some d c l w1 hw1 _ => exact ⟨w, _, _, rfl, hw, trivial⟩
    | none =>
      rcases hh rfl with ⟨hz, rfl, _⟩ | ⟨l, r, _, rfl, _⟩
      · rw [hw' hz]
        exact ⟨w, _, _, rfl, hw, hc⟩
      · exact ⟨w, _, _, rfl, hw, trivial⟩
  cases he with
  | plain he =>
    obtain ⟨n1, n2⟩ := note he
    refine ⟨gn w ++ gn e, gn w ++ (gn e ++ ns0), (Bits.gap hw.wts).append (Bits.gap he.wts), by simp, ?_, ?_, ?_, ?_⟩
    · intro q hq
      rw [List.append_assoc, trailing_ws hw.ws, List.append_assoc]
      exact n1 q hq
    · intro base inc arr outer q fs n h1 h2 h3 h4
      rw [List.append_assoc, parseFieldsA_ws hw.ws, List.append_assoc, n2]
      exact hr' base inc arr outer q fs n h1 h2 h3 h4
    · intro f ho keys w' rest hw' hz
      have := hs f ho keys (w ++ e) w' rest (hw.wts.append he.wts) hw' hz (by simp)
      simpa [gn_append] using this
    · exact hstop w hw he
  | @comma w1 e hw1 he =>
    obtain ⟨n1, n2⟩ := note he
    refine ⟨gn w ++ .single .comma :: (gn w1 ++ gn e), gn w ++ .single .comma :: (gn w1 ++ (gn e ++ ns0)),
      (Bits.gap hw.wts).append (us := .comma :: (w1 ++ e)) (hs := .single .comma :: (gn w1 ++ gn e))
        ((Bits.single .comma).append ((Bits.gap hw1.wts).append (Bits.gap he.wts))), by simp,
      ?_, ?_, ?_, ?_⟩
    · intro q hq
      rw [List.append_assoc, trailing_ws hw.ws, List.cons_append, trailing, List.append_assoc, trailing_ws hw1.ws,
        List.append_assoc]
      exact n1 q hq
    · intro base inc arr outer q fs n h1 h2 h3 h4
      rw [List.append_assoc, parseFieldsA_ws hw.ws, List.cons_append, parseFieldsA_single _ (by simp),
        List.append_assoc, parseFieldsA_ws hw1.ws, List.append_assoc, n2]
      exact hr' base inc arr outer q fs n h1 h2 h3 h4
    · intro f ho keys w' rest hw' hz
      have := sep_comma (f := f) (keys := keys) hw.wts (fun f => hl f ho true keys (w1 ++ e) w' rest (hw1.wts.append he.wts) hw' hz)
      simpa [gn_append] using this
    · intro w' c rest _ _
      exact ⟨w, _, _, rfl, hw, trivial⟩

/-- What is known of the node of a field. -/
structure FieldA (env : Env) (line lineE : Nat) (k : Str) (ok : Prop) (a : Origin → AVal) (cs : List Node) : Prop where
  path : ∃ pt, Node.fieldPath cs = .ok ([k], pt)
  plus : ConfigParser.isPlusEquals cs = false
  comments : Node.fieldComments cs = []
  value : ∀ base inc arr outer ds n, base.comments = [] → ok →
    parseFieldValueA env base inc false arr outer cs ds line n = .ok (prepend ds (a base), lineE, n)
  origin : ∀ base, base.comments = [] → (a base).origin = at_ base line []

theorem withOrigin_self (v : AVal) : v.withOrigin v.origin = v := by cases v <;> rfl
theorem origin_withOrigin (o : Origin) (v : AVal) : (v.withOrigin o).origin = o := by cases v <;> rfl
theorem withOrigin_withOrigin (o o' : Origin) (v : AVal) : (v.withOrigin o).withOrigin o' = v.withOrigin o' := by
  cases v <;> rfl

theorem prepend_at {base : Origin} {l : Nat} {v : AVal} (hv : v.origin = at_ base l []) (cs : List Str) :
    prepend cs v = v.withOrigin (at_ base l cs) := by
  rw [prepend]
  cases cs with
  | nil => simp [← hv, withOrigin_self]
  | cons c cs => simp [hv, Origin.prependComments, at_]

theorem append_at {base : Origin} {l : Nat} {v : AVal} {cs : List Str} {c : Str} (h : cs ≠ [c]) :
    append [c] (v.withOrigin (at_ base l cs)) = v.withOrigin (at_ base l (cs ++ [c])) := by
  rw [append, origin_withOrigin, withOrigin_withOrigin, Origin.appendComments, if_neg]
  · rfl
  · rintro (h1 | h1)
    · exact h h1.symm
    · cases h1

/-- A field and the rest of its line. -/
theorem R.field {env : Env} {z : Bool} {line lineE : Nat} {it : Item} {its : List Item} {k : Str} {ok : Prop}
    {a : Origin → AVal} {o : Option Str} {t0 : Tok} {cs : List Node} {ts0 w e ts : List Tok}
    (hc0 : collectNode t0 = none) (hs0 : (scalarOf t0).isSome = true) (hi0 : isIncludeKeyword t0 = false)
    (hp : ∀ f w x rest, Ws1 w → Stop x → parseField env .conf f t0 (ts0 ++ (w ++ x :: rest)) = .fuel ∨
      parseField env .conf f t0 (ts0 ++ (w ++ x :: rest)) = .ok ([k], .field cs, w ++ x :: rest))
    (hf : FieldA env line lineE k ok a cs)
    (htree : ∀ base ds, base.comments = [] → itemTree base line ds it = [(k, (a base).withOrigin (at_ base line (ds ++ o.toList)))])
    (hrows : lineE + 1 = line + it.rows) (hkeys : keysIn (it :: its) = k :: keysIn its) (habove : ∀ ds, above ds [it] = [])
    (htidy : ∀ {ds}, Tidy ds (it :: its) → k ∉ keysIn its ∧ (∀ c, o = some c → ds ≠ [c]) ∧ ok ∧ Tidy [] its)
    {ns0 : List Node} (hw : Ws1 w) (he : TailT o e) (h : R env z false lineE its ts ns0) :
    ∃ gs, Bits (w ++ e) gs ∧
      R env z true line (it :: its) (t0 :: (ts0 ++ (w ++ (e ++ ts)))) (.field cs :: (gs ++ ns0)) := by
  obtain ⟨gs, ns, hbits, hns, htr, hr, hs, hst⟩ := h.tail hw he
  have hcm : t0 ≠ .comma := by rintro rfl; simp [scalarOf] at hs0
  have hloop : ∀ f ho ac keys v w' rest, Wts v → Ws w' → (z = true → w' = []) →
      objectLoop env .conf f ho ac keys (v ++ (t0 :: (ts0 ++ (w ++ (e ++ ts))) ++ (w' ++ closer ho :: rest))) = .fuel ∨
      objectLoop env .conf f ho ac keys (v ++ (t0 :: (ts0 ++ (w ++ (e ++ ts))) ++ (w' ++ closer ho :: rest)))
        = .ok (gn v ++ (.field cs :: ns ++ (gn w' ++ close ho)), left ho rest) := by
    intro f ho ac keys v w' rest hv hw' hz
    cases f with
    | zero => left; rw [objectLoop]
    | succ f =>
      rw [objectLoop, List.cons_append, nextCollect_gap v t0 _ hv hc0]
      simp only [Res.ok_bind]
      have hend : (t0.isEnd && !ho) = false := by cases t0 <;> simp [scalarOf] at hs0 <;> rfl
      have hcl : t0 ≠ .closeCurly := by rintro rfl; simp [scalarOf] at hs0
      split
      · exact absurd rfl hcl
      · simp only [hend, hi0, Bool.and_false, Bool.false_eq_true, if_false]
        obtain ⟨w2, x, rest2, e2, hw2, hx⟩ := hst w' (closer ho) rest hz (by cases ho <;> trivial)
        have e3 : ts0 ++ (w ++ (e ++ ts)) ++ (w' ++ closer ho :: rest) = ts0 ++ (w2 ++ x :: rest2) := by
          rw [← e2]; simp
        rw [e3]
        rcases hp f w2 x rest2 hw2 hx with h | h
        · left; rw [h]; rfl
        · rw [h]
          simp only [Res.ok_bind, addKey, ← e2]
          rcases hs f ho (k :: keys) w' rest hw' hz with h | h
          · left; rw [h]; rfl
          · right
            rw [h]
            simp
  refine ⟨gs, hbits, ?_⟩
  rw [← hns]
  refine ⟨by simp, Or.inr ⟨[], t0, _, rfl, Wts.nil, hc0, hs0⟩, ⟨by simp, ?_⟩, hloop, ?_⟩
  · intro base inc arr outer q ds nl cs' fs n hb hq ht hn hnl
    simp only [if_true] at hnl ⊢
    obtain ⟨rfl, _⟩ := hnl
    obtain ⟨h1, h2, h3, h4⟩ := htidy ht
    obtain ⟨pt, hfp⟩ := hf.path
    have hnew : ∀ f ∈ fs, f.1 ≠ k := by
      intro f hf e
      exact hn f hf (by rw [hkeys, e]; exact .head _)
    rw [List.cons_append, parseFieldsA, hfp]
    simp only [Res.ok_bind, hf.plus, Bool.false_eq_true, if_false, hf.comments, List.append_nil,
      hf.value base inc arr _ _ _ hb h3, htr q hq]
    have hval : appendTrailing (ns ++ q) (prepend cs' (a base)) = (a base).withOrigin (at_ base line (cs' ++ o.toList)) := by
      rw [appendTrailing, htr q hq]
      rw [prepend_at (hf.origin base hb)]
      cases o with
      | none => simp
      | some c => exact append_at (h2 c rfl)
    rw [hval, putFieldA_new hnew]
    simp only [Res.ok_bind]
    have hn' : New (fs ++ [(k, (a base).withOrigin (at_ base line (cs' ++ o.toList)))]) its := by
      intro f hf
      rcases List.mem_append.1 hf with hf | hf
      · have := hn f hf
        rw [hkeys] at this
        exact fun h => this (.tail _ h)
      · simp at hf
        subst hf
        exact h1
    obtain ⟨L, h5, h6⟩ := hr base inc arr outer q _ n hb hq h4 hn'
    refine ⟨L, ?_, fun hz => ?_⟩
    · rw [h5, tree, htree base cs' hb, habove, ← hrows]
      simp
    · rw [h6 hz, rows, ← Nat.add_assoc, ← hrows]
  · intro f ho keys v w' rest hv hw' hz hnl
    have := sep_newline (f := f) (keys := keys) hv (hnl rfl) hc0 hcm
      (fun f => by simpa using hloop f ho true keys [] w' rest Wts.nil hw' hz)
    simpa using this

theorem fieldComments_ws {w : List Tok} (hw : Ws w) (ns : List Node) :
    Node.fieldComments (gn w ++ ns) = Node.fieldComments ns := by
  rw [gn_ws hw]
  induction w with
  | nil => rfl
  | cons t w ih =>
    rw [List.map_cons, List.cons_append, Node.fieldComments]
    exact ih (fun x hx => hw x (.tail _ hx))
    all_goals simp

theorem fieldValueA_ws {env : Env} {base : Origin} {inc : AIncluder} {arr : Nat} {outer : Option Path} {w : List Tok}
    (hw : Ws w) (ns : List Node) (ds : List Str) (l : Int) (n : Nat) :
    parseFieldValueA env base inc false arr outer (gn w ++ ns) ds l n
      = parseFieldValueA env base inc false arr outer ns ds l n := by
  rw [gn_ws hw]
  induction w with
  | nil => rfl
  | cons t w ih =>
    rw [List.map_cons, List.cons_append, parseFieldValueA]
    simp only [Node.isValue, Bool.false_eq_true, if_false]
    exact ih (fun x hx => hw x (.tail _ hx))

/-- The nodes of a field with whitespace only. -/
theorem fieldA_of {env : Env} {line lineE : Nat} {k : Str} {ok : Prop} {a : Origin → AVal} {pt w1 w2 : List Tok}
    {c : Option Tok} {node : Node} (h1 : Ws w1) (h2 : Ws w2) (hc : ∀ t, c = some t → t = .colon ∨ t = .equals)
    (hval : node.isValue = true) (hcm : ∀ t, node ≠ .comment t) (hsep : node.singleToken? = none)
    (hv : ∀ base inc arr outer ds n, base.comments = [] → ok →
      parseValueA env base inc false arr outer node ds line n = .ok (prepend ds (a base), lineE, n))
    (ho : ∀ base, base.comments = [] → (a base).origin = at_ base line []) :
    FieldA env line lineE k ok a (.path [k] pt :: gn w1 ++ (c.toList.map .single ++ (gn w2 ++ [node]))) := by
  refine ⟨⟨pt, rfl⟩, ?_, ?_, ?_, ho⟩
  · apply noPlus
    intro n hn
    rw [gn_ws h1, gn_ws h2] at hn
    simp at hn
    rcases hn with rfl | ⟨t, ht, rfl⟩ | ⟨t, ht, rfl⟩ | ⟨t, ht, rfl⟩ | rfl
    · simp [Node.singleToken?]
    · obtain ⟨a, b, rfl⟩ := h1 t ht; simp [Node.singleToken?]
    · rcases hc t ht with rfl | rfl <;> simp [Node.singleToken?]
    · obtain ⟨a, b, rfl⟩ := h2 t ht; simp [Node.singleToken?]
    · simp [hsep]
  · rw [List.cons_append, Node.fieldComments, fieldComments_ws h1]
    · have : Node.fieldComments (gn w2 ++ [node]) = [] := by
        rw [fieldComments_ws h2, Node.fieldComments]
        · rfl
        · intro _ _ _ e; exact hcm _ e
      cases c with
      | none => exact this
      | some t =>
        simp only [Option.toList, List.map_cons, List.map_nil, List.cons_append, List.nil_append]
        rw [Node.fieldComments]
        · exact this
        · simp
    · simp
  · intro base inc arr outer ds n hb hok
    have : parseFieldValueA env base inc false arr outer (gn w2 ++ [node]) ds line n = .ok (prepend ds (a base), lineE, n) := by
      rw [fieldValueA_ws h2, parseFieldValueA]
      simp only [hval, if_true]
      exact hv base inc arr outer ds n hb hok
    rw [List.cons_append, parseFieldValueA]
    simp only [Node.isValue, Bool.false_eq_true, if_false]
    rw [fieldValueA_ws h1]
    cases c with
    | none => exact this
    | some t =>
      simp only [Option.toList, List.map_cons, List.map_nil, List.cons_append, List.nil_append]
      rw [parseFieldValueA]
      simp only [Node.isValue, Bool.false_eq_true, if_false]
      exact this

theorem withLine_at {base : Origin} (h : base.comments = []) (l : Nat) : base.withLineNumber l = at_ base l [] := by
  rw [Origin.withLineNumber, at_]
  split
  · rename_i h1
    obtain ⟨h1, h2⟩ := h1
    cases base
    simp only at h1 h2 h ⊢
    rw [h1, ← h2, h1, h]
  · cases base
    simp_all

/-- The line of a scalar token. -/
def lineOf : Tok → Int
  | .value _ _ l => l
  | .unquoted _ l => l
  | _ => 0

/-- A setting with a scalar. -/
theorem R.set {env : Env} {z : Bool} {line : Nat} {its : List Item} {k : Str} {s : Scalar} {o : Option Str}
    {kts w1 w2 w e ts : List Tok} {c t : Tok} (hk : KeyToks env [k] kts) (h1 : Ws w1) (hc : c = .colon ∨ c = .equals)
    (h2 : Ws w2) (hs : scalarOf t = some s) (ht : collectNode t = none) (hl : lineOf t = line)
    {ns0 : List Node} (hw : Ws1 w) (he : TailT o e) (h : R env z false line its ts ns0) :
    ∃ pt gs, PathParser.parsePathNodeExpression env .conf false kts = .ok ([k], pt) ∧ Bits (w ++ e) gs ∧
      R env z true line (.set k s o :: its) (kts ++ (w1 ++ c :: (w2 ++ t :: (w ++ (e ++ ts)))))
        (.field (.path [k] pt :: (gn w1 ++ .single c :: gn w2) ++ [.simple t]) :: (gs ++ ns0)) := by
  obtain ⟨t0, kts', rfl, hct, hin⟩ := hk.head
  have hcs : scalarOf c = none ∧ collectNode c = none ∧ c.isOpenCurly = false ∧ isKeyValueSeparator .conf c = true := by
    rcases hc with rfl | rfl <;> exact ⟨rfl, rfl, rfl, rfl⟩
  have hss : (scalarOf t).isSome = true := by rw [hs]; rfl
  obtain ⟨pt, hpt⟩ := hk.path
  have hkey : ∀ rest, parseKey env .conf t0 (kts' ++ (w1 ++ c :: rest)) = .ok ([k], pt, w1 ++ c :: rest) := by
    intro rest
    rw [parseKey]
    rw [show t0 :: (kts' ++ (w1 ++ c :: rest)) = (t0 :: kts') ++ (w1 ++ c :: rest) by rfl,
      keyRun_all _ w1 c rest hk.all h1.wts hcs.1]
    obtain ⟨t', toks', he'⟩ := cons_of w1 c rest
    rw [he']
    simp [hpt]
  obtain ⟨gs, hgs, this⟩ := R.field (env := env) (z := z) (line := line) (lineE := line) (it := .set k s o) (its := its) (k := k)
    (ok := True) (a := fun base => .scalar (at_ base line []) s) (o := o) (t0 := t0)
    (cs := .path [k] pt :: gn w1 ++ ((some c).toList.map .single ++ (gn w2 ++ [.simple t])))
    (ts0 := kts' ++ (w1 ++ c :: (w2 ++ [t]))) (w := w) (e := e) (ts := ts) hct (hk.all _ (.head _)) hin
    (by
      intro f w x rest hw hx
      cases f with
      | zero => left; rw [parseField]
      | succ f =>
        rw [parseField]
        rw [show kts' ++ (w1 ++ c :: (w2 ++ [t])) ++ (w ++ x :: rest) = kts' ++ (w1 ++ c :: (w2 ++ t :: (w ++ x :: rest))) by simp,
          hkey]
        simp only [Res.ok_bind, nextCollect_gap w1 c _ h1.wts hcs.2.1, hcs.2.2.1, Bool.and_false, Bool.false_eq_true,
          if_false]
        rw [if_pos hcs.2.2.2]
        rcases fieldVal_simple env f w2 w t x rest h2.wts hw hss ht hx with h | h
        · left; rw [h]; rfl
        · right; rw [h]; simp)
    (fieldA_of h1 h2 (by rintro t h; cases h; exact hc) rfl (by simp) rfl
      (by
        intro base inc arr outer ds n hb _
        rw [parseValueA]
        cases t <;> simp [scalarOf] at hs <;> subst hs <;> simp only [lineOf] at hl <;> subst hl <;>
          simp [getValueA, withLine_at hb])
      (fun base _ => rfl))
    (by intro base ds _; rw [itemTree]; rfl) (by simp [Item.rows]) rfl (fun _ => rfl)
    (by intro ds h; cases h with | set h1 h2 h3 => exact ⟨h1, h2, trivial, h3⟩)
    hw he h
  exact ⟨pt, gs, hpt, hgs, by simpa using this⟩

/-- A section. -/
theorem R.sect {env : Env} {z : Bool} {line : Nat} {inner its : List Item} {k : Str} {o o' : Option Str}
    {kts w1 w2 f us w3 w e ts : List Tok} (hk : KeyToks env [k] kts) (h1 : Ws w1) (h2 : Ws w2) (hf : NoteT o f)
    {ns ns0 : List Node} (hin : R env false false line inner us ns) (h3 : Ws w3)
    (hw : Ws1 w) (he : TailT o' e) (h : R env z false (line + 1 + rows inner) its ts ns0) :
    ∃ pt gs, PathParser.parsePathNodeExpression env .conf false kts = .ok ([k], pt) ∧ Bits (w ++ e) gs ∧
      R env z true line (.sect k o inner o' :: its)
        (kts ++ (w1 ++ .openCurly :: (w2 ++ (f ++ (us ++ (w3 ++ .closeCurly :: (w ++ (e ++ ts))))))))
        (.field (.path [k] pt :: gn w1 ++
          [.object (.single .openCurly :: (gn (w2 ++ f) ++ (ns ++ (gn w3 ++ [.single .closeCurly]))))]) :: (gs ++ ns0)) := by
  obtain ⟨t0, kts', rfl, hct, hic⟩ := hk.head
  obtain ⟨pt, hpt⟩ := hk.path
  have hkey : ∀ rest, parseKey env .conf t0 (kts' ++ (w1 ++ .openCurly :: rest)) = .ok ([k], pt, w1 ++ .openCurly :: rest) := by
    intro rest
    rw [parseKey]
    rw [show t0 :: (kts' ++ (w1 ++ .openCurly :: rest)) = (t0 :: kts') ++ (w1 ++ .openCurly :: rest) by rfl,
      keyRun_all _ w1 .openCurly rest hk.all h1.wts rfl]
    obtain ⟨t', toks', he'⟩ := cons_of w1 .openCurly rest
    rw [he']
    simp [hpt]
  obtain ⟨_, _, ⟨_, hrun⟩, hl, _⟩ := hin
  obtain ⟨gs, hgs, this⟩ := R.field (env := env) (z := z) (line := line) (lineE := line + 1 + rows inner) (it := .sect k o inner o') (its := its) (k := k)
    (ok := Tidy o.toList inner) (a := fun base => .obj (at_ base line []) (tree base (line + 1) o.toList inner) true false)
    (o := o') (t0 := t0)
    (cs := .path [k] pt :: gn w1 ++ ((none : Option Tok).toList.map .single ++ (gn [] ++
      [.object (.single .openCurly :: (gn (w2 ++ f) ++ (ns ++ (gn w3 ++ close true))))])))
    (ts0 := kts' ++ (w1 ++ .openCurly :: (w2 ++ (f ++ (us ++ (w3 ++ [.closeCurly])))))) (w := w) (e := e) (ts := ts) hct
    (hk.all _ (.head _)) hic
    (by
      intro f' w x rest hw hx
      cases f' with
      | zero => left; rw [parseField]
      | succ f' =>
        rw [parseField]
        rw [show kts' ++ (w1 ++ .openCurly :: (w2 ++ (f ++ (us ++ (w3 ++ [.closeCurly]))))) ++ (w ++ x :: rest)
          = kts' ++ (w1 ++ .openCurly :: (w2 ++ (f ++ (us ++ (w3 ++ .closeCurly :: (w ++ x :: rest)))))) by simp,
          hkey]
        simp only [Res.ok_bind, nextCollect_gap w1 .openCurly _ h1.wts rfl, Tok.isOpenCurly]
        rw [if_pos (by simp)]
        cases f' with
        | zero => left; rw [parseValue]; rfl
        | succ f' =>
          rw [parseValue]
          have := hl f' true false [] (w2 ++ f) w3 (w ++ x :: rest) (h2.wts.append hf.wts) h3 (by simp)
          simp only [closer, if_true, left, List.append_assoc] at this
          rcases this with h | h
          · left; rw [h]; rfl
          · right; rw [h]; simp)
    (fieldA_of h1 Ws.nil (by simp) rfl (by simp) rfl
      (by
        intro base inc arr outer ds n hb htd
        rw [parseValueA, parseFieldsA_single _ (by simp), gn_append, List.append_assoc, parseFieldsA_ws h2]
        have hq : Closing (gn w3 ++ close true) := ⟨w3, true, h3, rfl⟩
        have key : ∃ L, parseFieldsA env base inc false arr outer (gn f ++ (ns ++ (gn w3 ++ close true))) { line := line } false [] n
            = .ok (tree base (line + 1) o.toList inner, L, n) ∧ L = (line + 1 + rows inner : Nat) := by
          cases hf with
          | none =>
            obtain ⟨L, g1, g2⟩ := hrun base inc arr outer _ [] false [] [] n hb hq htd (by simp [New]) (by simp)
            exact ⟨L, g1, g2 rfl⟩
          | @some d c l w4 hw4 =>
            obtain ⟨L, g1, g2⟩ := hrun base inc arr outer _ [c] false [c] [] n hb hq htd (by simp [New]) (by simp)
            refine ⟨L, ?_, g2 rfl⟩
            rw [gn_cons w4 (n := .comment (.comment d c l)) rfl, List.cons_append, parseFieldsA, parseFieldsA_ws hw4.ws]
            exact g1
        obtain ⟨L, g1, rfl⟩ := key
        rw [g1]
        simp only [Res.ok_bind, newObjA, tree_resolved, withLine_at hb])
      (fun base _ => rfl))
    (by intro base ds _; rw [itemTree]; rfl) (by simp [Item.rows]; omega) rfl (fun _ => rfl)
    (by intro ds h; cases h with | sect h1 h2 h3 h4 => exact ⟨h1, h2, h3, h4⟩)
    hw he h
  exact ⟨pt, gs, hpt, hgs, by simpa [close] using this⟩

end Lines
end Hocon
