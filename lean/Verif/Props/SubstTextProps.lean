import Verif.Lemmas.SubstRun
import Verif.Lemmas.ParsedClosed
import Verif.Props.SettleProps
import Verif.Lemmas.ManyAppends

/-!
# Texts with substitutions (C68)

`Spec.SDoc` (Verif/Spec/SubstText.lean) is a grammar of HOCON texts with substitutions, `+=` and values
of several pieces; `Spec.DocMeans` says which settings they stand for, `Spec.Ev`
(Verif/Spec/Settle.lean) which values these settings have once substitutions are resolved.
-/

set_option autoImplicit false

namespace Hocon
namespace SubstTextProps

open Spec ConfigParser Value Resolve

/-- **C68.** Every text of the grammar that has a meaning is accepted and yields exactly the settings it
stands for, whatever the includer. -/
theorem C68_reads_partial (env : Env) (hx : HexOk env) (inc : Includer) (s : Syn) (t : Str) (v : Value) (n m : Nat)
    (h : SDoc env (Numeral env) s t) (hm : DocMeans env s n v m) :
    parseText env inc .conf t n = .ok (v, m) := by
  rw [HoconAccept.sdoc_run env hx inc s t n h]
  exact SubstRun.doc_run hm

/-- **C68**, from the text to the values: parsing and `resolve()` yield the values the settings of the
text stand for. -/
theorem C68_reads_and_resolves_partial (env : Env) (hx : HexOk env) (inc : Includer) (s : Syn) (t : Str) (b : Bool)
    (fs : Fields) (r i : Bool) (R : Value) (m : Nat) (h : SDoc env (Numeral env) s t)
    (hm : DocMeans env s 0 (.obj fs r i) m)
    (he : Ev env (envExt env b) (.obj fs r i) [] (some []) (.obj fs r i) (some R)) :
    ∃ N, ∀ n ≥ N, ((parseText env inc .conf t 0).bind fun v => configResolve env n v.1 ⟨b, false⟩) = .ok (some R) := by
  have hw : (Value.obj fs r i).Wf := by
    refine (closed_wf.built (by intros; simp [Wf]) (by simp [Wf, WfL])).parseText (env := env) (inc := noInc) ?_
      (C68_reads_partial env hx noInc s t _ 0 m h hm)
    rintro name n v m (h | h) <;> cases h
  obtain ⟨N, hN⟩ := C65_resolves_partial hw he
  refine ⟨N, fun n hn => ?_⟩
  rw [C68_reads_partial env hx inc s t _ 0 m h hm]
  exact hN n hn

/-- **C68** does not hold for all texts: an object written over a setting that has several values is
refused if the setting has already an older object, although each half of the text is accepted. (The
parser merges a delayed merge over an object; `config_delayed_merge_object` has no
`merged_with_object`, so that the one of `config_value` throws, config_value.cc 238-246.) -/
theorem C68_object_over_several_violated :
    parseText Tokenizer.exEnv noInc .conf (ch "x={e=1}\na{b{d=1}}\na{b=${x},b{c=1}}") 0 = .err .config ∧
    (∃ v, parseText Tokenizer.exEnv noInc .conf (ch "x={e=1}\na{b{d=1}}") 0 = .ok (v, 0)) ∧
    (∃ v, parseText Tokenizer.exEnv noInc .conf (ch "x={e=1}\na{b=${x},b{c=1}}") 0 = .ok (v, 1)) :=
  ⟨by decide +kernel,
   ⟨.obj [(ch "x", .obj [(ch "e", .scalar (.int 1 (ch "1")))] true false),
     (ch "a", .obj [(ch "b", .obj [(ch "d", .scalar (.int 1 (ch "1")))] true false)] true false)] true false,
    by decide +kernel⟩,
   ⟨.obj [(ch "x", .obj [(ch "e", .scalar (.int 1 (ch "1")))] true false),
     (ch "a", .obj [(ch "b", .dmo [.obj [(ch "c", .scalar (.int 1 (ch "1")))] true false,
       .ref 0 [ch "x"] false 0])] false false)] false false, by decide +kernel⟩⟩

/-! ## C66: appending more than twice -/

/-- **C66** does not hold, in general: a setting of the configuration to which more than two values have been
appended (`ps`, `qs` and `us` are the newest, each a substitution for the setting itself and what is appended)
makes `resolve()` fail, whatever the values, the other settings and the options are. -/
theorem C66_appends_violated (env : Env) (fs : Fields) (i : Bool) (k : Str) (id : Nat) (opt : Bool)
    (ps qs us more : List Value) (v0 : Value) (hn : (fs.map Prod.fst).Nodup)
    (hf : (k, .dm (.concat ps :: .concat qs :: .concat us :: v0 :: more)) ∈ fs)
    (hu : ∀ k' v, (k', v) ∈ fs → v = .dm (.concat ps :: .concat qs :: .concat us :: v0 :: more) → k' = k)
    (hp : .ref id [k] opt 0 ∈ ps) (n : Nat) (o : Options) (w : Option Value) :
    configResolve env n (.obj fs false i) o ≠ .ok w := many_appends hn hf hu hp n o w

theorem joins_piece {env : Env} {vs ws : List Value} (h : Joins env vs ws) : ∀ w ∈ ws, Piece w := by
  induction h with
  | one h => simpa using h
  | text _ _ _ ih => exact ih
  | lists _ ih => exact ih
  | objects _ _ ih => exact ih
  | apart h _ _ _ ih =>
    intro w hw
    rcases List.mem_cons.1 hw with rfl | hw
    · exact h
    · exact ih w hw

theorem means_given {env : Env} {s : Syn} {n m : Nat} {v : Value} (h : Means env s n v m) : given v ≠ [] := by
  cases h with
  | whole _ _ h =>
    have := joins_piece h v (by simp)
    cases v <;> simp_all [Piece, given]
  | _ => simp [given]

theorem lay_concat {ps : List Value} {old w : Value} (h : Lay (.concat ps) old w) : w = .dm (.concat ps :: given old) := by
  cases h with
  | hide h => cases h
  | wait _ => rfl

theorem appends_means {env : Env} {k : Str} : {xs : List Syn} → {old : Value} → {n m : Nat} → {fs : Fields} →
    MeansM env true (xs.map fun x => ([k], true, x)) [(k, old)] n fs m → ∃ st w, fs = [(k, w)] ∧
      given w = st ++ given old ∧ (xs ≠ [] → w = .dm (st ++ given old)) ∧ st.length = xs.length ∧
      ∀ v ∈ st, ∃ id ps, v = .concat ps ∧ .ref id [k] true 0 ∈ ps
  | [], old, n, m, fs, h => by
    cases h
    exact ⟨[], old, rfl, rfl, by simp, rfl, by simp⟩
  | x :: xs, old, n, m, fs, h => by
    cases h with
    | @add _ _ v _ _ gs _ _ m' _ h1 h2 h3 =>
      have hg : gs = [(k, .dm (.concat [.ref m' [k] true 0, .list [v]] :: given old))] := by
        generalize hfs : [(k, old)] = es at h2
        cases h2 with
        | new hnew =>
          subst hfs
          exact absurd rfl (hnew (k, old) (by simp))
        | @old fs' gs' _ _ _ old' w hno hlay =>
          cases fs' with
          | nil =>
            simp only [List.nil_append, List.cons.injEq, Prod.mk.injEq] at hfs
            obtain ⟨⟨_, rfl⟩, rfl⟩ := hfs
            rw [lay_concat hlay]
            rfl
          | cons f fs' => simp at hfs
      subst hg
      obtain ⟨st, w, g1, g2, g3, g4, g5⟩ := appends_means h3
      refine ⟨st ++ [.concat [.ref m' [k] true 0, .list [v]]], w, g1, ?_, ?_, by simp [g4], ?_⟩
      · rw [g2]; simp [given]
      · intro _
        cases xs with
        | nil =>
          have h0 := List.length_eq_zero_iff.1 g4
          subst h0
          cases h3
          simp only [List.cons.injEq, Prod.mk.injEq, and_true, true_and] at g1
          rw [← g1]
          rfl
        | cons y ys =>
          rw [g3 (by simp)]
          simp [given]
      · intro u hu
        rcases List.mem_append.1 hu with hu | hu
        · exact g5 u hu
        · rw [List.mem_singleton.1 hu]
          exact ⟨m', _, rfl, by simp⟩

/-- **C66** does not hold, in general: a text `k = v` followed by three or more `k += x` does not resolve,
whatever the values are. -/
theorem C66_text_violated (env : Env) (hx : HexOk env) (inc : Includer) (k : Str) (s : Syn) (xs : List Syn) (t : Str)
    (v : Value) (m : Nat) (h3 : 3 ≤ xs.length)
    (h : SDoc env (Numeral env) (.obj (([k], false, s) :: xs.map fun x => ([k], true, x))) t)
    (hm : DocMeans env (.obj (([k], false, s) :: xs.map fun x => ([k], true, x))) 0 v m) (n : Nat) (o : Options)
    (w : Option Value) : ((parseText env inc .conf t 0).bind fun r => configResolve env n r.1 o) ≠ .ok w := by
  rw [C68_reads_partial env hx inc _ t v 0 m h hm]
  cases hm with
  | @obj _ fs _ _ hm =>
    cases hm with
    | @set _ _ _ v0 _ _ gs _ _ m' _ h1 h2 h4 =>
      have hg : gs = [(k, v0)] := by
        generalize hfs : ([] : List (Str × Value)) = es at h2
        cases h2 with
        | new _ => subst hfs; rfl
        | old _ _ => simp at hfs
      subst hg
      obtain ⟨st, w', g1, g2, g3, g4, g5⟩ := appends_means h4
      subst g1
      match st, g4, g5, g3 with
      | a :: b :: c :: st, _, g5, g3 =>
        obtain ⟨i1, p1, rfl, r1⟩ := g5 a (by simp)
        obtain ⟨i2, p2, rfl, _⟩ := g5 b (by simp)
        obtain ⟨i3, p3, rfl, _⟩ := g5 c (by simp)
        have hw' := g3 (by rintro rfl; simp at h3)
        obtain ⟨y, ys, hy⟩ : ∃ y ys, st ++ given v0 = y :: ys := by
          cases hq : st ++ given v0 with
          | cons y ys => exact ⟨y, ys, rfl⟩
          | nil =>
            exact absurd (List.append_eq_nil_iff.1 hq).2 (means_given h1)
        have hw2 : w' = .dm (.concat p1 :: .concat p2 :: .concat p3 :: y :: ys) := by
          rw [hw', ← hy]; rfl
        subst hw2
        exact many_appends (by simp [keysOf]) (List.mem_singleton.2 rfl) (by simp) r1 n o w
      | [], g4, _, _ => simp at g4; omega
      | [a], g4, _, _ => simp at g4; omega
      | [a, b], g4, _, _ => simp at g4; omega

/-! ## The hypotheses are met -/

/-- A document with `+=`, several pieces, a repeated setting and an object put over a substitution. -/
def exText : Str := ch "a=[p]\na=${a} [q]\nb.c += x ${?v}\ne=${b}\ne{f=r}"

/-- A word. -/
def exWord (t : Str) : Syn := .scalar (.str t false)

/-- Its syntax. -/
def exSyn : Syn := .obj [
  ([ch "a"], false, .list [exWord (ch "p")]),
  ([ch "a"], false, .concat [.ref [ch "a"] false, .list [exWord (ch "q")]]),
  ([ch "b", ch "c"], true, .concat [exWord (ch "x"), exWord (ch " "), .ref [ch "v"] true]),
  ([ch "e"], false, .ref [ch "b"] false),
  ([ch "e"], false, .obj [([ch "f"], false, exWord (ch "r"))])]

/-- Its settings. -/
def exFields : Fields :=
  [(ch "a", .dm [.concat [.ref 0 [ch "a"] false 0, .list [exStr (ch "q")]], .list [exStr (ch "p")]]),
   (ch "b", .obj [(ch "c", .concat [.ref 2 [ch "b", ch "c"] true 0,
      .list [.concat [.scalar (.str (ch "x ") true), .ref 1 [ch "v"] true 0]]])] false false),
   (ch "e", .dmo [.obj [(ch "f", exStr (ch "r"))] true false, .ref 3 [ch "b"] false 0])]

example : SDoc Tokenizer.exEnv (Numeral Tokenizer.exEnv) exSyn exText := by
  have word : ∀ t, (t = ch "p" ∨ t = ch "q" ∨ t = ch "x" ∨ t = ch "r") → Word t := by
    rintro t (rfl | rfl | rfl | rfl) <;>
    exact ⟨by decide, by unfold WordChar; decide, by decide, by decide, by unfold JDigit; decide, by decide, by decide, by decide⟩
  have bare : ∀ t : Str, (t = ch "a" ∨ t = ch "b" ∨ t = ch "c" ∨ t = ch "v" ∨ t = ch "e" ∨ t = ch "f") → t ≠ [] ∧
      (∀ c ∈ t, WordChar c ∧ c ≠ '.' ∧ c ≠ '/') ∧ WordStart t ∧ t ≠ ch "include" := by
    rintro t (rfl | rfl | rfl | rfl | rfl | rfl) <;>
    exact ⟨by decide, by unfold WordChar; decide, ⟨by unfold JDigit; decide, by decide, by decide, by decide⟩, by decide⟩
  have key : ∀ t : Str, (t = ch "a" ∨ t = ch "b" ∨ t = ch "c" ∨ t = ch "v" ∨ t = ch "e" ∨ t = ch "f") →
      HKey Tokenizer.exEnv [t] t := fun t h => ⟨.bare (bare t h).1 (bare t h).2.1, (bare t h).2.2.1, (bare t h).2.2.2⟩
  have sp : ∀ {g}, HGap g → HGap (' ' :: g) := fun h => .blank (Or.inl rfl) h
  have nl : HSep (ch "\n") := .newline (.newline .nil) (by decide)
  refine .open_ (g := []) (t := exText) (l := []) .nil ?_ (.gap .nil)
  refine .memberCons (t := ch "a=[p]") (s := ch "\n") (u := ch "a=${a} [q]\nb.c += x ${?v}\ne=${b}\ne{f=r}") ?_ nl
    (.memberCons (t := ch "a=${a} [q]") (s := ch "\n") (u := ch "b.c += x ${?v}\ne=${b}\ne{f=r}") ?_ nl
    (.memberCons (t := ch "b.c += x ${?v}") (s := ch "\n") (u := ch "e=${b}\ne{f=r}") ?_ nl
    (.memberCons (t := ch "e=${b}") (s := ch "\n") (u := ch "e{f=r}") ?_ nl (.last ?_))))
  · refine .field (kt := ch "a") (g1 := []) (c := '=') (g2 := []) (t := ch "[p]") (key _ (by simp)) .nil (by decide) .nil ?_
    exact .arr (g := []) (t := ch "p") (e := []) .nil (.elem (.atom (.word (word _ (by simp))))) (.gap .nil)
  · refine .field (kt := ch "a") (g1 := []) (c := '=') (g2 := []) (t := ch "${a} [q]") (key _ (by simp)) .nil (by decide) .nil ?_
    refine .concat ?_ (by decide)
    refine .apart (t := ch "${a}") (w := ch " ") (u := ch "[q]") (.subst (.required (t := ch "a") (key _ (by simp)).segs
      (key (ch "a") (by simp)).start)) rfl (by decide) (by unfold HBlank; decide) (.piece ?_ rfl) (Or.inr rfl)
    exact .arr (g := []) (t := ch "q") (e := []) .nil (.elem (.atom (.word (word _ (by simp))))) (.gap .nil)
  · refine .plus (kt := ch "b.c") (g1 := ch " ") (g2 := ch " ") (t := ch "x ${?v}") ⟨.bareCons (t := ch "b") (bare _ (by simp)).1
      (bare _ (by simp)).2.1 (.bare (bare _ (by simp)).1 (bare _ (by simp)).2.1), ⟨by unfold JDigit; decide, by decide, by decide, by decide⟩,
        by decide⟩ (sp .nil) (sp .nil) ?_
    refine .concat ?_ (by decide)
    exact .blank (t := ch "x") (w := ch " ") (u := ch "${?v}") (.atom (.word (word _ (by simp)))) rfl (by decide)
      (by unfold HBlank; decide) (.piece (.subst (.optional (t := ch "v") (key _ (by simp)).segs (key (ch "v") (by simp)).start)) rfl) rfl
  · exact .field (kt := ch "e") (g1 := []) (c := '=') (g2 := []) (t := ch "${b}") (key _ (by simp)) .nil (by decide) .nil
      (.subst (.required (t := ch "b") (key _ (by simp)).segs (key (ch "b") (by simp)).start))
  · refine .sect (kt := ch "e") (g := []) (t := ch "f=r}") (key _ (by simp)) .nil ?_
    refine .obj (g := []) (t := ch "f=r") (e := []) .nil (.last ?_) (.gap .nil)
    exact .field (kt := ch "f") (g1 := []) (c := '=') (g2 := []) (t := ch "r") (key _ (by simp)) .nil (by decide) .nil
      (.atom (.word (word _ (by simp))))

example : DocMeans Tokenizer.exEnv exSyn 0 (.obj exFields false false) 4 := by
  refine DocMeans.obj (fs := exFields) ?_
  refine .set (n := 0) (m := 0) (v := .list [exStr (ch "p")]) (.list (.cons .scalar .nil)) (.new (by simp)) ?_
  refine .set (m := 1) (v := .concat [.ref 0 [ch "a"] false 0, .list [exStr (ch "q")]])
    (.pieces (.cons .ref (.cons (.list (.cons .scalar .nil)) .nil))
      (.apart trivial trivial (Or.inl trivial) (.one trivial)) (by decide)) (.old (fs := []) (gs := []) (by simp) (.wait .concat)) ?_
  refine .add (m := 2) (v := .concat [.scalar (.str (ch "x ") true), .ref 1 [ch "v"] true 0])
    (.pieces (.cons .scalar (.cons .scalar (.cons .ref .nil)))
      (.text (by decide) (by decide) (.apart trivial trivial (Or.inr trivial) (.one trivial))) (by decide)) (.new (by decide)) ?_
  refine .set (m := 4) (v := .ref 3 [ch "b"] false 0) .ref (.new (by decide)) ?_
  refine .set (m := 4) (v := .obj [(ch "f", exStr (ch "r"))] true false) (.obj (.set .scalar (.new (by simp)) .nil)) ?_ .nil
  exact .old (fs := exFields.take 2) (gs := []) (by decide) (.waitO trivial (by simp [given, Sole, nested]))

/-- Its values are defined as well. -/
example : settled 40 exText = .ok (some (.obj
    [(ch "a", .list [exStr (ch "p"), exStr (ch "q")]),
     (ch "b", .obj [(ch "c", .list [.scalar (.str (ch "x ") true)])] true false),
     (ch "e", .obj [(ch "f", exStr (ch "r")), (ch "c", .list [.scalar (.str (ch "x ") true)])] true false)] true false)) := by
  decide +kernel

/-- The hypotheses of `C66_text_violated`. -/
example : SDoc Tokenizer.exEnv (Numeral Tokenizer.exEnv) (.obj (([ch "a"], false, .list [exWord (ch "p")]) ::
      [exWord (ch "q"), exWord (ch "q"), exWord (ch "q")].map fun x => ([ch "a"], true, x))) (ch "a=[p]\na+=q\na+=q\na+=q") ∧
    ∃ v, DocMeans Tokenizer.exEnv (.obj (([ch "a"], false, .list [exWord (ch "p")]) ::
      [exWord (ch "q"), exWord (ch "q"), exWord (ch "q")].map fun x => ([ch "a"], true, x))) 0 v 3 := by
  have word : ∀ t, (t = ch "p" ∨ t = ch "q") → Word t := by
    rintro t (rfl | rfl) <;>
    exact ⟨by decide, by unfold WordChar; decide, by decide, by decide, by unfold JDigit; decide, by decide, by decide, by decide⟩
  have key : HKey Tokenizer.exEnv [ch "a"] (ch "a") :=
    ⟨.bare (by decide) (by unfold WordChar; decide), ⟨by unfold JDigit; decide, by decide, by decide, by decide⟩, by decide⟩
  have nl : HSep (ch "\n") := .newline (.newline .nil) (by decide)
  have plus : SText Tokenizer.exEnv (Numeral Tokenizer.exEnv) (.member ([ch "a"], true, exWord (ch "q"))) (ch "a+=q") :=
    .plus (kt := ch "a") (g1 := []) (g2 := []) (t := ch "q") key .nil .nil (.atom (.word (word _ (by simp))))
  constructor
  · refine .open_ (g := []) (t := ch "a=[p]\na+=q\na+=q\na+=q") (l := []) .nil ?_ (.gap .nil)
    refine .memberCons (t := ch "a=[p]") (s := ch "\n") (u := ch "a+=q\na+=q\na+=q") ?_ nl
      (.memberCons (t := ch "a+=q") (s := ch "\n") (u := ch "a+=q\na+=q") plus nl
      (.memberCons (t := ch "a+=q") (s := ch "\n") (u := ch "a+=q") plus nl (.last plus)))
    refine .field (kt := ch "a") (g1 := []) (c := '=') (g2 := []) (t := ch "[p]") key .nil (by decide) .nil ?_
    exact .arr (g := []) (t := ch "p") (e := []) .nil (.elem (.atom (.word (word _ (by simp))))) (.gap .nil)
  · exact ⟨_, .obj (.set (.list (.cons .scalar .nil)) (.new (by simp))
      (.add .scalar (.old (fs := []) (gs := []) (by simp) (.wait .concat))
      (.add .scalar (.old (fs := []) (gs := []) (by simp) (.wait .concat))
      (.add .scalar (.old (fs := []) (gs := []) (by simp) (.wait .concat)) .nil))))⟩

end SubstTextProps
end Hocon
