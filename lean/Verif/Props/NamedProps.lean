import Verif.Lemmas.NamedLemmas
import Verif.Props.SourceProps

/-!
# Properties: merged origins name all sources (C90)
-/

set_option autoImplicit false

namespace Hocon
namespace NamedProps
open Spec Notes Files FilesA Named CommentProps PositionProps SourceProps
open PathParser (Syntax)

/-- The description of no origin in the value says twice that it is a merge. -/
def Once (v : AVal) : Prop := ∀ o ∈ origins v,
  ¬ ch "merge of " <+: o.desc ∨ ∃ e, o.desc = ch "merge of " ++ e ∧ ¬ ch "merge of " <+: e

private theorem single_of {v : AVal} (h : Once v) : All Single v := by
  intro o ho
  unfold Single Origin.bareDesc
  rcases h o ho with h | ⟨e, h, he⟩
  · rw [if_neg (by rw [List.isPrefixOf_iff_prefix]; exact h)]
    exact h
  · rw [if_pos (by rw [List.isPrefixOf_iff_prefix, h]; exact List.prefix_append _ _), h]
    exact he

/-- **C90.** If in two configurations (resolved or not) every section names the sources of its settings, so it
does in `a.with_fallback(b)`; and nothing is named that neither `a` nor `b` names. -/
theorem C90_with_fallback (a b c : AVal) (x : Bool) (sa : Once a) (sb : Once b) (ha : Told a) (hb : Told b)
    (h : fallbackA a b = .ok (c, x)) :
    Told c ∧ ∀ d ∈ sourcesIn c.origin.desc, d ∈ sourcesIn a.origin.desc ∨ d ∈ sourcesIn b.origin.desc :=
  fallback_good a b c x (single_of sa) (single_of sb) ha hb h

/-- `v` is what some text without includes says, read under the description `d`. -/
def ReadFrom (env : Env) (d : Str) (v : AVal) : Prop :=
  ∃ (base : Origin) (inc : AIncluder) (fl : Syntax) (s : Str) (n m : Nat), base.desc = d ∧ base.comments = [] ∧
    ¬ ch "merge of " <+: d ∧ (∀ name k x, inc.file name k ≠ .ok x ∧ inc.heuristic name k ≠ .ok x) ∧
    parseTextA env base inc fl s n = .ok (v, m)

private theorem read_same {env : Env} {d : Str} {v : AVal} (h : ReadFrom env d v) :
    All (fun o => o.desc = d) v ∧ ¬ Origin.mergeOf <+: d := by
  obtain ⟨base, inc, fl, s, n, m, rfl, h1, h2, h3, h4⟩ := h
  exact ⟨fun o ho => (C73_positions_partial env base inc fl s n m v h1 h2 h3 h4 o ho).1.desc, h2⟩

private theorem read_single {env : Env} {d : Str} {v : AVal} (h : ReadFrom env d v) : All Single v := by
  obtain ⟨h1, h2⟩ := read_same h
  intro o ho
  have := h1 o ho
  unfold Single Origin.bareDesc
  rw [this, if_neg (by rw [List.isPrefixOf_iff_prefix]; exact h2)]
  exact h2

/-- `v.with_fallback(w1).with_fallback(w2)`... -/
def layered : AVal → List AVal → Res AVal
  | v, [] => .ok v
  | v, w :: ws => fallbackA v w >>= fun r => layered r.1 ws

private theorem layered_told {env : Env} : (ws : List AVal) → (v c : AVal) → All Single v → Told v →
    (∀ w ∈ ws, ∃ d, ReadFrom env d w) → layered v ws = .ok c → Told c
  | [], v, c, _, hv, _, h => by
    simp only [layered, Res.ok.injEq] at h
    exact h ▸ hv
  | w :: ws, v, c, sv, hv, hw, h => by
    simp only [layered, Res.bind_eq_ok] at h
    obtain ⟨⟨u, x⟩, h1, h2⟩ := h
    obtain ⟨d, hd⟩ := hw w (by simp)
    exact layered_told ws u c (closed_single.fallback v w u x sv (read_single hd) h1)
      (fallback_good v w u x sv (read_single hd) hv (told_same w (read_same hd).1) h1).1
      (fun y hy => hw y (by simp [hy])) h2

/-- **C90.** Any number of texts without includes, layered with `with_fallback`: the origin of every section
names the source of every setting in it, at any depth. -/
theorem C90_layers_partial (env : Env) (v c : AVal) (ws : List AVal) (hv : ∃ d, ReadFrom env d v)
    (hw : ∀ w ∈ ws, ∃ d, ReadFrom env d w) (h : layered v ws = .ok c) : Told c := by
  obtain ⟨d, hd⟩ := hv
  exact layered_told ws v c (read_single hd) (told_same v (read_same hd).1) hw h

private theorem between_plain : (d : Str) → ',' ∉ d → between d = [d]
  | [], _ => rfl
  | c :: d, h => by
    simp only [List.mem_cons, not_or] at h
    rw [between, if_neg (Ne.symm h.1), between_plain d h.2]

private theorem sources_plain {d : Str} (h : ',' ∉ d) (hm : ¬ ch "merge of " <+: d) : sourcesIn d = [d] := by
  rw [sourcesIn_bare hm, between_plain d h]

/-- **C90**, told of one setting: the text read under the description `d` (without a comma) has a setting that
is not in `a`; then the description of `a.with_fallback(b)` names `d`. -/
theorem C90_named (env : Env) (d : Str) (o o' : Origin) (fs gs : AFields) (r i r' j : Bool) (c : AVal) (x : Bool)
    (k : Str) (w : AVal) (sa : Once (.obj o fs r i)) (ha : Told (.obj o fs r i))
    (hb : ReadFrom env d (.obj o' gs r' j)) (hd : ',' ∉ d) (hi : i = false)
    (hk : (k, w) ∈ gs) (hn : ∀ f ∈ fs, f.1 ≠ k) (h : fallbackA (.obj o fs r i) (.obj o' gs r' j) = .ok (c, x)) :
    d ∈ sourcesIn c.origin.desc := by
  subst hi
  have hs := read_same hb
  have hg := fallback_good _ _ c x (single_of sa) (read_single hb) ha (told_same _ hs.1) h
  rw [fallbackA.eq_def] at h
  simp only [Bool.false_eq_true, if_false] at h
  rw [if_neg (by simp [AVal.erase, Value.isUnmergeable])] at h
  rw [Res.bind_eq_ok] at h
  obtain ⟨⟨m, chg⟩, hm, h⟩ := h
  have hext : (k, w) ∈ extraA fs gs := by
    refine List.mem_filter.2 ⟨hk, ?_⟩
    simp only [Bool.not_eq_true', List.contains_eq_mem, decide_eq_false_iff_not, List.mem_map, not_exists, not_and]
    exact fun f hf => hn f hf
  have hch : (chg || !(extraA fs gs).isEmpty) = true := by
    cases he : extraA fs gs with
    | nil => rw [he] at hext; cases hext
    | cons => simp
  unfold mergedObjA at h
  simp only [hch, if_true, Res.bind_eq_ok, Res.ok.injEq, Prod.mk.injEq] at h
  obtain ⟨q, _, rfl, _⟩ := h
  cases hg.1 with
  | obj h1 _ =>
    refine h1 (k, w) (List.mem_append_right _ hext) d ?_
    rw [all_origin ((all_obj.1 hs.1).2 (k, w) hk), sources_plain hd hs.2]
    simp

/-! ## The hypotheses are met -/

/-- A text read under a description. -/
def exRead (d t : Str) : Res AVal :=
  Res.mapOk Prod.fst (parseTextA Tokenizer.exEnv { exBase with desc := d } noIncA .conf t 0)

private theorem exRead_from {d t : Str} {v : AVal} (hd : ¬ ch "merge of " <+: d) (h : exRead d t = .ok v) :
    ReadFrom Tokenizer.exEnv d v := by
  unfold exRead at h
  cases hp : parseTextA Tokenizer.exEnv { exBase with desc := d } noIncA .conf t 0 with
  | ok r =>
    rw [hp] at h
    simp only [Res.mapOk] at h
    obtain ⟨u, m⟩ := r
    cases h
    exact ⟨_, noIncA, .conf, t, 0, m, rfl, rfl, hd, fun _ _ _ => ⟨nofun, nofun⟩, hp⟩
  | err => rw [hp] at h; cases h
  | ub => rw [hp] at h; cases h
  | fuel => rw [hp] at h; cases h

/-- Three texts: the section `s` has settings of two of them, the whole settings of all. -/
example : (exRead (ch "A") (ch "s { x : 1 }") >>= fun a => exRead (ch "B") (ch "s { y : ${s.x} }") >>= fun b =>
      exRead (ch "C") (ch "z : 2, s { x : 3 }") >>= fun c => Res.mapOk (fun v => (origins v).map fun o => o.desc)
      (layered a [b, c])) =
    .ok [ch "merge of A,B,C", ch "merge of A,B", ch "A", ch "B", ch "C"] := by decide +kernel

example (v : AVal) (h : exRead (ch "B") (ch "s { y : ${s.x} }") = .ok v) : ReadFrom Tokenizer.exEnv (ch "B") v :=
  exRead_from (by decide) h

/-- The code violates C90 for includes: the settings of an included file stand in a section whose origin names
only the including file. -/
theorem C90_include_violated :
    Res.mapOk (fun v => (v.origin.desc, (origins v).map fun o => o.desc))
      (parseFileAnySyntaxA Tokenizer.exEnv
        (fun f => if f = ch "a.conf" then some (ch "include \"b.conf\"") else if f = ch "b.conf" then some (ch "y : 2")
          else none) (fun v => .ok v) 3 (ch "a.conf") (ParseOptions.defaults (ι := Unit))) =
      .ok (ch "file: a.conf", [ch "file: a.conf", []]) ∧ [] ∉ sourcesIn (ch "file: a.conf") :=
  ⟨by decide +kernel, by decide⟩

end NamedProps
end Hocon
