import Verif.Props.SourceProps
import Verif.Props.StatusProps
import Verif.Props.NamedProps
import Verif.Lemmas.ResolveTarget

/-!
# Resolving and origins (C91, C92)
-/

set_option autoImplicit false

namespace Hocon
namespace ResolveOriginProps

open Spec Notes Files FilesA ResolveA SourceProps

/-! ## C91: resolving makes up no origins, and does not look at them -/

/-- **C91.** Origins have no influence on `resolve` and `resolve_with`: the values, and whether there is an
error, are those of the configurations without origins. -/
theorem C91_values (env : Env) (n : Nat) (self source : AVal) (o : Resolve.Options) :
    Res.mapOk (Option.map AVal.erase) (configResolveWithA env n self source o)
      = Resolve.configResolveWith env n self.erase source.erase o := configResolveWithA_erase env n self source o

/-- **C91.** The origins of what `resolve_with` gives: they have lines of the sources of the two
configurations, with comments of these, or no line and the names of several of them; the variables of the
environment are sources without lines. -/
theorem C91_origins (env : Env) (fs : FS) (own : List (Str × Str)) (hd : ∀ e ∈ own, ¬ Origin.mergeOf <+: e.1)
    (n : Nat) (self source w : AVal) (o : Resolve.Options)
    (h1 : ∀ x ∈ origins self, FromSources (withIncludes env fs own) x)
    (h2 : ∀ x ∈ origins source, FromSources (withIncludes env fs own) x)
    (h : configResolveWithA env n self source o = .ok (some w)) :
    ∀ x ∈ origins w, FromSources (withIncludes env fs own) x := by
  refine configResolveWithA_all (closed_sources (withIncludes_ok hd)) ?_ ?_ h1 h2 h
  · exact ⟨Or.inr ⟨rfl, rfl, _, .one (Or.inr (Or.inr (Or.inl ⟨rfl, rfl⟩))), Or.inl rfl⟩, by simp [FilesA.source]⟩
  · intro k x hk
    exact ⟨Or.inr ⟨rfl, rfl, _, .one (Or.inr (Or.inr (Or.inr ⟨rfl, k, x, hk, rfl⟩))), Or.inl rfl⟩,
      by simp [envOrigin, FilesA.source]⟩

/-- **C91.** A text that is parsed and resolved. -/
theorem C91_string {ι : Type} (env : Env) (fs : FS) (m fuel n : Nat) (s : Str) (o : ParseOptions ι)
    (ro : Resolve.Options) (v w : AVal) (hd : ¬ Origin.mergeOf <+: o.originDescription.getD (ch "string"))
    (h : parseStringA env fs (fileResolveA env m) fuel s o = .ok v) (hw : configResolveA env n v ro = .ok (some w)) :
    ∀ x ∈ origins w, FromSources (withIncludes env fs [(o.originDescription.getD (ch "string"), s)]) x := by
  have hv := C86_string_partial env fs m fuel s o v hd h
  exact C91_origins env fs _ (by simpa using hd) n v v w ro hv hv hw

/-- **C91.** The comments of a text without includes that is parsed and resolved are comments of the text. -/
theorem C91_comments (env : Env) (base : Origin) (inc : AIncluder) (fl : PathParser.Syntax) (s : Str) (k m n : Nat)
    (ro : Resolve.Options) (v w : AVal) (hc : base.comments = []) (hbase : ¬ Origin.mergeOf <+: base.desc)
    (hi : ∀ name k x, inc.file name k ≠ .ok x ∧ inc.heuristic name k ≠ .ok x)
    (h : parseTextA env base inc fl s k = .ok (v, m)) (hw : configResolveA env n v ro = .ok (some w)) :
    ∀ o ∈ origins w, ∀ c ∈ o.comments, CommentIn s c := by
  have hv := PositionProps.C73_positions_partial env base inc fl s k m v hc hbase hi h
  have hv' : All (fun o => ∀ c ∈ o.comments, CommentIn s c) v := fun o ho => (hv o ho).2.1
  refine configResolveWithA_all (PositionProps.closed_comments (CommentIn s)) ?_ ?_ hv' hv' hw
  · simp [FilesA.source]
  · simp [envOrigin, FilesA.source]

/-! ## C92: what a setting gets by substitution -/

/-- What is set at a path, after `resolve_with`. -/
theorem resolveWith_at {env : Env} {n : Nat} {self source w x : AVal} {q : Path} {o : Resolve.Options}
    (h1 : StatusProps.Good self.erase) (hq : SetAt self q x)
    (h : configResolveWithA env n self source o = .ok (some w)) :
    (peekPathA w q = .ok (some x) ∧ ¬ HasSubst x.erase) ∨ ∃ n' c1 s1 c2 y, c1.restr = [] ∧ s1.root = some source ∧
        resolveNA env n' c1 s1 x = .ok (c2, y) ∧ peekPathA w q = .ok y := by
  unfold configResolveWithA resolveTopA at h
  obtain ⟨r, h3, h⟩ := bokA h
  obtain ⟨y, h4, h3⟩ := bokA h3
  simp only [Res.ok.injEq] at h3 h
  subst h3
  obtain ⟨w', g1, g2, g3⟩ := resolve_at hq (Resolve.live_spec.2 h1) n ⟨o, [], []⟩ ⟨some source, []⟩ y rfl h4
  rw [g1] at h
  simp only [Option.bind_some, asObjectA, g2, if_true, Option.some.injEq] at h
  exact h ▸ g3

/-- **C92 (`resolve_with`).** A setting that is a substitution for a setting of the source without
substitutions, directly or through others, is that setting afterwards: the same value with the same origin, so
the same file, lines and comments. -/
theorem C92_resolve_with_partial (env : Env) (n : Nat) (self source w x t : AVal) (q : Path) (o : Resolve.Options)
    (h1 : StatusProps.Good self.erase) (h2 : StatusProps.Good source.erase) (hq : SetAt self q x)
    (hx : Leads source x t) (h : configResolveWithA env n self source o = .ok (some w)) :
    peekPathA w q = .ok (some t) := by
  rcases resolveWith_at h1 hq h with ⟨_, g⟩ | ⟨n', c1, s1, c2, y, _, g2, g3, g4⟩
  · exact absurd (leads_subst hx) g
  · rw [g4, ref_leads hx (Resolve.live_spec.2 h2) n' c1 s1 c2 y g2 g3]

/-- **C92 (what is kept).** A setting without substitutions stays as it is, with its origin and those of all its
parts. -/
theorem C92_plain_kept (env : Env) (n : Nat) (self source w x : AVal) (q : Path) (o : Resolve.Options)
    (h1 : StatusProps.Good self.erase) (hq : SetAt self q x) (hx : ¬ HasSubst x.erase)
    (h : configResolveWithA env n self source o = .ok (some w)) : peekPathA w q = .ok (some x) := by
  rcases resolveWith_at h1 hq h with ⟨g, _⟩ | ⟨n', c1, s1, c2, y, _, g2, g3, g4⟩
  · exact g
  · rcases resolveNA_plain (env := env) (setAt_live hq (Resolve.live_spec.2 h1)) hx n' c1 s1 with g | g
    · rw [g] at g3; simp at g3
    · rw [g] at g3
      cases g3
      exact g4

/-- **C92 (what is kept).** A section stays a section with its origin. -/
theorem C92_section_kept (env : Env) (n : Nat) (self source w : AVal) (q : Path) (o : Resolve.Options)
    (ox : Origin) (fs : List (Str × AVal)) (r i : Bool) (h1 : StatusProps.Good self.erase)
    (hq : SetAt self q (.obj ox fs r i)) (h : configResolveWithA env n self source o = .ok (some w)) :
    ∃ gs r', peekPathA w q = .ok (some (.obj ox gs r' i)) := by
  rcases resolveWith_at h1 hq h with ⟨g, _⟩ | ⟨n', c1, s1, c2, y, g1, g2, g3, g4⟩
  · exact ⟨_, _, g⟩
  · rcases resolve_obj (setAt_live hq (Resolve.live_spec.2 h1)) g1 g3 with ⟨_, g⟩ | ⟨gs, b, g, _⟩
    · exact ⟨_, _, by rw [g4]; exact congrArg _ g⟩
    · exact ⟨_, _, by rw [g4]; exact congrArg _ g⟩

/-- **C92 (what is kept).** A list stays a list with its origin. -/
theorem C92_list_kept (env : Env) (n : Nat) (self source w : AVal) (q : Path) (o : Resolve.Options)
    (ox : Origin) (vs : List AVal) (h1 : StatusProps.Good self.erase)
    (hq : SetAt self q (.list ox vs)) (h : configResolveWithA env n self source o = .ok (some w)) :
    ∃ ws, peekPathA w q = .ok (some (.list ox ws)) := by
  rcases resolveWith_at h1 hq h with ⟨g, _⟩ | ⟨n', c1, s1, c2, y, g1, g2, g3, g4⟩
  · exact ⟨_, g⟩
  · obtain ⟨ws, g⟩ := resolve_list g3
    exact ⟨_, by rw [g4]; exact congrArg _ g⟩

/-- The origin of the whole configuration stays. -/
theorem C92_root_kept (env : Env) (n : Nat) (source w : AVal) (o : Resolve.Options)
    (ox : Origin) (fs : List (Str × AVal)) (r i : Bool) (h1 : StatusProps.Good (AVal.obj ox fs r i).erase)
    (h : configResolveWithA env n (.obj ox fs r i) source o = .ok (some w)) : w.origin = ox := by
  unfold configResolveWithA resolveTopA at h
  obtain ⟨y, h3, h⟩ := bokA h
  obtain ⟨z, h4, h3⟩ := bokA h3
  simp only [Res.ok.injEq] at h3 h
  subst h3
  rcases resolve_obj (Resolve.live_spec.2 h1) rfl h4 with ⟨_, g⟩ | ⟨gs, b, g, _⟩
  all_goals
    rw [g] at h
    simp only [Option.bind_some, asObjectA, AVal.erase, Value.isObject, if_true, Option.some.injEq] at h
    rw [← h]
    rfl

theorem parsed_good {ι : Type} {env : Env} {fs : FS} {m fuel : Nat} {s : Str} {o : ParseOptions ι} {v : AVal}
    (h : parseStringA env fs (fileResolveA env m) fuel s o = .ok v) : StatusProps.Good v.erase := by
  have he := C86_string_values env fs m fuel s o o.originDescription
  have ho : o.setOriginDescription o.originDescription = o := rfl
  rw [ho, h] at he
  exact StatusProps.C69_entry_points_partial env fs m ⟨true, true⟩ fuel s o v.erase (Or.inl he.symm)

/-- **C92.** The same for a text that is parsed and resolved. -/
theorem C92_string_partial {ι : Type} (env : Env) (fs : FS) (m fuel n : Nat) (s : Str) (o : ParseOptions ι)
    (ro : Resolve.Options) (v w x t : AVal) (q : Path)
    (h : parseStringA env fs (fileResolveA env m) fuel s o = .ok v) (hq : SetAt v q x) (hx : Leads v x t)
    (hw : configResolveA env n v ro = .ok (some w)) : peekPathA w q = .ok (some t) :=
  C92_resolve_with_partial env n v v w x t q ro (parsed_good h) (parsed_good h) hq hx hw

/-- The text of the examples. -/
def exText : Str := ch "# one\na : 1\ns {\n  # two\n  b : ${c}\n}\nc : ${?a}"

/-- The settings of the text after `resolve`. -/
def exAt (p : Path) : Res (Option (Value × Origin)) :=
  parseStringA Tokenizer.exEnv (fun _ => none) (fileResolveA Tokenizer.exEnv 9) 3 exText (ParseOptions.defaults (ι := Unit)) >>=
    fun v => configResolveA Tokenizer.exEnv 9 v ⟨true, false⟩ >>= fun w =>
      match w with
      | none => .ok none
      | some w => peekPathA w p >>= fun y => .ok (y.map fun y => (y.erase, y.origin))

/-- `s.b` leads to `a` through `c`: it has the line and the comment of `a`. The comment written above `b` is
lost. -/
example : exAt [ch "s", ch "b"] = exAt [ch "a"] ∧ exAt [ch "a"] =
    .ok (some (.scalar (.int 1 (ch "1")), { FilesA.source (ch "string") with line := 2, endLine := 2, comments := [ch " one"] })) :=
  ⟨by decide +kernel, by decide +kernel⟩

/-- The first line of the text. -/
def exLine : Origin := { FilesA.source (ch "string") with line := 1, endLine := 1 }

/-- What the parser makes of `b=${c},c=${?a},a=1`. -/
def exTree : AVal := .obj exLine [(ch "b", .ref exLine 0 [ch "c"] false 0), (ch "c", .ref exLine 1 [ch "a"] true 0),
  (ch "a", .scalar exLine (.int 1 (ch "1")))] false false

/-- The hypotheses are met by a parsed text. -/
example : parseStringA Tokenizer.exEnv (fun _ => none) (fileResolveA Tokenizer.exEnv 9) 3 (ch "b=${c},c=${?a},a=1")
      (ParseOptions.defaults (ι := Unit)) = .ok exTree ∧
    SetAt exTree [ch "b"] (.ref exLine 0 [ch "c"] false 0) ∧
    Leads exTree (.ref exLine 0 [ch "c"] false 0) (.scalar exLine (.int 1 (ch "1"))) ∧
    (configResolveA Tokenizer.exEnv 9 exTree ⟨true, false⟩).isOk := by
  refine ⟨?_, .last (.head _), ?_, by decide +kernel⟩
  · rfl
  refine .next (.last (.tail _ (.head _))) (.last (.last (.tail _ (.tail _ (.head _)))) ?_)
  rintro ⟨_, _, _, _, h⟩
  nomatch h

/-- Resolving breaks C90: of the layers `A` and `B` the section `s` has after `resolve` a setting that comes from
`B`, but its origin, which `resolve` keeps (`C92_section_kept`), names only `A`. -/
theorem C90_resolve_violated :
    (NamedProps.exRead (ch "A") (ch "s { x : ${y} }") >>= fun a => NamedProps.exRead (ch "B") (ch "y : 1") >>=
      fun b => NamedProps.layered a [b] >>= fun v => configResolveA Tokenizer.exEnv 9 v ⟨true, false⟩ >>= fun w =>
        .ok (w.map fun w => (origins w).map fun o => o.desc)) =
      .ok (some [ch "merge of A,B", ch "A", ch "B", ch "B"]) ∧ ch "B" ∉ sourcesIn (ch "A") :=
  ⟨by decide +kernel, by decide⟩

end ResolveOriginProps
end Hocon
