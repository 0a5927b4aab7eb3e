import Verif.IncludeNotes
import Verif.Spec.Sources
import Verif.Props.PositionProps
import Verif.Lemmas.ResolveErase
import Verif.Lemmas.ResolveOrigins

/-!
# The origins of what was read from files (C86)

`Spec.FromSources` says what it means that an origin tells where a value comes from.
-/

set_option autoImplicit false

namespace Hocon
namespace SourceProps

open Spec Notes Files FilesA PositionProps
open ResolveA (fileResolveA)
open PathParser (Syntax)

/-! ## Merging origins of several sources -/

theorem comma_free : ',' ∉ Origin.mergeOf := by decide

theorem joined_bare {src : Sources} (hsrc : ∀ d s, src d s → ¬ Origin.mergeOf <+: d) {d : Str} (h : Joined src d) :
    ¬ Origin.mergeOf <+: d := by
  induction h with
  | one h => exact hsrc _ _ h
  | @two a b _ _ ih _ =>
    intro hp
    rcases List.prefix_or_prefix_of_prefix hp (List.prefix_append (a ++ ch ",") b) with h | h
    · rcases List.prefix_concat_iff.1 h with h | h
      · exact comma_free (h ▸ by simp)
      · exact ih h
    · exact comma_free (h.subset (by simp))

theorem bare_of_not {o : Origin} (h : ¬ Origin.mergeOf <+: o.desc) : o.bareDesc = o.desc := by
  unfold Origin.bareDesc
  rw [if_neg]
  rwa [List.isPrefixOf_iff_prefix]

theorem bare_of_merge {o : Origin} {d : Str} (h : o.desc = ch "merge of " ++ d) : o.bareDesc = d := by
  have h : o.desc = Origin.mergeOf ++ d := h
  unfold Origin.bareDesc
  rw [if_pos, h]
  · simp
  · rw [List.isPrefixOf_iff_prefix, h]
    exact List.prefix_append _ _

theorem place_bare {src : Sources} (hsrc : ∀ d s, src d s → ¬ Origin.mergeOf <+: d) {o : Origin}
    (h : Within src o ∨ OfSeveral src o) : Joined src o.bareDesc := by
  rcases h with ⟨_, _, s, h, _⟩ | ⟨_, _, d, hd, h | h⟩
  · rw [bare_of_not (hsrc _ _ h)]
    exact .one h
  · rw [bare_of_not (h ▸ joined_bare hsrc hd), h]
    exact hd
  · rw [bare_of_merge h]
    exact hd

theorem within_bare {src : Sources} (hsrc : ∀ d s, src d s → ¬ Origin.mergeOf <+: d) {o : Origin}
    (h : Within src o) : o.bareDesc = o.desc := by
  obtain ⟨_, _, s, h, _⟩ := h
  exact bare_of_not (hsrc _ _ h)

theorem place_merge {src : Sources} (hsrc : ∀ d s, src d s → ¬ Origin.mergeOf <+: d) {a b : Origin}
    (ha : Within src a ∨ OfSeveral src a) (hb : Within src b ∨ OfSeveral src b) :
    Within src (Origin.mergeTwo a b) ∨ OfSeveral src (Origin.mergeTwo a b) := by
  have ja := place_bare hsrc ha
  have jb := place_bare hsrc hb
  by_cases he : a.bareDesc = b.bareDesc
  · rcases ha with ha | ha <;> rcases hb with hb | hb
    · have ea := within_bare hsrc ha
      have eb := within_bare hsrc hb
      obtain ⟨a1, a2, s, a3, a4⟩ := ha
      obtain ⟨b1, b2, t, b3, b4⟩ := hb
      left
      refine ⟨?_, ?_, ?_⟩
      · simp only [Origin.mergeTwo, he, if_true, Origin.startLine]
        split
        · omega
        · split <;> omega
      · simp only [Origin.mergeTwo, he, if_true, Origin.startLine]
        split
        · omega
        · split <;> omega
      · simp only [Origin.mergeTwo, he, if_true]
        by_cases h : a.endLine ≤ b.endLine
        · exact ⟨t, eb ▸ b3, by omega⟩
        · exact ⟨s, by rw [← he, ea]; exact a3, by omega⟩
    · have ea := within_bare hsrc ha
      obtain ⟨a1, a2, s, a3, a4⟩ := ha
      obtain ⟨b1, b2, _⟩ := hb
      left
      refine ⟨?_, ?_, s, ?_, ?_⟩
      · simp only [Origin.mergeTwo, he, if_true, Origin.startLine]
        split
        · omega
        · split <;> omega
      · simp only [Origin.mergeTwo, he, if_true, Origin.startLine]
        split
        · omega
        · split <;> omega
      · simp only [Origin.mergeTwo, he, if_true]
        rw [← he, ea]; exact a3
      · simp only [Origin.mergeTwo, he, if_true]
        omega
    · have eb := within_bare hsrc hb
      obtain ⟨b1, b2, s, b3, b4⟩ := hb
      obtain ⟨a1, a2, _⟩ := ha
      left
      refine ⟨?_, ?_, s, ?_, ?_⟩
      · simp only [Origin.mergeTwo, he, if_true, Origin.startLine]
        split
        · omega
        · split <;> omega
      · simp only [Origin.mergeTwo, he, if_true, Origin.startLine]
        split
        · omega
        · split <;> omega
      · simp only [Origin.mergeTwo, he, if_true]
        rw [eb]; exact b3
      · simp only [Origin.mergeTwo, he, if_true]
        omega
    · obtain ⟨a1, a2, _⟩ := ha
      obtain ⟨b1, b2, _⟩ := hb
      right
      refine ⟨?_, ?_, a.bareDesc, ja, Or.inl ?_⟩
      · simp only [Origin.mergeTwo, he, if_true, Origin.startLine]
        split
        · omega
        · split <;> omega
      · simp only [Origin.mergeTwo, he, if_true]
        omega
      · simp only [Origin.mergeTwo, he, if_true]
  · right
    refine ⟨by simp [Origin.mergeTwo, he], by simp [Origin.mergeTwo, he], _, .two ja jb, Or.inr ?_⟩
    simp only [Origin.mergeTwo, if_neg he, List.append_assoc]
    rfl

/-- The comments of the texts. -/
def Known (src : Sources) (c : Str) : Prop := ∃ d s, src d s ∧ CommentIn s c

theorem closed_sources {src : Sources} (hsrc : ∀ d s, src d s → ¬ Origin.mergeOf <+: d) :
    Closed (Known src) (FromSources src) := by
  have hc := closed_comments (Known src)
  refine ⟨?_, ?_, ?_⟩
  · rintro a b ⟨ha, hac⟩ ⟨hb, hbc⟩
    exact ⟨place_merge hsrc ha hb, hc.merge hac hbc⟩
  · rintro o cs ⟨ho, hoc⟩ hcs
    refine ⟨?_, hc.append hoc hcs⟩
    unfold Origin.appendComments
    split
    · exact ho
    · rcases ho with ⟨h1, h2, s, h3, h4⟩ | ⟨h1, h2, h3⟩
      · exact Or.inl ⟨h1, Int.le_refl _, s, h3, Int.le_trans h2 h4⟩
      · exact Or.inr ⟨h1, h1, h3⟩
  · rintro o cs ⟨ho, hoc⟩ hcs
    refine ⟨?_, hc.prepend hoc hcs⟩
    unfold Origin.prependComments
    split
    · exact ho
    · rcases ho with ⟨h1, h2, s, h3, h4⟩ | ⟨h1, h2, h3⟩
      · exact Or.inl ⟨h1, Int.le_refl _, s, h3, Int.le_trans h2 h4⟩
      · exact Or.inr ⟨h1, h1, h3⟩

/-! ## Texts, includes and files -/

theorem text_sources {src : Sources} (hsrc : ∀ d s, src d s → ¬ Origin.mergeOf <+: d) {env : Env} {d s : Str}
    {inc : AIncluder} {fl : Syntax} {n m : Nat} {v : AVal} (hs : src d s) (hi : IncP (FromSources src) inc)
    (h : parseTextA env (source d) inc fl s n = .ok (v, m)) : All (FromSources src) v := by
  refine parse_all (closed_sources hsrc) (fun c _ hc => ⟨d, s, hs, hc⟩) ?_ hi h
  intro l h1 h2
  unfold Origin.withLineNumber
  rw [if_neg (by simp only [source]; omega)]
  exact ⟨Or.inl ⟨h1, Int.le_refl _, s, hs, h2⟩, by simp [source]⟩

theorem forceObjectA_ok {v w : AVal} (h : forceObjectA v = .ok w) : w = v := by
  unfold forceObjectA at h
  split at h
  · simpa using h.symm
  · split at h <;> simp at h

theorem tryParse_some {α : Type} {x : Res α} {a : α} (h : tryParse x = .ok (some a)) : x = .ok a := by
  cases x with
  | ok b => simpa [tryParse] using h
  | err e => simp only [tryParse] at h; split at h <;> simp at h
  | ub => simp [tryParse] at h
  | fuel => simp [tryParse] at h

theorem mergeFound_sources {src : Sources} (hsrc : ∀ d s, src d s → ¬ Origin.mergeOf <+: d)
    (he : src (ch "empty config") []) {o : SyntaxOpt} {am : Bool} {conf json : Nat → Res (AVal × Nat)}
    (hc : ∀ n v m, conf n = .ok (v, m) → All (FromSources src) v)
    (hj : ∀ n v m, json n = .ok (v, m) → All (FromSources src) v) {n m : Nat} {v : AVal}
    (h : mergeFoundA o am conf json n = .ok (v, m)) : All (FromSources src) v := by
  unfold mergeFoundA at h
  simp only [Res.bind_eq_ok] at h
  obtain ⟨c, h1, j, h2, h⟩ := h
  have hb : All (FromSources src) (c.getD (emptyA, n)).1 := by
    cases c with
    | none =>
      simp only [Option.getD_none, emptyA, all_obj]
      refine ⟨⟨Or.inr ⟨rfl, rfl, _, .one he, Or.inl rfl⟩, by simp [source]⟩, ?_⟩
      intro f hf
      simp at hf
    | some x =>
      split at h1
      · exact hc n x.1 x.2 (tryParse_some h1)
      · simp at h1
  split at h
  · simp at h
  · simp only [Res.ok.injEq] at h
    cases j with
    | none =>
      have h := congrArg Prod.fst h
      simp only [Option.getD_none] at h
      rw [← h]
      exact hb
    | some x =>
      simp only [Option.getD_some] at h
      subst h
      split at h2
      · have := tryParse_some h2
        simp only [Res.bind_eq_ok] at this
        obtain ⟨⟨w, k⟩, g1, ⟨y, b⟩, g2, g3⟩ := this
        simp only [Res.ok.injEq, Prod.mk.injEq] at g3
        obtain ⟨rfl, _⟩ := g3
        exact (closed_sources hsrc).fallback _ _ _ _ hb (hj _ _ _ g1) g2
      · simp at h2

/-- The loader keeps to the sources. -/
def LoadP (src : Sources) (load : ALoader) : Prop :=
  ∀ f syn n v m, load includedDesc f syn n = .ok (v, m) → All (FromSources src) v

theorem includer_sources {src : Sources} (hsrc : ∀ d s, src d s → ¬ Origin.mergeOf <+: d)
    (he : src (ch "empty config") []) {load : ALoader} (hl : LoadP src load) {res : AVal → Res AVal}
    (hr : ∀ v w, res v = .ok w → All (FromSources src) v → All (FromSources src) w) (dir : Str) :
    IncP (FromSources src) (includerA load res dir) := by
  have hn : ∀ name n v m, includeNameA load dir name n = .ok (v, m) → All (FromSources src) v := by
    intro name n v m h
    unfold includeNameA at h
    split at h
    · exact hl _ _ _ _ _ h
    · exact mergeFound_sources hsrc he (fun n v m h => hl _ _ _ _ _ h) (fun n v m h => hl _ _ _ _ _ h) h
  refine ⟨?_, hn⟩
  intro name n v m h
  simp only [includerA, Res.bind_eq_ok] at h
  obtain ⟨⟨w, k⟩, h1, y, h2, h3⟩ := h
  simp only [Res.ok.injEq, Prod.mk.injEq] at h3
  obtain ⟨rfl, _⟩ := h3
  exact hr _ _ h2 (hn _ _ _ _ h1)

theorem load_sources {src : Sources} (hsrc : ∀ d s, src d s → ¬ Origin.mergeOf <+: d)
    (he : src (ch "empty config") []) {env : Env} {fs : FS} {res : AVal → Res AVal}
    (hi : ∀ f, src [] (contents fs f))
    (hr : ∀ v w, res v = .ok w → All (FromSources src) v → All (FromSources src) w) :
    (fuel : Nat) → (d : Option Str) → (f : Str) → src (fileDesc d f) (contents fs f) → (syn : Syntax) → (n : Nat) →
      (v : AVal) → (m : Nat) → loadFileA env fs res fuel d f syn n = .ok (v, m) → All (FromSources src) v
  | 0, d, f, hf, syn, n, v, m, h => by simp [loadFileA] at h
  | fuel + 1, d, f, hf, syn, n, v, m, h => by
    simp only [loadFileA, Res.bind_eq_ok] at h
    obtain ⟨⟨w, k⟩, h1, y, h2, h3⟩ := h
    simp only [Res.ok.injEq, Prod.mk.injEq] at h3
    obtain ⟨rfl, _⟩ := h3
    rw [forceObjectA_ok h2]
    refine text_sources hsrc hf (includer_sources hsrc he ?_ hr _) h1
    intro g syn n v m hg
    exact load_sources hsrc he hi hr fuel includedDesc g (hi g) syn n v m hg

theorem withIncludes_ok {env : Env} {fs : FS} {own : List (Str × Str)} (hd : ∀ e ∈ own, ¬ Origin.mergeOf <+: e.1) :
    ∀ e t, withIncludes env fs own e t → ¬ Origin.mergeOf <+: e := by
  rintro e t (h | ⟨rfl, _⟩ | ⟨rfl, _⟩ | ⟨_, k, x, _, rfl⟩)
  · exact hd _ h
  · decide
  · decide
  · exact fun hp => absurd (List.prefix_of_prefix_length_le (l₁ := ch "m") ((List.prefix_append (ch "m") (ch "erge of ")).trans hp)
      (List.prefix_append (ch "env var ") k) (by decide)) (by decide)

/-! ## C86 -/

/-- `include file(...)` resolves what it read: this makes up no origins but those of the environment. -/
theorem fileResolveA_sources {env : Env} {fs : FS} {own : List (Str × Str)}
    (hd : ∀ e ∈ own, ¬ Origin.mergeOf <+: e.1) (m : Nat) (v w : AVal) (h : fileResolveA env m v = .ok w)
    (hv : All (FromSources (withIncludes env fs own)) v) : All (FromSources (withIncludes env fs own)) w := by
  obtain ⟨x, h1, h2⟩ := ResolveA.bokA h
  cases x with
  | none => simp [nonNullA] at h2
  | some x =>
    simp only [nonNullA, Res.ok.injEq] at h2
    subst h2
    refine ResolveA.configResolveWithA_all (closed_sources (withIncludes_ok hd)) ?_ ?_ hv hv h1
    · exact ⟨Or.inr ⟨rfl, rfl, _, .one (Or.inr (Or.inr (Or.inl ⟨rfl, rfl⟩))), Or.inl rfl⟩, by simp [source]⟩
    · intro k x hk
      exact ⟨Or.inr ⟨rfl, rfl, _, .one (Or.inr (Or.inr (Or.inr ⟨rfl, k, x, hk, rfl⟩))), Or.inl rfl⟩,
        by simp [ResolveA.envOrigin, source]⟩

theorem fileResolveA_erase (env : Env) (m : Nat) (v : AVal) : Res.mapOk AVal.erase (fileResolveA env m v)
    = (Resolve.configResolve env m v.erase ⟨true, true⟩).bind fun o => ConfigParser.nonNull o :=
  ResolveA.bindE (ResolveA.configResolveWithA_erase env m v v ⟨true, true⟩) nonNullA_erase

/-- **C86 (partial).** Whatever the text, the files and the includes: the origin of every value of
`config::parse_string` either has lines of the text under the text's description, or lines of some file under
the empty description, or no line and the descriptions of several of these. Missing: for what comes from an
included file the origin does not name it, see `C86_included_violated`. -/
theorem C86_string_partial {ι : Type} (env : Env) (fs : FS) (m fuel : Nat) (s : Str)
    (o : ParseOptions ι) (v : AVal) (hd : ¬ Origin.mergeOf <+: o.originDescription.getD (ch "string"))
    (h : parseStringA env fs (fileResolveA env m) fuel s o = .ok v) :
    ∀ x ∈ origins v, FromSources (withIncludes env fs [(o.originDescription.getD (ch "string"), s)]) x := by
  have hown : ∀ e ∈ [(o.originDescription.getD (ch "string"), s)], ¬ Origin.mergeOf <+: e.1 := by simpa using hd
  have hsrc := withIncludes_ok (env := env) (fs := fs) hown
  have hr := fileResolveA_sources (env := env) (fs := fs) hown m
  simp only [parseStringA, Res.bind_eq_ok] at h
  obtain ⟨⟨w, k⟩, h1, h2⟩ := h
  rw [forceObjectA_ok h2]
  refine text_sources hsrc (Or.inl (by simp [stringDesc])) (includer_sources hsrc (Or.inr (Or.inr (Or.inl ⟨rfl, rfl⟩))) ?_ hr _) h1
  intro g syn n v m hg
  exact load_sources hsrc (Or.inr (Or.inr (Or.inl ⟨rfl, rfl⟩))) (fun f => Or.inr (Or.inl ⟨rfl, f, rfl⟩)) hr fuel includedDesc g
    (Or.inr (Or.inl ⟨rfl, g, rfl⟩)) syn n v m hg

/-- The texts `config::parse_file_any_syntax` reads itself, with their descriptions. -/
def ownFiles (fs : FS) (d : Option Str) (name : Str) : List (Str × Str) :=
  (if syntaxFromExtension name ≠ .unspecified then [name] else [name ++ ch ".conf", name ++ ch ".json"]).map
    fun f => (d.getD (ch "file: " ++ f), (fs f).getD [])

/-- **C86 (partial).** The same for `config::parse_file_any_syntax`: what is in the named files has lines of
these files under `file: ` and their names, or under the description of the options. -/
theorem C86_file_partial {ι : Type} (env : Env) (fs : FS) (m fuel : Nat) (name : Str)
    (o : ParseOptions ι) (v : AVal) (hd : ∀ d, o.originDescription = some d → ¬ Origin.mergeOf <+: d)
    (h : parseFileAnySyntaxA env fs (fileResolveA env m) fuel name o = .ok v) :
    ∀ x ∈ origins v, FromSources (withIncludes env fs (ownFiles fs o.originDescription name)) x := by
  have hown : ∀ e ∈ ownFiles fs o.originDescription name, ¬ Origin.mergeOf <+: e.1 := by
    intro e he
    unfold ownFiles at he
    obtain ⟨f, _, rfl⟩ := List.mem_map.1 he
    cases hod : o.originDescription with
    | some d => exact hd d hod
    | none => exact fun hp => absurd (List.prefix_of_prefix_length_le (l₁ := ch "m") ((List.prefix_append (ch "m") (ch "erge of ")).trans hp)
        (List.prefix_append (ch "file: ") f) (by decide)) (by decide)
  have hsrc := withIncludes_ok (env := env) (fs := fs) hown
  have hr := fileResolveA_sources (env := env) (fs := fs) hown m
  have key : ∀ f, (fileDesc o.originDescription f, contents fs f) ∈ ownFiles fs o.originDescription name → ∀ syn n v k,
      loadFileA env fs (fileResolveA env m) fuel o.originDescription f syn n = .ok (v, k) →
      All (FromSources (withIncludes env fs (ownFiles fs o.originDescription name))) v := by
    intro f hf syn n v m hl
    exact load_sources hsrc (Or.inr (Or.inr (Or.inl ⟨rfl, rfl⟩))) (fun f => Or.inr (Or.inl ⟨rfl, f, rfl⟩)) hr fuel _ f
      (Or.inl hf) syn n v m hl
  simp only [parseFileAnySyntaxA, Res.bind_eq_ok] at h
  obtain ⟨⟨w, k⟩, h1, h2⟩ := h
  simp only [Res.ok.injEq] at h2
  subst h2
  split at h1
  · rename_i hs
    exact key name (by unfold ownFiles; rw [if_pos hs]; exact List.mem_singleton.2 rfl) _ _ _ _ h1
  · rename_i hs
    refine mergeFound_sources hsrc (Or.inr (Or.inr (Or.inl ⟨rfl, rfl⟩))) (fun n v m hl => key _ ?_ _ _ _ _ hl)
      (fun n v m hl => key _ ?_ _ _ _ _ hl) h1
    · unfold ownFiles; rw [if_neg hs]; exact List.mem_cons_self
    · unfold ownFiles; rw [if_neg hs]; exact List.mem_cons_of_mem _ (List.mem_singleton.2 rfl)

/-! ### The values are those of the model without origins -/

theorem forceObjectA_erase (v : AVal) : Res.mapOk AVal.erase (forceObjectA v) = forceObject v.erase := by
  unfold forceObjectA forceObject
  split
  · rfl
  · split <;> rfl

/-- Values and counter without origins. -/
def bare (r : AVal × Nat) : Value × Nat := (r.1.erase, r.2)

theorem tryParse_erase {α β : Type} (f : α → β) (x : Res α) :
    Res.mapOk (Option.map f) (tryParse x) = tryParse (Res.mapOk f x) := by
  cases x with
  | ok a => rfl
  | err e => simp only [tryParse, Res.mapOk_err]; split <;> rfl
  | ub => rfl
  | fuel => rfl

theorem mergeFoundA_erase (o : SyntaxOpt) (am : Bool) (conf json : Nat → Res (AVal × Nat)) (n : Nat) :
    Res.mapOk bare (mergeFoundA o am conf json n)
      = mergeFound o am (fun n => Res.mapOk bare (conf n)) (fun n => Res.mapOk bare (json n)) n := by
  unfold mergeFoundA mergeFound
  refine Res.bind_erase (f := Option.map bare) ?_ ?_
  · split
    · exact tryParse_erase bare (conf n)
    · rfl
  · intro c
    have hc : (Option.map bare c).getD (Value.empty, n) = bare (c.getD (emptyA, n)) := by cases c <;> rfl
    rw [hc]
    refine Res.bind_erase (f := Option.map bare) ?_ ?_
    · split
      · rw [tryParse_erase]
        congr 1
        refine Res.bind_erase (f := bare) rfl ?_
        rintro ⟨v, m⟩
        show _ = (Value.withFallback _ _ >>= _)
        rw [← fallbackA_erase]
        simp only [Res.mapOk_bind, Res.bind_mapOk, bare]
        rfl
      · rfl
    · intro j
      cases j <;> (simp only [Option.map_none, Option.map_some, Option.isNone_none, Option.isNone_some]; split <;> rfl)

theorem includerA_erase (load : ALoader) (load' : Loader) (res : AVal → Res AVal) (res' : Value → Res Value) (dir : Str)
    (hl : ∀ f syn n, Res.mapOk bare (load includedDesc f syn n) = load' f syn n)
    (hr : ∀ v, Res.mapOk AVal.erase (res v) = res' v.erase) :
    (includerA load res dir).erase = includer load' res' dir := by
  have hn : ∀ name n, Res.mapOk bare (includeNameA load dir name n) = includeName load' dir name n := by
    intro name n
    unfold includeNameA includeName
    split
    · exact hl _ _ _
    · rw [mergeFoundA_erase]
      simp only [hl]
  unfold AIncluder.erase includerA includer
  congr 1
  · funext name n
    refine Res.bind_erase (f := bare) (hn name n) ?_
    rintro ⟨v, m⟩
    refine Res.bind_erase (f := AVal.erase) (hr v) ?_
    intro w
    rfl
  · funext name n
    exact hn name n

theorem loadFileA_erase (env : Env) (fs : FS) (res : AVal → Res AVal) (res' : Value → Res Value)
    (hr : ∀ v, Res.mapOk AVal.erase (res v) = res' v.erase) :
    (fuel : Nat) → (d : Option Str) → (f : Str) → (syn : Syntax) → (n : Nat) →
      Res.mapOk bare (loadFileA env fs res fuel d f syn n) = loadFile env fs res' fuel f syn n
  | 0, _, _, _, _ => rfl
  | fuel + 1, d, f, syn, n => by
    unfold loadFileA loadFile
    have hi := includerA_erase (loadFileA env fs res fuel) (loadFile env fs res' fuel) res res' (dirOf f)
      (fun g syn n => loadFileA_erase env fs res res' hr fuel includedDesc g syn n) hr
    refine Res.bind_erase (f := bare) (hi ▸ parseTextA_erase ..) ?_
    rintro ⟨v, m⟩
    refine Res.bind_erase (f := AVal.erase) (forceObjectA_erase v) ?_
    intro w
    rfl

/-- **C86.** Origins and the description given in the options have no influence on what is read from a file:
the values, and whether there is an error, are those of the files alone. -/
theorem C86_file_values {ι : Type} (env : Env) (fs : FS) (m fuel : Nat) (name : Str) (o : ParseOptions ι)
    (d : Option Str) :
    Res.mapOk AVal.erase (parseFileAnySyntaxA env fs (fileResolveA env m) fuel name (o.setOriginDescription d))
      = parseFileAnySyntax env fs
          (fun x => (Resolve.configResolve env m x ⟨true, true⟩).bind fun o => ConfigParser.nonNull o) fuel name o := by
  have hr := fileResolveA_erase env m
  generalize fileResolveA env m = res at *
  generalize hg : (fun x : Value => (Resolve.configResolve env m x ⟨true, true⟩).bind fun o => ConfigParser.nonNull o) = res'
  replace hr : ∀ v, Res.mapOk AVal.erase (res v) = res' v.erase := fun v => by rw [← hg]; exact hr v
  unfold parseFileAnySyntaxA parseFileAnySyntax
  refine Res.bind_erase (f := bare) ?_ (fun _ => rfl)
  split
  · exact loadFileA_erase env fs res res' hr fuel _ _ _ _
  · rw [mergeFoundA_erase]
    simp only [loadFileA_erase env fs res res' hr]
    rfl

/-- **C86.** The same for a string. -/
theorem C86_string_values {ι : Type} (env : Env) (fs : FS) (m fuel : Nat) (s : Str) (o : ParseOptions ι)
    (d : Option Str) :
    Res.mapOk AVal.erase (parseStringA env fs (fileResolveA env m) fuel s (o.setOriginDescription d))
      = parseString env fs
          (fun x => (Resolve.configResolve env m x ⟨true, true⟩).bind fun o => ConfigParser.nonNull o) fuel s o := by
  have hr := fileResolveA_erase env m
  generalize fileResolveA env m = res at *
  generalize hg : (fun x : Value => (Resolve.configResolve env m x ⟨true, true⟩).bind fun o => ConfigParser.nonNull o) = res'
  replace hr : ∀ v, Res.mapOk AVal.erase (res v) = res' v.erase := fun v => by rw [← hg]; exact hr v
  unfold parseStringA parseString parseableParseString
  have hi := includerA_erase (loadFileA env fs res fuel) (loadFile env fs res' fuel) res res' []
    (fun g syn n => loadFileA_erase env fs res res' hr fuel includedDesc g syn n) hr
  refine Res.bind_erase (f := bare) (hi ▸ parseTextA_erase ..) ?_
  rintro ⟨v, m⟩
  exact forceObjectA_erase v

/-! ### Examples -/

/-- Two files. -/
def exFS : FS := fun f =>
  if f = ch "a.conf" then some (ch "x : 1\n# c\ninclude \"b.conf\"\nl : [1]\no { q : 1 }")
  else if f = ch "b.conf" then some (ch "y : 2\nl : [2]\no { p : 3 }") else none

/-- Reading them, and the description and the lines of every origin. -/
def places (name : Str) : Res (List (Str × Int × Int)) :=
  Res.mapOk (fun v => (origins v).map fun o => (o.desc, o.line, o.endLine))
    (parseFileAnySyntaxA Tokenizer.exEnv exFS (fileResolveA Tokenizer.exEnv 5) 3 name (ParseOptions.defaults (ι := Unit)))

/-- The section `o` is in both files. -/
example : places (ch "a") = .ok [(ch "file: a.conf", 1, 1), (ch "file: a.conf", 1, 1), ([], 1, 1),
    (ch "file: a.conf", 4, 4), (ch "file: a.conf", 4, 4), (ch "merge of file: a.conf,", -1, -1),
    (ch "file: a.conf", 5, 5), ([], 3, 3)] := by decide +kernel

/-- `include file(...)` resolves what it read: the substitution of the included file is a variable of the
environment, and its origin says so. -/
example : (parseStringA { Tokenizer.exEnv with getenv := fun k => if k = ch "HOME" then some (ch "/r") else none }
    (fun f => if f = ch "b.conf" then some (ch "y : ${HOME}") else none)
    (fileResolveA { Tokenizer.exEnv with getenv := fun k => if k = ch "HOME" then some (ch "/r") else none } 5) 3
    (ch "include file(\"b.conf\")") (ParseOptions.defaults (ι := Unit)) >>=
      fun v => peekPathA v [ch "y"] >>= fun y => .ok (y.map fun y => (y.erase, y.origin.desc, y.origin.line)))
      = .ok (some (.scalar (.str (ch "/r") true), ch "env var HOME", -1)) := by decide +kernel

/-- The code violates C86: the origin of a value of an included file does not name the file, its description is
empty; values of two included files cannot be told apart. -/
theorem C86_included_violated :
    (parseFileAnySyntaxA Tokenizer.exEnv exFS (fileResolveA Tokenizer.exEnv 5) 3 (ch "a.conf") (ParseOptions.defaults (ι := Unit)) >>=
      fun v => peekPathA v [ch "y"] >>= fun y => .ok (y.map fun y => (y.origin.desc, y.origin.line)))
      = .ok (some ([], 1)) := by decide +kernel

end SourceProps
end Hocon
