import Verif.Lemmas.ResolveSound
import Verif.Lemmas.SubstLookup
import Verif.Lemmas.ParsedClosed
import Verif.Lemmas.SimpleCheck
import Verif.Props.IncludeProps
import Verif.Lemmas.ResolveDiverge
import Verif.Lemmas.ResolveMissing
import Verif.Lemmas.ResolveClass

/-!
# Properties of `resolve`: C24, C25, C26, C27, C28
-/

set_option autoImplicit false

namespace Hocon
namespace Resolve

open Value Spec

/-! ## C24: a resolved config -/

/-- **C24.** Resolving a resolved config returns the very same tree, whatever the options, the source
and the environment, without any further nested call. -/
theorem C24_resolved_noop (env : Env) (n : Nat) (v source : Value) (o : Options)
    (hv : v.isObject = true) (hr : v.resolved = true) :
    configResolveWith env (n + 1) v source o = .ok (some v) ∧
    configResolve env (n + 1) v o = .ok (some v) := by
  have key : ∀ src, configResolveWith env (n + 1) v src o = .ok (some v) := by
    intro src
    cases v with
    | obj fs r i =>
      simp only [Value.resolved] at hr
      subst hr
      rfl
    | dmo st => simp [Value.resolved] at hr
    | _ => simp [isObject] at hv
  exact ⟨key _, key _⟩

/-- `{a: 1, b: {c: []}}` -/
def exResolved : Value :=
  newObj [(ch "a", exInt 1), (ch "b", newObj [(ch "c", .list [])])]

example : configResolveWith Tokenizer.exEnv 7 exResolved Value.empty ⟨true, false⟩ =
    .ok (some exResolved) :=
  (C24_resolved_noop _ 6 _ _ _ rfl rfl).1

/-! ## C25: nothing is left -/

/-- **C25 (partial).** If `resolve` (with any source, any environment, unresolved substitutions not
allowed) returns, the result says it is resolved and contains no reference, concatenation or delayed
merge anywhere, and every object in it says it is resolved. Only for trees in which the stored
resolve status of every object is right (`Wf`), which holds for everything that is parsed
(`C25_parsed_partial`) and is kept by merging; `with_value` breaks it (`C25_stale_status`). -/
theorem C25_no_substitution_left_partial (env : Env) (n : Nat) (v source r : Value) (useEnv : Bool)
    (hv : v.Wf) (hs : source.Wf)
    (h : configResolveWith env n v source ⟨useEnv, false⟩ = .ok (some r)) :
    r.resolved = true ∧ Clean r ∧ r.isObject = true := by
  unfold configResolveWith resolveTop at h
  obtain ⟨o1, h1, h⟩ := bind_ok h
  obtain ⟨⟨c', o⟩, hx, h'⟩ := bind_ok h1
  cases h'
  cases o with
  | none => cases h
  | some w =>
    have hw : w = r ∧ w.isObject = true := by
      simp only [Option.bind_some, asObject] at h
      split at h <;> simp_all
    obtain ⟨rfl, ho⟩ := hw
    have hwf : w.Wf := closed_wf.resolveN n _ _ _ _ _
      ⟨by rintro x ⟨⟩; exact hs, by simp⟩ hv hx w rfl
    have hres : w.resolved = true := by
      cases n with
      | zero => cases hx
      | succ n =>
        rw [resolveN] at hx
        split at hx
        · cases hx
        obtain ⟨y, _, hy⟩ := bind_ok hx
        obtain ⟨rfl, hc⟩ := checkResult_eq hy
        rcases hc w rfl with h | h | h
        · exact h
        · exact absurd rfl h
        · cases h
    exact ⟨hres, clean_of_plain w hwf hres, ho⟩

/-- What is parsed has the right status; `res`, the resolver used for included files, is the modelled
one. -/
theorem parseString_wf {ι : Type} (env : Env) (fs : Files.FS) (m k : Nat) (text : Str)
    (po : ParseOptions ι) (ro : Options) (v : Value)
    (hp : Files.parseString env fs
      (fun x => (configResolve env m x ro).bind fun o => ConfigParser.nonNull o) k text po = .ok v) :
    v.Wf := by
  refine (closed_wf.built (by intros; simp [Wf]) (by simp [Wf, WfL])).parseString ?_ hp
  intro x w hx hw
  obtain ⟨o, ho, hw⟩ := bind_ok hw
  cases o with
  | none => cases hw
  | some y =>
    cases hw
    unfold configResolve configResolveWith resolveTop at ho
    obtain ⟨o1, h1, h⟩ := bind_ok ho
    obtain ⟨⟨c', o⟩, hx', h'⟩ := bind_ok h1
    cases h'
    cases o with
    | none => cases h
    | some z =>
      have : z = w := by
        simp only [Option.bind_some, asObject] at h
        split at h <;> simp_all
      exact this ▸ closed_wf.resolveN m _ _ _ _ _ ⟨by rintro x ⟨⟩; exact hx, by simp⟩ hx hx' z rfl

/-- The same for files. -/
theorem parseFile_wf {ι : Type} (env : Env) (fs : Files.FS) (m k : Nat) (name : Str)
    (po : ParseOptions ι) (ro : Options) (v : Value)
    (hp : Files.parseFileAnySyntax env fs
      (fun x => (configResolve env m x ro).bind fun o => ConfigParser.nonNull o) k name po = .ok v) :
    v.Wf := by
  refine (closed_wf.built (by intros; simp [Wf]) (by simp [Wf, WfL])).parseFile ?_ hp
  intro x w hx hw
  obtain ⟨o, ho, hw⟩ := bind_ok hw
  cases o with
  | none => cases hw
  | some y =>
    cases hw
    unfold configResolve configResolveWith resolveTop at ho
    obtain ⟨o1, h1, h⟩ := bind_ok ho
    obtain ⟨⟨c', o⟩, hx', h'⟩ := bind_ok h1
    cases h'
    cases o with
    | none => cases h
    | some z =>
      have : z = w := by
        simp only [Option.bind_some, asObject] at h
        split at h <;> simp_all
      exact this ▸ closed_wf.resolveN m _ _ _ _ _ ⟨by rintro x ⟨⟩; exact hx, by simp⟩ hx hx' z rfl

/-- If `resolve` returns, the result has the right status and says that it is resolved. -/
theorem resolved_plain (env : Env) (n : Nat) (v source r : Value) (useEnv : Bool)
    (hv : v.Wf) (hs : source.Wf)
    (h : configResolveWith env n v source ⟨useEnv, false⟩ = .ok (some r)) : r.Plain := by
  have hres := (C25_no_substitution_left_partial env n v source r useEnv hv hs h).1
  unfold configResolveWith resolveTop at h
  obtain ⟨o1, h1, h⟩ := bind_ok h
  obtain ⟨⟨c', o⟩, hx, h'⟩ := bind_ok h1
  cases h'
  cases o with
  | none => cases h
  | some w =>
    have hw : w = r := by
      simp only [Option.bind_some, asObject] at h
      split at h <;> simp_all
    subst hw
    exact ⟨closed_wf.resolveN n _ _ _ _ _ ⟨by rintro x ⟨⟩; exact hs, by simp⟩ hv hx w rfl, hres⟩

/-- **C25 (parsed configs, partial).** In particular for every text that is parsed and then resolved;
`res`, the resolver used for included files, must keep the status right, as the modelled one does. -/
theorem C25_parsed_partial {ι : Type} (env : Env) (fs : Files.FS) (m k n : Nat) (text : Str)
    (po : ParseOptions ι) (ro : Options) (useEnv : Bool) (v r : Value)
    (hp : Files.parseString env fs
      (fun x => (configResolve env m x ro).bind fun o => ConfigParser.nonNull o) k text po = .ok v)
    (h : configResolve env n v ⟨useEnv, false⟩ = .ok (some r)) : Clean r :=
  have hwf := parseString_wf env fs m k text po ro v hp
  (C25_no_substitution_left_partial env n v v r useEnv hwf hwf h).2.1

/-- The code violates C25 for trees made with `with_value`: the config `{a: ${b}, b: 1, c: {}}` with
`${b}` stored at `c.d` is resolved without error, and the result contains a substitution. -/
theorem C25_stale_status (env : Env) :
    ∃ v w r, withValuePath v (ch "d" :: []) (.ref 7 [ch "b"] false 0) = .ok w ∧
      configResolve env 5 (newObj [(ch "a", .ref 3 [ch "b"] false 0), (ch "b", exInt 1), (ch "c", w)])
        ⟨false, false⟩ = .ok (some r) ∧ r.resolved = true ∧ Occurs (.ref 7 [ch "b"] false 0) r := by
  refine ⟨Value.empty, .obj [(ch "d", .ref 7 [ch "b"] false 0)] true false,
    .obj [(ch "a", exInt 1), (ch "b", exInt 1),
      (ch "c", .obj [(ch "d", .ref 7 [ch "b"] false 0)] true false)] true false, by decide, by rfl, rfl, ?_⟩
  exact .obj (k := ch "c") (.tail _ (.tail _ (.head _))) (.obj (k := ch "d") (.head _) .here)

/-! ## Examples for the following theorems -/

/-- `{a: {b: ${c.d}, x: [${?no}, 1]}, c: ${e}, e: {d: pre${f}, g: ${?f}}, f: 5}` -/
def exSubst : Value :=
  newObj [(ch "a", newObj [(ch "b", .ref 0 [ch "c", ch "d"] false 0),
      (ch "x", .list [.ref 1 [ch "no"] true 0, exInt 1]),
      (ch "y", .ref 5 [ch "no"] true 0)]),
    (ch "c", .ref 2 [ch "e"] false 0),
    (ch "e", newObj [(ch "d", .concat [.scalar (.str (ch "pre") true), .ref 3 [ch "f"] false 0]),
      (ch "g", .ref 4 [ch "f"] true 0)]),
    (ch "f", .scalar (.str (ch "5") true))]

/-- What `exSubst` resolves to. -/
def exSubstR : Value :=
  newObj [(ch "a", newObj [(ch "b", .scalar (.str (ch "pre5") true)), (ch "x", .list [exInt 1])]),
    (ch "c", newObj [(ch "d", .scalar (.str (ch "pre5") true)), (ch "g", .scalar (.str (ch "5") true))]),
    (ch "e", newObj [(ch "d", .scalar (.str (ch "pre5") true)), (ch "g", .scalar (.str (ch "5") true))]),
    (ch "f", .scalar (.str (ch "5") true))]

theorem exSubst_resolves :
    configResolve Tokenizer.exEnv 20 exSubst ⟨false, false⟩ = .ok (some exSubstR) := by decide +kernel

theorem exSubst_wf : exSubst.Wf := wfB_wf _ (by decide)
theorem exSubst_simple : Simple exSubst exSubst := simpleB_simple (by decide)

example : Clean exSubstR :=
  (C25_no_substitution_left_partial _ _ _ _ _ _ exSubst_wf exSubst_wf exSubst_resolves).2.1

/-! ## C26: the value of a substitution -/

/-- **C26 (partial).** In a successfully resolved config the field at path `q` that was exactly `${p}`
or `${?p}`
* has the same contents as the resolved value at `p`, or
* if the result has nothing at `p`, is the environment variable named by `p` (if these are used), or
* if there is no such variable either, the substitution was optional and the field is absent.

Proved for configs without delayed merges (no substitution takes part in the merging of several
values for one path) whose optional substitutions are `Calm`: their paths lead through plain objects
to a value without substitutions, or to nothing. For optional substitutions in cycles the code gives
results that depend on the evaluation order (`C27_diverges`), and delayed merges refer to values that
are not part of the result. -/
theorem C26_field_value_partial (env : Env) (n : Nat) (root R : Value) (useEnv : Bool)
    (hw : root.Wf) (hs : Simple root root)
    (h : configResolve env n root ⟨useEnv, false⟩ = .ok (some R))
    (q p : Path) (id : Nat) (opt : Bool) (hq : at? root q = some (.ref id p opt 0)) :
    (at? R q = at? R p ∧ (at? R p).isSome = true) ∨
    (at? R p = none ∧ ∃ s, envExt env useEnv p = some s ∧ at? R q = some (.scalar (.str s true))) ∨
    (at? R p = none ∧ envExt env useEnv p = none ∧ opt = true ∧ at? R q = none) := by
  obtain ⟨hd, _⟩ := configResolve_sound hw hs h
  rcases hd.at_some hw hq with ⟨w, hw', hR⟩ | ⟨hw', hR⟩
  · cases hw' with
    | ref h1 h2 =>
      have := At.den_at? hw hw h1 hd h2
      exact .inl ⟨by rw [hR, this], by rw [this]; rfl⟩
    | refExt h1 h2 => exact .inr (.inl ⟨Absent.den_at? hw hw h1 hd, _, h2, hR⟩)
  · cases hw' with
    | refAbsent h1 h2 => exact .inr (.inr ⟨Absent.den_at? hw hw h1 hd, h2, rfl, hR⟩)

example : at? exSubstR [ch "a", ch "b"] = at? exSubstR [ch "c", ch "d"] :=
  ((C26_field_value_partial _ _ _ _ _ exSubst_wf exSubst_simple exSubst_resolves [ch "a", ch "b"]
    [ch "c", ch "d"] 0 false (by decide)).resolve_right (by decide)).1
example : at? exSubstR [ch "a", ch "y"] = none := by
  rcases C26_field_value_partial _ _ _ _ _ exSubst_wf exSubst_simple exSubst_resolves [ch "a", ch "y"]
    [ch "no"] 5 true (by decide) with h | h | h
  · exact absurd h.2 (by decide)
  · obtain ⟨_, _, h, _⟩ := h; cases h
  · exact h.2.2.2

/-- **C26 (everything else, partial).** Under the same conditions a value that is not a substitution
keeps its place and its kind: scalars are unchanged, lists stay lists and objects stay objects, and no
path that is not in the config appears below an object. -/
theorem C26_rest_partial (env : Env) (n : Nat) (root R : Value) (useEnv : Bool)
    (hw : root.Wf) (hs : Simple root root)
    (h : configResolve env n root ⟨useEnv, false⟩ = .ok (some R)) (q : Path) :
    (∀ s, at? root q = some (.scalar s) → at? R q = some (.scalar s)) ∧
    (∀ vs, at? root q = some (.list vs) → ∃ ws, at? R q = some (.list ws)) ∧
    (∀ fs r i, at? root q = some (.obj fs r i) → ∃ gs, at? R q = some (.obj gs true i) ∧
      (keysOf gs).Sublist (keysOf fs)) := by
  obtain ⟨hd, _⟩ := configResolve_sound hw hs h
  refine ⟨fun s hq => ?_, fun vs hq => ?_, fun fs r i hq => ?_⟩ <;>
    rcases hd.at_some hw hq with ⟨w, hw', hR⟩ | ⟨hw', hR⟩ <;> cases hw'
  · exact hR
  · exact ⟨_, hR⟩
  · rename_i gs hf; exact ⟨gs, hR, hf.keys⟩

example : ∃ ws, at? exSubstR [ch "a", ch "x"] = some (.list ws) :=
  (C26_rest_partial _ _ _ _ _ exSubst_wf exSubst_simple exSubst_resolves [ch "a", ch "x"]).2.1 _ (by rfl)

/-- **C26 (elements, partial).** Under the same conditions the tree that is returned is the one the
semantics of `Spec/Subst.lean` assigns to the config, and it assigns no other. -/
theorem C26_meaning_partial (env : Env) (n : Nat) (root R : Value) (useEnv : Bool)
    (hw : root.Wf) (hs : Simple root root)
    (h : configResolve env n root ⟨useEnv, false⟩ = .ok (some R)) :
    Den env root (envExt env useEnv) root (some R) ∧
    ∀ o, Den env root (envExt env useEnv) root o → o = some R :=
  ⟨(configResolve_sound hw hs h).1, fun _ ho => ((Den.det (configResolve_sound hw hs h).1).1 _ ho).symm⟩

example : Den Tokenizer.exEnv exSubst (envExt Tokenizer.exEnv false) exSubst (some exSubstR) :=
  (C26_meaning_partial _ _ _ _ _ exSubst_wf exSubst_simple exSubst_resolves).1

/-! ## C27: cycles -/

/-- **C27 (cycles, partial).** If every value of the set `C` is a required substitution whose path leads
to another one of the set, and one of them occurs in the config, `resolve` does not return normally.
(Conditions as for C26.) -/
theorem C27_required_cycle_partial (env : Env) (root : Value) (useEnv : Bool)
    (hw : root.Wf) (hs : Simple root root) (C : Value → Prop)
    (hC : ∀ v, C v → ∃ id p w, v = .ref id p false 0 ∧ at? root p = some w ∧ C w)
    (v : Value) (hv : C v) (ho : Occurs v root) (n : Nat) (R : Value) :
    configResolve env n root ⟨useEnv, false⟩ ≠ .ok (some R) := by
  intro h
  obtain ⟨o, hd⟩ := Den.occurs ho (configResolve_sound hw hs h).1
  exact Den.cycle hC hd hv

/-- `{a: ${b.c}, b: {c: ${d}}, d: ${a}, e: [${d}], f: 1}` -/
def exCycle : Value :=
  newObj [(ch "a", .ref 0 [ch "b", ch "c"] false 0), (ch "b", newObj [(ch "c", .ref 1 [ch "d"] false 0)]),
    (ch "d", .ref 2 [ch "a"] false 0), (ch "e", .list [.ref 3 [ch "d"] false 0]), (ch "f", exInt 1)]

example (env : Env) (n : Nat) (R : Value) : configResolve env n exCycle ⟨true, false⟩ ≠ .ok (some R) :=
  C27_required_cycle_partial env exCycle true (wfB_wf _ (by decide)) (simpleB_simple (by decide))
    (fun v => v = .ref 0 [ch "b", ch "c"] false 0 ∨ v = .ref 1 [ch "d"] false 0 ∨ v = .ref 2 [ch "a"] false 0)
    (by
      rintro v (rfl | rfl | rfl)
      · exact ⟨_, _, _, rfl, by rfl, .inr (.inl rfl)⟩
      · exact ⟨_, _, _, rfl, by rfl, .inr (.inr rfl)⟩
      · exact ⟨_, _, _, rfl, by rfl, .inl rfl⟩)
    _ (.inl rfl) (.obj (k := ch "a") (.head _) .here) n R

/-- **C27 (error class, partial).** The exception by which the resolver tells itself that it came back to a
substitution that is being resolved, a subclass of `bug_or_broken_exception`, never reaches the caller:
whatever the config, the source and the options. -/
theorem C27_error_class_partial (env : Env) (n : Nat) (self source : Value) (o : Options) :
    configResolveWith env n self source o ≠ .err .notPossible := by
  have h : Fit (configResolveWith env n self source o) :=
    (((good_resolveN env n).fit _ _ _ rfl).bind fun _ _ => fit_ok _).bind fun _ _ => fit_ok _
  exact h

/-- The cycle above is reported with a `config_exception`. -/
example : configResolve Tokenizer.exEnv 20 exCycle ⟨true, false⟩ = .err .config := by decide +kernel

/-- The code violates C27: two small configs for which `resolve` never comes to an end (the recursion
is not bounded, so the program runs out of stack). In the first one, with the default options, the
lookup of an environment variable loses the markers of the substitutions that are being resolved; it
does not matter whether the variable `x` exists. In the second one, with any options, an optional
substitution that is part of a cycle loses them. `fuel` means that `n` nested calls are not enough. -/
theorem C27_diverges (env : Env) (n : Nat) :
    configResolve env n (loopRoot [ch "x"]) Options.default = .fuel ∧
    ∀ o, configResolve env n (loopRoot [ch "a", ch "b"]) o = .fuel :=
  ⟨loop_root (forgets_env rfl) n, fun _ => loop_root forgets_cycle n⟩

/-- **C42 (resolve options).** The defaults use environment variables and do not allow unresolved
substitutions; every setter changes its own field and no other. -/
theorem C42_resolve_options (o : Options) (b : Bool) :
    (Options.default.useEnv = true ∧ Options.default.allowUnresolved = false) ∧
    ((o.setUseEnv b).useEnv = b ∧ (o.setUseEnv b).allowUnresolved = o.allowUnresolved) ∧
    ((o.setAllowUnresolved b).allowUnresolved = b ∧ (o.setAllowUnresolved b).useEnv = o.useEnv) :=
  ⟨⟨rfl, rfl⟩, ⟨rfl, rfl⟩, ⟨rfl, rfl⟩⟩

/-- These are the configs written `a = ${?x}${a}` and `a = ${?a.b}${a}`. -/
theorem C27_diverges_texts :
    Files.parseString (ι := Unit) Tokenizer.exEnv (fun _ => none) (fun v => .ok v) 3
      (ch "a = ${?x}${a}") .new = .ok (loopRoot [ch "x"]) ∧
    Files.parseString (ι := Unit) Tokenizer.exEnv (fun _ => none) (fun v => .ok v) 3
      (ch "a = ${?a.b}${a}") .new = .ok (loopRoot [ch "a", ch "b"]) := by
  constructor <;> decide +kernel

/-- **C27 (termination, partial).** For every config that is an object, including those with delayed
merges and whatever cycles its substitutions form, `resolve` comes to an end and its outcome is
determined: from some number of nested calls on, it is always the same and not `fuel`.

Conditions: optional substitutions refer to paths with one key; if environment variables are used,
there are no optional substitutions, unresolved ones are not allowed, and none of the variables asked
for exists. `C27_diverges` shows why such conditions are needed. (`pre = 0`: the config is not made
by an include below some path.) -/
theorem C27_terminates_partial (env : Env) (fs : List (Str × Value)) (r i : Bool) (o : Options)
    (hw : (Value.obj fs r i).Wf)
    (href : ∀ id p opt pre, Occurs (.ref id p opt pre) (.obj fs r i) → pre = 0 ∧
      (opt = true → ∃ k, p = [k]) ∧
      (o.useEnv = true → opt = false ∧ o.allowUnresolved = false ∧ ∀ k, p = [k] → env.getenv k = none)) :
    ∃ n out, out ≠ .fuel ∧ ∀ m ≥ n, configResolve env m (.obj fs r i) o = out := by
  obtain ⟨n, hn⟩ := configResolve_term hw href
  exact ⟨n, _, hn, fun m hm => (configResolveWith_le env hm _ _ _).eq hn⟩

/-- The cycle above meets the conditions, and so does `a = 1, a = ${?b}x, b = [${?a}]`, which contains a
delayed merge. -/
example (env : Env) (h : ∀ k, env.getenv k = none) : ∃ n out, out ≠ .fuel ∧
    ∀ m ≥ n, configResolve env m exCycle ⟨true, false⟩ = out :=
  C27_terminates_partial env _ _ _ _ (wfB_wf exCycle (by decide)) fun id p opt pre ho => by
    have := occurs_refsOf (v := exCycle) ho
    have hall : ∀ x ∈ refsOf exCycle, x.2.2.1 = false ∧ x.2.2.2 = 0 := by decide
    obtain ⟨h1, h2⟩ := hall _ this
    exact ⟨h2, by simp_all, fun _ => ⟨h1, rfl, fun k _ => h k⟩⟩
example (env : Env) : ∃ n out, out ≠ .fuel ∧ ∀ m ≥ n, configResolve env m
    (newObj [(ch "a", .dm [.concat [.ref 0 [ch "b"] true 0, .scalar (.str (ch "x") true)], exInt 1]),
      (ch "b", .list [.ref 1 [ch "a"] true 0])]) ⟨false, false⟩ = out :=
  C27_terminates_partial env _ _ _ _ (wfB_wf (newObj _) (by decide)) fun id p opt pre ho => by
    have := occurs_refsOf ho
    have hall : ∀ x ∈ refsOf (newObj [(ch "a", .dm [.concat [.ref 0 [ch "b"] true 0,
        .scalar (.str (ch "x") true)], exInt 1]), (ch "b", .list [.ref 1 [ch "a"] true 0])]),
        x.2.1.length = 1 ∧ x.2.2.2 = 0 := by decide
    obtain ⟨h1, h2⟩ := hall _ this
    exact ⟨h2, fun _ => List.length_eq_one_iff.1 h1, fun h => by cases h⟩

/-! ## C28: missing values -/

/-- **C28 (partial).** If a required substitution to a path at which the config has no value occurs
anywhere in the config, and there is no environment variable for it (or these are not used), `resolve`
does not return normally. (Conditions as for C26; see `C28_missing_key_partial` for all configs.) -/
theorem C28_missing_required_partial (env : Env) (root : Value) (useEnv : Bool)
    (hw : root.Wf) (hs : Simple root root) (id : Nat) (p : Path)
    (ho : Occurs (.ref id p false 0) root) (ha : Absent env root (envExt env useEnv) root p)
    (he : envExt env useEnv p = none) (n : Nat) (R : Value) :
    configResolve env n root ⟨useEnv, false⟩ ≠ .ok (some R) := by
  intro h
  obtain ⟨o, hd⟩ := Den.occurs ho (configResolve_sound hw hs h).1
  exact Den.required_absent ha he hd

/-- `{a: {b: [x${c.d}]}, c: ${e}, e: {f: 1}}`: there is nothing at `c.d`. -/
def exMissing : Value :=
  newObj [(ch "a", newObj [(ch "b", .list [.concat [.scalar (.str (ch "x") true),
      .ref 0 [ch "c", ch "d"] false 0]])]),
    (ch "c", .ref 1 [ch "e"] false 0), (ch "e", newObj [(ch "f", exInt 1)])]

example (env : Env) (n : Nat) (R : Value) : configResolve env n exMissing ⟨true, false⟩ ≠ .ok (some R) :=
  C28_missing_required_partial env exMissing true (wfB_wf _ (by decide)) (simpleB_simple (by decide)) 0
    [ch "c", ch "d"]
    (.obj (k := ch "a") (.head _) (.obj (k := ch "b") (.head _) (.list (.head _)
      (.concat (.tail _ (.head _)) .here))))
    (.deeper (by rfl) (.ref (.obj (by rfl) .nil) (.missing (by rfl)))) rfl n R

/-- **C28 (all configs, partial).** Whatever delayed merges, concatenations and cycles the config
contains, and wherever a required substitution occurs in it (even in a value that is overridden later):
if its path leads through objects to a key that does not exist, or into a scalar or a list, and there is
no environment variable for it (or these are not used), `resolve` does not return normally. What is
missing for the full claim are paths that lead through other substitutions before they end;
`C28_missing_required_partial` covers these for configs without delayed merges. -/
theorem C28_missing_path_partial (env : Env) (fs : List (Str × Value)) (r i : Bool) (useEnv : Bool)
    (hw : (Value.obj fs r i).Wf) (id : Nat) (p : Path)
    (ho : Occurs (.ref id p false 0) (.obj fs r i)) (hd : Dead (.obj fs r i) p)
    (he : envExt env useEnv p = none) (n : Nat) (R : Option Value) :
    configResolve env n (.obj fs r i) ⟨useEnv, false⟩ ≠ .ok R := by
  intro h
  unfold configResolve configResolveWith resolveTop at h
  obtain ⟨o1, h1, -⟩ := bind_ok h
  obtain ⟨x, hx, -⟩ := bind_ok h1
  exact resolveN_missing ho hw n _ _ x ⟨fs, r, i, rfl, .of_dead hd hw, .inl rfl⟩ rfl rfl he hx

/-- `{a: ${b.c.d}, a: 1, b: {c: {e: 2}}, b: {f: ${?a}}}`: the missing value is never used, and still asked
for. -/
example (env : Env) (n : Nat) (R : Option Value) :
    configResolve env n (newObj [(ch "a", .dm [exInt 1, .ref 0 [ch "b", ch "c", ch "d"] false 0]),
      (ch "b", newObj [(ch "c", newObj [(ch "e", exInt 2)]), (ch "f", .ref 1 [ch "a"] true 0)])])
      ⟨true, false⟩ ≠ .ok R :=
  C28_missing_path_partial env _ _ _ true (wfB_wf (newObj [(ch "a", .dm [exInt 1,
      .ref 0 [ch "b", ch "c", ch "d"] false 0]),
      (ch "b", newObj [(ch "c", newObj [(ch "e", exInt 2)]), (ch "f", .ref 1 [ch "a"] true 0)])]) (by decide)) 0
    [ch "b", ch "c", ch "d"] (.obj (k := ch "a") (.head _) (.dm (.tail _ (.head _)) .here))
    (.deeper (by rfl) (.deeper (by rfl) (.missing (by rfl)))) rfl n R

/-- **C28 (missing key, partial).** In particular if the first key of the path is no key of the config. -/
theorem C28_missing_key_partial (env : Env) (fs : List (Str × Value)) (r i : Bool) (useEnv : Bool)
    (hw : (Value.obj fs r i).Wf) (id : Nat) (k : Str) (q : Path)
    (ho : Occurs (.ref id (k :: q) false 0) (.obj fs r i)) (hk : ∀ v, (k, v) ∉ fs)
    (he : q = [] → useEnv = true → env.getenv k = none) (n : Nat) (R : Option Value) :
    configResolve env n (.obj fs r i) ⟨useEnv, false⟩ ≠ .ok R := by
  refine C28_missing_path_partial env fs r i useEnv hw id (k :: q) ho (.missing ?_) ?_ n R
  · rw [findKey_none]
    intro hm
    obtain ⟨v, hv⟩ := mem_keysOf.1 hm
    exact hk v (findKey_mem hv)
  · cases q with
    | nil =>
      cases useEnv with
      | false => rfl
      | true => exact he rfl rfl
    | cons _ _ => cases useEnv <;> rfl

/-- `{a: ${x}, a: 1, b: 2}`: the missing value is never used, and still asked for. -/
example (env : Env) (n : Nat) (R : Option Value) :
    configResolve env n (newObj [(ch "a", .dm [exInt 1, .ref 0 [ch "x", ch "y"] false 0]), (ch "b", exInt 2)])
      ⟨true, false⟩ ≠ .ok R :=
  C28_missing_key_partial env _ _ _ true (wfB_wf (newObj [(ch "a", .dm [exInt 1, .ref 0 [ch "x", ch "y"] false 0]),
    (ch "b", exInt 2)]) (by decide)) 0 (ch "x") [ch "y"]
    (.obj (k := ch "a") (.head _) (.dm (.tail _ (.head _)) .here)) (by simp) (by simp) n R

end Resolve
end Hocon
