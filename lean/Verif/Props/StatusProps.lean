import Verif.Lemmas.StatusResolve
import Verif.Props.ResolveProps

/-!
# What `is_resolved()` says (C69)
-/

set_option autoImplicit false

namespace Hocon
namespace StatusProps

open Spec Value Resolve ConfigParser

/-- The tree of a configuration that has been built correctly. -/
def Good (v : Value) : Prop := StatusExact v ∧ KeysDistinct v

/-- **C69 (parsing).** In everything the parser makes of a text, `is_resolved()` is true of a value if and
only if it contains no substitution, and no object has two fields of the same name, provided that this
is so for the included values. -/
theorem C69_parsed_partial (env : Env) (inc : Includer) (fl : PathParser.Syntax) (s : Str) (n m : Nat) (v : Value)
    (hi : ∀ name n w m, inc.file name n = .ok (w, m) ∨ inc.heuristic name n = .ok (w, m) → Good w)
    (h : parseText env inc fl s n = .ok (v, m)) : Good v :=
  live_spec.1 (built_live.parseText (fun name n w m h => live_spec.2 (hi name n w m h)) h)

/-- **C69 (merging).** -/
theorem C69_merged_partial (a b c : Value) (ha : Good a) (hb : Good b) (h : withFallback a b = .ok c) : Good c :=
  live_spec.1 (built_live.withFallback a b c (live_spec.2 ha) (live_spec.2 hb) h)

/-- **C69 (`at_key`).** -/
theorem C69_at_key_partial (v : Value) (k : Str) (h : Good v) : Good (atKey v k) :=
  live_spec.1 (live_obj (by simp [keysOf]) (by simpa using live_spec.2 h))

/-- **C69 (`resolve`).** The configuration that `resolve()` returns is resolved and contains no
substitution. -/
theorem C69_resolved_partial (env : Env) (n : Nat) (v r : Value) (b : Bool) (h : Good v)
    (hr : configResolve env n v ⟨b, false⟩ = .ok (some r)) : Good r ∧ r.resolved = true ∧ ¬ HasSubst r := by
  have hw := (live_spec.2 h).1
  have h1 := (C25_no_substitution_left_partial env n v v r b hw hw hr).1
  have hwr : r.Wf := by
    unfold configResolve configResolveWith resolveTop at hr
    obtain ⟨o1, h1, h⟩ := bind_ok hr
    obtain ⟨⟨c', o⟩, hx, h'⟩ := bind_ok h1
    cases h'
    cases o with
    | none => cases h
    | some z =>
      have : z = r := by
        simp only [Option.bind_some, asObject] at h
        split at h <;> simp_all
      exact this ▸ closed_wf.resolveN n _ _ _ _ _ ⟨by rintro x ⟨⟩; exact hw, by simp⟩ hw hx z rfl
  have hg := live_spec.1 (live_of_resolved hwr h1)
  exact ⟨hg, h1, (hg.1 r .here).1 h1⟩

/-- **C69 (`resolve` with any options).** Also the configuration that `resolve()` or `resolve_with()` returns
when unresolved substitutions are allowed says exactly whether a substitution is left, in it and in each
of its parts. -/
theorem C69_resolve_options_partial (env : Env) (n : Nat) (v src r : Value) (o : Options) (h : Good v)
    (hs : Good src) (hr : configResolveWith env n v src o = .ok (some r)) : Good r :=
  live_spec.1 (configResolveWith_live (live_spec.2 h) (live_spec.2 hs) hr)

/-- **C69 (texts and files).** `config::parse_string` and `config::parse_file_any_syntax`, with the `resolve`
that is used for `include file(..)` (simple_includer.cc 61-67: unresolved substitutions are allowed). -/
theorem C69_entry_points_partial {ι : Type} (env : Env) (fs : Files.FS) (m : Nat) (ro : Options) (fuel : Nat)
    (s : Str) (o : ParseOptions ι) (v : Value)
    (h : Files.parseString env fs (fun x => (configResolve env m x ro).bind fun o => ConfigParser.nonNull o)
        fuel s o = .ok v ∨
      Files.parseFileAnySyntax env fs (fun x => (configResolve env m x ro).bind fun o => ConfigParser.nonNull o)
        fuel s o = .ok v) :
    Good v := by
  have hres : ∀ v w, Live v → ((configResolve env m v ro).bind fun o => ConfigParser.nonNull o) = .ok w →
      Live w := by
    intro v w hv hw
    obtain ⟨o, ho, hw⟩ := bind_ok hw
    cases o with
    | none => cases hw
    | some y =>
      cases hw
      exact configResolveWith_live hv hv ho
  rcases h with h | h
  · exact live_spec.1 (built_live.parseString hres h)
  · exact live_spec.1 (built_live.parseFile hres h)

/-- **C69** does not hold for `with_value`: a resolved configuration to which a substitution is added
still says that it is resolved (the status is copied, simple_config_object.cc 163-177). -/
theorem C69_with_value_violated (env : Env) (n : Nat) (p : Path) (opt : Bool) (k : Str) :
    ∃ w, withValuePath Value.empty [k] (.ref n p opt 0) = .ok w ∧ w.resolved = true ∧ HasSubst w :=
  ⟨_, rfl, rfl, n, p, opt, 0, .obj (.head _) .here⟩

/-- A substitution that is found and one that is left: resolving with unresolved substitutions allowed. -/
example : (parseText Tokenizer.exEnv noInc .conf (ch "a=[${b}],b=1,c=${d}") 0 >>= fun v =>
    configResolve Tokenizer.exEnv 9 v.1 ⟨true, true⟩ >>= fun r => .ok (r.map fun r =>
      (r.resolved, (at? r [ch "a"]).map (·.resolved), (at? r [ch "c"]).map (·.resolved)))) =
    .ok (some (false, some true, some false)) := by decide +kernel

/-- A text with a substitution and one without. -/
example : ∃ v w, parseText Tokenizer.exEnv noInc .conf (ch "a=[${b}],c=1") 0 = .ok (v, 1) ∧ v.resolved = false ∧
    parseText Tokenizer.exEnv noInc .conf (ch "a=[b],c=1") 0 = .ok (w, 0) ∧ w.resolved = true :=
  ⟨.obj [(ch "a", .list [.ref 0 [ch "b"] false 0]), (ch "c", .scalar (.int 1 (ch "1")))] false false,
   .obj [(ch "a", .list [.scalar (.str (ch "b") false)]), (ch "c", .scalar (.int 1 (ch "1")))] true false,
   by decide +kernel, by decide, by decide +kernel, by decide⟩

/-- Merging keeps a setting with two values unresolved. -/
example : withFallback (newObj [(ch "a", .ref 0 [ch "b"] false 0)]) (newObj [(ch "a", exInt 1)]) =
    .ok (newObj [(ch "a", .dm [.ref 0 [ch "b"] false 0, exInt 1])]) := by rfl

end StatusProps
end Hocon
