import Verif.Props.ResolveProps
import Verif.Props.ResolveOriginProps
import Verif.Lemmas.Relaxed
import Verif.Lemmas.RelaxedClass
import Verif.Lemmas.RelaxedLeft

/-!
# The permission to leave substitutions (C94)
-/

set_option autoImplicit false

namespace Hocon
namespace RelaxedProps

open Spec Value Resolve Notes ResolveA FilesA Files

/-- **C94 (nothing changes where nothing is missing).** If `resolve_with` succeeds without the permission to
leave substitutions, it gives the same configuration with it. For all trees, sources and environments. -/
theorem C94_same (env : Env) (n : Nat) (self source : Value) (u : Bool) (r : Option Value)
    (h : configResolveWith env n self source ⟨u, false⟩ = .ok r) :
    configResolveWith env n self source ⟨u, true⟩ = .ok r := by
  unfold configResolveWith resolveTop at h ⊢
  obtain ⟨y, hy, h⟩ := bind_ok h
  obtain ⟨x, hx, hy⟩ := bind_ok hy
  obtain ⟨b, hb, hs⟩ := (lax_resolveN env n ⟨⟨u, false⟩, [], []⟩ ⟨some source, []⟩ self).1 x hx
  have hb' : resolveN env n ⟨⟨u, true⟩, [], []⟩ ⟨some source, []⟩ self = .ok b := hb
  rw [hb', hs.eq]
  cases hy
  cases h
  rfl

/-- **C94 (two steps).** Resolving with the permission first and without it afterwards is resolving without it,
if that is possible, whatever the second step uses as its source. -/
theorem C94_two_steps (env : Env) (n : Nat) (self source second r : Value) (u u' : Bool) (hv : self.Wf)
    (hs : source.Wf) (h : configResolveWith env n self source ⟨u, false⟩ = .ok (some r)) :
    (configResolveWith env n self source ⟨u, true⟩).bind (fun x => match x with
      | some w => configResolveWith env n w second ⟨u', false⟩
      | none => .ok none) = .ok (some r) := by
  rw [C94_same env n self source u _ h]
  have hc := Resolve.C25_no_substitution_left_partial env n self source r u hv hs h
  cases n with
  | zero => cases h
  | succ n => exact (Resolve.C24_resolved_noop env n r second ⟨u', false⟩ hc.2.2 hc.1).1

/-- **C94 (no complaint about what is missing).** With the permission, `resolve_with` never throws
`unresolved_substitution_exception`. -/
theorem C94_never_missing (env : Env) (n : Nat) (self source : Value) (u : Bool) :
    configResolveWith env n self source ⟨u, true⟩ ≠ .err .unresolvedSubst := by
  have h := (calmed_resolveN env ⟨u, true⟩ rfl n ⟨⟨u, true⟩, [], []⟩ ⟨some source, []⟩ self rfl).1
  unfold configResolveWith resolveTop
  cases hx : resolveN env n ⟨⟨u, true⟩, [], []⟩ ⟨some source, []⟩ self with
  | ok x => intro h; cases h
  | err e => rw [hx] at h; exact fun h' => h (by cases h'; rfl)
  | ub => intro h; cases h
  | fuel => intro h; cases h

/-- **C94 (nothing is made up).** Every substitution in the result is one of the configuration or of the
source, with the same path, and optional if it was. -/
theorem C94_left (env : Env) (n : Nat) (self source w : Value) (o : Resolve.Options) (hv : self.Wf) (hs : source.Wf)
    (h : configResolveWith env n self source o = .ok (some w)) (id : Nat) (p : Path) (opt : Bool) (pre : Nat)
    (hw : Occurs (.ref id p opt pre) w) :
    Occurs (.ref id p opt pre) self ∨ Occurs (.ref id p opt pre) source := by
  unfold configResolveWith resolveTop at h
  obtain ⟨y, hy, h⟩ := bind_ok h
  obtain ⟨⟨c, x⟩, hx, hy⟩ := bind_ok hy
  cases hy
  have key := Closed.resolveN (env := env) (closed_refs fun id p opt pre =>
    Occurs (.ref id p opt pre) self ∨ Occurs (.ref id p opt pre) source) n
    ⟨o, [], []⟩ ⟨some source, []⟩ self c x
    ⟨(by rintro r ⟨⟩; exact ⟨hs, fun _ _ _ _ h => .inr h⟩), (by intro v h; cases h)⟩
    ⟨hv, fun _ _ _ _ h => .inl h⟩ hx
  cases x with
  | none => cases h
  | some x =>
    obtain ⟨rfl, _⟩ := asObject_some (Res.ok.inj h)
    exact (key _ rfl).2 _ _ _ _ hw

theorem at_nothing {env : Env} {n : Nat} {self source w : AVal} {q p : Path} {o : Resolve.Options} {ox : Origin}
    {id : Nat} {opt : Bool} (h1 : StatusProps.Good self.erase) (h2 : source.erase.Wf)
    (hso : source.erase.isObject = true) (hq : SetAt self q (.ref ox id p opt 0)) (hd : Dead source.erase p)
    (he : ∀ k, p = [k] → env.getenv k = none)
    (h : configResolveWithA env n self source o = .ok (some w)) :
    peekPathA w q = .ok (if opt then none else some (.ref ox id p opt 0)) := by
  have hm : envExt env true p = none := by
    match p, he with
    | [], _ => rfl
    | [k], he => simp only [envExt, if_true, he k rfl]
    | _ :: _ :: _, _ => rfl
  rcases ResolveOriginProps.resolveWith_at h1 hq h with ⟨_, g⟩ | ⟨n', c1, s1, c2, y, _, g2, g3, g4⟩
  · exact (g ⟨_, _, _, _, .here⟩).elim
  · have hg := Gone.of_dead hd h2
    have hroot : s1.erase.root = some source.erase := by
      rw [ASource.erase, g2]; rfl
    revert hg hroot
    cases hsrc : source.erase with
    | obj fs r i =>
      intro hg hroot
      rw [g4]
      exact congrArg _ (ref_nothing hroot hg hm g3)
    | dmo st => intro hg; cases hg
    | _ => rw [hsrc] at hso; cases hso

/-- **C94 (partial: what is missing stays).** A setting that is a required substitution for something the
source does not set, and the environment neither, is after `resolve_with` still this substitution, with its
origin. What is missing: paths that lead through a substitution or through settings still to be merged, and
substitutions inside lists and concatenations. -/
theorem C94_stays_partial (env : Env) (n : Nat) (self source w : AVal) (q p : Path) (o : Resolve.Options)
    (ox : Origin) (id : Nat) (h1 : StatusProps.Good self.erase) (h2 : source.erase.Wf)
    (hso : source.erase.isObject = true) (hq : SetAt self q (.ref ox id p false 0)) (hd : Dead source.erase p)
    (he : ∀ k, p = [k] → env.getenv k = none)
    (h : configResolveWithA env n self source o = .ok (some w)) :
    peekPathA w q = .ok (some (.ref ox id p false 0)) := at_nothing h1 h2 hso hq hd he h

/-- **C94 (partial: what is optional goes).** A setting that is an optional substitution for something the
source does not set, and the environment neither, is not set after `resolve_with`, with or without the
permission. In lists this does not hold, see `C94_optional_violated`. -/
theorem C94_optional_partial (env : Env) (n : Nat) (self source w : AVal) (q p : Path) (o : Resolve.Options)
    (ox : Origin) (id : Nat) (h1 : StatusProps.Good self.erase) (h2 : source.erase.Wf)
    (hso : source.erase.isObject = true) (hq : SetAt self q (.ref ox id p true 0)) (hd : Dead source.erase p)
    (he : ∀ k, p = [k] → env.getenv k = none)
    (h : configResolveWithA env n self source o = .ok (some w)) :
    peekPathA w q = .ok none := at_nothing h1 h2 hso hq hd he h

/-- **C94 (text).** Both for a text that is parsed and resolved. -/
theorem C94_text_partial {ι : Type} (env : Env) (fs : FS) (m fuel n : Nat) (s : Str) (po : ParseOptions ι)
    (o : Resolve.Options) (v w : AVal) (q p : Path) (ox : Origin) (id : Nat) (opt : Bool)
    (hv : parseStringA env fs (fileResolveA env m) fuel s po = .ok v)
    (hq : SetAt v q (.ref ox id p opt 0)) (hd : Dead v.erase p) (he : ∀ k, p = [k] → env.getenv k = none)
    (h : configResolveA env n v o = .ok (some w)) :
    peekPathA w q = .ok (if opt then none else some (.ref ox id p opt 0)) := by
  have hg := ResolveOriginProps.parsed_good hv
  refine at_nothing hg (Resolve.live_spec.2 hg).1 ?_ hq hd he h
  cases hq <;> rfl

/-- **C94** does not hold in lists: of `a=[${?x},${?y}]`, in which nothing is set, `resolve` with the permission
leaves `[${?x}]`. (Without the permission it throws, `C89_throws_violated`.) -/
theorem C94_optional_violated :
    ((ConfigParser.parseText Tokenizer.exEnv ConfigParser.noInc .conf (ch "a=[${?x},${?y}]") 0).bind fun v =>
      configResolve Tokenizer.exEnv 20 v.1 ⟨false, true⟩) =
      .ok (some (.obj [(ch "a", .list [.ref 0 [ch "x"] true 0])] false false)) := by
  decide +kernel

/-! ## The hypotheses are met -/

/-- The first line of a text. -/
def exAt1 : Origin := { FilesA.source (ch "string") with line := 1, endLine := 1 }

/-- What the parser makes of `s{b=${c.d},e=${?f}},g=${h},h=1`. -/
def exText : AVal := .obj exAt1 [(ch "s", .obj exAt1 [(ch "b", .ref exAt1 0 [ch "c", ch "d"] false 0),
    (ch "e", .ref exAt1 1 [ch "f"] true 0)] false false), (ch "g", .ref exAt1 2 [ch "h"] false 0),
  (ch "h", .scalar exAt1 (.int 1 (ch "1")))] false false

example : parseStringA Tokenizer.exEnv (fun _ => none) (fileResolveA Tokenizer.exEnv 9) 3
      (ch "s{b=${c.d},e=${?f}},g=${h},h=1") (ParseOptions.defaults (ι := Unit)) = .ok exText ∧
    SetAt exText [ch "s", ch "b"] (.ref exAt1 0 [ch "c", ch "d"] false 0) ∧
    SetAt exText [ch "s", ch "e"] (.ref exAt1 1 [ch "f"] true 0) ∧
    Dead exText.erase [ch "c", ch "d"] ∧ Dead exText.erase [ch "f"] ∧
    (configResolveA Tokenizer.exEnv 9 exText ⟨true, true⟩).isOk :=
  ⟨rfl, .inner (.head _) (.last (.head _)), .inner (.head _) (.last (.tail _ (.head _))),
    .missing (by decide), .missing (by decide), by decide +kernel⟩

/-- The result: `${h}` has its value, `${?f}` is gone, `${c.d}` is still there. Without the permission there is
no result. -/
example :
    configResolve Tokenizer.exEnv 9 exText.erase ⟨true, true⟩ =
      .ok (some (.obj [(ch "s", .obj [(ch "b", .ref 0 [ch "c", ch "d"] false 0)] false false),
        (ch "g", .scalar (.int 1 (ch "1"))), (ch "h", .scalar (.int 1 (ch "1")))] false false)) ∧
    configResolve Tokenizer.exEnv 9 exText.erase ⟨true, false⟩ = .err .unresolvedSubst :=
  ⟨by decide +kernel, by decide +kernel⟩

/-- `C94_same` and `C94_two_steps` speak about configurations with substitutions. -/
example : configResolveWith Tokenizer.exEnv 9
      (.obj [(ch "g", .ref 2 [ch "h"] false 0), (ch "h", .scalar (.int 1 (ch "1")))] false false)
      (.obj [(ch "h", .scalar (.int 2 (ch "2")))] true false) ⟨false, false⟩ =
    .ok (some (.obj [(ch "g", .scalar (.int 2 (ch "2"))), (ch "h", .scalar (.int 1 (ch "1")))] true false)) := by
  decide +kernel

end RelaxedProps
end Hocon
