import Verif.Spec.ListSubst
import Verif.Lemmas.ListSubst
import Verif.Props.SettleProps
import Verif.Props.ResolveProps

/-!
# Properties: optional substitutions in lists (C89)
-/

set_option autoImplicit false

namespace Hocon
namespace ListSubstProps
open Spec Value Resolve Settle ConfigParser

variable {env : Env} {b : Bool}

/-! ## What is returned -/

private theorem dead_at {v u : Value} {p : Path} (h : Dead v p) : at? v p ≠ some u := by
  induction h with
  | missing hf => rw [at?_obj, hf]; simp
  | deeper hf _ ih => rw [at?_obj, hf]; exact ih
  | scalar => simp [at?, child, fieldsOf]
  | list => simp [at?, child, fieldsOf]

private theorem leftOut_ev {root : Value} {ext : Path → Option Str} {m : List Nat} {vs ws : List Value}
    (h : LeftOut root ext vs ws) : ∀ {os}, EvL env ext root m vs os → os.filterMap id = ws := by
  induction h with
  | nil => intro os h; cases h; rfl
  | keep hc _ ih =>
    intro os h
    cases h with
    | cons h1 h2 => rw [Ev.clean_eq h1 hc, ← ih h2]; rfl
  | subst ha hc _ ih =>
    intro os h
    cases h with
    | cons h1 h2 =>
      rw [← ih h2]
      cases h1 with
      | clean hc' => exact hc'.elim
      | ref _ _ h1 h2 => rw [ha] at h1; cases h1; rw [← Option.some.inj (Ev.clean_eq h2 hc)]; rfl
      | refGone _ _ h1 h2 => rw [ha] at h1; cases h1; cases Ev.clean_eq h2 hc
      | refExt _ hd _ => exact absurd ha (dead_at hd)
      | refAbsent _ hd _ => exact absurd ha (dead_at hd)
      | refSelf _ _ h1 hb =>
        rw [ha] at h1
        cases h1
        cases hb with
        | ref => exact hc.elim
        | concat => exact hc.elim
  | extern hd he _ ih =>
    intro os h
    cases h with
    | cons h1 h2 =>
      rw [← ih h2]
      cases h1 with
      | clean hc' => exact hc'.elim
      | ref _ _ h1 _ => exact absurd h1 (dead_at hd)
      | refGone _ _ h1 _ => exact absurd h1 (dead_at hd)
      | refExt _ _ he' => rw [he] at he'; cases he'; rfl
      | refAbsent _ _ he' => rw [he] at he'; cases he'
      | refSelf _ _ h1 _ => exact absurd h1 (dead_at hd)
  | drop hd he _ ih =>
    intro os h
    cases h with
    | cons h1 h2 =>
      rw [← ih h2]
      cases h1 with
      | clean hc' => exact hc'.elim
      | ref _ _ h1 _ => exact absurd h1 (dead_at hd)
      | refGone => rfl
      | refExt _ _ he' => rw [he] at he'; cases he'
      | refAbsent => rfl
      | refSelf => rfl

/-- **C89 (partial).** In a configuration that has a value, at every path: a list of plain values and
substitutions becomes the list of the plain values and of the values of the substitutions, in order, with
the optional substitutions of nothing left out; and `resolve()` returns this configuration. What is
missing: the lists for which `Spec.Ev` gives no value, see `C89_throws_violated`. -/
theorem C89_left_out_partial {fs : Fields} {r i : Bool} {R : Value} {q : Path} {vs ws : List Value}
    (hw : (Value.obj fs r i).Wf)
    (h : Ev env (envExt env b) (.obj fs r i) [] (some []) (.obj fs r i) (some R))
    (hq : at? (.obj fs r i) q = some (.list vs)) (hl : LeftOut (.obj fs r i) (envExt env b) vs ws) :
    at? R q = some (.list ws) ∧
    ∃ N, ∀ n, N ≤ n → configResolve env n (.obj fs r i) ⟨b, false⟩ = .ok (some R) := by
  refine ⟨?_, C65_resolves_partial hw h⟩
  obtain ⟨o, h1, h2⟩ := C65_each_setting hw h hq
  rw [h2]
  cases h1 with
  | list h1 _ => rw [leftOut_ev hl h1]
  | clean hc =>
    have : ∀ {vs ws}, LeftOut (.obj fs r i) (envExt env b) vs ws → CleanL vs → vs = ws := by
      intro vs ws h
      induction h with
      | nil => intro _; rfl
      | keep _ _ ih => intro hc; rw [ih hc.2]
      | subst => intro hc; exact hc.1.elim
      | extern => intro hc; exact hc.1.elim
      | drop => intro hc; exact hc.1.elim
    rw [this hl hc]

private theorem dead_absent {root v : Value} {ext : Path → Option Str} {p : Path} (h : Dead v p) :
    Absent env root ext v p := by
  induction h with
  | missing hf => exact .missing hf
  | deeper hf _ ih => exact .deeper hf ih
  | scalar => exact .scalar
  | list => exact .list

private theorem leftOut_den {root : Value} {ext : Path → Option Str} {vs ws : List Value}
    (h : LeftOut root ext vs ws) : DenL env root ext vs ws := by
  induction h with
  | nil => exact .nil
  | keep hc _ ih => exact .keep (Clean.den _ hc) ih
  | subst ha hc _ ih => exact .keep (.ref (At.of_at? ha) (Clean.den _ hc)) ih
  | extern hd he _ ih => exact .keep (.refExt (dead_absent hd) he) ih
  | drop hd he _ ih => exact .drop (.refAbsent (dead_absent hd) he) ih

/-- **C89 (if anything is returned, partial).** Whenever `resolve()` returns at all, such a list has
become what it should become: no element is lost, repeated or moved, and no substitution stays. (For
settings without several values, as in C26.) -/
theorem C89_if_returned_partial {n : Nat} {root R : Value} {q : Path} {vs ws : List Value}
    (hw : root.Wf) (hs : Simple root root) (h : configResolve env n root ⟨b, false⟩ = .ok (some R))
    (hq : at? root q = some (.list vs)) (hl : LeftOut root (envExt env b) vs ws) :
    at? R q = some (.list ws) := by
  obtain ⟨hd, -⟩ := C26_meaning_partial env n root R b hw hs h
  have hden : Den env root (envExt env b) (.list vs) (some (.list ws)) := .list (leftOut_den hl)
  rcases hd.at_some hw hq with ⟨w, h1, h2⟩ | ⟨h1, -⟩
  · rw [h2, (Den.det h1).1 _ hden]
  · cases (Den.det h1).1 _ hden

/-! ## What is not returned -/

private theorem stuck_unresolved {ext : Path → Option Str} {root v : Value} {pos : Option Path}
    (h : Stuck env ext root pos v) : v.resolved = false := by
  induction h with
  | list h _ =>
    have := EvL.first_unresolved h _ rfl rfl
    simp [Value.resolved, resolvedAll, this]
  | @elem pos v pre post os _ _ ih =>
    cases hc : (Value.list (pre ++ v :: post)).resolved with
    | false => rfl
    | true =>
      simp only [Value.resolved, resolvedAll_iff] at hc
      exact absurd (hc v (by simp)) (by simp [ih])
  | field => rfl

private theorem stuck_throws {root v : Value} {pos : Option Path} (hroot : root.Wf)
    (hobj : root.isObject = true) (h : Stuck env (envExt env b) root pos v) : v.Wf →
    (∀ q, pos = some q → at? root q = some v) → Throws env b root [] pos v := by
  induction h with
  | list h ho =>
    intro hv _
    exact throws_list h (by exact ho) hroot hobj (by simpa only [Wf] using hv)
  | @elem pos v pre post os h hs ih =>
    intro hv _
    have hv' : WfL (pre ++ v :: post) := by simpa only [Wf] using hv
    refine throws_elem h (ih (WfL.iff.1 hv' v (by simp)) (by simp)) (stuck_unresolved hs) hroot hobj
      (WfL.iff.2 fun w hw => WfL.iff.1 hv' w (by simp [hw]))
  | @field pos k v pre post i os h hs ih =>
    intro hv ha
    have hv' : false = resolvedFields (pre ++ (k, v) :: post) ∧ (keysOf (pre ++ (k, v) :: post)).Nodup ∧
      WfF (pre ++ (k, v) :: post) := by simpa only [Wf] using hv
    refine throws_field h (ih (WfF.iff.1 hv'.2.2 (k, v) (by simp)) ?_) hroot hobj hv ha
    intro q hq
    obtain ⟨q', rfl, rfl⟩ := Option.map_eq_some_iff.1 hq
    exact at?_snoc (ha q' rfl) (by
      rw [child_eq_findKey]; exact findKey_of_mem hv'.2.1 (by simp : (k, v) ∈ pre ++ (k, v) :: post))

/-- **C89** does not hold for all lists, and exactly how it fails: a configuration with a list whose first
element vanishes and whose second element vanishes too or is a substitution with a value is not resolved;
`resolve()` throws. (`simple_config_list::modify_may_throw`, simple_config_list.cc 188-205, takes the
empty list of new elements for one that was not begun yet, and puts the vanished element back.) -/
theorem C89_throws_violated {root : Value} (hw : root.Wf)
    (hs : Stuck env (envExt env b) root (some []) root) (hobj : root.isObject = true) :
    ∃ N, ∀ n, N ≤ n → configResolve env n root ⟨b, false⟩ = .err .config := by
  obtain ⟨N, h⟩ := stuck_throws hw hobj hs hw (by rintro q ⟨⟩; rfl)
  refine ⟨N, fun n hn => ?_⟩
  have := h n hn ⟨⟨b, false⟩, [], []⟩ ⟨some root, []⟩ ⟨rfl, rfl, by simp, rfl⟩ (by rintro q ⟨⟩; rfl)
  simp only [configResolve, configResolveWith, resolveTop, this, Res.bind]

/-! ## The hypotheses are met -/

/-- `y = 1, a = [0, ${?x}, ${y}, ${?x}, ${?x}, 2]` -/
def exOk : Fields :=
  [(ch "y", .scalar (.int 1 [])),
   (ch "a", .list [.scalar (.int 0 []), .ref 0 [ch "x"] true 0, .ref 1 [ch "y"] false 0,
     .ref 2 [ch "x"] true 0, .ref 3 [ch "x"] true 0, .scalar (.int 2 [])])]

example : LeftOut (.obj exOk false false) (fun _ => none)
    [.scalar (.int 0 []), .ref 0 [ch "x"] true 0, .ref 1 [ch "y"] false 0, .ref 2 [ch "x"] true 0,
      .ref 3 [ch "x"] true 0, .scalar (.int 2 [])]
    [.scalar (.int 0 []), .scalar (.int 1 []), .scalar (.int 2 [])] :=
  .keep trivial (.drop (.missing rfl) rfl (.subst rfl trivial (.drop (.missing rfl) rfl
    (.drop (.missing rfl) rfl (.keep trivial .nil)))))

example : Ev env (envExt env false) (.obj exOk false false) [] (some []) (.obj exOk false false)
    (some (.obj [(ch "y", .scalar (.int 1 [])),
      (ch "a", .list [.scalar (.int 0 []), .scalar (.int 1 []), .scalar (.int 2 [])])] true false)) := by
  refine .obj (os := [(ch "y", some _), (ch "a", some _)]) (.cons (.clean trivial) (.cons
    (.list (os := [some _, none, some _, none, none, some _]) ?_ trivial) .nil))
  exact .cons (.clean trivial) (.cons (.refAbsent (by simp) (.missing rfl) rfl)
    (.cons (.ref (by simp) (by simp) rfl (.clean trivial)) (.cons (.refAbsent (by simp) (.missing rfl) rfl)
      (.cons (.refAbsent (by simp) (.missing rfl) rfl) (.cons (.clean trivial) .nil)))))

example : (Value.obj exOk false false).Wf := wfB_wf _ (by decide)
example : Simple (.obj exOk false false) (.obj exOk false false) := simpleB_simple (by decide)

example : configResolve Tokenizer.exEnv 20 (.obj exOk false false) ⟨false, false⟩ =
    .ok (some (.obj [(ch "y", .scalar (.int 1 [])),
      (ch "a", .list [.scalar (.int 0 []), .scalar (.int 1 []), .scalar (.int 2 [])])] true false)) := by
  decide +kernel

/-- `y = 1, s { a = [[${?x}, ${y}]] }` -/
def exBad : Value :=
  .obj [(ch "y", .scalar (.int 1 [])),
    (ch "s", .obj [(ch "a", .list [.list [.ref 0 [ch "x"] true 0, .ref 1 [ch "y"] false 0]])] false false)]
    false false

/-- `exBad` meets the hypotheses of `C89_throws_violated`. -/
example : exBad.Wf ∧ Stuck env (envExt env false) exBad (some []) exBad := by
  refine ⟨wfB_wf _ (by decide), ?_⟩
  refine .field (pre := [(ch "y", _)]) (post := []) (os := [(ch "y", some _)])
    (.cons (.clean trivial) .nil) ?_
  refine .field (pre := []) (post := []) .nil ?_
  refine .elem (pre := []) (post := []) .nil ?_
  exact .list (o := some (.scalar (.int 1 []))) (.cons (.refAbsent (by simp) (.missing rfl) rfl)
    (.cons (.ref (by simp) (by simp) rfl (.clean trivial)) .nil)) (by simp)

/-- The text `y=1,a=[${?x},${y}]` is read, and `resolve()` throws; with the second element first it is
resolved to the list that was meant. With `allow_unresolved` the vanished substitution stays in the
list. -/
theorem C89_witness_violated :
    ((parseText Tokenizer.exEnv noInc .conf (ch "y=1,a=[${?x},${y}]") 0).bind fun v =>
      configResolve Tokenizer.exEnv 20 v.1 ⟨false, false⟩) = .err .config ∧
    ((parseText Tokenizer.exEnv noInc .conf (ch "y=1,a=[${y},${?x}]") 0).bind fun v =>
      configResolve Tokenizer.exEnv 20 v.1 ⟨false, false⟩) =
      .ok (some (.obj [(ch "y", .scalar (.int 1 (ch "1"))), (ch "a", .list [.scalar (.int 1 (ch "1"))])] true false)) ∧
    ((parseText Tokenizer.exEnv noInc .conf (ch "y=1,a=[${?x},${y}]") 0).bind fun v =>
      configResolve Tokenizer.exEnv 20 v.1 ⟨false, true⟩) =
      .ok (some (.obj [(ch "y", .scalar (.int 1 (ch "1"))),
        (ch "a", .list [.ref 0 [ch "x"] true 0, .scalar (.int 1 (ch "1"))])] false false)) :=
  ⟨by decide +kernel, by decide +kernel, by decide +kernel⟩

end ListSubstProps
end Hocon
