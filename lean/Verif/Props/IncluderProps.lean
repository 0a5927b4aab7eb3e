import Verif.Includers
import Verif.Props.IncludeProps

/-!
# Includers: C85
-/

set_option autoImplicit false

namespace Hocon
namespace Includers
open Value Spec PathParser ConfigParser Files

/-! ### Specification -/

/-- The includer answers the name with the settings `v`. -/
def Gives (A : Apps) (load : Loader) (dir name : Str) (i : Inc) (v : Value) : Prop :=
  ∀ n, ∃ n', incl A load dir name i n = .ok (v, n')

/-- The files found for the name have no substitutions, and so have the answers of the application. -/
structure Simple (A : Apps) (load : Loader) (dir name : Str) : Prop where
  own : ∃ v, v.Plain ∧ Gives A load dir name default v
  app : ∀ i, ∃ v, v.Plain ∧ Gives A load dir name (.app i) v

/-- `r` answers with the settings of `a` over those of `b`. -/
def Joins (A : Apps) (load : Loader) (dir name : Str) (a b r : Inc) : Prop :=
  ∃ v w m, v.Plain ∧ w.Plain ∧ Gives A load dir name a v ∧ Gives A load dir name b w ∧
    Value.withFallback v w = .ok m ∧ Gives A load dir name r m

/-- No proxy. -/
def Open : Inc → Prop
  | .app _ => True
  | .simple _ => True
  | .chain _ g => Open g
  | .proxy _ _ => False

/-! ### Fallbacks -/

theorem bindOk {α β : Type} (a : α) (f : α → Res β) : (Res.ok a).bind f = f a := rfl

theorem gives_unique {A : Apps} {load : Loader} {dir name : Str} {i : Inc} {v w : Value}
    (h1 : Gives A load dir name i v) (h2 : Gives A load dir name i w) : v = w := by
  obtain ⟨n1, e1⟩ := h1 0
  obtain ⟨n2, e2⟩ := h2 0
  rw [e1] at e2
  cases e2
  rfl

/-- The answer of an includer with a fallback. -/
theorem gives_chain {A : Apps} {load : Loader} {dir name : Str} {v w : Value} {g : Inc} (a : Nat)
    (hv : v.Plain) (hw : w.Plain) (h1 : Gives A load dir name default v) (h2 : Gives A load dir name g w) :
    Gives A load dir name (.chain a g) (pmerge v w) := by
  intro n
  obtain ⟨n1, e1⟩ := h1 n
  obtain ⟨n2, e2⟩ := h2 n1
  refine ⟨n2, ?_⟩
  have e1' : Files.includeName load dir name n = .ok (v, n1) := e1
  show over (Files.includeName load dir name) (incl A load dir name g) n = _
  unfold over
  rw [e1']
  show (incl A load dir name g n1).bind _ = _
  rw [e2]
  show (Value.withFallback v w).bind _ = _
  rw [(withFallback_plain v w hv hw).1]
  rfl

theorem gives_any {A : Apps} {load : Loader} {dir name : Str} (h : Simple A load dir name) (i : Inc) :
    ∃ v, v.Plain ∧ Gives A load dir name i v := by
  induction i with
  | app i => exact h.app i
  | simple a => exact h.own
  | chain a g ih =>
    obtain ⟨v, hv, gv⟩ := h.own
    obtain ⟨w, hw, gw⟩ := ih
    exact ⟨_, (withFallback_plain v w hv hw).2, gives_chain a hv hw gv gw⟩
  | proxy a d ih => exact ih

/-- **C85 (fallbacks, partial).** `a.with_fallback(b)`, if it returns, is an includer that answers every
name with the settings of `a` over those of `b`. The application's classes are assumed to do so, in
particular when they are at the end of a chain of fallbacks. Missing: answers with substitutions, and
proxies, which ignore the fallback (`C85_proxy_ignores`). -/
theorem C85_fallback_partial (A : Apps) (load : Loader) (dir name : Str) (h : Simple A load dir name)
    (a b : Inc) (hA : ∀ i k r, A.withFallback i b k = .ok r → Joins A load dir name (.app i) b r.1)
    (ha : Open a) (k : Nat) (r : Inc × Nat) (hr : withFallback A a b k = .ok r) :
    Joins A load dir name a b r.1 := by
  obtain ⟨w, hw, gw⟩ := gives_any h b
  obtain ⟨v, hv, gv⟩ := h.own
  induction a generalizing k r with
  | app i => exact hA i k r hr
  | proxy => exact ha.elim
  | simple a =>
    unfold withFallback at hr
    split at hr
    · cases hr
    · cases hr
      exact ⟨v, w, _, hv, hw, gv, gw, (withFallback_plain v w hv hw).1, gives_chain k hv hw gv gw⟩
  | chain a g ih =>
    unfold withFallback at hr
    obtain ⟨x, hx, gx⟩ := gives_any h g
    have px := withFallback_plain v x hv hx
    have gc := gives_chain a hv hx gv gx
    have pm := withFallback_plain _ w px.2 hw
    refine ⟨pmerge v x, w, pmerge (pmerge v x) w, px.2, hw, gc, gw, pm.1, ?_⟩
    have ea := pmerge_assoc v x w hx hw
    split at hr
    · cases hr
    · split at hr
      · rename_i e
        cases hr
        subst e
        have exw := gives_unique gx gw
        subst exw
        have ei : pmerge x x = x := by
          have e1 := (withFallback_plain x x hx hx).1
          rw [C18_idempotent x hx] at e1
          exact (Res.ok.inj e1).symm
        rw [ei] at ea
        rw [ea]
        exact gc
      · obtain ⟨s, hs, e⟩ := Res.bind_eq_ok.1 hr
        cases e
        obtain ⟨x', w', m, hx', hw', gx', gw', em, gm⟩ := ih ha k s hs
        have := gives_unique gx gx'
        subst this
        have := gives_unique gw gw'
        subst this
        have pxw := withFallback_plain x w hx hw
        rw [pxw.1] at em
        cases em
        rw [ea]
        exact gives_chain _ hv pxw.2 gv gm

/-- **C85 (violated).** The includer of the options of an include context is a proxy; adding a fallback
to it has no effect. -/
theorem C85_proxy_ignores (A : Apps) (a : Nat) (d b : Inc) (k : Nat) :
    withFallback A (.proxy a d) b k = .ok (.proxy a d, k) := rfl

/-- **C85 (cycles).** An includer of the library cannot be its own fallback. -/
theorem C85_cycle (A : Apps) (a : Nat) (g : Inc) (k : Nat) :
    withFallback A (.simple a) (.simple a) k = .err .config ∧
      withFallback A (.chain a g) (.chain a g) k = .err .config := by
  simp [withFallback]

/-! ### The options of a parse -/

theorem incl_makeFull (A : Apps) (load : Loader) (dir name : Str) (k : Nat) (i : Inc) :
    incl A load dir name (makeFull k i) = incl A load dir name i := by
  cases i <;> rfl

theorem fixup_proxy (A : Apps) (k a : Nat) (d : Inc) :
    fixup A k (some (.proxy a d)) = .ok (.proxy a d) := rfl

theorem makeFull_proxy (k : Nat) (i : Inc) : ∃ a d, makeFull k i = .proxy a d := by
  cases i <;> exact ⟨_, _, rfl⟩

theorem fixup_is_proxy {A : Apps} {k : Nat} {o : Option Inc} {c : Inc} (h : fixup A k o = .ok c) :
    ∃ a d, c = .proxy a d := by
  unfold fixup at h
  obtain ⟨p, _, h⟩ := Res.bind_eq_ok.1 h
  split at h
  · rename_i i _
    obtain ⟨a, d, e⟩ := makeFull_proxy k i
    rw [e] at h
    cases h
    exact ⟨a, d, rfl⟩
  · cases h

/-- Completing the options twice is completing them once. -/
theorem fixup_fixup {A : Apps} {k : Nat} {o : Option Inc} {c : Inc} (h : fixup A k o = .ok c) :
    fixup A k (some c) = .ok c := by
  obtain ⟨a, d, rfl⟩ := fixup_is_proxy h
  rfl

/-- **C85 (application).** If the options have an includer of the application that keeps to its
contract, the names are answered with its settings over those of the default includer. -/
theorem C85_application (A : Apps) (load : Loader) (dir name : Str) (k i : Nat) (c : Inc)
    (hA : ∀ r, A.withFallback i default k = .ok r → Joins A load dir name (.app i) default r.1)
    (hc : fixup A k (some (.app i)) = .ok c) : Joins A load dir name (.app i) default c := by
  unfold fixup at hc
  obtain ⟨p, hp, hc⟩ := Res.bind_eq_ok.1 hc
  have e : (ParseOptions.new.setIncluder (some (Inc.app i))).appendIncluder
      (fun a f => (withFallback A a f k).bind fun r => .ok r.1) (some default) =
      ((A.withFallback i default k).bind fun r => .ok r.1).bind
        fun j => .ok ((ParseOptions.new.setIncluder (some (Inc.app i))).setIncluder (some j)) := rfl
  rw [e] at hp
  obtain ⟨j, hj, hp⟩ := Res.bind_eq_ok.1 hp
  obtain ⟨r, hr, hj⟩ := Res.bind_eq_ok.1 hj
  cases hj
  cases hp
  cases hc
  obtain ⟨v, w, m, hv, hw, gv, gw, em, gm⟩ := hA r hr
  refine ⟨v, w, m, hv, hw, gv, gw, em, fun n => ?_⟩
  rw [incl_makeFull]
  exact gm n

/-- **C85 (`include file`).** A class of the application that does not implement `include_file` leaves
these statements to the default includer; one that does answers them itself. -/
theorem C85_file (A : Apps) (load : Loader) (res : Value → Res Value) (dir name : Str) (k i n : Nat) :
    (A.file i = none → (toIncluder A load res dir (makeFull k (.app i))).file name n =
      (Files.includer load res dir).file name n) ∧
    (∀ g, A.file i = some g → (toIncluder A load res dir (makeFull k (.app i))).file name n =
      g load dir name n) := by
  refine ⟨fun h => ?_, fun g h => ?_⟩ <;> simp [toIncluder, makeFull, file?, h, ownFile]

/-- **C85 (`include file` is always answered).** The includer a file is parsed with answers `include file(...)`, whatever the
includer given in the options: with the class of the application that implements it, or with the default includer. Without
the options being completed, a class that does not implement it has no answer, and calling it would be undefined. -/
theorem C85_file_answered (A : Apps) (load : Loader) (res : Value → Res Value) (dir name : Str) (k : Nat) (o : Option Inc)
    (c : Inc) (hc : fixup A k o = .ok c) :
    (∃ h, file? A load res dir name c = some h ∧ ∀ n, (toIncluder A load res dir c).file name n = h n) ∧
    ∀ i n, A.file i = none → (toIncluder A load res dir (.app i)).file name n = .ub := by
  refine ⟨?_, fun i n h => by simp [toIncluder, file?, h]⟩
  obtain ⟨p, _, hc⟩ := Res.bind_eq_ok.1 hc
  have hfull : ∀ i, ∃ h, file? A load res dir name (makeFull k i) = some h := by
    intro i
    have hp : ∀ a d, ∃ h, file? A load res dir name (.proxy a d) = some h := by
      intro a d
      rw [file?]
      cases file? A load res dir name d with
      | some h => exact ⟨h, rfl⟩
      | none => exact ⟨_, rfl⟩
    cases i <;> exact hp _ _
  cases hi : p.includer with
  | none => rw [hi] at hc; cases hc
  | some i =>
    rw [hi] at hc
    cases hc
    obtain ⟨h, e⟩ := hfull i
    exact ⟨h, e, fun n => by simp [toIncluder, e]⟩

/-- **C85 (`include file` with fallbacks).** The default includer with a class of the application as its
fallback asks both for `include file(...)`, and the settings of the file go over those of the class; if
the class does not implement `include_file`, only the file counts. -/
theorem C85_file_fallback (A : Apps) (load : Loader) (res : Value → Res Value) (dir name : Str)
    (k a i n n1 : Nat) (r : Inc × Nat) (hr : withFallback A (.simple a) (.app i) k = .ok r) (v : Value)
    (hv : v.Plain) (ev : (Files.includer load res dir).file name n = .ok (v, n1)) :
    (A.file i = none → (toIncluder A load res dir (makeFull k r.1)).file name n = .ok (v, n1)) ∧
    (∀ g w n2, A.file i = some g → w.Plain → g load dir name n1 = .ok (w, n2) →
      ∃ m, Value.withFallback v w = .ok m ∧
        (toIncluder A load res dir (makeFull k r.1)).file name n = .ok (m, n2)) := by
  have er : r = (.chain k (.app i), k + 1) := by
    simp only [withFallback, reduceCtorEq, if_false] at hr
    exact (Res.ok.inj hr).symm
  subst er
  refine ⟨fun h => ?_, fun g w n2 h hw eg => ⟨_, (withFallback_plain v w hv hw).1, ?_⟩⟩
  · simp [toIncluder, makeFull, file?, h, ownFile, ev]
  · simp only [toIncluder, makeFull, file?, h, ownFile, Option.map_some, over]
    rw [ev, bindOk, eg, bindOk, (withFallback_plain v w hv hw).1]
    rfl

/-- **C85 (all files).** Parsing a file uses one includer for its own include statements, for those of
the files it includes, and so on. -/
theorem C85_everywhere (A : Apps) (k : Nat) (env : Env) (fs : FS) (res : Value → Res Value) (fuel : Nat)
    (o : Option Inc) (c : Inc) (hc : fixup A k o = .ok c) (f : Str) (syn : Syntax) (n : Nat) :
    loadFile A k env fs res (fuel + 1) c f syn n =
      (parseText env (toIncluder A (loadFile A k env fs res fuel c) res (dirOf f) c) syn
        (contents fs f) n).bind fun v => (forceObject v.1).bind fun w => .ok (w, v.2) := by
  rw [loadFile]
  have e := fixup_fixup hc
  have el : (fun g s m => (fixup A k (some c)).bind fun c' => loadFile A k env fs res fuel c' g s m) =
      loadFile A k env fs res fuel c := by
    funext g s m
    rw [e]
    rfl
  rw [el, e]
  rfl

/-- The default includer, completed. -/
theorem fixup_default (A : Apps) (k : Nat) :
    fixup A k none = .ok (.proxy k default) ∧ fixup A k (some default) = .ok (.proxy k default) :=
  ⟨rfl, rfl⟩

theorem toIncluder_default (A : Apps) (load : Loader) (res : Value → Res Value) (dir : Str) (k : Nat) :
    toIncluder A load res dir (.proxy k default) = Files.includer load res dir := rfl

theorem loadFile_default (A : Apps) (k : Nat) (env : Env) (fs : FS) (res : Value → Res Value) (fuel : Nat) :
    loadFile A k env fs res fuel (.proxy k default) = Files.loadFile env fs res fuel := by
  induction fuel with
  | zero => rfl
  | succ fuel ih =>
    funext f syn n
    rw [C85_everywhere A k env fs res fuel none _ (fixup_default A k).1, toIncluder_default, ih]
    rfl

/-- **C85 (default).** Without an includer, or with the default includer, in the options, a file is parsed
as described by the theorems on includes (C43, C44, C57, C58, C59): no class of the application is
asked. -/
theorem C85_default (A : Apps) (k : Nat) (env : Env) (fs : FS) (res : Value → Res Value) (fuel : Nat)
    (name : Str) (o : ParseOptions Inc) (h : o.includer = none ∨ o.includer = some default) :
    parseFileAnySyntax A k env fs res fuel name o = Files.parseFileAnySyntax env fs res fuel name o := by
  have e : fixup A k o.includer = .ok (.proxy k default) := by
    rcases h with h | h <;> rw [h]
    · exact (fixup_default A k).1
    · exact (fixup_default A k).2
  unfold parseFileAnySyntax
  rw [e, bindOk, loadFile_default]
  rfl

/-! ### Strings -/

/-- **C85 (violated).** `parse_string` hands the include statements of the text to the default includer,
whatever the options say; only those of included files reach the includer of the options. -/
theorem C85_string_default (A : Apps) (k : Nat) (env : Env) (fs : FS) (res : Value → Res Value)
    (fuel : Nat) (s : Str) (o : ParseOptions Inc) (c : Inc) (hc : fixup A k o.includer = .ok c) :
    parseString A k env fs res fuel s o =
      (parseText env (Files.includer (loadFile A k env fs res fuel c) res []) .conf s 0).bind
        fun v => forceObject v.1 := by
  unfold parseString
  rw [hc, bindOk, (fixup_default A k).1, bindOk, toIncluder_default]
  have el : (fun g s m => (fixup A k (some c)).bind fun c' => loadFile A k env fs res fuel c' g s m) =
      loadFile A k env fs res fuel c := by
    funext g s m
    rw [fixup_fixup hc]
    rfl
  rw [el]
  rfl

/-! ### Examples -/

/-- An application that answers every name with `x : 1` and has no fallback. -/
def exApps : Apps where
  incl _ _ _ _ n := .ok (newObj [(ch "x", .scalar (.int 1 (ch "1")))], n)
  file _ := none
  withFallback i _ k := .ok (.app i, k)

/-- A file that includes another one. -/
def exFS : FS := fun f => if f = ch "a.conf" then some (ch "include \"b.conf\"") else none

/-- **C85 (witness).** The same text asks the application if it is read from a file, but not if it is
given as a string. If it is included from a string, the application is asked again. -/
theorem C85_string_violated (env : Env) (res : Value → Res Value) :
    parseFileAnySyntax exApps 1 env exFS res 2 (ch "a.conf")
      (ParseOptions.new.setIncluder (some (.app 0))) =
      .ok (newObj [(ch "x", .scalar (.int 1 (ch "1")))]) ∧
    parseString exApps 1 env exFS res 2 (ch "include \"b.conf\"")
      (ParseOptions.new.setIncluder (some (.app 0))) = .ok (newObj []) ∧
    parseString exApps 1 env exFS res 2 (ch "include \"a.conf\"")
      (ParseOptions.new.setIncluder (some (.app 0))) =
      .ok (newObj [(ch "x", .scalar (.int 1 (ch "1")))]) :=
  ⟨rfl, rfl, rfl⟩

/-- An application that answers with settings of its own, and with a fallback to the default includer
(the objects other than 0) with these over the files. -/
def exApps2 : Apps where
  incl i load dir name n :=
    if i = 0 then .ok (exA, n) else over (fun n => .ok (exA, n)) (Files.includeName load dir name) n
  file _ := none
  withFallback _ b k := if b = default then .ok (.app 1, k) else .err .config

/-- A loader that finds the same settings in every file. -/
def exLoad : Loader := fun _ _ n => .ok (exB, n)

theorem ex_default : Gives exApps2 exLoad [] (ch "a.conf") default exB := fun n => ⟨n, rfl⟩

theorem ex_app0 : Gives exApps2 exLoad [] (ch "a.conf") (.app 0) exA := fun n => ⟨n, rfl⟩

theorem ex_app {i : Nat} (h : i ≠ 0) :
    Gives exApps2 exLoad [] (ch "a.conf") (.app i) (pmerge exA exB) := by
  intro n
  refine ⟨n, ?_⟩
  show (if i = 0 then _ else over (fun n => .ok (exA, n)) (fun n => .ok (exB, n)) n) = _
  rw [if_neg h]
  unfold over
  rw [bindOk, bindOk, (withFallback_plain exA exB exA_plain exB_plain).1]
  rfl

theorem exSimple : Simple exApps2 exLoad [] (ch "a.conf") where
  own := ⟨exB, exB_plain, ex_default⟩
  app i := by
    by_cases h : i = 0
    · subst h; exact ⟨exA, exA_plain, ex_app0⟩
    · exact ⟨_, (withFallback_plain exA exB exA_plain exB_plain).2, ex_app h⟩

theorem exContract (i k : Nat) (r : Inc × Nat) (h : exApps2.withFallback i default k = .ok r) :
    Joins exApps2 exLoad [] (ch "a.conf") (.app i) default r.1 := by
  have e : exApps2.withFallback i default k = .ok (.app 1, k) := rfl
  rw [e] at h
  cases h
  have pm := withFallback_plain exA exB exA_plain exB_plain
  by_cases h : i = 0
  · subst h
    exact ⟨_, _, _, exA_plain, exB_plain, ex_app0, ex_default, pm.1, ex_app (by decide)⟩
  · refine ⟨_, _, _, pm.2, exB_plain, ex_app h, ex_default, ?_, ex_app (by decide)⟩
    rw [(withFallback_plain _ exB pm.2 exB_plain).1, pmerge_assoc exA exB exB exB_plain exB_plain,
      pmerge_self exB exB_plain]

/-- A class with `include_file` as the fallback of the default includer: `a.conf` (`exB`) goes over its
answer (`exA`). -/
example : ∃ m, Value.withFallback exB exA = .ok m ∧
    (toIncluder { exApps2 with file := fun _ => some fun _ _ _ n => .ok (exA, n) } exLoad .ok []
      (makeFull 6 (.chain 6 (.app 0)))).file (ch "a.conf") 0 = .ok (m, 0) := by
  have h : ∃ v, v.Plain ∧ (Files.includer exLoad .ok []).file (ch "a.conf") 0 = .ok (v, 0) ∧ v = exB :=
    ⟨exB, exB_plain, rfl, rfl⟩
  obtain ⟨v, hv, ev, rfl⟩ := h
  exact (C85_file_fallback { exApps2 with file := fun _ => some fun _ _ _ n => .ok (exA, n) } exLoad .ok
    [] (ch "a.conf") 6 5 0 0 0 (.chain 6 (.app 0), 7) rfl exB hv ev).2 _ exA 0 rfl exA_plain rfl

/-- The files over the application, and the default includer once more behind that. -/
example : ∃ r, withFallback exApps2 (.chain 5 (.app 0)) default 6 = .ok r ∧
    Joins exApps2 exLoad [] (ch "a.conf") (.chain 5 (.app 0)) default r.1 :=
  ⟨(.chain 6 (.app 1), 7), rfl, C85_fallback_partial exApps2 exLoad [] (ch "a.conf") exSimple
    (.chain 5 (.app 0)) default exContract (show True from trivial) 6 _ rfl⟩

example : Joins exApps2 exLoad [] (ch "a.conf") (.app 0) default (.proxy 6 (.app 1)) :=
  C85_application exApps2 exLoad [] (ch "a.conf") 6 0 _ (fun r h => exContract 0 6 r h) rfl

end Includers
end Hocon
