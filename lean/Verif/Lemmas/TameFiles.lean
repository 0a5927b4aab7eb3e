import Verif.Lemmas.EditReadLoop
import Verif.Props.DocParserProps
import Verif.Props.ResolveProps
import Verif.Include

/-!
# Files without substitutions are included as objects without substitutions
-/

set_option autoImplicit false

namespace Hocon
namespace EditRead
open Value ConfigParser Files
open PathParser (Syntax)

/-! ## The root of a document -/

theorem parseArray_array {env : Env} {fl : Syntax} {fuel : Nat} {toks rest : List Tok} {c : Node}
    (h : DocParser.parseArray env fl fuel toks = .ok (c, rest)) : ∃ cs, c = .array cs := by
  cases fuel with
  | zero => simp [DocParser.parseArray] at h
  | succ fuel =>
    rw [DocParser.parseArray, Res.bind_eq_ok] at h
    obtain ⟨⟨ws, v, toks1⟩, _, h⟩ := h
    cases v with
    | some v =>
      simp only [Res.bind_eq_ok] at h
      obtain ⟨⟨ns, toks2⟩, _, h⟩ := h
      cases h
      exact ⟨_, rfl⟩
    | none =>
      simp only [Res.bind_eq_ok] at h
      obtain ⟨⟨ws2, t, toks2⟩, _, h⟩ := h
      simp only at h
      split at h
      · cases h
        exact ⟨_, rfl⟩
      · split at h
        · simp only [Res.bind_eq_ok] at h
          obtain ⟨⟨v, toks3⟩, _, ⟨ns, toks4⟩, _, h⟩ := h
          cases h
          exact ⟨_, rfl⟩
        · cases h

/-- The complex value in the root is an object or a list, never a concatenation. -/
theorem root_shape {env : Env} {fl : Syntax} {T : List Tok} {root : List Node} (h : DocParser.parse env fl T = .ok root) :
    ∀ c ∈ root, c.isComplex = true → ∃ cs, c = .object cs ∨ c = .array cs := by
  have plain : ∀ {ws : List Node}, (∀ n ∈ ws, DocParser.Plain n) → ∀ c ∈ ws, c.isComplex = true →
      ∃ cs, c = .object cs ∨ c = .array cs := by
    intro ws hw c hc hx
    obtain ⟨t, rfl | ⟨rfl, _⟩⟩ := hw c hc <;> cases hx
  rw [DocParser.parse, Res.bind_eq_ok] at h
  obtain ⟨⟨t, T1⟩, h0, h⟩ := h
  simp only at h
  split at h
  · rw [Res.bind_eq_ok] at h
    obtain ⟨⟨ws, t0, T2⟩, h1, h⟩ := h
    obtain ⟨_, p1, _⟩ := DocParser.nextCollect_spec h1
    simp only at h
    have one : ∀ {v : Node} {R : List Tok}, (∃ cs, v = .object cs ∨ v = .array cs) →
        DocParser.parseEnd fl false (ws ++ [v]) R = .ok root →
        ∀ c ∈ root, c.isComplex = true → ∃ cs, c = .object cs ∨ c = .array cs := by
      intro v R hv h c hc hx
      obtain ⟨wse, rest, h3, h4⟩ := DocParser.parseEnd_ok h
      obtain ⟨_, p2, _⟩ := DocParser.nextCollect_spec h3
      simp only [Bool.false_eq_true, if_false] at h4
      rw [h4] at hc
      simp only [List.append_assoc, List.mem_append, List.mem_singleton] at hc
      rcases hc with hc | rfl | hc
      · exact plain p1 c hc hx
      · exact hv
      · exact plain p2 c hc hx
    split at h
    · rw [Res.bind_eq_ok] at h
      obtain ⟨⟨v, R⟩, h2, h⟩ := h
      refine one ?_ h
      cases hfu : DocParser.fuelFor T with
      | zero => rw [hfu] at h2; simp [DocParser.parseValue] at h2
      | succ fu =>
        rw [hfu] at h2
        simp only [DocParser.parseValue, Res.bind_eq_ok] at h2
        obtain ⟨⟨ns, _⟩, _, h2⟩ := h2
        cases h2
        exact ⟨_, .inl rfl⟩
    · rw [Res.bind_eq_ok] at h
      obtain ⟨⟨v, R⟩, h2, h⟩ := h
      refine one ?_ h
      cases hfu : DocParser.fuelFor T with
      | zero => rw [hfu] at h2; simp [DocParser.parseValue] at h2
      | succ fu =>
        rw [hfu] at h2
        simp only [DocParser.parseValue] at h2
        obtain ⟨cs, h2⟩ := parseArray_array h2
        exact ⟨cs, .inr h2⟩
    · cases fl with
      | json => cases h
      | conf =>
        simp only [Res.bind_eq_ok] at h
        obtain ⟨⟨ns, R⟩, _, h⟩ := h
        obtain ⟨wse, rest, h3, h4⟩ := DocParser.parseEnd_ok h
        simp only [if_true] at h4
        intro c hc hx
        rw [h4] at hc
        simp only [List.mem_singleton] at hc
        exact ⟨_, .inl hc⟩
  · cases h

/-! ## Reading a file -/

/-- Without substitutions, and an object that merges with others. -/
def Open (v : Value) : Prop := v.Plain ∧ (v.isObject = true → Spec.closed v = false)

theorem parseRoot_open (env : Env) (inc : Includer) {b : Bool} (hi : b = true → Tame inc) (json : Bool) : ∀ (cs : List Node),
    staticL b cs = true → (∀ c ∈ cs, c.isComplex = true → ∃ ds, c = .object ds ∨ c = .array ds) →
    ∀ (r r' : Option Value) (n m : Nat), (∀ v, r = some v → Open v) → parseRoot env inc json cs r n = .ok (r', m) →
      m = n ∧ ∀ v, r' = some v → Open v
  | [], _, _, r, r', n, m, hr, h => by
    simp only [parseRoot, Res.ok.injEq, Prod.mk.injEq] at h
    obtain ⟨rfl, rfl⟩ := h
    exact ⟨rfl, hr⟩
  | c :: cs, hs, hc, r, r', n, m, hr, h => by
    simp only [staticL, Bool.and_eq_true] at hs
    have ih := parseRoot_open env inc hi json cs hs.2 fun x hx => hc x (by simp [hx])
    rw [parseRoot.eq_def] at h
    simp only at h
    split at h
    · rename_i hx
      rw [Res.bind_eq_ok] at h
      obtain ⟨⟨v, n1⟩, h1, h2⟩ := h
      have e1 := parseValue_count env inc hi json 0 none c n n1 v hs.1 h1
      have e2 := parseValue_plain env inc (fun e => (hi e).plain) json 0 none c n n1 v hs.1 h1
      have e3 : v.isObject = true → Spec.closed v = false := by
        obtain ⟨ds, rfl | rfl⟩ := hc c (by simp) hx
        · simp only [parseValue, Res.bind_eq_ok] at h1
          obtain ⟨⟨fs, _⟩, _, h1⟩ := h1
          cases h1
          intro _; rfl
        · simp only [parseValue, Res.bind_eq_ok] at h1
          obtain ⟨⟨fs, _⟩, _, h1⟩ := h1
          cases h1
          intro h; cases h
      obtain ⟨f1, f2⟩ := ih (some v) r' n1 m (by rintro w ⟨⟩; exact ⟨e2, e3⟩) h2
      exact ⟨f1.trans e1, f2⟩
    · split at h
      · simp only [Res.ok.injEq, Prod.mk.injEq] at h
        obtain ⟨rfl, rfl⟩ := h
        exact ⟨rfl, hr⟩
      · exact ih r r' n m hr h

theorem parseText_open {env : Env} {inc : Includer} (hi : Tame inc) {fl : Syntax} {s : Str}
    (hs : ∀ root, DocParser.parseDocument env fl s = .ok root → staticL true root = true) {n m : Nat} {v : Value}
    (h : parseText env inc fl s n = .ok (v, m)) : m = n ∧ Open v := by
  rw [parseText, Res.bind_eq_ok] at h
  obtain ⟨root, h1, h⟩ := h
  rw [Res.bind_eq_ok] at h
  obtain ⟨⟨r, m'⟩, h2, h⟩ := h
  simp only [Res.bind_eq_ok] at h
  obtain ⟨w, h3, h4⟩ := h
  simp only [Res.ok.injEq, Prod.mk.injEq] at h4
  obtain ⟨rfl, rfl⟩ := h4
  have hst := hs root h1
  rw [DocParser.parseDocument, Res.bind_eq_ok] at h1
  obtain ⟨T, _, hp⟩ := h1
  obtain ⟨e1, e2⟩ := parseRoot_open env inc (fun _ => hi) _ root hst (root_shape hp) none r n m' (by simp) h2
  refine ⟨e1, e2 w ?_⟩
  cases r with
  | none => cases h3
  | some x => cases h3; rfl

/-! ## Files -/

/-- No file has a substitution or `+=`, as HOCON or as JSON. -/
def PlainFiles (env : Env) (fs : FS) : Prop :=
  ∀ f fl root, DocParser.parseDocument env fl (contents fs f) = .ok root → staticL true root = true

/-- Resolving an object without substitutions returns it. -/
def Idle (res : Value → Res Value) : Prop := ∀ v w, v.Plain → v.isObject = true → res v = .ok w → w = v

/-- An object that can be included. -/
def Incl (v : Value) : Prop := v.Plain ∧ v.isObject = true ∧ Spec.closed v = false

theorem Incl.merge {a b : Value} (ha : Incl a) (hb : Incl b) : ∃ c, withFallback a b = .ok c ∧ Incl c := by
  obtain ⟨h1, h2⟩ := withFallback_plain a b ha.1 hb.1
  refine ⟨_, h1, h2, ?_⟩
  obtain ⟨_, ao, ac⟩ := ha
  obtain ⟨_, bo, bc⟩ := hb
  cases a with
  | obj fs r i =>
    cases b with
    | obj gs r' j =>
      simp only [Spec.closed] at ac bc
      subst ac bc
      simp [pmerge, isObject, Spec.closed]
    | dmo => exact absurd ‹(Value.dmo _).Plain›.res (by simp [resolved])
    | _ => cases bo
  | dmo => exact absurd ‹(Value.dmo _).Plain›.res (by simp [resolved])
  | _ => cases ao

/-- The answers of a loader. -/
def LoadsPlain (load : Loader) : Prop := ∀ f fl n v m, load f fl n = .ok (v, m) → m = n ∧ Incl v

theorem includeName_incl {load : Loader} (hl : LoadsPlain load) {dir name : Str} {n m : Nat} {v : Value}
    (h : Files.includeName load dir name n = .ok (v, m)) : m = n ∧ Incl v := by
  have hempty : Incl Value.empty := ⟨newObj_plain ⟨by simp [keysOf], by simp⟩, rfl, rfl⟩
  unfold Files.includeName at h
  split at h
  · exact hl _ _ _ _ _ h
  · simp only [mergeFound, decide_true, Bool.true_or, if_true, Res.bind_eq_ok] at h
    obtain ⟨c, h1, j, h2, h3⟩ := h
    simp only [Bool.not_true, Bool.false_and, Bool.false_eq_true, if_false, Res.ok.injEq] at h3
    have hc : (c.getD (Value.empty, n)).2 = n ∧ Incl (c.getD (Value.empty, n)).1 := by
      cases c with
      | none => exact ⟨rfl, hempty⟩
      | some x =>
        obtain ⟨w, k⟩ := x
        refine hl (name ++ ch ".conf") .conf n w k ?_
        cases hq : load (name ++ ch ".conf") .conf n <;> rw [hq] at h1 <;> simp only [tryParse] at h1
        · cases h1; rfl
        · split at h1 <;> cases h1
        · cases h1
        · cases h1
    generalize c.getD (Value.empty, n) = bs at *
    cases j with
    | none =>
      simp only [Option.getD_none, Prod.mk.injEq] at h3
      rw [h3.1, h3.2] at hc
      exact hc
    | some x =>
      simp only [Option.getD_some] at h3
      subst h3
      cases hq : load (name ++ ch ".json") .json bs.2 <;> rw [hq] at h2
      · rename_i y
        obtain ⟨w, k⟩ := y
        obtain ⟨e1, e2⟩ := hl _ _ _ _ _ hq
        obtain ⟨z, e3, e4⟩ := hc.2.merge e2
        simp only [Res.ok_bind, e3, tryParse, Res.ok.injEq, Option.some.injEq, Prod.mk.injEq] at h2
        obtain ⟨rfl, rfl⟩ := h2
        exact ⟨e1.trans hc.1, e4⟩
      · rename_i e
        simp only [Res.err_bind, tryParse] at h2
        split at h2 <;> cases h2
      · cases h2
      · cases h2

theorem includer_tame {load : Loader} (hl : LoadsPlain load) {res : Value → Res Value} (hres : Idle res) (dir : Str) :
    Tame (includer load res dir) := by
  have hfile : ∀ name n v m, (includer load res dir).file name n = .ok (v, m) → m = n ∧ Incl v := by
    intro name n v m h
    simp only [includer, Res.bind_eq_ok] at h
    obtain ⟨⟨w, k⟩, h1, w', h2, h3⟩ := h
    simp only [Res.ok.injEq, Prod.mk.injEq] at h3
    obtain ⟨rfl, rfl⟩ := h3
    obtain ⟨e1, e2⟩ := includeName_incl hl h1
    have := hres _ _ e2.1 e2.2.1 h2
    subst this
    exact ⟨e1, e2⟩
  have hheur : ∀ name n v m, (includer load res dir).heuristic name n = .ok (v, m) → m = n ∧ Incl v :=
    fun name n v m h => includeName_incl hl h
  exact ⟨fun name n v m h => h.elim (fun h => (hfile _ _ _ _ h).2) fun h => (hheur _ _ _ _ h).2,
    fun name n v m h => (hfile _ _ _ _ h).1, fun name n v m h => (hheur _ _ _ _ h).1⟩

theorem loadFile_plain {env : Env} {fs : FS} (hfs : PlainFiles env fs) {res : Value → Res Value} (hres : Idle res) :
    ∀ fuel, LoadsPlain (loadFile env fs res fuel)
  | 0, _, _, _, _, _, h => by cases h
  | fuel + 1, f, fl, n, v, m, h => by
    have ih := includer_tame (loadFile_plain hfs hres fuel) hres (dirOf f)
    simp only [loadFile, Res.bind_eq_ok] at h
    obtain ⟨⟨w, k⟩, h1, w', h2, h3⟩ := h
    simp only [Res.ok.injEq, Prod.mk.injEq] at h3
    obtain ⟨rfl, rfl⟩ := h3
    obtain ⟨e1, e2, e3⟩ := parseText_open ih (hfs f fl) h1
    refine ⟨e1, ?_⟩
    unfold forceObject at h2
    split at h2
    · rename_i ho
      cases h2
      exact ⟨e2, ho, e3 ho⟩
    · split at h2 <;> cases h2

/-- The default includer on files without substitutions. -/
theorem files_tame {env : Env} {fs : FS} (hfs : PlainFiles env fs) {res : Value → Res Value} (hres : Idle res) (fuel : Nat)
    (dir : Str) : Tame (includer (loadFile env fs res fuel) res dir) := includer_tame (loadFile_plain hfs hres fuel) hres dir

/-- `config::resolve`, as it is called for `include file(..)`. -/
theorem resolve_idle (env : Env) (m : Nat) (ro : Resolve.Options) :
    Idle fun x => (Resolve.configResolve env m x ro).bind fun o => nonNull o := by
  intro v w hv ho h
  cases m with
  | zero => cases h
  | succ m =>
    have := (Resolve.C24_resolved_noop env m v v ro ho hv.res).2
    simp only [this] at h
    cases h
    rfl

end EditRead
end Hocon
