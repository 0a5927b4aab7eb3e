import Verif.Lemmas.ResolveMono
import Verif.Lemmas.ResolveSound
import Verif.Lemmas.ConfigParserTotal

/-!
# Termination of the resolver
-/

set_option autoImplicit false
set_option linter.unusedSectionVars false

namespace Hocon
namespace Resolve
open Value Spec

/-! ## Conditions on all references -/

/-- The tree is well-formed and all its references satisfy `Q`. -/
def AllRefs (Q : Nat → Path → Bool → Nat → Prop) (v : Value) : Prop :=
  v.Wf ∧ ∀ id p opt pre, Occurs (.ref id p opt pre) v → Q id p opt pre

theorem closed_refs (Q : Nat → Path → Bool → Nat → Prop) : Closed (AllRefs Q) where
  scalar s := ⟨closed_wf.scalar s, fun _ _ _ _ h => by cases h⟩
  list vs := by
    refine ⟨fun h v hv => ⟨(closed_wf.list vs).1 h.1 v hv, fun _ _ _ _ ho => h.2 _ _ _ _ (.list hv ho)⟩,
      fun h => ⟨(closed_wf.list vs).2 fun v hv => (h v hv).1, fun _ _ _ _ ho => ?_⟩⟩
    cases ho with
    | list hm ho => exact (h _ hm).2 _ _ _ _ ho
  fields fs r i h f hf := ⟨closed_wf.fields fs r i h.1 f hf, fun _ _ _ _ ho =>
    h.2 _ _ _ _ (.obj (k := f.1) hf ho)⟩
  nodup fs r i h := closed_wf.nodup fs r i h.1
  obj fs i hn h := by
    refine ⟨closed_wf.obj fs i hn fun f hf => (h f hf).1, fun _ _ _ _ ho => ?_⟩
    cases ho with
    | obj hm ho => exact (h _ hm).2 _ _ _ _ ho
  ign fs r i j h := by
    refine ⟨closed_wf.ign fs r i j h.1, fun _ _ _ _ ho => ?_⟩
    cases ho with
    | obj hm ho => exact h.2 _ _ _ _ (.obj hm ho)
  concat vs hne := by
    refine ⟨fun h v hv => ⟨closed_wf.concatParts h.1 v hv, fun _ _ _ _ ho => h.2 _ _ _ _ (.concat hv ho)⟩,
      fun h => ⟨(closed_wf.concat vs hne).2 fun v hv => (h v hv).1, fun _ _ _ _ ho => ?_⟩⟩
    cases ho with
    | concat hm ho => exact (h _ hm).2 _ _ _ _ ho
  dm vs hne := by
    refine ⟨fun h v hv => ⟨closed_wf.dmParts h.1 v hv, fun _ _ _ _ ho => h.2 _ _ _ _ (.dm hv ho)⟩,
      fun h => ⟨(closed_wf.dm vs hne).2 fun v hv => (h v hv).1, fun _ _ _ _ ho => ?_⟩⟩
    cases ho with
    | dm hm ho => exact (h _ hm).2 _ _ _ _ ho
  dmo vs hne := by
    refine ⟨fun h v hv => ⟨closed_wf.dmoParts h.1 v hv, fun _ _ _ _ ho => h.2 _ _ _ _ (.dmo hv ho)⟩,
      fun h => ⟨(closed_wf.dmo vs hne).2 fun v hv => (h v hv).1, fun _ _ _ _ ho => ?_⟩⟩
    cases ho with
    | dmo hm ho => exact (h _ hm).2 _ _ _ _ ho

/-! ## Sources -/

/-- The root is a plain object, and the outermost container is the root. -/
def SrcOk (s : Source) : Prop :=
  ∃ fs r i, s.root = some (.obj fs r i) ∧ (s.path = [] ∨ s.path.getLast? = some (.obj fs r i))

theorem SrcOk.push {s : Source} (h : SrcOk s) (v : Value) : SrcOk (s.push v) := by
  obtain ⟨fs, r, i, h1, h2⟩ := h
  unfold Source.push
  split
  · rename_i hp
    split
    · rename_i ha
      refine ⟨fs, r, i, h1, .inr ?_⟩
      rw [h1] at ha
      unfold asObject at ha
      split at ha
      · simpa using ha
      · cases ha
    · exact ⟨fs, r, i, h1, h2⟩
  · rename_i hp
    refine ⟨fs, r, i, h1, .inr ?_⟩
    rcases h2 with h2 | h2
    · simp [h2] at hp
    · simp [List.getLast?_cons, h2]

theorem replaceChild_obj {fs : Fields} {r i : Bool} {c : Value} {rp o : Option Value}
    (h : replaceChild (.obj fs r i) c rp = .ok o) : ∃ gs r', o = some (.obj gs r' i) := by
  unfold replaceChild at h
  simp only at h
  split at h
  · cases h
  · cases h; exact ⟨_, _, rfl⟩

theorem replacePath_last : (p : List Value) → (rp : Option Value) → (q : List Value) → {fs : Fields} →
    {r i : Bool} → p.getLast? = some (.obj fs r i) → (p.length = 1 → ∃ gs r' i', rp = some (.obj gs r' i')) →
    replacePath p rp = .ok q → ∃ gs r' i', q.getLast? = some (.obj gs r' i')
  | [], _, _, _, _, _, hl, _, _ => by simp at hl
  | [x], rp, q, fs, r, i, hl, h1, h => by
    obtain ⟨gs, r', i', rfl⟩ := h1 rfl
    simp only [replacePath, asContainer, isContainer, if_true] at h
    cases h
    exact ⟨gs, r', i', rfl⟩
  | old :: parent :: rest, rp, q, fs, r, i, hl, h1, h => by
    have hl' : (parent :: rest).getLast? = some (.obj fs r i) := by
      rw [List.getLast?_cons_cons] at hl; exact hl
    have hnext : ∀ rp' np, replaceChild parent old rp' = .ok np → (parent :: rest).length = 1 →
        ∃ gs r' i', np = some (.obj gs r' i') := by
      intro rp' np hr hlen
      have : rest = [] := by simpa using hlen
      subst this
      simp only [List.getLast?_singleton, Option.some.injEq] at hl'
      subst hl'
      obtain ⟨gs, r', h⟩ := replaceChild_obj hr
      exact ⟨gs, r', i, h⟩
    simp only [replacePath] at h
    split at h
    · obtain ⟨np, hnp, h⟩ := bind_ok h
      exact replacePath_last (parent :: rest) np q hl' (hnext _ _ hnp) h
    · obtain ⟨np, hnp, h⟩ := bind_ok h
      obtain ⟨tail, ht, h⟩ := bind_ok h
      cases h
      obtain ⟨gs, r', i', h⟩ := replacePath_last (parent :: rest) np tail hl' (hnext _ _ hnp) ht
      exact ⟨gs, r', i', by rw [List.getLast?_cons, h]; rfl⟩

theorem SrcOk.replaceWithin {s s' : Source} (h : SrcOk s) {old : Value} {rp : Option Value}
    (hold : ∀ fs r i, old ≠ .obj fs r i) (hr : s.replaceWithin old rp = .ok s') : SrcOk s' := by
  obtain ⟨fs, r, i, h1, h2⟩ := h
  unfold Source.replaceWithin at hr
  split at hr
  · rename_i parent rest hp
    obtain ⟨np, hnp, hr⟩ := bind_ok hr
    obtain ⟨q, hq, hr⟩ := bind_ok hr
    cases hr
    have hl : (parent :: rest).getLast? = some (.obj fs r i) := by
      rcases h2 with h2 | h2
      · rw [hp] at h2; cases h2
      · rw [hp] at h2; exact h2
    obtain ⟨gs, r', i', hg⟩ := replacePath_last (parent :: rest) (asContainer np) q hl (by
      intro hlen
      have : rest = [] := by simpa using hlen
      subst this
      simp only [List.getLast?_singleton, Option.some.injEq] at hl
      subst hl
      obtain ⟨gs, r', rfl⟩ := replaceChild_obj hnp
      exact ⟨gs, r', i, rfl⟩) hq
    exact ⟨gs, r', i', by simp [rootOfPath, hg, asObject, isObject], .inl rfl⟩
  · split at hr
    · cases hr
    · split at hr
      · rename_i he
        rw [h1] at he
        exact absurd (Option.some.inj he) (hold _ _ _)
      · cases hr

theorem resolveN_obj {env : Env} {n : Nat} {c c' : Ctx} {s : Source} {fs : Fields} {r i : Bool}
    {o : Option Value} (h : resolveN env n c s (.obj fs r i) = .ok (c', o)) :
    ∃ gs r', o = some (.obj gs r' i) := by
  cases n with
  | zero => cases h
  | succ n =>
    rw [resolveN_succ rfl] at h
    obtain ⟨x, hx, h⟩ := bind_ok h
    obtain ⟨rfl, -⟩ := checkResult_eq h
    simp only [resolveSubstitutions, resolveObject] at hx
    split at hx
    · cases hx; exact ⟨_, _, rfl⟩
    · obtain ⟨y, hy, hx⟩ := bind_ok hx
      cases hx
      unfold modifiedObject
      split
      · exact ⟨_, _, rfl⟩
      · exact ⟨_, _, rfl⟩

/-- Looking for a single key does nothing. -/
theorem resolveN_single {env : Env} {n : Nat} {c : Ctx} {s : Source} {fs : Fields} {r i : Bool} {k : Str}
    (hc : c.restr = [k]) : resolveN env n c s (.obj fs r i) = .fuel ∨
      resolveN env n c s (.obj fs r i) = .ok (c, some (.obj fs r i)) := by
  cases n with
  | zero => exact .inl rfl
  | succ n =>
    have hchk : ∀ w, checkResult c (c, some w) = .ok (c, some w) := fun w =>
      checkResult_ok (r := (c, some _)) (by rintro w ⟨⟩; exact .inr (by rw [hc]; simp))
    rw [resolveN_succ rfl]
    simp only [resolveSubstitutions, resolveObject]
    split
    · right; exact hchk _
    · rcases resolveFields_same (rec := resolveN env n) (orig := c.restr) (s := s.push (.obj fs r i))
        (c := c) hc (by rfl) fs (fun f _ _ hp => absurd rfl hp) with h | h
      · rw [h]; exact .inl rfl
      · rw [h]
        right
        show (Res.ok (c, some (modifiedObject fs r i (fs.map fun f => (f.1, some f.2))))).bind _ = _
        rw [modifiedObject, if_pos rfl]
        exact hchk _

/-! ## The cycle markers are kept -/

/-- The condition under which termination is proved: optional references have a path with one key,
and environment variables are not looked up, or there are only required references, unresolved ones
are not allowed and the variables asked for do not exist. `S` contains the numbers of all references. -/
def RefOk (env : Env) (o : Options) (S : List Nat) (id : Nat) (p : Path) (opt : Bool) (pre : Nat) : Prop :=
  id ∈ S ∧ pre = 0 ∧ (opt = true → ∃ k, p = [k]) ∧
  (o.useEnv = true → opt = false ∧ o.allowUnresolved = false ∧ ∀ k, p = [k] → env.getenv k = none)

/-- The resolver returns the context with the markers it got. -/
def MarksR (env : Env) (o : Options) (S : List Nat) (rec : Resolver) : Prop :=
  ∀ c s v c' w, SrcOk s → SrcP (AllRefs (RefOk env o S)) s → AllRefs (RefOk env o S) v → c.opts = o →
    rec c s v = .ok (c', w) → c'.marks = c.marks ∧ c'.opts = o

section
variable {env : Env} {o : Options} {S : List Nat} {n : Nat}
  (ih : MarksR env o S (resolveN env n))
include ih

local notation "P" => AllRefs (RefOk env o S)

theorem findInObject_marks {c : Ctx} {p : Path} {fs : Fields} {r i : Bool}
    {l : Ctx × Option Value × List Value} (hr : P (.obj fs r i)) (ho : c.opts = o)
    (h : findInObject (resolveN env n) (some (.obj fs r i)) c p = .ok l) :
    l.1.marks = c.marks ∧ l.1.opts = o ∧ (∀ w, l.2.1 = some w → P w) ∧
      SrcOk ⟨l.2.2.getLast?.bind asObject, l.2.2⟩ ∧ SrcP P ⟨l.2.2.getLast?.bind asObject, l.2.2⟩ := by
  unfold findInObject at h
  simp only at h
  obtain ⟨⟨c2, o2⟩, hx, h⟩ := bind_ok h
  have hsp : SrcP P ⟨some (.obj fs r i), []⟩ := ⟨by rintro x ⟨⟩; exact hr, by simp⟩
  obtain ⟨m1, m2⟩ := ih (c.restrict p) ⟨some (.obj fs r i), []⟩ _ c2 o2
    ⟨fs, r, i, rfl, .inl rfl⟩ hsp hr ho hx
  obtain ⟨gs, r', rfl⟩ := resolveN_obj hx
  have hP2 := (closed_refs (RefOk env o S)).resolveN n _ _ _ _ _ hsp hr hx _ rfl
  simp only [isObject, if_true] at h
  obtain ⟨f, hf, h⟩ := bind_ok h
  cases h
  obtain ⟨f1, f2⟩ := (closed_refs (RefOk env o S)).findPeek _ _ _ _ hP2 (by simp) hf
  have hlast := findPeek_last _ p [] f hf
  have hl : f.2.getLast? = some (.obj gs r' i) := by
    obtain ⟨a, as, ha⟩ := List.exists_cons_of_ne_nil hlast.2
    have h1 := hlast.1
    rw [ha, List.getLast?_cons] at h1 ⊢
    simpa using h1.symm
  refine ⟨m1, m2, f1, ⟨gs, r', i, by simp [hl, asObject, isObject], .inr hl⟩, ?_, f2⟩
  simp only [hl, Option.bind_some, asObject, isObject, if_true]
  rintro x ⟨⟩
  exact hP2

omit ih in
theorem lookupSubst_noEnv {rec : Resolver} {c : Ctx} {p : Path} {root : Option Value}
    {l : Ctx × Option Value × List Value} (hu : c.opts.useEnv = false)
    (h : lookupSubst env rec root c p 0 = .ok l) : findInObject rec root c p = .ok l := by
  unfold lookupSubst at h
  obtain ⟨x, hx, h⟩ := bind_ok h
  rw [hx]
  split at h
  · simp only [gt_iff_lt, Nat.lt_irrefl, if_false, lookupEnv, hu, Bool.and_false, Bool.false_eq_true] at h
    exact h
  · exact h

/-- Either the object has the value, or the lookup has come back with nothing (after which a required
reference throws). -/
theorem lookupSubst_marks {c : Ctx} {p : Path} {id : Nat} {opt : Bool} {fs : Fields} {r i : Bool}
    {l : Ctx × Option Value × List Value} (hq : RefOk env o S id p opt 0)
    (ho : c.opts = o) (h : lookupSubst env (resolveN env n) (some (.obj fs r i)) c p 0 = .ok l) :
    findInObject (resolveN env n) (some (.obj fs r i)) c p = .ok l ∨
      (l.2.1 = none ∧ opt = false ∧ o.allowUnresolved = false ∧ l.1.opts = o) := by
  cases hu : o.useEnv with
  | false => exact .inl (lookupSubst_noEnv (by rw [ho]; exact hu) h)
  | true =>
    obtain ⟨e1, e2, e3⟩ := hq.2.2.2 hu
    unfold lookupSubst at h
    obtain ⟨x, hx, h⟩ := bind_ok h
    rw [hx]
    split at h
    · rename_i hn
      simp only [gt_iff_lt, Nat.lt_irrefl, if_false, PathM.subPath] at h
      unfold lookupEnv at h
      rw [hn, ho, hu] at h
      simp only [Bool.and_true, if_true] at h
      obtain ⟨y, hy, h⟩ := bind_ok h
      cases h
      refine .inr ⟨?_, e1, e2, ho⟩
      unfold findEnv at hy
      split at hy
      · cases hy
      · rw [e3 _ rfl] at hy; cases hy; rfl
      · cases hy; rfl
    · cases h; exact .inl rfl

theorem resolveRef_marks {c c' : Ctx} {s : Source} {id : Nat} {p : Path} {opt : Bool} {pre : Nat}
    {w : Option Value} (hs : SrcOk s) (hsp : SrcP P s) (hv : P (.ref id p opt pre)) (ho : c.opts = o)
    (h : resolveRef env (resolveN env n) c s id p opt pre = .ok (c', w)) :
    c'.marks = c.marks ∧ c'.opts = o := by
  have hq := hv.2 _ _ _ _ .here
  obtain rfl := hq.2.1
  obtain ⟨fs, r, i, hroot, -⟩ := hs
  have hr : P (.obj fs r i) := hsp.1 _ hroot
  unfold resolveRef at h
  split at h
  · cases h
  rename_i hid
  obtain ⟨⟨c1, w1⟩, hx, h⟩ := bind_ok h
  have hmo : (c.mark id).opts = o := ho
  have fin : ∀ w, c1.marks = (c.mark id).marks → c1.opts = o → finishRef (.ref id p opt 0) id opt (c1, w1) = .ok (c', w) →
      c'.marks = c.marks ∧ c'.opts = o := by
    intro w hm ho' hf
    have key : (c1.unmark id).marks = c.marks ∧ (c1.unmark id).opts = o := by
      refine ⟨?_, ho'⟩
      simp only [Ctx.unmark, hm, Ctx.mark, List.filter_append]
      rw [List.filter_eq_self.2 (fun y hy => by simp; rintro rfl; exact hid hy)]
      simp
    unfold finishRef at hf
    split at hf
    · cases hf; exact key
    · split at hf
      · cases hf; exact key
      · split at hf
        · cases hf; exact key
        · cases hf
  unfold tryRef at hx
  rw [hroot] at hx
  split at hx
  · rename_i l hl
    rcases lookupSubst_marks ih hq hmo hl with hf | ⟨e1, e2, e3, e4⟩
    · obtain ⟨m1, m2, m3, m4, m5⟩ := findInObject_marks ih hr hmo hf
      unfold resolveFound at hx
      split at hx
      · cases hx; exact fin w m1 m2 h
      · rename_i u hu
        unfold catchCycle at hx
        split at hx
        · split at hx
          · cases hx; exact fin w m1 m2 h
          · cases hx
        · obtain ⟨k1, k2⟩ := ih _ _ _ _ _ m4 m5 (m3 u hu) m2 hx
          exact fin w (k1.trans m1) k2 h
    · unfold resolveFound at hx
      rw [e1] at hx
      cases hx
      subst e2
      simp only [finishRef, e4, e3, Bool.false_eq_true, if_false] at h
      cases h
  · rename_i e hl
    unfold catchCycle at hx
    split at hx
    · rename_i he
      cases he
      cases opt with
      | false => simp at hx
      | true =>
        exfalso
        obtain ⟨k, rfl⟩ := hq.2.2.1 rfl
        have hu : o.useEnv = false := by
          cases hu : o.useEnv with
          | false => rfl
          | true => exact absurd (hq.2.2.2 hu).1 (by simp)
        unfold lookupSubst at hl
        have : findInObject (resolveN env n) (some (.obj fs r i)) (c.mark id) [k] = .fuel ∨
            ∃ l, findInObject (resolveN env n) (some (.obj fs r i)) (c.mark id) [k] = .ok l := by
          unfold findInObject
          rcases resolveN_single (env := env) (n := n) (c := (c.mark id).restrict [k])
            (s := ⟨some (.obj fs r i), []⟩) (fs := fs) (r := r) (i := i) (k := k) rfl with h | h
          · simp only [h]; exact .inl rfl
          · simp only [h]; exact .inr ⟨_, rfl⟩
        rcases this with h | ⟨l, h⟩
        · rw [h] at hl; cases hl
        · rw [h] at hl
          have hl' : (if l.2.1.isNone then lookupEnv env (c.mark id) (PathM.subPath 0 [k]) l else .ok l) =
            .err .notPossible := hl
          split at hl'
          · simp only [lookupEnv, hmo, hu, Bool.and_false, Bool.false_eq_true, if_false] at hl'
            cases hl'
          · cases hl'
    · cases hx
  · cases hx
  · cases hx

theorem resolveFields_marks {orig : Path} {s : Source} (hs : SrcOk s) (hsp : SrcP P s) : (c : Ctx) →
    (fs : Fields) → (x : Ctx × List (Str × Option Value)) → (∀ f ∈ fs, P f.2) → c.opts = o →
    resolveFields (resolveN env n) orig s c fs = .ok x → x.1.marks = c.marks ∧ x.1.opts = o
  | c, [], x, _, ho, h => by cases h; exact ⟨rfl, ho⟩
  | c, (k, v) :: fs, x, hf, ho, h => by
    simp only [resolveFields] at h
    obtain ⟨y, hy, h⟩ := bind_ok h
    obtain ⟨z, hz, h⟩ := bind_ok h
    cases h
    have hv : P v := hf (k, v) (by simp)
    have h1 : y.1.marks = c.marks ∧ y.1.opts = o := by
      unfold resolveChild at hy
      split at hy
      · obtain ⟨⟨c2, o2⟩, h2, hy⟩ := bind_ok hy
        cases hy
        exact ih (c.restrict []) s v c2 o2 hs hsp hv ho h2
      · rename_i key remainder _
        split at hy
        · split at hy
          · cases hy; exact ⟨rfl, ho⟩
          · obtain ⟨⟨c2, o2⟩, h2, hy⟩ := bind_ok hy
            cases hy
            exact ih (c.restrict remainder) s v c2 o2 hs hsp hv ho h2
        · cases hy; exact ⟨rfl, ho⟩
    obtain ⟨a, b⟩ := resolveFields_marks hs hsp y.1 fs z (fun f h => hf f (by simp [h])) h1.2 hz
    exact ⟨a.trans h1.1, b⟩

theorem resolveElems_marks {s : Source} (hs : SrcOk s) (hsp : SrcP P s) : (c : Ctx) →
    (vs : List Value) → (x : Ctx × List (Option Value)) → (∀ v ∈ vs, P v) → c.opts = o →
    resolveElems (resolveN env n) s c vs = .ok x → x.1.marks = c.marks ∧ x.1.opts = o
  | c, [], x, _, ho, h => by cases h; exact ⟨rfl, ho⟩
  | c, v :: vs, x, hf, ho, h => by
    simp only [resolveElems] at h
    obtain ⟨⟨c2, o2⟩, hy, h⟩ := bind_ok h
    obtain ⟨z, hz, h⟩ := bind_ok h
    cases h
    obtain ⟨a1, b1⟩ := ih _ _ _ _ _ hs hsp (hf v (by simp)) ho hy
    obtain ⟨a, b⟩ := resolveElems_marks hs hsp c2 vs z (fun f h => hf f (by simp [h])) b1 hz
    exact ⟨a.trans a1, b⟩

theorem resolvePieces_marks {s : Source} (hs : SrcOk s) (hsp : SrcP P s) : (c : Ctx) →
    (vs : List Value) → (x : Ctx × List Value) → (∀ v ∈ vs, P v) → c.opts = o →
    resolvePieces (resolveN env n) s c vs = .ok x → x.1.marks = c.marks ∧ x.1.opts = o
  | c, [], x, _, ho, h => by cases h; exact ⟨rfl, ho⟩
  | c, v :: vs, x, hf, ho, h => by
    simp only [resolvePieces] at h
    obtain ⟨⟨c2, o2⟩, hy, h⟩ := bind_ok h
    obtain ⟨z, hz, h⟩ := bind_ok h
    cases h
    obtain ⟨a1, b1⟩ := ih (c.restrict []) _ _ _ _ hs hsp (hf v (by simp)) ho hy
    obtain ⟨a, b⟩ := resolvePieces_marks hs hsp (c2.restrict c.restr) vs z (fun f h => hf f (by simp [h])) b1 hz
    exact ⟨a.trans a1, b⟩

omit ih in
theorem sourceForEnd_ok {self : Value} {s s' : Source} {v : Value} {rest : List Value} (hs : SrcOk s)
    (hsp : SrcP P s) (hself : P self) (hno : ∀ fs r i, self ≠ .obj fs r i) (hrest : ∀ v ∈ rest, P v)
    (h : sourceForEnd self s v rest = .ok s') : SrcOk s' ∧ SrcP P s' := by
  have hC := closed_refs (RefOk env o S)
  unfold sourceForEnd at h
  split at h
  · cases h
  · split at h
    · obtain ⟨rp, hrp, h⟩ := bind_ok h
      exact ⟨hs.replaceWithin hno h, hC.replaceWithin hsp (hC.makeReplacement hrest hrp) h⟩
    · cases h; exact ⟨hs.push _, hC.push hsp hself⟩

theorem resolveStack_marks {self : Value} {s : Source} (hs : SrcOk s) (hsp : SrcP P s) (hself : P self)
    (hno : ∀ fs r i, self ≠ .obj fs r i) : (c : Ctx) → (m : Option Value) →
    (vs : List Value) → (x : Ctx × Option Value) → (∀ v ∈ vs, P v) → c.opts = o →
    resolveStack (resolveN env n) self s c m vs = .ok x → x.1.marks = c.marks ∧ x.1.opts = o
  | c, _, [], x, _, ho, h => by cases h; exact ⟨rfl, ho⟩
  | c, m, v :: vs, x, hf, ho, h => by
    simp only [resolveStack] at h
    obtain ⟨s', hs', h⟩ := bind_ok h
    obtain ⟨⟨c2, o2⟩, hy, h⟩ := bind_ok h
    obtain ⟨m', hm', h⟩ := bind_ok h
    obtain ⟨t1, t2⟩ := sourceForEnd_ok hs hsp hself hno (fun f h => hf f (by simp [h])) hs'
    obtain ⟨a1, b1⟩ := ih _ _ _ _ _ t1 t2 (hf v (by simp)) ho hy
    obtain ⟨a, b⟩ := resolveStack_marks hs hsp hself hno c2 m' vs x (fun f h => hf f (by simp [h])) b1 h
    exact ⟨a.trans a1, b⟩

end

theorem resolveN_marks (env : Env) (o : Options) (S : List Nat) (n : Nat) :
    MarksR env o S (resolveN env n) := by
  induction n with
  | zero => intro c s v c' w _ _ _ _ h; cases h
  | succ n ih =>
    intro c s v c' w hs hsp hv ho h
    have hC := closed_refs (RefOk env o S)
    rw [resolveN] at h
    split at h
    · cases h
    obtain ⟨x, hx, h⟩ := bind_ok h
    obtain ⟨rfl, -⟩ := checkResult_eq h
    cases v with
    | scalar x => cases hx; exact ⟨rfl, ho⟩
    | list vs =>
      simp only [resolveSubstitutions, resolveList] at hx
      split at hx
      · cases hx; exact ⟨rfl, ho⟩
      · split at hx
        · cases hx; exact ⟨rfl, ho⟩
        · obtain ⟨y, hy, hx⟩ := bind_ok hx
          obtain ⟨z, hz, hx⟩ := bind_ok hx
          cases hx
          exact resolveElems_marks ih (hs.push _) (hC.push hsp hv) c vs y ((hC.list vs).1 hv) ho hy
    | obj fs r i =>
      simp only [resolveSubstitutions, resolveObject] at hx
      split at hx
      · cases hx; exact ⟨rfl, ho⟩
      · obtain ⟨y, hy, hx⟩ := bind_ok hx
        cases hx
        exact resolveFields_marks ih (hs.push _) (hC.push hsp hv) c fs y (hC.fields _ _ _ hv) ho hy
    | ref id p opt pre => exact resolveRef_marks ih hs hsp hv ho hx
    | concat ps =>
      simp only [resolveSubstitutions, resolveConcat] at hx
      obtain ⟨y, hy, hx⟩ := bind_ok hx
      obtain ⟨z, hz, hx⟩ := bind_ok hx
      obtain ⟨z', hz', hx⟩ := bind_ok hx
      cases hx
      exact resolvePieces_marks ih hs hsp c ps y (hC.concatParts hv) ho hy
    | dm st => exact resolveStack_marks ih hs hsp hv (by simp) c none st _ (hC.dmParts hv) ho hx
    | dmo st => exact resolveStack_marks ih hs hsp hv (by simp) c none st _ (hC.dmoParts hv) ho hx

/-! ## Termination -/

/-- A family of results that does not change any more once it is a result. -/
def Mono {α : Type} (f : Nat → Res α) : Prop := ∀ n m, n ≤ m → (f n).Le (f m)

/-- Some amount of fuel is enough. -/
def Tm {α : Type} (f : Nat → Res α) : Prop := ∃ n, f n ≠ .fuel

theorem Tm.bind {α β : Type} {f : Nat → Res α} {g : Nat → α → Res β} (hm : Mono f)
    (hg : ∀ a, Mono fun n => g n a) (hf : Tm f) (h : ∀ n a, f n = .ok a → Tm fun n => g n a) :
    Tm fun n => (f n).bind (g n) := by
  obtain ⟨n, hn⟩ := hf
  cases hx : f n with
  | fuel => exact absurd hx hn
  | err e => exact ⟨n, by simp [hx, Res.bind]⟩
  | ub => exact ⟨n, by simp [hx, Res.bind]⟩
  | ok a =>
    obtain ⟨m, hm'⟩ := h n a hx
    refine ⟨max n m, ?_⟩
    have h1 := (hm n (max n m) (by omega)).eq hn
    have h2 := (hg a m (max n m) (by omega)).eq hm'
    show (f (max n m)).bind _ ≠ _
    rw [h1, hx]
    exact fun he => hm' (h2.symm.trans he)

theorem Tm.const {α : Type} {x : Res α} (h : x ≠ .fuel) : Tm fun _ => x := ⟨0, h⟩

theorem Mono.const {α : Type} (x : Res α) : Mono fun _ => x := fun _ _ _ => .rfl

/-! No fuel is used outside the recursion. -/

section
variable {env : Env}

theorem bind_ne_fuel {α β : Type} {x : Res α} {f : α → Res β} (hx : x ≠ .fuel)
    (hf : ∀ a, f a ≠ .fuel) : x.bind f ≠ .fuel := by
  cases x with
  | ok a => exact hf a
  | err e => simp [Res.bind]
  | ub => simp [Res.bind]
  | fuel => exact absurd rfl hx

theorem ite_ne_fuel {α : Type} {c : Prop} [Decidable c] {x y : Res α} (hx : x ≠ .fuel) (hy : y ≠ .fuel) :
    (if c then x else y) ≠ .fuel := by split <;> assumption

theorem withFallback_ne (a b : Value) : withFallback a b ≠ .fuel :=
  (withFallback_sat True a b).ne_fuel

theorem join_ne (a b : Value) : join env a b ≠ .fuel := by
  unfold join
  refine ite_ne_fuel (by simp) (ite_ne_fuel (by simp) (ite_ne_fuel ?_ ?_))
  · exact bind_ne_fuel (withFallback_ne b a) (by simp)
  · refine ite_ne_fuel (by simp) (ite_ne_fuel (by simp) (ite_ne_fuel (by simp) (ite_ne_fuel (by simp)
      (ite_ne_fuel (by simp) (by simp)))))

theorem joinLoop_ne (done : List Value) (a : Value) (vs : List Value) :
    joinLoop env done a vs ≠ .fuel := by
  induction vs generalizing done a with
  | nil => simp [joinLoop]
  | cons v vs ih =>
    rw [joinLoop]
    refine bind_ne_fuel (join_ne a v) fun o => ?_
    cases o with
    | none => exact ih _ _
    | some j => exact ih _ _

theorem consolidate_ne (ps : List Value) : consolidate env ps ≠ .fuel := by
  unfold consolidate
  refine ite_ne_fuel (by simp) ?_
  split
  · simp
  · exact joinLoop_ne _ _ _

theorem mkConcat_ne (ps : List Value) : mkConcat ps ≠ .fuel := by
  unfold mkConcat
  exact ite_ne_fuel (by simp) (ite_ne_fuel (by simp) (ite_ne_fuel (by simp) (by simp)))

theorem mkDm_ne (ps : List Value) : mkDm ps ≠ .fuel := by
  unfold mkDm
  exact ite_ne_fuel (by simp) (by simp)

theorem joinedPieces_ne (b : Bool) (ps : List Value) : joinedPieces b ps ≠ .fuel := by
  unfold joinedPieces
  split
  · simp
  · simp
  · exact ite_ne_fuel (bind_ne_fuel (mkConcat_ne _) (by simp)) (by simp)

mutual
theorem attemptPeek_ne : (v : Value) → (k : Str) → attemptPeek v k ≠ .fuel
  | .obj fs _ _, k => by rw [attemptPeek]; simp
  | .dmo st, k => by rw [attemptPeek]; exact peekStack_ne st k
  | .scalar _, k => by rw [attemptPeek] <;> simp
  | .list _, k => by rw [attemptPeek] <;> simp
  | .ref .., k => by rw [attemptPeek] <;> simp
  | .concat _, k => by rw [attemptPeek] <;> simp
  | .dm _, k => by rw [attemptPeek] <;> simp
theorem peekStack_ne : (st : List Value) → (k : Str) → peekStack st k ≠ .fuel
  | [], k => by rw [peekStack]; simp
  | v :: st, k => by
    rw [peekStack]
    refine ite_ne_fuel (bind_ne_fuel (attemptPeek_ne v k) fun o => ?_)
      (ite_ne_fuel (by simp) (ite_ne_fuel (peekStack_ne st k) (ite_ne_fuel (by simp) (by simp))))
    cases o with
    | none => exact ite_ne_fuel (by simp) (peekStack_ne st k)
    | some x => exact ite_ne_fuel (by simp) (peekStack_ne st k)
end

theorem findPeek_ne (v : Value) (p : Path) (ps : List Value) : findPeek v p ps ≠ .fuel := by
  induction p generalizing v ps with
  | nil => simp [findPeek]
  | cons k p ih =>
    rw [findPeek]
    refine bind_ne_fuel (attemptPeek_ne v k) fun o => ite_ne_fuel (by simp) ?_
    cases o with
    | none => simp
    | some w => exact ite_ne_fuel (ih w _) (by simp)

theorem findEnv_ne (p : Path) : findEnv env p ≠ .fuel := by
  unfold findEnv
  split <;> simp

theorem replaceChild_ne (v c : Value) (r : Option Value) : replaceChild v c r ≠ .fuel := by
  unfold replaceChild
  split
  · split <;> simp
  · split
    · simp
    · exact ite_ne_fuel (by simp) (by simp)
  · split
    · simp
    · exact ite_ne_fuel (by simp) (bind_ne_fuel (mkConcat_ne _) (by simp))
  · split
    · simp
    · exact ite_ne_fuel (by simp) (bind_ne_fuel (mkDm_ne _) (by simp))
  · split
    · simp
    · exact ite_ne_fuel (by simp) (bind_ne_fuel (mkDm_ne _) (by simp))
  · simp

theorem replacePath_ne : (p : List Value) → (r : Option Value) → replacePath p r ≠ .fuel
  | [], _ => by simp [replacePath]
  | [_], r => by rw [replacePath]; split <;> simp
  | old :: parent :: rest, r => by
    rw [replacePath]
    split
    · exact bind_ne_fuel (replaceChild_ne _ _ _) fun np => replacePath_ne (parent :: rest) np
    · exact bind_ne_fuel (replaceChild_ne _ _ _) fun np =>
        bind_ne_fuel (replacePath_ne (parent :: rest) np) (by simp)

theorem replaceWithin_ne (s : Source) (old : Value) (r : Option Value) :
    s.replaceWithin old r ≠ .fuel := by
  unfold Source.replaceWithin
  split
  · exact bind_ne_fuel (replaceChild_ne _ _ _) fun np => bind_ne_fuel (replacePath_ne _ _) (by simp)
  · split
    · simp
    · exact ite_ne_fuel (by simp) (by simp)

theorem mergeAll_ne (v : Value) (vs : List Value) : mergeAll v vs ≠ .fuel := by
  induction vs generalizing v with
  | nil => simp [mergeAll]
  | cons w vs ih => rw [mergeAll]; exact bind_ne_fuel (withFallback_ne v w) ih

theorem sourceForEnd_ne (self : Value) (s : Source) (v : Value) (rest : List Value) :
    sourceForEnd self s v rest ≠ .fuel := by
  unfold sourceForEnd
  refine ite_ne_fuel (by simp) (ite_ne_fuel (bind_ne_fuel ?_ fun r => replaceWithin_ne s self r) (by simp))
  unfold makeReplacement
  split
  · simp
  · exact bind_ne_fuel (mergeAll_ne _ _) (by simp)

theorem mergeEnd_ne (a b : Option Value) : mergeEnd a b ≠ .fuel := by
  unfold mergeEnd
  split
  · simp
  · simp
  · exact bind_ne_fuel (withFallback_ne _ _) (by simp)

theorem modifiedList_ne (b : Bool) (vs : List Value) (new : List (Option Value)) :
    modifiedList b vs new ≠ .fuel := by
  unfold modifiedList
  split
  · simp
  · exact ite_ne_fuel (by simp) (by simp)

theorem finishRef_ne (v : Value) (id : Nat) (opt : Bool) (r : Ctx × Option Value) :
    finishRef v id opt r ≠ .fuel := by
  unfold finishRef
  split
  · simp
  · exact ite_ne_fuel (by simp) (ite_ne_fuel (by simp) (by simp))

theorem checkResult_ne (c : Ctx) (r : Ctx × Option Value) : checkResult c r ≠ .fuel := by
  unfold checkResult
  split
  · simp
  · exact ite_ne_fuel (by simp) (by simp)

end

section
variable {env : Env} {o : Options} {S : List Nat}

local notation "P" => AllRefs (RefOk env o S)

/-- Number of references that are not marked. -/
def unmarked (S : List Nat) (c : Ctx) : Nat := (S.filter fun x => !c.marks.contains x).length

/-- Terminates for all values no larger than `z` and contexts with `m` unmarked references. -/
def TermAt (env : Env) (o : Options) (S : List Nat) (m : Nat) (v : Value) : Prop :=
  ∀ c s, SrcOk s → SrcP (AllRefs (RefOk env o S)) s → c.opts = o → unmarked S c = m →
    Tm fun n => resolveN env n c s v

theorem mono_resolveN (c : Ctx) (s : Source) (v : Value) : Mono fun n => resolveN env n c s v :=
  fun _ _ h => resolveN_le env h c s v

theorem unmarked_eq {c c' : Ctx} (h : c'.marks = c.marks) : unmarked S c' = unmarked S c := by
  unfold unmarked; rw [h]

theorem unmarked_mark {c : Ctx} {id : Nat} (hid : id ∈ S) (hm : id ∉ c.marks) :
    unmarked S (c.mark id) < unmarked S c := by
  unfold unmarked
  have : (S.filter fun x => !(c.mark id).marks.contains x) =
      (S.filter fun x => !c.marks.contains x).filter fun x => x != id := by
    rw [List.filter_filter]
    refine List.filter_congr fun x _ => ?_
    simp [Ctx.mark, Bool.and_comm, bne, Bool.beq_eq_decide_eq]
  rw [this]
  refine List.length_filter_lt_length_iff_exists.2 ⟨id, ?_, by simp⟩
  simp [hid, hm]

theorem resolveElems_tm {m : Nat} {s : Source} (hs : SrcOk s) (hsp : SrcP P s) :
    (c : Ctx) → (vs : List Value) → (∀ v ∈ vs, P v ∧ TermAt env o S m v) → c.opts = o →
    unmarked S c = m → Tm fun n => resolveElems (resolveN env n) s c vs
  | c, [], _, _, _ => ⟨0, by simp [resolveElems]⟩
  | c, v :: vs, h, ho, hm => by
    simp only [resolveElems]
    refine Tm.bind (mono_resolveN c s v) (fun a n n' hn =>
        (resolveElems_le (resolveN_le env hn) s a.1 vs).bnd fun _ => .rfl)
      ((h v (by simp)).2 c s hs hsp ho hm) fun n a ha => ?_
    obtain ⟨m1, m2⟩ := resolveN_marks env o S n c s v a.1 a.2 hs hsp (h v (by simp)).1 ho ha
    refine Tm.bind (fun n n' hn => resolveElems_le (resolveN_le env hn) s a.1 vs) (fun _ => .const _)
      (resolveElems_tm hs hsp a.1 vs (fun v hv => h v (by simp [hv])) m2
        ((unmarked_eq m1).trans hm)) fun _ b _ => .const (by simp)

theorem resolvePieces_tm {m : Nat} {s : Source} (hs : SrcOk s) (hsp : SrcP P s) :
    (c : Ctx) → (vs : List Value) → (∀ v ∈ vs, P v ∧ TermAt env o S m v) → c.opts = o →
    unmarked S c = m → Tm fun n => resolvePieces (resolveN env n) s c vs
  | c, [], _, _, _ => ⟨0, by simp [resolvePieces]⟩
  | c, v :: vs, h, ho, hm => by
    simp only [resolvePieces]
    refine Tm.bind (mono_resolveN _ s v) (fun a n n' hn =>
        (resolvePieces_le (resolveN_le env hn) s (a.1.restrict c.restr) vs).bnd fun _ => .rfl)
      ((h v (by simp)).2 (c.restrict []) s hs hsp ho hm) fun n a ha => ?_
    obtain ⟨m1, m2⟩ := resolveN_marks env o S n (c.restrict []) s v a.1 a.2 hs hsp (h v (by simp)).1 ho ha
    refine Tm.bind (fun n n' hn => resolvePieces_le (resolveN_le env hn) s _ vs) (fun _ => .const _)
      (resolvePieces_tm hs hsp (a.1.restrict c.restr) vs (fun v hv => h v (by simp [hv])) m2
        ((unmarked_eq (c := c) m1).trans hm)) fun _ b _ => .const (by simp)

theorem resolveChild_tm {m : Nat} {s : Source} (hs : SrcOk s) (hsp : SrcP P s) {orig : Path} {c : Ctx}
    {k : Str} {v : Value} (h : P v ∧ TermAt env o S m v) (ho : c.opts = o) (hm : unmarked S c = m) :
    Tm fun n => resolveChild (resolveN env n) orig c s k v := by
  unfold resolveChild
  cases c.restr with
  | nil =>
    exact Tm.bind (mono_resolveN _ s v) (fun _ => .const _) (h.2 (c.restrict []) s hs hsp ho hm)
      fun _ _ _ => .const (by simp)
  | cons key rem =>
    simp only
    split
    · split
      · exact .const (by simp)
      · exact Tm.bind (mono_resolveN _ s v) (fun _ => .const _) (h.2 (c.restrict rem) s hs hsp ho hm)
          fun _ _ _ => .const (by simp)
    · exact .const (by simp)

theorem resolveFields_tm {m : Nat} {s : Source} (hs : SrcOk s) (hsp : SrcP P s) {orig : Path} :
    (c : Ctx) → (fs : Fields) → (∀ f ∈ fs, P f.2 ∧ TermAt env o S m f.2) → c.opts = o →
    unmarked S c = m → Tm fun n => resolveFields (resolveN env n) orig s c fs
  | c, [], _, _, _ => ⟨0, by simp [resolveFields]⟩
  | c, (k, v) :: fs, h, ho, hm => by
    simp only [resolveFields]
    refine Tm.bind (fun n n' hn => resolveChild_le (resolveN_le env hn) orig c s k v) (fun a n n' hn =>
        (resolveFields_le (resolveN_le env hn) orig s a.1 fs).bnd fun _ => .rfl)
      (resolveChild_tm hs hsp (h (k, v) (by simp)) ho hm) fun n a ha => ?_
    have h1 : resolveFields (resolveN env n) orig s c [(k, v)] = .ok (a.1, [(k, a.2)]) := by
      simp only [resolveFields, ha]; rfl
    obtain ⟨m1, m2⟩ := resolveFields_marks (resolveN_marks env o S n) hs hsp c [(k, v)] _
      (by simpa using (h (k, v) (by simp)).1) ho h1
    refine Tm.bind (fun n n' hn => resolveFields_le (resolveN_le env hn) orig s a.1 fs) (fun _ => .const _)
      (resolveFields_tm hs hsp a.1 fs (fun v hv => h v (by simp [hv])) m2
        ((unmarked_eq m1).trans hm)) fun _ b _ => .const (by simp)

theorem resolveStack_tm {m : Nat} {s : Source} (hs : SrcOk s) (hsp : SrcP P s) {self : Value} (hself : P self)
    (hno : ∀ fs r i, self ≠ .obj fs r i) :
    (c : Ctx) → (mg : Option Value) → (vs : List Value) → (∀ v ∈ vs, P v ∧ TermAt env o S m v) → c.opts = o →
    unmarked S c = m → Tm fun n => resolveStack (resolveN env n) self s c mg vs
  | c, mg, [], _, _, _ => ⟨0, by simp [resolveStack]⟩
  | c, mg, v :: vs, h, ho, hm => by
    simp only [resolveStack]
    refine Tm.bind (.const _) (fun s' n n' hn => (resolveN_le env hn c s' v).bnd fun r =>
      Res.Le.rfl.bnd fun m' => resolveStack_le (resolveN_le env hn) self s r.1 m' vs)
      (.const (sourceForEnd_ne self s v vs)) fun _ s' hs' => ?_
    obtain ⟨t1, t2⟩ := sourceForEnd_ok hs hsp hself hno (fun f hf => (h f (by simp [hf])).1) hs'
    refine Tm.bind (mono_resolveN c s' v) (fun a n n' hn => Res.Le.rfl.bnd fun m' =>
      resolveStack_le (resolveN_le env hn) self s a.1 m' vs)
      ((h v (by simp)).2 c s' t1 t2 ho hm) fun n a ha => ?_
    obtain ⟨m1, m2⟩ := resolveN_marks env o S n c s' v a.1 a.2 t1 t2 (h v (by simp)).1 ho ha
    exact Tm.bind (.const _) (fun m' n n' hn => resolveStack_le (resolveN_le env hn) self s a.1 m' vs)
      (.const (mergeEnd_ne mg a.2)) fun _ m' _ =>
        resolveStack_tm hs hsp hself hno a.1 m' vs (fun v hv => h v (by simp [hv])) m2
          ((unmarked_eq m1).trans hm)

theorem Tm.of_catch {f : Nat → Res (Ctx × Option Value)} {opt : Bool} {c : Ctx} (h : Tm f) :
    Tm fun n => catchCycle opt c (f n) := by
  obtain ⟨n, hn⟩ := h
  refine ⟨n, ?_⟩
  show catchCycle opt c (f n) ≠ .fuel
  unfold catchCycle
  split
  · exact ite_ne_fuel (by simp) (by simp)
  · exact hn

theorem resolveRef_tm {m : Nat} (hrec : ∀ m' < m, ∀ v, P v → TermAt env o S m' v) {c : Ctx} {s : Source}
    (hs : SrcOk s) (hsp : SrcP P s) {id : Nat} {p : Path} {opt : Bool} {pre : Nat}
    (hv : P (.ref id p opt pre)) (ho : c.opts = o) (hm : unmarked S c = m) :
    Tm fun n => resolveRef env (resolveN env n) c s id p opt pre := by
  have hq := hv.2 _ _ _ _ .here
  obtain rfl := hq.2.1
  obtain ⟨fs, r, i, hroot, -⟩ := hs
  have hr : P (.obj fs r i) := hsp.1 _ hroot
  unfold resolveRef
  split
  · exact .const (by simp)
  rename_i hid
  have hlt : unmarked S (c.mark id) < m := hm ▸ unmarked_mark hq.1 hid
  have hmo : (c.mark id).opts = o := ho
  refine Tm.bind (fun n n' hn => tryRef_le (resolveN_le env hn) _ _ _ _ _) (fun _ => .const _) ?_
    fun _ _ _ => .const (finishRef_ne _ _ _ _)
  have hl : Tm fun n => lookupSubst env (resolveN env n) (some (.obj fs r i)) (c.mark id) p 0 := by
    unfold lookupSubst
    refine Tm.bind (fun n n' hn => findInObject_le (resolveN_le env hn) _ _ _) (fun a => ?_) ?_
      fun n a ha => ?_
    · simp only [gt_iff_lt, Nat.lt_irrefl, if_false]; exact .const _
    · unfold findInObject
      refine Tm.bind (mono_resolveN _ _ _) (fun _ => .const _)
        (hrec _ hlt _ hr ((c.mark id).restrict p) _ ⟨fs, r, i, rfl, .inl rfl⟩
          ⟨by rintro x ⟨⟩; exact hr, by simp⟩ ho rfl) fun _ a _ => .const ?_
      split
      · simp
      · exact ite_ne_fuel (bind_ne_fuel (findPeek_ne _ _ _) (by simp)) (by simp)
    · simp only [gt_iff_lt, Nat.lt_irrefl, if_false]
      refine .const (ite_ne_fuel ?_ (by simp))
      unfold lookupEnv
      exact ite_ne_fuel (bind_ne_fuel (findEnv_ne _) (by simp)) (by simp)
  obtain ⟨n, hn⟩ := hl
  have mono : ∀ k ≥ n, lookupSubst env (resolveN env k) (some (.obj fs r i)) (c.mark id) p 0 =
      lookupSubst env (resolveN env n) (some (.obj fs r i)) (c.mark id) p 0 :=
    fun k hk => (lookupSubst_le (resolveN_le env hk) _ _ _ _).eq hn
  unfold tryRef
  rw [hroot]
  cases hx : lookupSubst env (resolveN env n) (some (.obj fs r i)) (c.mark id) p 0 with
  | fuel => exact absurd hx hn
  | ub => refine ⟨n, ?_⟩; simp [hx]
  | err e =>
    refine ⟨n, ?_⟩
    simp only [hx]
    unfold catchCycle
    split
    · exact ite_ne_fuel (by simp) (by simp)
    · simp
  | ok l =>
    have hfound : Tm fun k => resolveFound (resolveN env k) opt l := by
      unfold resolveFound
      cases hu : l.2.1 with
      | none => exact .const (by simp)
      | some u =>
        simp only
        refine Tm.of_catch ?_
        rcases lookupSubst_marks (resolveN_marks env o S n) hq hmo hx with hf | ⟨e1, -⟩
        · obtain ⟨m1, m2, m3, m4, m5⟩ := findInObject_marks (resolveN_marks env o S n) hr hmo hf
          exact hrec _ hlt u (m3 u hu) l.1 _ m4 m5 m2 (unmarked_eq m1)
        · rw [e1] at hu; cases hu
    obtain ⟨k, hk⟩ := hfound
    refine ⟨max n k, ?_⟩
    simp only [mono (max n k) (by omega), hx]
    rw [(resolveFound_le (resolveN_le env (show k ≤ max n k by omega)) opt l).eq hk]
    exact hk

theorem term_at (m : Nat) : ∀ v, P v → TermAt env o S m v := by
  induction m using Nat.strongRecOn with
  | ind m hrec =>
  have hC := closed_refs (RefOk env o S)
  suffices H : ∀ z (v : Value), sizeOf v ≤ z → P v → TermAt env o S m v from
    fun v hv => H _ v (Nat.le_refl _) hv
  intro z
  induction z with
  | zero =>
    intro v hz
    have : 0 < sizeOf v := by cases v <;> simp <;> omega
    omega
  | succ z ihz =>
    intro v hz hv c s hs hsp ho hm
    have step : (Tm fun n => resolveSubstitutions env (resolveN env n) c s v) →
        Tm fun n => resolveN env n c s v := by
      intro h
      by_cases hmk : isMarked c v = true
      · refine ⟨1, ?_⟩
        show resolveN env (0 + 1) c s v ≠ .fuel
        rw [resolveN, if_pos hmk]
        simp
      · obtain ⟨n, hn⟩ := h
        refine ⟨n + 1, ?_⟩
        show resolveN env (n + 1) c s v ≠ .fuel
        rw [resolveN, if_neg hmk]
        exact bind_ne_fuel hn fun a => checkResult_ne c a
    refine step ?_
    cases v with
    | scalar x => exact .const (by simp [resolveSubstitutions])
    | list vs =>
      simp only [resolveSubstitutions, resolveList]
      split
      · exact .const (by simp)
      split
      · exact .const (by simp)
      refine Tm.bind (fun n n' hn => resolveElems_le (resolveN_le env hn) _ _ _) (fun _ => .const _)
        (resolveElems_tm (hs.push _) (hC.push hsp hv) c vs (fun x hx => ?_) ho hm) fun _ a _ =>
          .const (bind_ne_fuel (modifiedList_ne _ _ _) (by simp))
      have hx' := (hC.list vs).1 hv x hx
      refine ⟨hx', ihz x ?_ hx'⟩
      have := List.sizeOf_lt_of_mem hx
      simp only [Value.list.sizeOf_spec] at hz
      omega
    | obj fs r i =>
      simp only [resolveSubstitutions, resolveObject]
      split
      · exact .const (by simp)
      refine Tm.bind (fun n n' hn => resolveFields_le (resolveN_le env hn) _ _ _ _) (fun _ => .const _)
        (resolveFields_tm (hs.push _) (hC.push hsp hv) c fs (fun x hx => ?_) ho hm) fun _ a _ =>
          .const (by simp)
      have hx' := hC.fields _ _ _ hv x hx
      refine ⟨hx', ihz x.2 ?_ hx'⟩
      have := List.sizeOf_lt_of_mem hx
      obtain ⟨k, x⟩ := x
      simp only [Prod.mk.sizeOf_spec] at this
      simp only [Value.obj.sizeOf_spec] at hz
      simp only
      omega
    | ref id p opt pre => exact resolveRef_tm hrec hs hsp hv ho hm
    | concat ps =>
      simp only [resolveSubstitutions, resolveConcat]
      refine Tm.bind (fun n n' hn => resolvePieces_le (resolveN_le env hn) _ _ _) (fun _ => .const _)
        (resolvePieces_tm hs hsp c ps (fun x hx => ?_) ho hm) fun _ a _ =>
          .const (bind_ne_fuel (consolidate_ne _) fun j => bind_ne_fuel (joinedPieces_ne _ _) (by simp))
      have hx' := hC.concatParts hv x hx
      refine ⟨hx', ihz x ?_ hx'⟩
      have := List.sizeOf_lt_of_mem hx
      simp only [Value.concat.sizeOf_spec] at hz
      omega
    | dm st =>
      simp only [resolveSubstitutions]
      refine resolveStack_tm hs hsp hv (by simp) c none st (fun x hx => ?_) ho hm
      have hx' := hC.dmParts hv x hx
      refine ⟨hx', ihz x ?_ hx'⟩
      have := List.sizeOf_lt_of_mem hx
      simp only [Value.dm.sizeOf_spec] at hz
      omega
    | dmo st =>
      simp only [resolveSubstitutions]
      refine resolveStack_tm hs hsp hv (by simp) c none st (fun x hx => ?_) ho hm
      have hx' := hC.dmoParts hv x hx
      refine ⟨hx', ihz x ?_ hx'⟩
      have := List.sizeOf_lt_of_mem hx
      simp only [Value.dmo.sizeOf_spec] at hz
      omega

end

/-! ## The references of a tree -/

mutual
/-- All references of a tree: number, path, optional, prefix length. (Specification helper.) -/
def refsOf : Value → List (Nat × Path × Bool × Nat)
  | .scalar _ => []
  | .list vs => refsOfL vs
  | .obj fs _ _ => refsOfF fs
  | .ref id p opt pre => [(id, p, opt, pre)]
  | .concat vs => refsOfL vs
  | .dm vs => refsOfL vs
  | .dmo vs => refsOfL vs
/-- The references of a list of values. -/
def refsOfL : List Value → List (Nat × Path × Bool × Nat)
  | [] => []
  | v :: vs => refsOf v ++ refsOfL vs
/-- The references of the fields of an object. -/
def refsOfF : List (Str × Value) → List (Nat × Path × Bool × Nat)
  | [] => []
  | (_, v) :: fs => refsOf v ++ refsOfF fs
end

theorem mem_refsOfL {x : Nat × Path × Bool × Nat} {v : Value} : {vs : List Value} → v ∈ vs → x ∈ refsOf v →
    x ∈ refsOfL vs
  | [], h, _ => by cases h
  | w :: vs, h, hx => by
    rw [refsOfL, List.mem_append]
    rcases List.mem_cons.1 h with rfl | h
    · exact .inl hx
    · exact .inr (mem_refsOfL h hx)

theorem mem_refsOfF {x : Nat × Path × Bool × Nat} {k : Str} {v : Value} : {fs : List (Str × Value)} →
    (k, v) ∈ fs → x ∈ refsOf v → x ∈ refsOfF fs
  | [], h, _ => by cases h
  | (k', w) :: fs, h, hx => by
    rw [refsOfF, List.mem_append]
    rcases List.mem_cons.1 h with h | h
    · cases h; exact .inl hx
    · exact .inr (mem_refsOfF h hx)

theorem occurs_refsOf {id : Nat} {p : Path} {opt : Bool} {pre : Nat} {v : Value}
    (h : Occurs (.ref id p opt pre) v) : (id, p, opt, pre) ∈ refsOf v := by
  induction h with
  | here => simp [refsOf]
  | list hm _ ih => rw [refsOf]; exact mem_refsOfL hm ih
  | obj hm _ ih => rw [refsOf]; exact mem_refsOfF hm ih
  | concat hm _ ih => rw [refsOf]; exact mem_refsOfL hm ih
  | dm hm _ ih => rw [refsOf]; exact mem_refsOfL hm ih
  | dmo hm _ ih => rw [refsOf]; exact mem_refsOfL hm ih

theorem configResolve_term {env : Env} {fs : Fields} {r i : Bool} {o : Options} (hw : (Value.obj fs r i).Wf)
    (href : ∀ id p opt pre, Occurs (.ref id p opt pre) (.obj fs r i) → pre = 0 ∧ (opt = true → ∃ k, p = [k]) ∧
      (o.useEnv = true → opt = false ∧ o.allowUnresolved = false ∧ ∀ k, p = [k] → env.getenv k = none)) :
    ∃ n, configResolve env n (.obj fs r i) o ≠ .fuel := by
  let S := (refsOf (.obj fs r i)).map (·.1)
  have hS : ∀ id p opt pre, Occurs (.ref id p opt pre) (.obj fs r i) → id ∈ S := fun id p opt pre h =>
    List.mem_map.2 ⟨_, occurs_refsOf h, rfl⟩
  have hv : AllRefs (RefOk env o S) (.obj fs r i) :=
    ⟨hw, fun id p opt pre ho => ⟨hS _ _ _ _ ho, href _ _ _ _ ho⟩⟩
  obtain ⟨n, hn⟩ := term_at _ _ hv ⟨o, [], []⟩ ⟨some (.obj fs r i), []⟩ ⟨fs, r, i, rfl, .inl rfl⟩
    ⟨by rintro x ⟨⟩; exact hv, by simp⟩ rfl rfl
  exact ⟨n, bind_ne_fuel (bind_ne_fuel hn (by simp)) (by simp)⟩

end Resolve
end Hocon
