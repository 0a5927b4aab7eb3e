import Verif.Lemmas.ResolveTerm
import Verif.Spec.Settle

/-!
# References to keys that do not exist
-/

set_option autoImplicit false

namespace Hocon
namespace Resolve
open Value Spec

/-- `Spec.Dead`, and no object on the way has two fields of the same name. -/
inductive Gone : Value → Path → Prop
  | missing {fs : Fields} {r i : Bool} {k : Str} {p : Path} : k ∉ keysOf fs → Gone (.obj fs r i) (k :: p)
  | deeper {fs : Fields} {r i : Bool} {k k' : Str} {p : Path} {v : Value} : (keysOf fs).Nodup →
      (k, v) ∈ fs → Gone v (k' :: p) → Gone (.obj fs r i) (k :: k' :: p)
  | scalar {s : Scalar} {k : Str} {p : Path} : Gone (.scalar s) (k :: p)
  | list {vs : List Value} {k : Str} {p : Path} : Gone (.list vs) (k :: p)

theorem Gone.of_dead {v : Value} {p : Path} (h : Dead v p) : v.Wf → Gone v p := by
  induction h with
  | missing hf => exact fun _ => .missing (findKey_none.1 hf)
  | deeper hf _ ih =>
    exact fun hw => .deeper (closed_wf.nodup _ _ _ hw) (findKey_mem hf)
      (ih (closed_wf.findKey (closed_wf.fields _ _ _ hw) hf))
  | scalar => exact fun _ => .scalar
  | list => exact fun _ => .list

/-- What `v` has nothing at, `o` has nothing at. -/
def KeepsGone (v : Value) (o : Option Value) : Prop := ∀ p w, Gone v p → o = some w → Gone w p

theorem KeepsGone.none (v : Value) : KeepsGone v none := fun _ _ _ h => by cases h

theorem KeepsGone.asContainer {v : Value} {o : Option Value} (h : KeepsGone v o) : KeepsGone v (asContainer o) := by
  intro p w hg hw
  refine h p w hg ?_
  unfold Resolve.asContainer at hw
  split at hw
  · cases hw
  · split at hw
    · exact hw
    · cases hw

/-- Every field stays, or is the one that is replaced. -/
theorem replaceInFields_each {c : Value} {rp : Option Value} {k : Str} {v : Value} : {fs gs : Fields} →
    replaceInFields c rp fs = some gs → (keysOf fs).Nodup → (k, v) ∈ fs →
    (k, v) ∈ gs ∨ v = c ∧ (k ∉ keysOf gs ∧ rp = none ∨ ∃ w, rp = some w ∧ (k, w) ∈ gs)
  | [], _, h, _, _ => by simp [replaceInFields] at h
  | (k', v') :: fs, gs, h, hn, hm => by
    simp only [keysOf, List.map_cons, List.nodup_cons] at hn
    simp only [replaceInFields] at h
    split at h
    · rename_i hv
      cases h
      rcases List.mem_cons.1 hm with heq | hm
      · cases heq
        refine .inr ⟨hv, ?_⟩
        cases rp with
        | none => exact .inl ⟨hn.1, rfl⟩
        | some w => exact .inr ⟨w, rfl, by simp⟩
      · refine .inl ?_
        cases rp with
        | none => exact hm
        | some w => exact List.mem_cons_of_mem _ hm
    · cases hr : replaceInFields c rp fs with
      | none => rw [hr] at h; cases h
      | some gs' =>
        rw [hr] at h
        cases h
        rcases List.mem_cons.1 hm with heq | hm'
        · cases heq; exact .inl (by simp)
        · rcases replaceInFields_each hr hn.2 hm' with h | ⟨h1, h | ⟨w, h2, h3⟩⟩
          · exact .inl (List.mem_cons_of_mem _ h)
          · refine .inr ⟨h1, .inl ⟨?_, h.2⟩⟩
            simp only [keysOf, List.map_cons, List.mem_cons, not_or]
            refine ⟨?_, h.1⟩
            rintro rfl
            exact hn.1 (List.mem_map_of_mem (f := Prod.fst) hm')
          · exact .inr ⟨h1, .inr ⟨w, h2, List.mem_cons_of_mem _ h3⟩⟩

theorem replaceChild_keeps {parent c : Value} {rp o : Option Value} (hk : KeepsGone c rp)
    (h : replaceChild parent c rp = .ok o) : KeepsGone parent o := by
  intro p w hg hw
  subst hw
  cases hg with
  | @missing fs r i k p hn =>
    simp only [replaceChild] at h
    split at h
    · cases h
    · rename_i gs hgs
      cases h
      exact .missing fun hx => hn ((replaceInFields_keys hgs).subset hx)
  | @deeper fs r i k k' p v hn hm hv =>
    simp only [replaceChild] at h
    split at h
    · cases h
    · rename_i gs hgs
      cases h
      have hnd := (replaceInFields_keys hgs).nodup hn
      rcases replaceInFields_each hgs hn hm with h | ⟨rfl, h | ⟨w, rfl, h⟩⟩
      · exact .deeper hnd h hv
      · exact .missing h.1
      · exact .deeper hnd h (hk _ _ hv rfl)
  | scalar => cases h
  | list =>
    simp only [replaceChild] at h
    split at h
    · cases h
    · split at h <;> cases h
      exact .list

/-- An object stays an object. -/
theorem replaceChild_stays {fs : Fields} {r i : Bool} {c : Value} {rp o : Option Value}
    (h : replaceChild (.obj fs r i) c rp = .ok o) : ∃ gs r', o = some (.obj gs r' i) := by
  unfold replaceChild at h
  simp only at h
  split at h
  · cases h
  · cases h
    exact ⟨_, _, rfl⟩

/-- Like `SrcOk`, and the root has nothing at `p`. -/
def SrcLack (p : Path) (s : Source) : Prop :=
  ∃ fs r i, s.root = some (.obj fs r i) ∧ Gone (.obj fs r i) p ∧
    (s.path = [] ∨ s.path.getLast? = some (.obj fs r i))

theorem SrcLack.push {p : Path} {s : Source} (h : SrcLack p s) (v : Value) : SrcLack p (s.push v) := by
  obtain ⟨fs, r, i, h1, hk, h2⟩ := h
  unfold Source.push
  split
  · rename_i hp
    split
    · rename_i ha
      refine ⟨fs, r, i, h1, hk, .inr ?_⟩
      rw [h1] at ha
      unfold asObject at ha
      split at ha
      · simpa using ha
      · cases ha
    · exact ⟨fs, r, i, h1, hk, h2⟩
  · rename_i hp
    refine ⟨fs, r, i, h1, hk, .inr ?_⟩
    rcases h2 with h2 | h2
    · simp [h2] at hp
    · simp [List.getLast?_cons, h2]

theorem replacePath_keeps {p : Path} : (l : List Value) → (rp : Option Value) → (q : List Value) → {fs : Fields} →
    {r i : Bool} → l.getLast? = some (.obj fs r i) → Gone (.obj fs r i) p →
    (∀ v ∈ l.head?, KeepsGone v rp) → (l.length = 1 → ∃ gs r' i', rp = some (.obj gs r' i')) →
    replacePath l rp = .ok q → ∃ gs r' i', q.getLast? = some (.obj gs r' i') ∧ Gone (.obj gs r' i') p
  | [], _, _, _, _, _, hl, _, _, _, _ => by simp at hl
  | [x], rp, q, fs, r, i, hl, hk, hkeep, h1, h => by
    obtain ⟨gs, r', i', rfl⟩ := h1 rfl
    simp only [replacePath, asContainer, isContainer, if_true] at h
    cases h
    simp only [List.getLast?_singleton, Option.some.injEq] at hl
    subst hl
    exact ⟨gs, r', i', rfl, hkeep _ rfl _ _ hk rfl⟩
  | old :: parent :: rest, rp, q, fs, r, i, hl, hk, hkeep, h1, h => by
    have hl' : (parent :: rest).getLast? = some (.obj fs r i) := by
      rw [List.getLast?_cons_cons] at hl; exact hl
    have hnext : ∀ rp' np, replaceChild parent old rp' = .ok np → (parent :: rest).length = 1 →
        ∃ gs r' i', np = some (.obj gs r' i') := by
      intro rp' np hr hlen
      have : rest = [] := by simpa using hlen
      subst this
      simp only [List.getLast?_singleton, Option.some.injEq] at hl'
      subst hl'
      obtain ⟨gs, r', h⟩ := replaceChild_stays hr
      exact ⟨gs, r', i, h⟩
    have hold : KeepsGone old rp := hkeep _ rfl
    simp only [replacePath] at h
    split at h
    · obtain ⟨np, hnp, h⟩ := bind_ok h
      exact replacePath_keeps (parent :: rest) np q hl' hk
        (by rintro v ⟨⟩; exact replaceChild_keeps (KeepsGone.none _) hnp) (hnext _ _ hnp) h
    · rename_i x hx
      obtain ⟨np, hnp, h⟩ := bind_ok h
      obtain ⟨tail, ht, h⟩ := bind_ok h
      cases h
      obtain ⟨gs, r', i', h, hg⟩ := replacePath_keeps (parent :: rest) np tail hl' hk
        (by rintro v ⟨⟩; exact replaceChild_keeps (hx ▸ hold.asContainer) hnp) (hnext _ _ hnp) ht
      exact ⟨gs, r', i', by rw [List.getLast?_cons, h]; rfl, hg⟩

theorem SrcLack.replaceWithin {p : Path} {s s' : Source} (h : SrcLack p s) {old : Value} {rp : Option Value}
    (hold : ∀ fs r i, old ≠ .obj fs r i) (hko : KeepsGone old rp) (hr : s.replaceWithin old rp = .ok s') :
    SrcLack p s' := by
  obtain ⟨fs, r, i, h1, hk, h2⟩ := h
  unfold Source.replaceWithin at hr
  split at hr
  · rename_i parent rest hp
    obtain ⟨np, hnp, hr⟩ := bind_ok hr
    obtain ⟨q, hq, hr⟩ := bind_ok hr
    cases hr
    have hl : (parent :: rest).getLast? = some (.obj fs r i) := by
      rcases h2 with h2 | h2
      · rw [hp] at h2; cases h2
      · rw [hp] at h2; exact h2
    obtain ⟨gs, r', i', hg, hk'⟩ := replacePath_keeps (parent :: rest) (asContainer np) q hl hk
      (by rintro v ⟨⟩; exact (replaceChild_keeps hko hnp).asContainer) (by
      intro hlen
      have : rest = [] := by simpa using hlen
      subst this
      simp only [List.getLast?_singleton, Option.some.injEq] at hl
      subst hl
      obtain ⟨gs, r', rfl⟩ := replaceChild_stays hnp
      exact ⟨gs, r', i, rfl⟩) hq
    exact ⟨gs, r', i', by simp [rootOfPath, hg, asObject, isObject], hk', .inl rfl⟩
  · split at hr
    · cases hr
    · split at hr
      · rename_i he
        rw [h1] at he
        exact absurd (Option.some.inj he) (hold _ _ _)
      · cases hr

/-- The options stay, and so does the absence of a restriction. -/
def CtxR (rec : Resolver) : Prop :=
  ∀ c s v c' w, rec c s v = .ok (c', w) → c'.opts = c.opts ∧ (c.restr = [] → c'.restr = [])

section
variable {env : Env} {rec : Resolver} (hrec : CtxR rec)
include hrec

theorem findInObject_ctx {root : Option Value} {c : Ctx} {p : Path} {x : Ctx × Option Value × List Value}
    (h : findInObject rec root c p = .ok x) : x.1.opts = c.opts ∧ (c.restr = [] → x.1.restr = []) := by
  unfold findInObject at h
  split at h
  · cases h
  · obtain ⟨⟨c2, w⟩, h1, h⟩ := bind_ok h
    simp only at h
    split at h
    · cases h
    · split at h
      · obtain ⟨f, _, h⟩ := bind_ok h
        cases h
        exact ⟨(hrec _ _ _ _ _ h1).1, fun hc => hc⟩
      · cases h

theorem lookupSubst_ctx {root : Option Value} {c : Ctx} {p : Path} {pre : Nat}
    {x : Ctx × Option Value × List Value} (h : lookupSubst env rec root c p pre = .ok x) :
    x.1.opts = c.opts ∧ (c.restr = [] → x.1.restr = []) := by
  have henv : ∀ q (r y : Ctx × Option Value × List Value), r.1.opts = c.opts ∧ (c.restr = [] → r.1.restr = []) →
      lookupEnv env c q r = .ok y → y.1.opts = c.opts ∧ (c.restr = [] → y.1.restr = []) := by
    intro q r y hr hy
    unfold lookupEnv at hy
    split at hy
    · obtain ⟨v, _, hy⟩ := bind_ok hy
      cases hy
      exact ⟨rfl, fun _ => rfl⟩
    · cases hy; exact hr
  unfold lookupSubst at h
  obtain ⟨r, hr, h⟩ := bind_ok h
  have h1 := findInObject_ctx hrec hr
  split at h
  · split at h
    · obtain ⟨r2, hr2, h⟩ := bind_ok h
      have h2 := findInObject_ctx hrec hr2
      exact henv _ _ _ ⟨h2.1.trans h1.1, fun hc => h2.2 (h1.2 hc)⟩ h
    · exact henv _ _ _ h1 h
  · cases h; exact h1

theorem resolveRef_ctx {c : Ctx} {s : Source} {id : Nat} {p : Path} {opt : Bool} {pre : Nat}
    {x : Ctx × Option Value} (h : resolveRef env rec c s id p opt pre = .ok x) :
    x.1.opts = c.opts ∧ (c.restr = [] → x.1.restr = []) := by
  unfold resolveRef at h
  split at h
  · cases h
  obtain ⟨y, hy, h⟩ := bind_ok h
  have hxy : x.1 = y.1.unmark id := by
    unfold finishRef at h
    split at h
    · cases h; rfl
    · split at h
      · cases h; rfl
      · split at h
        · cases h; rfl
        · cases h
  suffices hs : y.1.opts = c.opts ∧ (c.restr = [] → y.1.restr = []) by rw [hxy]; exact hs
  unfold tryRef at hy
  split at hy
  · rename_i l hl
    have h1 := lookupSubst_ctx hrec hl
    unfold resolveFound at hy
    split at hy
    · cases hy; exact h1
    · rename_i v _
      unfold catchCycle at hy
      split at hy
      · split at hy
        · cases hy; exact h1
        · cases hy
      · have h2 := hrec _ _ _ _ _ hy
        exact ⟨h2.1.trans h1.1, fun hc => h2.2 (h1.2 hc)⟩
  · rename_i e he
    unfold catchCycle at hy
    split at hy
    · split at hy
      · cases hy; exact ⟨rfl, fun _ => rfl⟩
      · cases hy
    · cases hy
  · cases hy
  · cases hy

theorem resolveChild_ctx {orig : Path} {c : Ctx} {s : Source} {k : Str} {v : Value} {x : Ctx × Option Value}
    (h : resolveChild rec orig c s k v = .ok x) :
    x.1.opts = c.opts ∧ (c.restr = [] → orig = [] → x.1.restr = []) := by
  unfold resolveChild at h
  split at h
  · obtain ⟨r, hr, h⟩ := bind_ok h
    cases h
    exact ⟨(hrec _ _ _ _ _ hr).1, fun _ ho => ho⟩
  · split at h
    · split at h
      · cases h; exact ⟨rfl, fun hc _ => hc⟩
      · obtain ⟨r, hr, h⟩ := bind_ok h
        cases h
        exact ⟨(hrec _ _ _ _ _ hr).1, fun _ ho => ho⟩
    · cases h; exact ⟨rfl, fun hc _ => hc⟩

theorem resolveFields_ctx {orig : Path} {s : Source} : (c : Ctx) → (fs : Fields) →
    (x : Ctx × List (Str × Option Value)) → resolveFields rec orig s c fs = .ok x →
    x.1.opts = c.opts ∧ (c.restr = [] → orig = [] → x.1.restr = [])
  | c, [], x, h => by cases h; exact ⟨rfl, fun hc _ => hc⟩
  | c, (k, v) :: fs, x, h => by
    simp only [resolveFields] at h
    obtain ⟨r, hr, h⟩ := bind_ok h
    obtain ⟨y, hy, h⟩ := bind_ok h
    cases h
    have h1 := resolveChild_ctx hrec hr
    have h2 := resolveFields_ctx _ _ _ hy
    exact ⟨h2.1.trans h1.1, fun hc ho => h2.2 (h1.2 hc ho) ho⟩

theorem resolveElems_ctx {s : Source} : (c : Ctx) → (vs : List Value) →
    (x : Ctx × List (Option Value)) → resolveElems rec s c vs = .ok x →
    x.1.opts = c.opts ∧ (c.restr = [] → x.1.restr = [])
  | c, [], x, h => by cases h; exact ⟨rfl, fun hc => hc⟩
  | c, v :: vs, x, h => by
    simp only [resolveElems] at h
    obtain ⟨r, hr, h⟩ := bind_ok h
    obtain ⟨y, hy, h⟩ := bind_ok h
    cases h
    have h1 := hrec _ _ _ _ _ hr
    have h2 := resolveElems_ctx _ _ _ hy
    exact ⟨h2.1.trans h1.1, fun hc => h2.2 (h1.2 hc)⟩

theorem resolvePieces_ctx {s : Source} : (c : Ctx) → (vs : List Value) →
    (x : Ctx × List Value) → resolvePieces rec s c vs = .ok x →
    x.1.opts = c.opts ∧ (c.restr = [] → x.1.restr = [])
  | c, [], x, h => by cases h; exact ⟨rfl, fun hc => hc⟩
  | c, v :: vs, x, h => by
    simp only [resolvePieces] at h
    obtain ⟨r, hr, h⟩ := bind_ok h
    obtain ⟨y, hy, h⟩ := bind_ok h
    cases h
    have h1 := hrec _ _ _ _ _ hr
    have h2 := resolvePieces_ctx _ _ _ hy
    exact ⟨h2.1.trans h1.1, fun hc => h2.2 hc⟩

theorem resolveStack_ctx {self : Value} {s : Source} : (c : Ctx) → (m : Option Value) → (vs : List Value) →
    (x : Ctx × Option Value) → resolveStack rec self s c m vs = .ok x →
    x.1.opts = c.opts ∧ (c.restr = [] → x.1.restr = [])
  | c, m, [], x, h => by cases h; exact ⟨rfl, fun hc => hc⟩
  | c, m, v :: vs, x, h => by
    simp only [resolveStack] at h
    obtain ⟨s', hs', h⟩ := bind_ok h
    obtain ⟨r, hr, h⟩ := bind_ok h
    obtain ⟨m', hm', h⟩ := bind_ok h
    have h1 := hrec _ _ _ _ _ hr
    have h2 := resolveStack_ctx _ _ _ _ h
    exact ⟨h2.1.trans h1.1, fun hc => h2.2 (h1.2 hc)⟩

end

theorem resolveN_ctx (env : Env) (n : Nat) : CtxR (resolveN env n) := by
  induction n with
  | zero => intro c s v c' w h; cases h
  | succ n ih =>
    intro c s v c' w h
    rw [resolveN] at h
    split at h
    · cases h
    obtain ⟨x, hx, h⟩ := bind_ok h
    obtain ⟨rfl, -⟩ := checkResult_eq h
    cases v with
    | scalar y => cases hx; exact ⟨rfl, fun hc => hc⟩
    | list vs =>
      simp only [resolveSubstitutions, resolveList] at hx
      split at hx
      · cases hx; exact ⟨rfl, fun hc => hc⟩
      split at hx
      · cases hx; exact ⟨rfl, fun hc => hc⟩
      obtain ⟨y, hy, hx⟩ := bind_ok hx
      obtain ⟨z, hz, hx⟩ := bind_ok hx
      cases hx
      exact resolveElems_ctx ih _ _ _ hy
    | obj fs r i =>
      simp only [resolveSubstitutions, resolveObject] at hx
      split at hx
      · cases hx; exact ⟨rfl, fun hc => hc⟩
      obtain ⟨y, hy, hx⟩ := bind_ok hx
      cases hx
      have := resolveFields_ctx ih _ _ _ hy
      exact ⟨this.1, fun hc => this.2 hc hc⟩
    | ref id p opt pre => exact resolveRef_ctx ih hx
    | concat ps =>
      simp only [resolveSubstitutions, resolveConcat] at hx
      obtain ⟨y, hy, hx⟩ := bind_ok hx
      obtain ⟨z, hz, hx⟩ := bind_ok hx
      obtain ⟨u, hu, hx⟩ := bind_ok hx
      cases hx
      exact resolvePieces_ctx ih _ _ _ hy
    | dm st => exact resolveStack_ctx ih _ _ _ _ hx
    | dmo st => exact resolveStack_ctx ih _ _ _ _ hx

/-- A value with a reference inside does not count as resolved. -/
theorem occurs_unresolved {id : Nat} {p : Path} {opt : Bool} {pre : Nat} {v : Value}
    (h : Occurs (.ref id p opt pre) v) (hv : v.Wf) : v.resolved = false := by
  induction h with
  | here => rfl
  | list hm _ ih =>
    have := ih ((closed_wf.list _).1 hv _ hm)
    cases hr : (Value.list _).resolved with
    | false => rfl
    | true =>
      simp only [Value.resolved, resolvedAll_iff] at hr
      rw [hr _ hm] at this
      cases this
  | @obj fs r i k v hm _ ih =>
    have := ih (closed_wf.fields _ _ _ hv _ hm)
    have h1 := hv.1
    cases hr : (Value.obj fs r i).resolved with
    | false => rfl
    | true =>
      simp only [Value.resolved] at hr
      subst hr
      have := resolvedFields_iff.1 h1.symm _ hm
      simp_all
  | concat _ _ _ => rfl
  | dm _ _ _ => rfl
  | dmo _ _ _ => rfl

section
variable {env : Env} {p : Path} {id : Nat}

/-- Every field stays, resolved or not, or vanishes. -/
theorem resolveFields_mem {rec : Resolver} {orig : Path} {s : Source} {k : Str} {v : Value} : (c : Ctx) →
    (fs : Fields) → (x : Ctx × List (Str × Option Value)) → resolveFields rec orig s c fs = .ok x → (k, v) ∈ fs →
    ∃ o, (k, o) ∈ x.2 ∧ (o = some v ∨ ∃ c1 c2, rec c1 s v = .ok (c2, o))
  | c, [], _, _, hm => by cases hm
  | c, (k', v') :: fs, x, h, hm => by
    simp only [resolveFields] at h
    obtain ⟨r, hr, h⟩ := bind_ok h
    obtain ⟨y, hy, h⟩ := bind_ok h
    cases h
    rcases List.mem_cons.1 hm with heq | hm
    · cases heq
      refine ⟨r.2, List.mem_cons_self, ?_⟩
      unfold resolveChild at hr
      split at hr
      · obtain ⟨z, hz, hr⟩ := bind_ok hr
        cases hr
        exact .inr ⟨_, _, hz⟩
      · split at hr
        · split at hr
          · cases hr; exact .inl rfl
          · obtain ⟨z, hz, hr⟩ := bind_ok hr
            cases hr
            exact .inr ⟨_, _, hz⟩
        · cases hr; exact .inl rfl
    · obtain ⟨o, ho, h⟩ := resolveFields_mem _ _ _ hy hm
      exact ⟨o, List.mem_cons_of_mem _ ho, h⟩

theorem keptFields_mem {k : Str} {w : Value} : {os : List (Str × Option Value)} → (k, some w) ∈ os →
    (k, w) ∈ keptFields os
  | [], h => by cases h
  | (k', none) :: os, h => by
    rcases List.mem_cons.1 h with h | h
    · cases h
    · show (k, w) ∈ keptFields os
      exact keptFields_mem h
  | (k', some w') :: os, h => by
    rcases List.mem_cons.1 h with h | h
    · cases h; exact List.mem_cons_self
    · exact List.mem_cons_of_mem _ (keptFields_mem h)

/-- Resolving gives a value no new paths. -/
theorem resolveN_gone : {n : Nat} → {v : Value} → {p : Path} → {c c' : Ctx} → {s : Source} → {o : Option Value} →
    Gone v p → resolveN env n c s v = .ok (c', o) →
    ∃ w, o = some w ∧ Gone w p ∧ (v.isObject = true → w.isObject = true)
  | 0, _, _, _, _, _, _, _, h => by cases h
  | n + 1, v, p, c, c', s, o, hg, h => by
    rw [resolveN] at h
    split at h
    · cases h
    obtain ⟨x, hx, h⟩ := bind_ok h
    obtain ⟨rfl, -⟩ := checkResult_eq h
    cases hg with
    | scalar => cases hx; exact ⟨_, rfl, .scalar, fun h => h⟩
    | list =>
      simp only [resolveSubstitutions, resolveList] at hx
      split at hx
      · cases hx; exact ⟨_, rfl, .list, fun h => h⟩
      split at hx
      · cases hx; exact ⟨_, rfl, .list, fun h => h⟩
      obtain ⟨y, hy, hx⟩ := bind_ok hx
      obtain ⟨z, hz, hx⟩ := bind_ok hx
      cases hx
      refine ⟨_, rfl, ?_, by simp [isObject]⟩
      unfold modifiedList at hz
      split at hz
      · cases hz; exact .list
      · split at hz
        · cases hz; exact .list
        · cases hz
    | @missing fs r i k p hk =>
      simp only [resolveSubstitutions, resolveObject] at hx
      split at hx
      · cases hx; exact ⟨_, rfl, .missing hk, fun h => h⟩
      · obtain ⟨y, hy, hx⟩ := bind_ok hx
        cases hx
        refine ⟨_, rfl, ?_⟩
        unfold modifiedObject
        split
        · exact ⟨.missing hk, fun _ => rfl⟩
        · exact ⟨.missing fun hx => hk ((resolveFields_keys c fs y hy).subset hx), fun _ => rfl⟩
    | @deeper fs r i k k' p v hn hm hv =>
      simp only [resolveSubstitutions, resolveObject] at hx
      split at hx
      · cases hx; exact ⟨_, rfl, .deeper hn hm hv, fun h => h⟩
      · obtain ⟨y, hy, hx⟩ := bind_ok hx
        cases hx
        refine ⟨_, rfl, ?_⟩
        unfold modifiedObject
        split
        · exact ⟨.deeper hn hm hv, fun _ => rfl⟩
        · have hnd := (resolveFields_keys c fs y hy).nodup hn
          obtain ⟨o, ho, h⟩ := resolveFields_mem c fs y hy hm
          rcases h with rfl | ⟨c1, c2, h⟩
          · exact ⟨.deeper hnd (keptFields_mem ho) hv, fun _ => rfl⟩
          · obtain ⟨w, rfl, hw, -⟩ := resolveN_gone hv h
            exact ⟨.deeper hnd (keptFields_mem ho) hw, fun _ => rfl⟩

theorem findPeek_gone {v : Value} {p : Path} (hg : Gone v p) : ∀ {l : List Value} {f : Option Value × List Value},
    v.isObject = true → findPeek v p l = .ok f → f.1 = none := by
  induction hg with
  | scalar => intro l f h; cases h
  | list => intro l f h; cases h
  | @missing fs r i k p hk =>
    intro l f _ hf
    have hp : attemptPeek (.obj fs r i) k = .ok none := by rw [attemptPeek, findKey_none.2 hk]
    simp only [findPeek, hp, Res.bind] at hf
    split at hf <;> cases hf <;> rfl
  | @deeper fs r i k k' p v hn hm hv ih =>
    intro l f _ hf
    have hp : attemptPeek (.obj fs r i) k = .ok (some v) := by
      rw [attemptPeek, findKey_of_mem hn hm]
    simp only [findPeek, hp, Res.bind] at hf
    split at hf
    · rename_i he; cases he
    · split at hf
      · rename_i ho; exact ih ho hf
      · cases hf; rfl

/-- The lookup of a path at which there is nothing finds nothing. -/
theorem findInObject_lack {n : Nat} {fs : Fields} {r i : Bool} {c : Ctx} {x : Ctx × Option Value × List Value}
    (hk : Gone (.obj fs r i) p) (h : findInObject (resolveN env n) (some (.obj fs r i)) c p = .ok x) :
    x.2.1 = none := by
  simp only [findInObject] at h
  obtain ⟨⟨c2, w⟩, h1, h⟩ := bind_ok h
  obtain ⟨w, rfl, hg, ho⟩ := resolveN_gone hk h1
  simp only [ho rfl, if_true] at h
  obtain ⟨f, hf, h⟩ := bind_ok h
  cases h
  exact findPeek_gone hg (ho rfl) hf

theorem resolveRef_lack {n : Nat} {c : Ctx} {s : Source} (hs : SrcLack p s)
    (ha : c.opts.allowUnresolved = false) (he : envExt env c.opts.useEnv p = none)
    (x : Ctx × Option Value) : resolveRef env (resolveN env n) c s id p false 0 ≠ .ok x := by
  intro h
  obtain ⟨fs, r, i, hroot, hk, -⟩ := hs
  unfold resolveRef at h
  split at h
  · cases h
  obtain ⟨y, hy, h⟩ := bind_ok h
  suffices hn : y.2 = none ∧ y.1.opts = c.opts by
    unfold finishRef at h
    rw [hn.1, hn.2] at h
    simp [ha] at h
  unfold tryRef at hy
  split at hy
  · rename_i l hl
    rw [hroot] at hl
    have hopt := (lookupSubst_ctx (resolveN_ctx env n) hl).1
    suffices hn : l.2.1 = none by
      unfold resolveFound at hy
      rw [hn] at hy
      cases hy
      exact ⟨rfl, hopt⟩
    unfold lookupSubst at hl
    obtain ⟨r1, hr1, hl⟩ := bind_ok hl
    have hnone := findInObject_lack hk hr1
    simp only [hnone, Option.isNone_none, if_true, gt_iff_lt, Nat.lt_irrefl, if_false] at hl
    unfold lookupEnv at hl
    split at hl
    · rename_i hu
      obtain ⟨v, hv, hl⟩ := bind_ok hl
      cases hl
      simp only [Bool.and_eq_true] at hu
      have hu' : c.opts.useEnv = true := hu.2
      have hsub : PathM.subPath 0 p = p := rfl
      rw [hsub] at hv
      match p with
      | [] => cases hv
      | [k] =>
        simp only [envExt, hu', if_true] at he
        simp only [findEnv] at hv
        cases hv
        simp only [he, Option.map_none]
      | _ :: _ :: _ => simp only [findEnv] at hv; cases hv; rfl
    · cases hl; exact hnone
  · unfold catchCycle at hy
    split at hy
    · simp at hy
    · cases hy
  · cases hy
  · cases hy

theorem resolveN_missing {v : Value} (hocc : Occurs (.ref id p false 0) v) (hv : v.Wf) :
    ∀ n c s x, SrcLack p s → c.restr = [] → c.opts.allowUnresolved = false →
      envExt env c.opts.useEnv p = none → resolveN env n c s v ≠ .ok x := by
  have step : ∀ {w : Value}, (∀ n c s x, SrcLack p s → c.restr = [] → c.opts.allowUnresolved = false →
      envExt env c.opts.useEnv p = none → resolveSubstitutions env (resolveN env n) c s w ≠ .ok x) →
      ∀ n c s x, SrcLack p s → c.restr = [] → c.opts.allowUnresolved = false →
      envExt env c.opts.useEnv p = none → resolveN env n c s w ≠ .ok x := by
    intro w H n c s x h1 h2 h3 h4 h
    cases n with
    | zero => cases h
    | succ n =>
      rw [resolveN] at h
      split at h
      · cases h
      obtain ⟨y, hy, -⟩ := bind_ok h
      exact H n c s y h1 h2 h3 h4 hy
  have stack : ∀ {self : Value} {st : List Value} {w : Value}, w ∈ st → (∀ fs r i, self ≠ .obj fs r i) →
      (∀ p, ¬ Gone self p) →
      (∀ n c s x, SrcLack p s → c.restr = [] → c.opts.allowUnresolved = false →
        envExt env c.opts.useEnv p = none → resolveN env n c s w ≠ .ok x) →
      ∀ n c s m x, SrcLack p s → c.restr = [] → c.opts.allowUnresolved = false →
        envExt env c.opts.useEnv p = none → resolveStack (resolveN env n) self s c m st ≠ .ok x := by
    intro self st w hw hno hno' ih n c s m x h1 h2 h3 h4 h
    induction st generalizing c m with
    | nil => cases hw
    | cons v vs ihs =>
      simp only [resolveStack] at h
      obtain ⟨s', hs', h⟩ := bind_ok h
      obtain ⟨r, hr, h⟩ := bind_ok h
      obtain ⟨m', -, h⟩ := bind_ok h
      rcases List.mem_cons.1 hw with rfl | hw
      · refine ih n c s' r ?_ h2 h3 h4 hr
        unfold sourceForEnd at hs'
        split at hs'
        · cases hs'
        · split at hs'
          · obtain ⟨rp, -, hs'⟩ := bind_ok hs'
            exact h1.replaceWithin hno (fun p _ hg => absurd hg (hno' p)) hs'
          · cases hs'; exact h1.push _
      · obtain ⟨e1, e2⟩ := resolveN_ctx env n _ _ _ _ _ hr
        exact ihs hw r.1 m' (e2 h2) (by rw [e1]; exact h3) (by rw [e1]; exact h4) h
  induction hocc with
  | here => exact step fun n c s x h1 _ h3 h4 => resolveRef_lack h1 h3 h4 x
  | @list vs v hm ho ih =>
    have ih := ih ((closed_wf.list _).1 hv _ hm)
    refine step fun n c s x h1 h2 h3 h4 h => ?_
    simp only [resolveSubstitutions, resolveList, occurs_unresolved (.list hm ho) hv] at h
    simp only [h2] at h
    simp only [Bool.false_eq_true, List.isEmpty_nil, Bool.not_true, if_false] at h
    obtain ⟨y, hy, -⟩ := bind_ok h
    have h1' := h1.push (.list vs)
    generalize s.push (.list vs) = s' at h1' hy
    clear h hv ho
    induction vs generalizing c y with
    | nil => cases hm
    | cons w ws ihs =>
      simp only [resolveElems] at hy
      obtain ⟨r, hr, hy⟩ := bind_ok hy
      obtain ⟨z, hz, hy⟩ := bind_ok hy
      rcases List.mem_cons.1 hm with rfl | hm
      · exact ih n c s' r h1' h2 h3 h4 hr
      · obtain ⟨e1, e2⟩ := resolveN_ctx env n _ _ _ _ _ hr
        exact ihs hm r.1 (e2 h2) (by rw [e1]; exact h3) (by rw [e1]; exact h4) z hz
  | @obj fs r i kk v hm ho ih =>
    have ih := ih (closed_wf.fields _ _ _ hv _ hm)
    refine step fun n c s x h1 h2 h3 h4 h => ?_
    have hr := occurs_unresolved (.obj hm ho) hv
    simp only [Value.resolved] at hr
    subst hr
    simp only [resolveSubstitutions, resolveObject, Bool.false_eq_true, if_false] at h
    obtain ⟨y, hy, -⟩ := bind_ok h
    have h1' := h1.push (.obj fs false i)
    generalize s.push (.obj fs false i) = s' at h1' hy
    rw [h2] at hy
    clear h hv ho
    induction fs generalizing c y with
    | nil => cases hm
    | cons w ws ihs =>
      obtain ⟨kw, w⟩ := w
      simp only [resolveFields] at hy
      obtain ⟨r, hr, hy⟩ := bind_ok hy
      obtain ⟨z, hz, hy⟩ := bind_ok hy
      rcases List.mem_cons.1 hm with heq | hm
      · cases heq
        simp only [resolveChild, h2] at hr
        obtain ⟨r2, hr2, -⟩ := bind_ok hr
        exact ih n (c.restrict []) s' r2 h1' rfl h3 h4 hr2
      · obtain ⟨e1, e2⟩ := resolveChild_ctx (resolveN_ctx env n) hr
        exact ihs hm r.1 (e2 h2 rfl) (by rw [e1]; exact h3) (by rw [e1]; exact h4) z hz
  | @concat vs v hm ho ih =>
    have ih := ih (closed_wf.concatParts hv _ hm)
    refine step fun n c s x h1 h2 h3 h4 h => ?_
    simp only [resolveSubstitutions, resolveConcat] at h
    obtain ⟨y, hy, -⟩ := bind_ok h
    clear h hv ho
    induction vs generalizing c y with
    | nil => cases hm
    | cons w ws ihs =>
      simp only [resolvePieces] at hy
      obtain ⟨r, hr, hy⟩ := bind_ok hy
      obtain ⟨z, hz, hy⟩ := bind_ok hy
      rcases List.mem_cons.1 hm with rfl | hm
      · exact ih n (c.restrict []) s r h1 rfl h3 h4 hr
      · obtain ⟨e1, e2⟩ := resolveN_ctx env n _ _ _ _ _ hr
        exact ihs hm (r.1.restrict c.restr) h2 (by show r.1.opts.allowUnresolved = _; rw [e1]; exact h3)
          (by show envExt env r.1.opts.useEnv _ = _; rw [e1]; exact h4) z hz
  | dm hm ho ih =>
    have ih := ih (closed_wf.dmParts hv _ hm)
    exact step fun n c s x h1 h2 h3 h4 => stack hm (by simp) (fun _ hg => by cases hg) ih n c s none x h1 h2 h3 h4
  | dmo hm ho ih =>
    have ih := ih (closed_wf.dmoParts hv _ hm)
    exact step fun n c s x h1 h2 h3 h4 => stack hm (by simp) (fun _ hg => by cases hg) ih n c s none x h1 h2 h3 h4

end

end Resolve
end Hocon
