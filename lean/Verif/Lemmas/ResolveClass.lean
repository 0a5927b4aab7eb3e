import Verif.Resolve

/-!
# The internal exception of the resolver

`not_possible_to_resolve_exception` is thrown when a reference is met again while it is being resolved,
and caught by `config_reference::resolve_substitutions`. It never leaves `resolve`.
-/

set_option autoImplicit false

namespace Hocon
namespace Resolve

/-- The outcome is not the internal exception. -/
def Fit {α : Type} (x : Res α) : Prop := x ≠ .err .notPossible

theorem Fit.bind {α β : Type} {x : Res α} {f : α → Res β} (h : Fit x) (hf : ∀ a, x = .ok a → Fit (f a)) :
    Fit (x.bind f) := by
  cases x with
  | ok a => exact hf a rfl
  | err e => intro he; exact h (by cases he; rfl)
  | ub => intro he; cases he
  | fuel => intro he; cases he

theorem fit_ok {α : Type} (a : α) : Fit (Res.ok a) := by intro h; cases h
theorem fit_ub {α : Type} : Fit (Res.ub : Res α) := by intro h; cases h
theorem fit_fuel {α : Type} : Fit (Res.fuel : Res α) := by intro h; cases h
theorem fit_err {α : Type} {e : Err} (he : e ≠ .notPossible) : Fit (Res.err e : Res α) := by
  intro h; cases h; exact he rfl

/-- Closes the leaves: a value, undefined behaviour or another exception. -/
macro "fit" : tactic => `(tactic| first | exact fit_ok _ | exact fit_ub | exact fit_fuel | exact fit_err (by decide))

/-! ### Values -/

theorem fit_mkDm (st : List Value) : Fit (Value.mkDm st) := by rw [Value.mkDm]; split <;> fit

theorem fit_mkDmo (st : List Value) : Fit (Value.mkDmo st) := by
  rw [Value.mkDmo.eq_def]; split
  · fit
  · split
    · split <;> fit
    · fit

theorem fit_constructDelayedMerge (v : Value) (st : List Value) : Fit (Value.constructDelayedMerge v st) := by
  rw [Value.constructDelayedMerge]; split
  · exact fit_mkDmo _
  · exact fit_mkDm _

theorem fit_mergedWithUnmergeable (v w : Value) : Fit (Value.mergedWithUnmergeable v w) :=
  fit_constructDelayedMerge _ _

theorem fit_withFallbacksIgnored (v : Value) : Fit (Value.withFallbacksIgnored v) := by
  rw [Value.withFallbacksIgnored.eq_def]; split
  · fit
  · split <;> fit

theorem fit_mergedWithNonObject (v w : Value) : Fit (Value.mergedWithNonObject v w) := by
  rw [Value.mergedWithNonObject]; split
  · exact fit_withFallbacksIgnored _
  · exact fit_constructDelayedMerge _ _

mutual
theorem fit_withFallback : ∀ (a b : Value), Fit (Value.withFallback a b)
  | .scalar s, b => by rw [Value.withFallback]; fit
  | .list vs, b => by
    rw [Value.withFallback]; repeat' split
    · fit
    · exact fit_mergedWithUnmergeable _ _
    · exact fit_mergedWithNonObject _ _
  | .obj fs r i, b => by
    rw [Value.withFallback.eq_def]; simp only
    split
    · fit
    · split
      · exact fit_mergedWithUnmergeable _ _
      · split
        · exact (fit_mergeFields fs _).bind fun _ _ => by fit
        · exact fit_mergedWithNonObject _ _
  | .ref .., b => by
    rw [Value.withFallback]; split
    · exact fit_mergedWithUnmergeable _ _
    · exact fit_mergedWithNonObject _ _
  | .concat _, b => by
    rw [Value.withFallback]; split
    · exact fit_mergedWithUnmergeable _ _
    · exact fit_mergedWithNonObject _ _
  | .dm _, b => by
    rw [Value.withFallback]; repeat' split
    · fit
    · exact fit_mergedWithUnmergeable _ _
    · exact fit_mergedWithNonObject _ _
  | .dmo _, b => by
    rw [Value.withFallback]; repeat' split
    · fit
    · exact fit_mergedWithUnmergeable _ _
    · fit
    · exact fit_mergedWithNonObject _ _
theorem fit_mergeFields : ∀ (fs gs : Fields), Fit (Value.mergeFields fs gs)
  | [], gs => by rw [Value.mergeFields]; fit
  | (k, v) :: fs, gs => by
    rw [Value.mergeFields]
    refine Fit.bind ?_ fun _ _ => Fit.bind (fit_mergeFields fs gs) fun _ _ => by fit
    split
    · fit
    · exact fit_withFallback v _
end

mutual
theorem fit_attemptPeek : ∀ (v : Value) (k : Str), Fit (Value.attemptPeek v k)
  | .obj .., k => by rw [Value.attemptPeek]; fit
  | .dmo st, k => by rw [Value.attemptPeek]; exact fit_peekStack st k
  | .scalar _, k => by rw [Value.attemptPeek.eq_def]; fit
  | .list _, k => by rw [Value.attemptPeek.eq_def]; fit
  | .ref .., k => by rw [Value.attemptPeek.eq_def]; fit
  | .concat _, k => by rw [Value.attemptPeek.eq_def]; fit
  | .dm _, k => by rw [Value.attemptPeek.eq_def]; fit
theorem fit_peekStack : ∀ (st : List Value) (k : Str), Fit (Value.peekStack st k)
  | [], k => by rw [Value.peekStack]; fit
  | v :: st, k => by
    rw [Value.peekStack]
    split
    · refine (fit_attemptPeek v k).bind fun o _ => ?_
      split
      · split
        · fit
        · exact fit_peekStack st k
      · split
        · fit
        · exact fit_peekStack st k
    · split
      · fit
      · split
        · exact fit_peekStack st k
        · split <;> fit
end

theorem fit_mkConcat (ps : List Value) : Fit (Value.mkConcat ps) := by
  rw [Value.mkConcat]; repeat' split
  all_goals fit

theorem fit_join (env : Env) (a b : Value) : Fit (Value.join env a b) := by
  rw [Value.join]
  split
  · fit
  split
  · fit
  split
  · exact Fit.bind (fit_withFallback _ _) fun _ _ => by fit
  repeat' split
  all_goals fit

theorem fit_joinLoop (env : Env) : ∀ (vs done : List Value) (last : Value), Fit (Value.joinLoop env done last vs)
  | [], done, last => by rw [Value.joinLoop]; fit
  | v :: vs, done, last => by
    rw [Value.joinLoop]
    refine Fit.bind (fit_join env last v) fun o _ => ?_
    cases o
    · exact fit_joinLoop env vs _ _
    · exact fit_joinLoop env vs _ _

theorem fit_consolidate (env : Env) (ps : List Value) : Fit (Value.consolidate env ps) := by
  rw [Value.consolidate]
  split
  · fit
  · split
    · fit
    · exact fit_joinLoop _ _ _ _

/-! ### Sources -/

theorem fit_replaceChild (p c : Value) (r : Option Value) : Fit (replaceChild p c r) := by
  rw [replaceChild.eq_def]
  split
  · split <;> fit
  · split
    · fit
    · split <;> fit
  · split
    · fit
    · split
      · fit
      · exact (fit_mkConcat _).bind fun _ _ => by fit
  · split
    · fit
    · split
      · fit
      · exact (fit_mkDm _).bind fun _ _ => by fit
  · split
    · fit
    · split
      · fit
      · exact (fit_mkDm _).bind fun _ _ => by fit
  · fit

theorem fit_replacePath : ∀ (p : List Value) (r : Option Value), Fit (replacePath p r)
  | [], r => by rw [replacePath]; fit
  | [_], r => by rw [replacePath]; split <;> fit
  | old :: parent :: rest, r => by
    rw [replacePath]
    split
    · exact (fit_replaceChild _ _ _).bind fun np _ => fit_replacePath (parent :: rest) np
    · exact (fit_replaceChild _ _ _).bind fun np _ => (fit_replacePath (parent :: rest) np).bind fun _ _ => by fit

theorem fit_replaceWithin (s : Source) (old : Value) (r : Option Value) : Fit (s.replaceWithin old r) := by
  rw [Source.replaceWithin.eq_def]
  split
  · exact (fit_replaceChild _ _ _).bind fun np _ => (fit_replacePath _ _).bind fun _ _ => by fit
  · split
    · fit
    · split <;> fit

theorem fit_mergeAll : ∀ (vs : List Value) (v : Value), Fit (mergeAll v vs)
  | [], v => by rw [mergeAll]; fit
  | w :: ws, v => by rw [mergeAll]; exact (fit_withFallback v w).bind fun m _ => fit_mergeAll ws m

theorem fit_makeReplacement (vs : List Value) : Fit (makeReplacement vs) := by
  cases vs with
  | nil => rw [makeReplacement]; fit
  | cons v vs => rw [makeReplacement]; exact (fit_mergeAll vs v).bind fun _ _ => by fit

theorem fit_sourceForEnd (self : Value) (s : Source) (v : Value) (rest : List Value) :
    Fit (sourceForEnd self s v rest) := by
  rw [sourceForEnd]
  split
  · fit
  · split
    · exact (fit_makeReplacement rest).bind fun r _ => fit_replaceWithin s self r
    · fit

theorem fit_mergeEnd (m n : Option Value) : Fit (mergeEnd m n) := by
  rw [mergeEnd.eq_def]
  split
  · fit
  · fit
  · exact (fit_withFallback _ _).bind fun _ _ => by fit

theorem fit_findPeek : ∀ (p : Path) (v : Value) (ps : List Value), Fit (findPeek v p ps)
  | [], v, ps => by rw [findPeek]; fit
  | k :: next, v, ps => by
    rw [findPeek]
    refine (fit_attemptPeek v k).bind fun o _ => ?_
    split
    · fit
    · split
      · split
        · exact fit_findPeek next _ _
        · fit
      · fit

theorem fit_findEnv (env : Env) (p : Path) : Fit (findEnv env p) := by
  rw [findEnv.eq_def]; split <;> fit

theorem fit_lookupEnv (env : Env) (c : Ctx) (p : Path) (r : Ctx × Option Value × List Value) :
    Fit (lookupEnv env c p r) := by
  rw [lookupEnv]
  split
  · exact (fit_findEnv env p).bind fun _ _ => by fit
  · fit

theorem fit_finishRef (self : Value) (id : Nat) (opt : Bool) (r : Ctx × Option Value) : Fit (finishRef self id opt r) := by
  rw [finishRef.eq_def]
  split
  · fit
  · split
    · fit
    · split <;> fit

theorem fit_modifiedList (a : Bool) (vs : List Value) (new : List (Option Value)) : Fit (modifiedList a vs new) := by
  rw [modifiedList.eq_def]
  split
  · fit
  · split <;> fit

theorem fit_joinedPieces (a : Bool) (vs : List Value) : Fit (joinedPieces a vs) := by
  rw [joinedPieces.eq_def]
  split
  · fit
  · fit
  · split
    · exact (fit_mkConcat _).bind fun _ _ => by fit
    · fit

theorem fit_checkResult (c : Ctx) (r : Ctx × Option Value) : Fit (checkResult c r) := by
  rw [checkResult.eq_def]
  split
  · fit
  · split <;> fit

/-! ### Markers -/

/-- No markers but those of `c` are in the contexts returned. -/
def Keeps {α : Type} (c : Ctx) (x : Res (Ctx × α)) : Prop := ∀ r, x = .ok r → r.1.marks ⊆ c.marks

/-- What is needed of the recursive calls. -/
structure Good (rec : Resolver) : Prop where
  keeps : ∀ c s v, Keeps c (rec c s v)
  fit : ∀ c s v, c.marks = [] → Fit (rec c s v)

theorem sub_nil {c d : Ctx} (h : d.marks ⊆ c.marks) (hc : c.marks = []) : d.marks = [] :=
  List.subset_nil.1 (hc ▸ h)

theorem bind_ok' {α β : Type} {x : Res α} {f : α → Res β} {b : β} (h : x.bind f = .ok b) :
    ∃ a, x = .ok a ∧ f a = .ok b := by
  cases x with
  | ok a => exact ⟨a, rfl, h⟩
  | err e => cases h
  | ub => cases h
  | fuel => cases h

variable {rec : Resolver}

theorem Good.within (h : Good rec) {c : Ctx} {p : Path} {s : Source} {v : Value} {r : Ctx × Option Value}
    (he : rec (c.restrict p) s v = .ok r) : r.1.marks ⊆ c.marks := h.keeps (c.restrict p) s v r he

theorem Good.findInObject (h : Good rec) (o : Option Value) (c : Ctx) (p : Path) : Keeps c (findInObject rec o c p) := by
  rintro ⟨c', o', ps⟩ he
  rw [Resolve.findInObject.eq_def] at he
  split at he
  · cases he
  · obtain ⟨r, h1, h2⟩ := bind_ok' he
    split at h2
    · cases h2
    · split at h2
      · obtain ⟨f, _, h4⟩ := bind_ok' h2
        cases h4
        exact h.within h1
      · cases h2

theorem lookupEnv_keeps {env : Env} {c : Ctx} {p : Path} {r : Ctx × Option Value × List Value} (hr : r.1.marks ⊆ c.marks) :
    Keeps c (lookupEnv env c p r) := by
  intro x he
  rw [lookupEnv] at he
  split at he
  · obtain ⟨v, _, h⟩ := bind_ok' he
    cases h
    exact List.nil_subset _
  · cases he; exact hr

theorem Good.lookupSubst (h : Good rec) (env : Env) (o : Option Value) (c : Ctx) (p : Path) (pre : Nat) :
    Keeps c (lookupSubst env rec o c p pre) := by
  intro x he
  rw [Resolve.lookupSubst] at he
  obtain ⟨r, h1, h2⟩ := bind_ok' he
  have hr := h.findInObject o c p r h1
  split at h2
  · split at h2
    · obtain ⟨r2, h3, h4⟩ := bind_ok' h2
      exact lookupEnv_keeps (fun m hm => hr (h.findInObject _ _ _ r2 h3 hm)) x h4
    · exact lookupEnv_keeps hr x h2
  · cases h2; exact hr

theorem catchCycle_keeps {c d : Ctx} {opt : Bool} {x : Res (Ctx × Option Value)} (hd : d.marks ⊆ c.marks) (hx : Keeps c x) :
    Keeps c (catchCycle opt d x) := by
  intro r he
  rw [catchCycle.eq_def] at he
  split at he
  · split at he
    · cases he; exact hd
    · cases he
  · exact hx r he

theorem catchCycle_fit (opt : Bool) (d : Ctx) (x : Res (Ctx × Option Value)) : Fit (catchCycle opt d x) := by
  rw [catchCycle.eq_def]
  split
  · split <;> fit
  · rename_i h; exact h

theorem Good.tryRef (h : Good rec) (env : Env) (c : Ctx) (s : Source) (p : Path) (opt : Bool) (pre : Nat) :
    Keeps c (tryRef env rec c s p opt pre) := by
  intro r he
  rw [Resolve.tryRef] at he
  split at he
  · rename_i l hl
    have hk := h.lookupSubst env _ _ _ _ _ hl
    rw [resolveFound.eq_def] at he
    split at he
    · cases he; exact hk
    · exact catchCycle_keeps hk (fun x hx m hm => hk (h.keeps _ _ _ x hx hm)) r he
  · exact catchCycle_keeps (List.nil_subset _) (fun _ hx => by cases hx) r he
  · cases he
  · cases he

theorem tryRef_fit (env : Env) (c : Ctx) (s : Source) (p : Path) (opt : Bool) (pre : Nat) :
    Fit (tryRef env rec c s p opt pre) := by
  rw [Resolve.tryRef]
  split
  · rw [resolveFound.eq_def]
    split
    · fit
    · exact catchCycle_fit _ _ _
  · exact catchCycle_fit _ _ _
  · fit
  · fit

theorem Good.resolveRef (h : Good rec) (env : Env) (c : Ctx) (s : Source) (id : Nat) (p : Path) (opt : Bool) (pre : Nat) :
    Keeps c (resolveRef env rec c s id p opt pre) := by
  intro r he
  rw [Resolve.resolveRef] at he
  split at he
  · cases he
  · obtain ⟨x, h1, h2⟩ := bind_ok' he
    have hk := h.tryRef env _ _ _ _ _ _ h1
    have hu : ∀ m, m ∈ (x.1.unmark id).marks → m ∈ c.marks := by
      intro m hm
      rw [Ctx.unmark, List.mem_filter] at hm
      have := hk hm.1
      rw [Ctx.mark, List.mem_append] at this
      rcases this with h | h
      · exact h
      · have h1 : m = id := by simpa using h
        subst h1
        simp at hm
    rw [finishRef.eq_def] at h2
    split at h2
    · cases h2; exact hu
    · split at h2
      · cases h2; exact hu
      · split at h2
        · cases h2; exact hu
        · cases h2

theorem resolveRef_fit (env : Env) (c : Ctx) (s : Source) (id : Nat) (p : Path) (opt : Bool) (pre : Nat) :
    Fit (resolveRef env rec c s id p opt pre) := by
  rw [Resolve.resolveRef]
  split
  · fit
  · exact (tryRef_fit _ _ _ _ _ _).bind fun _ _ => fit_finishRef _ _ _ _

theorem Good.resolveChild (h : Good rec) (orig : Path) (c : Ctx) (s : Source) (k : Str) (v : Value) :
    Keeps c (resolveChild rec orig c s k v) ∧ (c.marks = [] → Fit (resolveChild rec orig c s k v)) := by
  rw [Resolve.resolveChild.eq_def]
  split
  · refine ⟨fun r he => ?_, fun hc => (h.fit _ s v (by exact hc)).bind fun _ _ => by fit⟩
    obtain ⟨x, h1, h2⟩ := bind_ok' he
    cases h2
    exact show x.1.marks ⊆ c.marks from h.within h1
  · split
    · split
      · exact ⟨fun r he => by cases he; exact List.Subset.refl _, fun _ => by fit⟩
      · refine ⟨fun r he => ?_, fun hc => (h.fit _ s v (by exact hc)).bind fun _ _ => by fit⟩
        obtain ⟨x, h1, h2⟩ := bind_ok' he
        cases h2
        exact show x.1.marks ⊆ c.marks from h.within h1
    · exact ⟨fun r he => by cases he; exact List.Subset.refl _, fun _ => by fit⟩

theorem Good.resolveFields (h : Good rec) (orig : Path) (s : Source) : ∀ (fs : Fields) (c : Ctx),
    Keeps c (resolveFields rec orig s c fs) ∧ (c.marks = [] → Fit (resolveFields rec orig s c fs))
  | [], c => by
    rw [Resolve.resolveFields]
    exact ⟨fun r he => by cases he; exact List.Subset.refl _, fun _ => by fit⟩
  | (k, v) :: fs, c => by
    rw [Resolve.resolveFields]
    obtain ⟨h1, h2⟩ := h.resolveChild orig c s k v
    refine ⟨fun r he => ?_, fun hc => (h2 hc).bind fun x hx =>
      ((h.resolveFields orig s fs x.1).2 (sub_nil (h1 x hx) hc)).bind fun _ _ => by fit⟩
    obtain ⟨x, h3, h4⟩ := bind_ok' he
    obtain ⟨y, h5, h6⟩ := bind_ok' h4
    cases h6
    exact fun m hm => h1 x h3 ((h.resolveFields orig s fs x.1).1 y h5 hm)

theorem Good.resolveElems (h : Good rec) (s : Source) : ∀ (vs : List Value) (c : Ctx),
    Keeps c (resolveElems rec s c vs) ∧ (c.marks = [] → Fit (resolveElems rec s c vs))
  | [], c => by
    rw [Resolve.resolveElems]
    exact ⟨fun r he => by cases he; exact List.Subset.refl _, fun _ => by fit⟩
  | v :: vs, c => by
    rw [Resolve.resolveElems]
    refine ⟨fun r he => ?_, fun hc => (h.fit c s v hc).bind fun x hx =>
      ((h.resolveElems s vs x.1).2 (sub_nil (h.keeps _ _ _ x hx) hc)).bind fun _ _ => by fit⟩
    obtain ⟨x, h3, h4⟩ := bind_ok' he
    obtain ⟨y, h5, h6⟩ := bind_ok' h4
    cases h6
    exact fun m hm => h.keeps _ _ _ x h3 ((h.resolveElems s vs x.1).1 y h5 hm)

theorem Good.resolvePieces (h : Good rec) (s : Source) : ∀ (vs : List Value) (c : Ctx),
    Keeps c (resolvePieces rec s c vs) ∧ (c.marks = [] → Fit (resolvePieces rec s c vs))
  | [], c => by
    rw [Resolve.resolvePieces]
    exact ⟨fun r he => by cases he; exact List.Subset.refl _, fun _ => by fit⟩
  | v :: vs, c => by
    rw [Resolve.resolvePieces]
    refine ⟨fun r he => ?_, fun hc => (h.fit _ s v (by exact hc)).bind fun x hx =>
      ((h.resolvePieces s vs (x.1.restrict c.restr)).2 (sub_nil (c := c) (d := x.1.restrict c.restr) (h.within hx) hc)).bind
        fun _ _ => by fit⟩
    obtain ⟨x, h3, h4⟩ := bind_ok' he
    obtain ⟨y, h5, h6⟩ := bind_ok' h4
    cases h6
    exact fun m hm => h.within h3 ((h.resolvePieces s vs (x.1.restrict c.restr)).1 y h5 hm)

theorem Good.resolveStack (h : Good rec) (self : Value) (s : Source) : ∀ (vs : List Value) (c : Ctx) (m : Option Value),
    Keeps c (resolveStack rec self s c m vs) ∧ (c.marks = [] → Fit (resolveStack rec self s c m vs))
  | [], c, m => by
    rw [Resolve.resolveStack]
    exact ⟨fun r he => by cases he; exact List.Subset.refl _, fun _ => by fit⟩
  | v :: vs, c, m => by
    rw [Resolve.resolveStack]
    refine ⟨fun r he => ?_, fun hc => (fit_sourceForEnd _ _ _ _).bind fun s' _ => (h.fit c s' v hc).bind fun x hx =>
      (fit_mergeEnd _ _).bind fun m' _ => (h.resolveStack self s vs x.1 m').2 (sub_nil (h.keeps _ _ _ x hx) hc)⟩
    obtain ⟨s', _, h2⟩ := bind_ok' he
    obtain ⟨x, h3, h4⟩ := bind_ok' h2
    obtain ⟨m', _, h6⟩ := bind_ok' h4
    exact fun k hk => h.keeps _ _ _ x h3 ((h.resolveStack self s vs x.1 m').1 r h6 hk)

theorem good_resolveN (env : Env) : ∀ n, Good (resolveN env n)
  | 0 => ⟨fun c s v r he => by simp [resolveN] at he, fun c s v _ => by simp only [resolveN]; exact fit_fuel⟩
  | n + 1 => by
    have h := good_resolveN env n
    have main : ∀ c s v, Keeps c (resolveSubstitutions env (resolveN env n) c s v) ∧
        (c.marks = [] → Fit (resolveSubstitutions env (resolveN env n) c s v)) := by
      intro c s v
      cases v with
      | scalar x => exact ⟨fun r he => by cases he; exact List.Subset.refl _, fun _ => fit_ok _⟩
      | list vs =>
        rw [resolveSubstitutions.eq_def]; simp only
        rw [resolveList]
        split
        · exact ⟨fun r he => by cases he; exact List.Subset.refl _, fun _ => by fit⟩
        split
        · exact ⟨fun r he => by cases he; exact List.Subset.refl _, fun _ => by fit⟩
        · obtain ⟨h1, h2⟩ := h.resolveElems (s.push (.list vs)) vs c
          refine ⟨fun r he => ?_, fun hc => (h2 hc).bind fun _ _ => (fit_modifiedList _ _ _).bind fun _ _ => by fit⟩
          obtain ⟨x, h3, h4⟩ := bind_ok' he
          obtain ⟨y, _, h6⟩ := bind_ok' h4
          cases h6
          exact h1 x h3
      | obj fs r i =>
        rw [resolveSubstitutions.eq_def]; simp only
        rw [resolveObject]
        split
        · exact ⟨fun r he => by cases he; exact List.Subset.refl _, fun _ => by fit⟩
        · obtain ⟨h1, h2⟩ := h.resolveFields c.restr (s.push (.obj fs r i)) fs c
          refine ⟨fun r he => ?_, fun hc => (h2 hc).bind fun _ _ => by fit⟩
          obtain ⟨x, h3, h4⟩ := bind_ok' he
          cases h4
          exact h1 x h3
      | ref id p opt pre => exact ⟨h.resolveRef env c s id p opt pre, fun _ => resolveRef_fit env c s id p opt pre⟩
      | concat ps =>
        rw [resolveSubstitutions.eq_def]; simp only
        rw [resolveConcat]
        obtain ⟨h1, h2⟩ := h.resolvePieces s ps c
        refine ⟨fun r he => ?_, fun hc => (h2 hc).bind fun _ _ => (fit_consolidate _ _).bind fun _ _ =>
          (fit_joinedPieces _ _).bind fun _ _ => by fit⟩
        obtain ⟨x, h3, h4⟩ := bind_ok' he
        obtain ⟨y, _, h6⟩ := bind_ok' h4
        obtain ⟨z, _, h8⟩ := bind_ok' h6
        cases h8
        exact h1 x h3
      | dm st => exact h.resolveStack (.dm st) s st c none
      | dmo st => exact h.resolveStack (.dmo st) s st c none
    refine ⟨fun c s v r he => ?_, fun c s v hc => ?_⟩
    · rw [resolveN] at he
      split at he
      · cases he
      · obtain ⟨x, h1, h2⟩ := bind_ok' he
        have : r = x := by
          rw [checkResult.eq_def] at h2
          split at h2
          · cases h2; rfl
          · split at h2
            · cases h2; rfl
            · cases h2
        subst this
        exact (main c s v).1 r h1
    · rw [resolveN]
      have hm : isMarked c v = false := by
        rw [isMarked.eq_def]
        split
        · rw [hc]; rfl
        · rfl
      rw [hm]
      exact ((main c s v).2 hc).bind fun _ _ => fit_checkResult _ _

end Resolve
end Hocon
