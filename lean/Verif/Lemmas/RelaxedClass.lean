import Verif.Lemmas.Relaxed

/-!
# With the permission to leave substitutions, a missing setting is no failure

The exception for a substitution without a value is thrown at one place only, and never with the permission
to leave substitutions; the options are passed on to all contexts.
-/

set_option autoImplicit false

namespace Hocon
namespace Resolve

/-- The outcome is not the exception for a substitution without a value. -/
def Spares {α : Type} (x : Res α) : Prop := x ≠ .err .unresolvedSubst

theorem Spares.bind {α β : Type} {x : Res α} {f : α → Res β} (h : Spares x) (hf : ∀ a, x = .ok a → Spares (f a)) :
    Spares (x.bind f) := by
  cases x with
  | ok a => exact hf a rfl
  | err e => intro he; exact h (by cases he; rfl)
  | ub => intro he; cases he
  | fuel => intro he; cases he

theorem spares_ok {α : Type} (a : α) : Spares (Res.ok a) := by intro h; cases h
theorem spares_ub {α : Type} : Spares (Res.ub : Res α) := by intro h; cases h
theorem spares_fuel {α : Type} : Spares (Res.fuel : Res α) := by intro h; cases h
theorem spares_err {α : Type} {e : Err} (he : e ≠ .unresolvedSubst) : Spares (Res.err e : Res α) := by
  intro h; cases h; exact he rfl

/-- Closes the leaves: a value, undefined behaviour or another exception. -/
macro "spare" : tactic => `(tactic| first | exact spares_ok _ | exact spares_ub | exact spares_fuel | exact spares_err (by decide))

/-! ### Values -/

theorem spares_mkDm (st : List Value) : Spares (Value.mkDm st) := by rw [Value.mkDm]; split <;> spare

theorem spares_mkDmo (st : List Value) : Spares (Value.mkDmo st) := by
  rw [Value.mkDmo.eq_def]; split
  · spare
  · split
    · split <;> spare
    · spare

theorem spares_constructDelayedMerge (v : Value) (st : List Value) : Spares (Value.constructDelayedMerge v st) := by
  rw [Value.constructDelayedMerge]; split
  · exact spares_mkDmo _
  · exact spares_mkDm _

theorem spares_mergedWithUnmergeable (v w : Value) : Spares (Value.mergedWithUnmergeable v w) :=
  spares_constructDelayedMerge _ _

theorem spares_withFallbacksIgnored (v : Value) : Spares (Value.withFallbacksIgnored v) := by
  rw [Value.withFallbacksIgnored.eq_def]; split
  · spare
  · split <;> spare

theorem spares_mergedWithNonObject (v w : Value) : Spares (Value.mergedWithNonObject v w) := by
  rw [Value.mergedWithNonObject]; split
  · exact spares_withFallbacksIgnored _
  · exact spares_constructDelayedMerge _ _

mutual
theorem spares_withFallback : ∀ (a b : Value), Spares (Value.withFallback a b)
  | .scalar s, b => by rw [Value.withFallback]; spare
  | .list vs, b => by
    rw [Value.withFallback]; repeat' split
    · spare
    · exact spares_mergedWithUnmergeable _ _
    · exact spares_mergedWithNonObject _ _
  | .obj fs r i, b => by
    rw [Value.withFallback.eq_def]; simp only
    split
    · spare
    · split
      · exact spares_mergedWithUnmergeable _ _
      · split
        · exact (spares_mergeFields fs _).bind fun _ _ => by spare
        · exact spares_mergedWithNonObject _ _
  | .ref .., b => by
    rw [Value.withFallback]; split
    · exact spares_mergedWithUnmergeable _ _
    · exact spares_mergedWithNonObject _ _
  | .concat _, b => by
    rw [Value.withFallback]; split
    · exact spares_mergedWithUnmergeable _ _
    · exact spares_mergedWithNonObject _ _
  | .dm _, b => by
    rw [Value.withFallback]; repeat' split
    · spare
    · exact spares_mergedWithUnmergeable _ _
    · exact spares_mergedWithNonObject _ _
  | .dmo _, b => by
    rw [Value.withFallback]; repeat' split
    · spare
    · exact spares_mergedWithUnmergeable _ _
    · spare
    · exact spares_mergedWithNonObject _ _
theorem spares_mergeFields : ∀ (fs gs : Fields), Spares (Value.mergeFields fs gs)
  | [], gs => by rw [Value.mergeFields]; spare
  | (k, v) :: fs, gs => by
    rw [Value.mergeFields]
    refine Spares.bind ?_ fun _ _ => Spares.bind (spares_mergeFields fs gs) fun _ _ => by spare
    split
    · spare
    · exact spares_withFallback v _
end

mutual
theorem spares_attemptPeek : ∀ (v : Value) (k : Str), Spares (Value.attemptPeek v k)
  | .obj .., k => by rw [Value.attemptPeek]; spare
  | .dmo st, k => by rw [Value.attemptPeek]; exact spares_peekStack st k
  | .scalar _, k => by rw [Value.attemptPeek.eq_def]; spare
  | .list _, k => by rw [Value.attemptPeek.eq_def]; spare
  | .ref .., k => by rw [Value.attemptPeek.eq_def]; spare
  | .concat _, k => by rw [Value.attemptPeek.eq_def]; spare
  | .dm _, k => by rw [Value.attemptPeek.eq_def]; spare
theorem spares_peekStack : ∀ (st : List Value) (k : Str), Spares (Value.peekStack st k)
  | [], k => by rw [Value.peekStack]; spare
  | v :: st, k => by
    rw [Value.peekStack]
    split
    · refine (spares_attemptPeek v k).bind fun o _ => ?_
      split
      · split
        · spare
        · exact spares_peekStack st k
      · split
        · spare
        · exact spares_peekStack st k
    · split
      · spare
      · split
        · exact spares_peekStack st k
        · split <;> spare
end

theorem spares_mkConcat (ps : List Value) : Spares (Value.mkConcat ps) := by
  rw [Value.mkConcat]; repeat' split
  all_goals spare

theorem spares_join (env : Env) (a b : Value) : Spares (Value.join env a b) := by
  rw [Value.join]
  split
  · spare
  split
  · spare
  split
  · exact Spares.bind (spares_withFallback _ _) fun _ _ => by spare
  repeat' split
  all_goals spare

theorem spares_joinLoop (env : Env) : ∀ (vs done : List Value) (last : Value), Spares (Value.joinLoop env done last vs)
  | [], done, last => by rw [Value.joinLoop]; spare
  | v :: vs, done, last => by
    rw [Value.joinLoop]
    refine Spares.bind (spares_join env last v) fun o _ => ?_
    cases o
    · exact spares_joinLoop env vs _ _
    · exact spares_joinLoop env vs _ _

theorem spares_consolidate (env : Env) (ps : List Value) : Spares (Value.consolidate env ps) := by
  rw [Value.consolidate]
  split
  · spare
  · split
    · spare
    · exact spares_joinLoop _ _ _ _

/-! ### Sources -/

theorem spares_replaceChild (p c : Value) (r : Option Value) : Spares (replaceChild p c r) := by
  rw [replaceChild.eq_def]
  split
  · split <;> spare
  · split
    · spare
    · split <;> spare
  · split
    · spare
    · split
      · spare
      · exact (spares_mkConcat _).bind fun _ _ => by spare
  · split
    · spare
    · split
      · spare
      · exact (spares_mkDm _).bind fun _ _ => by spare
  · split
    · spare
    · split
      · spare
      · exact (spares_mkDm _).bind fun _ _ => by spare
  · spare

theorem spares_replacePath : ∀ (p : List Value) (r : Option Value), Spares (replacePath p r)
  | [], r => by rw [replacePath]; spare
  | [_], r => by rw [replacePath]; split <;> spare
  | old :: parent :: rest, r => by
    rw [replacePath]
    split
    · exact (spares_replaceChild _ _ _).bind fun np _ => spares_replacePath (parent :: rest) np
    · exact (spares_replaceChild _ _ _).bind fun np _ => (spares_replacePath (parent :: rest) np).bind fun _ _ => by spare

theorem spares_replaceWithin (s : Source) (old : Value) (r : Option Value) : Spares (s.replaceWithin old r) := by
  rw [Source.replaceWithin.eq_def]
  split
  · exact (spares_replaceChild _ _ _).bind fun np _ => (spares_replacePath _ _).bind fun _ _ => by spare
  · split
    · spare
    · split <;> spare

theorem spares_mergeAll : ∀ (vs : List Value) (v : Value), Spares (mergeAll v vs)
  | [], v => by rw [mergeAll]; spare
  | w :: ws, v => by rw [mergeAll]; exact (spares_withFallback v w).bind fun m _ => spares_mergeAll ws m

theorem spares_makeReplacement (vs : List Value) : Spares (makeReplacement vs) := by
  cases vs with
  | nil => rw [makeReplacement]; spare
  | cons v vs => rw [makeReplacement]; exact (spares_mergeAll vs v).bind fun _ _ => by spare

theorem spares_sourceForEnd (self : Value) (s : Source) (v : Value) (rest : List Value) :
    Spares (sourceForEnd self s v rest) := by
  rw [sourceForEnd]
  split
  · spare
  · split
    · exact (spares_makeReplacement rest).bind fun r _ => spares_replaceWithin s self r
    · spare

theorem spares_mergeEnd (m n : Option Value) : Spares (mergeEnd m n) := by
  rw [mergeEnd.eq_def]
  split
  · spare
  · spare
  · exact (spares_withFallback _ _).bind fun _ _ => by spare

theorem spares_findPeek : ∀ (p : Path) (v : Value) (ps : List Value), Spares (findPeek v p ps)
  | [], v, ps => by rw [findPeek]; spare
  | k :: next, v, ps => by
    rw [findPeek]
    refine (spares_attemptPeek v k).bind fun o _ => ?_
    split
    · spare
    · split
      · split
        · exact spares_findPeek next _ _
        · spare
      · spare

theorem spares_findEnv (env : Env) (p : Path) : Spares (findEnv env p) := by
  rw [findEnv.eq_def]; split <;> spare

theorem spares_lookupEnv (env : Env) (c : Ctx) (p : Path) (r : Ctx × Option Value × List Value) :
    Spares (lookupEnv env c p r) := by
  rw [lookupEnv]
  split
  · exact (spares_findEnv env p).bind fun _ _ => by spare
  · spare

theorem spares_modifiedList (a : Bool) (vs : List Value) (new : List (Option Value)) : Spares (modifiedList a vs new) := by
  rw [modifiedList.eq_def]
  split
  · spare
  · split <;> spare

theorem spares_joinedPieces (a : Bool) (vs : List Value) : Spares (joinedPieces a vs) := by
  rw [joinedPieces.eq_def]
  split
  · spare
  · spare
  · split
    · exact (spares_mkConcat _).bind fun _ _ => by spare
    · spare

theorem spares_checkResult (c : Ctx) (r : Ctx × Option Value) : Spares (checkResult c r) := by
  rw [checkResult.eq_def]
  split
  · spare
  · split <;> spare

/-! ### The resolver -/

/-- The outcome is not the exception for a substitution without a value, and the options stay. -/
def Calmed {α : Type} (o : Options) (x : Res (Ctx × α)) : Prop := Spares x ∧ ∀ r, x = .ok r → r.1.opts = o

theorem Calmed.ok {α : Type} {o : Options} {r : Ctx × α} (h : r.1.opts = o) : Calmed o (.ok r) :=
  ⟨spares_ok _, fun _ e => by cases e; exact h⟩

theorem Calmed.bind {α β : Type} {o : Options} {x : Res (Ctx × α)} {f : Ctx × α → Res (Ctx × β)} (h : Calmed o x)
    (hf : ∀ r, r.1.opts = o → Calmed o (f r)) : Calmed o (x.bind f) := by
  cases x with
  | ok a => exact hf a (h.2 a rfl)
  | err e => exact ⟨fun he => h.1 (by cases he; rfl), by intro _ e; cases e⟩
  | ub => exact ⟨spares_ub, by intro _ e; cases e⟩
  | fuel => exact ⟨spares_fuel, by intro _ e; cases e⟩

theorem Calmed.after {α β : Type} {o : Options} {x : Res α} {f : α → Res (Ctx × β)} (h : Spares x)
    (hf : ∀ r, Calmed o (f r)) : Calmed o (x.bind f) := by
  cases x with
  | ok a => exact hf a
  | err e => exact ⟨fun he => h (by cases he; rfl), by intro _ e; cases e⟩
  | ub => exact ⟨spares_ub, by intro _ e; cases e⟩
  | fuel => exact ⟨spares_fuel, by intro _ e; cases e⟩

theorem Calmed.err {α : Type} {o : Options} {e : Err} (he : e ≠ .unresolvedSubst) : Calmed o (Res.err e : Res (Ctx × α)) :=
  ⟨spares_err he, by intro _ e; cases e⟩

theorem Calmed.ub {α : Type} {o : Options} : Calmed o (Res.ub : Res (Ctx × α)) := ⟨spares_ub, by intro _ e; cases e⟩

theorem Calmed.fuel {α : Type} {o : Options} : Calmed o (Res.fuel : Res (Ctx × α)) := ⟨spares_fuel, by intro _ e; cases e⟩

section calm
variable {rec : Resolver} {o : Options} (H : ∀ c s v, c.opts = o → Calmed o (rec c s v))
include H

theorem calmed_findInObject (obj : Option Value) (c : Ctx) (p : Path) (hc : c.opts = o) :
    Calmed o (findInObject rec obj c p) := by
  cases obj with
  | none => exact .ub
  | some w =>
    refine (H (c.restrict p) ⟨some w, []⟩ w hc).bind fun r hr => ?_
    cases r.2 with
    | none => exact .err (by decide)
    | some v =>
      simp only
      split
      · exact .after (spares_findPeek _ _ _) fun f => .ok hr
      · exact .err (by decide)

omit H in
theorem calmed_lookupEnv (env : Env) (c : Ctx) (p : Path) (r : Ctx × Option Value × List Value) (hc : c.opts = o)
    (hr : r.1.opts = o) : Calmed o (lookupEnv env c p r) := by
  rw [lookupEnv]
  split
  · exact .after (spares_findEnv _ _) fun v => .ok hc
  · exact .ok hr

theorem calmed_lookupSubst (env : Env) (root : Option Value) (c : Ctx) (p : Path) (pre : Nat) (hc : c.opts = o) :
    Calmed o (lookupSubst env rec root c p pre) := by
  refine (calmed_findInObject H root c p hc).bind fun r hr => ?_
  split
  · split
    · exact (calmed_findInObject H root r.1 _ hr).bind fun x hx => calmed_lookupEnv env c _ x hc hx
    · exact calmed_lookupEnv env c _ r hc hr
  · exact .ok hr

omit H in
theorem calmed_catchCycle (opt : Bool) (c : Ctx) {x : Res (Ctx × Option Value)} (hc : c.opts = o) (h : Calmed o x) :
    Calmed o (catchCycle opt c x) := by
  rw [catchCycle.eq_def]
  split
  · split
    · exact .ok hc
    · exact .err (by decide)
  · exact h

theorem calmed_tryRef (env : Env) (c : Ctx) (s : Source) (p : Path) (opt : Bool) (pre : Nat) (hc : c.opts = o) :
    Calmed o (tryRef env rec c s p opt pre) := by
  have hl := calmed_lookupSubst H env s.root c p pre hc
  rw [tryRef]
  generalize lookupSubst env rec s.root c p pre = x at hl ⊢
  cases x with
  | ok l =>
    have h1 := hl.2 l rfl
    simp only [resolveFound]
    split
    · exact .ok h1
    · exact calmed_catchCycle opt l.1 h1 (H _ _ _ h1)
  | err e => exact calmed_catchCycle opt c.movedFrom hc ⟨fun he => hl.1 (by cases he; rfl), by intro _ e; cases e⟩
  | ub => exact .ub
  | fuel => exact .fuel

theorem calmed_resolveRef (env : Env) (ho : o.allowUnresolved = true) (c : Ctx) (s : Source) (id : Nat) (p : Path)
    (opt : Bool) (pre : Nat) (hc : c.opts = o) : Calmed o (resolveRef env rec c s id p opt pre) := by
  rw [resolveRef]
  split
  · exact .err (by decide)
  · refine (calmed_tryRef H env (c.mark id) s p opt pre hc).bind fun r hr => ?_
    rw [finishRef.eq_def]
    split
    · exact .ok hr
    · split
      · exact .ok hr
      · rw [hr, ho]; exact .ok hr

theorem calmed_resolveFields (orig : Path) (s : Source) : ∀ (fs : Fields) (c : Ctx), c.opts = o →
    Calmed o (resolveFields rec orig s c fs)
  | [], c, hc => .ok hc
  | (k, v) :: fs, c, hc => by
    rw [resolveFields]
    refine Calmed.bind ?_ fun r hr => (calmed_resolveFields orig s fs r.1 hr).bind fun x hx => .ok hx
    rw [resolveChild.eq_def]
    split
    · exact (H (c.restrict []) s v hc).bind fun r hr => .ok hr
    · split
      · split
        · exact .ok hc
        · rename_i rem _ _ _; exact (H (c.restrict rem) s v hc).bind fun r hr => .ok hr
      · exact .ok hc

theorem calmed_resolveElems (s : Source) : ∀ (vs : List Value) (c : Ctx), c.opts = o →
    Calmed o (resolveElems rec s c vs)
  | [], c, hc => .ok hc
  | v :: vs, c, hc => by
    rw [resolveElems]
    exact (H c s v hc).bind fun r hr => (calmed_resolveElems s vs r.1 hr).bind fun x hx => .ok hx

theorem calmed_resolvePieces (s : Source) : ∀ (ps : List Value) (c : Ctx), c.opts = o →
    Calmed o (resolvePieces rec s c ps)
  | [], c, hc => .ok hc
  | p :: ps, c, hc => by
    rw [resolvePieces]
    exact (H (c.restrict []) s p hc).bind fun r hr =>
      (calmed_resolvePieces s ps (r.1.restrict c.restr) hr).bind fun x hx => .ok hx

theorem calmed_resolveStack (self : Value) (s : Source) : ∀ (st : List Value) (c : Ctx) (m : Option Value), c.opts = o →
    Calmed o (resolveStack rec self s c m st)
  | [], c, m, hc => .ok hc
  | v :: rest, c, m, hc => by
    rw [resolveStack]
    exact .after (spares_sourceForEnd _ _ _ _) fun s' => (H c s' v hc).bind fun r hr =>
      .after (spares_mergeEnd _ _) fun m' => calmed_resolveStack self s rest r.1 m' hr

theorem calmed_resolveSubstitutions (env : Env) (ho : o.allowUnresolved = true) (c : Ctx) (s : Source) (v : Value)
    (hc : c.opts = o) : Calmed o (resolveSubstitutions env rec c s v) := by
  cases v with
  | scalar x => exact .ok hc
  | list vs =>
    show Calmed o (resolveList rec c s vs)
    rw [resolveList]
    split
    · exact .ok hc
    · split
      · exact .ok hc
      · exact (calmed_resolveElems H _ vs c hc).bind fun r hr => .after (spares_modifiedList _ _ _) fun x => .ok hr
  | obj fs r i =>
    show Calmed o (resolveObject rec c s fs r i)
    rw [resolveObject]
    split
    · exact .ok hc
    · exact (calmed_resolveFields H _ _ fs c hc).bind fun r hr => .ok hr
  | ref id p opt pre => exact calmed_resolveRef H env ho c s id p opt pre hc
  | concat ps =>
    exact (calmed_resolvePieces H s ps c hc).bind fun r hr => .after (spares_consolidate _ _) fun x =>
      .after (spares_joinedPieces _ _) fun y => .ok hr
  | dm st => exact calmed_resolveStack H _ s st c none hc
  | dmo st => exact calmed_resolveStack H _ s st c none hc

end calm

/-- With the permission, no run of the resolver ends with the exception for a substitution without a value. -/
theorem calmed_resolveN (env : Env) (o : Options) (ho : o.allowUnresolved = true) :
    ∀ n c s v, c.opts = o → Calmed o (resolveN env n c s v)
  | 0, _, _, _, _ => .fuel
  | n + 1, c, s, v, hc => by
    rw [resolveN]
    split
    · exact .err (by decide)
    · refine (calmed_resolveSubstitutions (calmed_resolveN env o ho n) env ho c s v hc).bind fun r hr => ?_
      rw [checkResult.eq_def]
      split
      · exact .ok hr
      · split
        · exact .ok hr
        · exact .err (by decide)

end Resolve
end Hocon
