import Verif.Lemmas.ResolveClass

/-!
# Resolving with and without permission to leave substitutions

The two runs are compared step by step: as long as the run without the permission does not fail, the other
one does the same. The only exception that is caught on the way is the internal one, which both runs throw
at the same places.
-/

set_option autoImplicit false

namespace Hocon
namespace Resolve

/-- The context with the permission to leave substitutions. -/
def Ctx.lax (c : Ctx) : Ctx := { c with opts := ⟨c.opts.useEnv, true⟩ }

/-- The second run follows the first one as long as that one gives a value or throws the internal exception. -/
def Follows {α β : Type} (R : α → β → Prop) (x : Res α) (y : Res β) : Prop :=
  (∀ a, x = .ok a → ∃ b, y = .ok b ∧ R a b) ∧ (x = .err .notPossible → y = .err .notPossible)

theorem Follows.ok {α β : Type} {R : α → β → Prop} {a : α} {b : β} (h : R a b) :
    Follows R (Res.ok a) (Res.ok b) :=
  ⟨fun _ e => ⟨b, rfl, by cases e; exact h⟩, fun e => by cases e⟩

theorem Follows.same {α : Type} (x : Res α) : Follows Eq x x := ⟨fun a e => ⟨a, e, rfl⟩, fun e => e⟩

theorem Follows.fail {α β : Type} {R : α → β → Prop} {x : Res α} {y : Res β} (h : ∀ a, x ≠ .ok a) (hf : Fit x) :
    Follows R x y := ⟨fun a e => (h a e).elim, fun e => (hf e).elim⟩

theorem Follows.bind {α β γ δ : Type} {R : α → β → Prop} {S : γ → δ → Prop} {x : Res α} {y : Res β}
    {f : α → Res γ} {g : β → Res δ} (h : Follows R x y) (hf : ∀ a b, R a b → Follows S (f a) (g b)) :
    Follows S (x.bind f) (y.bind g) := by
  cases x with
  | ok a => obtain ⟨b, hb, hr⟩ := h.1 a rfl; subst hb; exact hf a b hr
  | err e =>
    refine ⟨(by intro _ e; cases e), fun he => ?_⟩
    cases he; rw [h.2 rfl]; rfl
  | ub => exact ⟨(by intro _ e; cases e), (by intro e; cases e)⟩
  | fuel => exact ⟨(by intro _ e; cases e), (by intro e; cases e)⟩

/-- The same answer, in a context with the permission. -/
def SameV {α : Type} (a b : Ctx × α) : Prop := b.1 = a.1.lax ∧ b.2 = a.2

theorem SameV.mk {α : Type} (c : Ctx) (v : α) : SameV (c, v) (c.lax, v) := ⟨rfl, rfl⟩

theorem SameV.eq {α : Type} {a b : Ctx × α} (h : SameV a b) : b = (a.1.lax, a.2) := by
  obtain ⟨b1, b2⟩ := b; cases h.1; cases h.2; rfl

/-- The second resolver follows the first one. -/
def Laxer (rec rec' : Resolver) : Prop := ∀ c s v, Follows SameV (rec c s v) (rec' c.lax s v)

section steps
variable {rec rec' : Resolver} (H : Laxer rec rec')
include H

theorem lax_findInObject (obj : Option Value) (c : Ctx) (p : Path) :
    Follows SameV (findInObject rec obj c p) (findInObject rec' obj c.lax p) := by
  cases obj with
  | none => exact Follows.fail (by intro _ e; cases e) fit_ub
  | some o =>
    refine (H (c.restrict p) ⟨some o, []⟩ o).bind fun a b hab => ?_
    rw [hab.eq]
    cases a.2 with
    | none => exact Follows.fail (by intro _ e; cases e) (fit_err (by decide))
    | some v =>
      simp only
      split
      · refine Follows.bind (Follows.same _) ?_; rintro x _ rfl; exact Follows.ok (SameV.mk _ _)
      · exact Follows.fail (by intro _ e; cases e) (fit_err (by decide))

omit H in
theorem lax_lookupEnv (env : Env) (c : Ctx) (p : Path) (a b : Ctx × Option Value × List Value) (h : SameV a b) :
    Follows SameV (lookupEnv env c p a) (lookupEnv env c.lax p b) := by
  rw [h.eq, lookupEnv, lookupEnv]
  show Follows SameV _ (if (a.2.1.isNone && c.opts.useEnv) = true then _ else _)
  by_cases hc : (a.2.1.isNone && c.opts.useEnv) = true
  · rw [if_pos hc, if_pos hc]
    refine Follows.bind (Follows.same _) ?_; rintro x _ rfl; exact Follows.ok (SameV.mk _ _)
  · rw [if_neg hc, if_neg hc]
    exact Follows.ok (SameV.mk _ _)

theorem lax_lookupSubst (env : Env) (root : Option Value) (c : Ctx) (p : Path) (pre : Nat) :
    Follows SameV (lookupSubst env rec root c p pre) (lookupSubst env rec' root c.lax p pre) := by
  refine (lax_findInObject H root c p).bind fun a b hab => ?_
  rw [hab.eq]
  simp only
  split
  · split
    · exact (lax_findInObject H root a.1 _).bind fun x y hxy => lax_lookupEnv env c _ x y hxy
    · exact lax_lookupEnv env c _ a _ ⟨rfl, rfl⟩
  · exact Follows.ok ⟨rfl, rfl⟩

omit H in
theorem lax_catchCycle (opt : Bool) (c : Ctx) {x y : Res (Ctx × Option Value)} (h : Follows SameV x y) :
    Follows SameV (catchCycle opt c x) (catchCycle opt c.lax y) := by
  cases x with
  | ok a => obtain ⟨b, hb, hr⟩ := h.1 a rfl; subst hb; exact Follows.ok hr
  | err e =>
    by_cases he : e = .notPossible
    · subst he; rw [h.2 rfl]
      cases opt
      · exact Follows.fail (by intro _ e; cases e) (fit_err (by decide))
      · exact Follows.ok ⟨rfl, rfl⟩
    · have : catchCycle opt c (.err e) = .err e := by cases e <;> first | rfl | exact (he rfl).elim
      rw [this]
      exact Follows.fail (by intro _ e; cases e) (fit_err he)
  | ub => exact Follows.fail (by intro _ e; cases e) fit_ub
  | fuel => exact Follows.fail (by intro _ e; cases e) fit_fuel

theorem lax_tryRef (env : Env) (c : Ctx) (s : Source) (p : Path) (opt : Bool) (pre : Nat) :
    Follows SameV (tryRef env rec c s p opt pre) (tryRef env rec' c.lax s p opt pre) := by
  have hl := lax_lookupSubst H env s.root c p pre
  rw [tryRef, tryRef]
  generalize lookupSubst env rec s.root c p pre = x at hl ⊢
  generalize lookupSubst env rec' s.root c.lax p pre = y at hl ⊢
  cases x with
  | ok a =>
    obtain ⟨b, hb, hr⟩ := hl.1 a rfl; subst hb
    rw [hr.eq]
    simp only [resolveFound]
    cases a.2.1 with
    | none => exact Follows.ok ⟨rfl, rfl⟩
    | some v => exact lax_catchCycle opt a.1 (H _ _ _)
  | err e =>
    by_cases he : e = .notPossible
    · subst he; rw [hl.2 rfl]
      cases opt
      · exact Follows.fail (by intro _ e; cases e) (fit_err (by decide))
      · exact Follows.ok ⟨rfl, rfl⟩
    · have : catchCycle opt c.movedFrom (.err e) = .err e := by cases e <;> first | rfl | exact (he rfl).elim
      simp only [this]
      exact Follows.fail (by intro _ e; cases e) (fit_err he)
  | ub => exact Follows.fail (by intro _ e; cases e) fit_ub
  | fuel => exact Follows.fail (by intro _ e; cases e) fit_fuel

omit H in
theorem lax_finishRef (self : Value) (id : Nat) (opt : Bool) (a b : Ctx × Option Value) (h : SameV a b) :
    Follows SameV (finishRef self id opt a) (finishRef self id opt b) := by
  rw [h.eq]
  obtain ⟨c, v⟩ := a
  cases v with
  | some v => exact Follows.ok ⟨rfl, rfl⟩
  | none =>
    cases opt with
    | true => exact Follows.ok ⟨rfl, rfl⟩
    | false =>
      simp only [finishRef, Ctx.lax]
      cases hc : c.opts.allowUnresolved with
      | true => exact Follows.ok ⟨rfl, rfl⟩
      | false => exact Follows.fail (by intro _ e; cases e) (fit_err (by decide))

theorem lax_resolveRef (env : Env) (c : Ctx) (s : Source) (id : Nat) (p : Path) (opt : Bool) (pre : Nat) :
    Follows SameV (resolveRef env rec c s id p opt pre) (resolveRef env rec' c.lax s id p opt pre) := by
  rw [resolveRef, resolveRef]
  show Follows SameV _ (if id ∈ c.marks then _ else _)
  by_cases h : id ∈ c.marks
  · rw [if_pos h]; exact Follows.fail (by intro _ e; cases e) (fit_err (by decide))
  · rw [if_neg h, if_neg h]
    exact (lax_tryRef H env (c.mark id) s p opt pre).bind fun a b hab => lax_finishRef _ _ _ a b hab

theorem lax_resolveChild (orig : Path) (c : Ctx) (s : Source) (k : Str) (v : Value) :
    Follows SameV (resolveChild rec orig c s k v) (resolveChild rec' orig c.lax s k v) := by
  rw [resolveChild.eq_def, resolveChild.eq_def]
  show Follows SameV _ (match c.restr with | [] => _ | key :: remainder => _)
  cases c.restr with
  | nil =>
    exact (H (c.restrict []) s v).bind fun a b hab => by rw [hab.eq]; exact Follows.ok ⟨rfl, rfl⟩
  | cons key rem =>
    simp only
    split
    · split
      · exact Follows.ok ⟨rfl, rfl⟩
      · exact (H (c.restrict rem) s v).bind fun a b hab => by rw [hab.eq]; exact Follows.ok ⟨rfl, rfl⟩
    · exact Follows.ok ⟨rfl, rfl⟩

theorem lax_resolveFields (orig : Path) (s : Source) : ∀ (fs : Fields) (c : Ctx),
    Follows SameV (resolveFields rec orig s c fs) (resolveFields rec' orig s c.lax fs)
  | [], c => Follows.ok ⟨rfl, rfl⟩
  | (k, v) :: fs, c => by
    rw [resolveFields, resolveFields]
    refine (lax_resolveChild H orig c s k v).bind fun a b hab => ?_
    rw [hab.eq]
    refine (lax_resolveFields orig s fs a.1).bind fun x y hxy => ?_
    rw [hxy.eq]; exact Follows.ok ⟨rfl, rfl⟩

theorem lax_resolveObject (c : Ctx) (s : Source) (fs : Fields) (r i : Bool) :
    Follows SameV (resolveObject rec c s fs r i) (resolveObject rec' c.lax s fs r i) := by
  rw [resolveObject, resolveObject]
  split
  · exact Follows.ok ⟨rfl, rfl⟩
  · exact (lax_resolveFields H c.restr (s.push (.obj fs r i)) fs c).bind fun a b hab => by
      rw [hab.eq]; exact Follows.ok ⟨rfl, rfl⟩

theorem lax_resolveElems (s : Source) : ∀ (vs : List Value) (c : Ctx),
    Follows SameV (resolveElems rec s c vs) (resolveElems rec' s c.lax vs)
  | [], c => Follows.ok ⟨rfl, rfl⟩
  | v :: vs, c => by
    rw [resolveElems, resolveElems]
    refine (H c s v).bind fun a b hab => ?_
    rw [hab.eq]
    refine (lax_resolveElems s vs a.1).bind fun x y hxy => ?_
    rw [hxy.eq]; exact Follows.ok ⟨rfl, rfl⟩

omit H in
theorem lax_modifiedList (b : Bool) (vs : List Value) (new : List (Option Value)) :
    Follows Eq (modifiedList b vs new) (modifiedList true vs new) := by
  cases b with
  | true => exact Follows.same _
  | false =>
    rw [modifiedList, modifiedList]
    split
    · exact Follows.ok rfl
    · split
      · exact Follows.ok rfl
      · exact Follows.fail (by intro _ e; cases e) (fit_err (by decide))

theorem lax_resolveList (c : Ctx) (s : Source) (vs : List Value) :
    Follows SameV (resolveList rec c s vs) (resolveList rec' c.lax s vs) := by
  rw [resolveList, resolveList]
  split
  · exact Follows.ok ⟨rfl, rfl⟩
  · show Follows SameV _ (if (!c.restr.isEmpty) = true then _ else _)
    by_cases h : (!c.restr.isEmpty) = true
    · rw [if_pos h, if_pos h]; exact Follows.ok ⟨rfl, rfl⟩
    · rw [if_neg h, if_neg h]
      refine (lax_resolveElems H _ vs c).bind fun a b hab => ?_
      rw [hab.eq]
      exact (lax_modifiedList _ vs a.2).bind fun x y hxy => by subst hxy; exact Follows.ok (SameV.mk _ _)

theorem lax_resolvePieces (s : Source) : ∀ (ps : List Value) (c : Ctx),
    Follows SameV (resolvePieces rec s c ps) (resolvePieces rec' s c.lax ps)
  | [], c => Follows.ok ⟨rfl, rfl⟩
  | p :: ps, c => by
    rw [resolvePieces, resolvePieces]
    refine (H (c.restrict []) s p).bind fun a b hab => ?_
    rw [hab.eq]
    refine (lax_resolvePieces s ps (a.1.restrict c.restr)).bind fun x y hxy => ?_
    rw [hxy.eq]; exact Follows.ok ⟨rfl, rfl⟩

omit H in
theorem lax_joinedPieces (b : Bool) (vs : List Value) : Follows Eq (joinedPieces b vs) (joinedPieces true vs) := by
  cases b with
  | true => exact Follows.same _
  | false =>
    match vs with
    | [] => exact Follows.ok rfl
    | [v] => exact Follows.ok rfl
    | v :: w :: vs => exact Follows.fail (by intro _ e; cases e) (fit_err (by decide))

theorem lax_resolveConcat (env : Env) (c : Ctx) (s : Source) (ps : List Value) :
    Follows SameV (resolveConcat env rec c s ps) (resolveConcat env rec' c.lax s ps) := by
  rw [resolveConcat, resolveConcat]
  refine (lax_resolvePieces H s ps c).bind fun a b hab => ?_
  rw [hab.eq]
  refine Follows.bind (Follows.same _) ?_
  rintro x _ rfl
  exact (lax_joinedPieces _ x).bind fun x y hxy => by subst hxy; exact Follows.ok (SameV.mk _ _)

theorem lax_resolveStack (self : Value) (s : Source) : ∀ (st : List Value) (c : Ctx) (m : Option Value),
    Follows SameV (resolveStack rec self s c m st) (resolveStack rec' self s c.lax m st)
  | [], c, m => Follows.ok ⟨rfl, rfl⟩
  | v :: rest, c, m => by
    rw [resolveStack, resolveStack]
    refine Follows.bind (Follows.same _) ?_
    rintro x _ rfl
    refine (H c x v).bind fun a b hab => ?_
    rw [hab.eq]
    refine Follows.bind (Follows.same _) ?_
    rintro x _ rfl
    exact lax_resolveStack self s rest a.1 x

theorem lax_resolveSubstitutions (env : Env) (c : Ctx) (s : Source) (v : Value) :
    Follows SameV (resolveSubstitutions env rec c s v) (resolveSubstitutions env rec' c.lax s v) := by
  cases v with
  | scalar x => exact Follows.ok ⟨rfl, rfl⟩
  | list vs => exact lax_resolveList H c s vs
  | obj fs r i => exact lax_resolveObject H c s fs r i
  | ref id p opt pre => exact lax_resolveRef H env c s id p opt pre
  | concat ps => exact lax_resolveConcat H env c s ps
  | dm st => exact lax_resolveStack H _ s st c none
  | dmo st => exact lax_resolveStack H _ s st c none

end steps

theorem lax_checkResult (c : Ctx) (a b : Ctx × Option Value) (h : SameV a b) :
    Follows SameV (checkResult c a) (checkResult c.lax b) := by
  rw [h.eq]
  obtain ⟨d, v⟩ := a
  cases v with
  | none => exact Follows.ok ⟨rfl, rfl⟩
  | some v =>
    simp only [checkResult, Ctx.lax, Bool.or_true, if_true]
    split
    · exact Follows.ok ⟨rfl, rfl⟩
    · exact Follows.fail (by intro _ e; cases e) (fit_err (by decide))

/-- Every run of the resolver is followed by the run with the permission. -/
theorem lax_resolveN (env : Env) : ∀ n, Laxer (resolveN env n) (resolveN env n)
  | 0 => fun _ _ _ => Follows.fail (by intro _ e; cases e) fit_fuel
  | n + 1 => fun c s v => by
    rw [resolveN, resolveN]
    have hm : isMarked c.lax v = isMarked c v := by cases v <;> rfl
    rw [hm]
    split
    · exact ⟨(by intro _ e; cases e), fun _ => rfl⟩
    · exact (lax_resolveSubstitutions (lax_resolveN env n) env c s v).bind fun a b hab => lax_checkResult c a b hab

end Resolve
end Hocon
