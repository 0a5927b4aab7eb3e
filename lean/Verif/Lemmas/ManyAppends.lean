import Verif.Lemmas.ResolveClosed

/-!
# More than two values appended to one setting
-/

set_option autoImplicit false

namespace Hocon
namespace Resolve

open Value

variable {env : Env}

/-- A delayed merge whose first layer is a delayed merge. -/
def Nested (v : Value) : Prop := ∃ a b, v = .dm (.dm a :: b)

theorem nested_fallback {st : List Value} {b m : Value} (h : withFallback (.dm st) b = .ok m) :
    m = .dm st ∨ Nested m := by
  rw [withFallback] at h
  split at h
  · exact Or.inl (Res.ok.inj h).symm
  · have key : ∀ xs, constructDelayedMerge (.dm st) (.dm st :: xs) = .ok m → Nested m := by
      intro xs hx
      simp only [constructDelayedMerge, Value.isObject, Bool.false_eq_true, if_false, mkDm] at hx
      simp only [List.isEmpty_cons, Bool.false_eq_true, if_false, Res.ok.injEq] at hx
      exact ⟨_, _, hx.symm⟩
    split at h
    · exact Or.inr (key _ h)
    · unfold mergedWithNonObject at h
      split at h
      · rename_i hr
        simp [Value.resolved] at hr
      · exact Or.inr (key _ h)

theorem nested_mergeAll {ws : List Value} {v m : Value} (hv : Nested v) (h : mergeAll v ws = .ok m) : Nested m := by
  induction ws generalizing v with
  | nil => cases h; exact hv
  | cons w ws ih =>
    obtain ⟨x, h1, h2⟩ := bind_ok h
    obtain ⟨a, b, rfl⟩ := hv
    rcases nested_fallback h1 with rfl | hx
    · exact ih ⟨_, _, rfl⟩ h2
    · exact ih hx h2

/-- What is put in the place of the setting while its last value is resolved. -/
theorem nested_replacement {ps qs : List Value} {v0 m : Value} {more : List Value}
    (h : makeReplacement (.concat ps :: .concat qs :: v0 :: more) = .ok (some m)) : Nested m := by
  simp only [makeReplacement] at h
  obtain ⟨x, h1, h2⟩ := bind_ok h
  simp only [Res.ok.injEq, Option.some.injEq] at h2
  subst h2
  simp only [mergeAll] at h1
  obtain ⟨y, h3, h4⟩ := bind_ok h1
  have hy : y = .dm [.concat ps, .concat qs] := by
    simp only [withFallback, Value.isUnmergeable, if_true, mergedWithUnmergeable, Value.unmergedValues,
      constructDelayedMerge, Value.isObject, Bool.false_eq_true, if_false, mkDm, List.isEmpty_cons, Res.ok.injEq] at h3
    exact h3.symm
  subst hy
  obtain ⟨z, h5, h6⟩ := bind_ok h4
  have hz : Nested z := by
    rcases nested_fallback h5 with rfl | hz
    · exfalso
      rw [withFallback, if_neg (by simp [ignoresLast, Value.ignoresFallbacks])] at h5
      have key : ∀ xs, constructDelayedMerge (.dm [.concat ps, .concat qs]) (.dm [.concat ps, .concat qs] :: xs) ≠
          .ok (.dm [.concat ps, .concat qs]) := by
        intro xs hx
        simp [constructDelayedMerge, Value.isObject, mkDm] at hx
      split at h5
      · exact key _ h5
      · unfold mergedWithNonObject at h5
        split at h5
        · rename_i hr; simp [Value.resolved] at hr
        · exact key _ h5
    · exact hz
  exact nested_mergeAll hz h6

theorem nested_not_ok {m : Value} (hm : Nested m) (n : Nat) (c : Ctx) (s : Source) :
    resolveN env n c s m = .fuel ∨ resolveN env n c s m = .err .bug := by
  obtain ⟨a, b, rfl⟩ := hm
  cases n with
  | zero => left; rfl
  | succ n =>
    right
    simp [resolveN, isMarked, resolveSubstitutions, resolveStack, sourceForEnd, Value.isDelayed, Res.bind]

/-- Looking for one key leaves an object as it is. -/
theorem look_one (fs : Fields) (r i : Bool) (k : Str) (n : Nat) (c : Ctx) (s : Source) (hc : c.restr = [k]) :
    resolveN env n c s (.obj fs r i) = .fuel ∨ ∃ c', resolveN env n c s (.obj fs r i) = .ok (c', some (.obj fs r i)) := by
  cases n with
  | zero => left; rfl
  | succ n =>
    right
    have hcheck : ∀ c' v, checkResult c (c', some v) = .ok (c', some v) := by
      intro c' v
      simp [checkResult, hc]
    have hf : ∀ (gs : Fields) (s : Source), resolveFields (resolveN env n) [k] s c gs = .ok (c, gs.map fun f => (f.1, some f.2)) := by
      intro gs s
      induction gs with
      | nil => rfl
      | cons g gs ih =>
        have : resolveChild (resolveN env n) [k] c s g.1 g.2 = .ok (c, some g.2) := by
          unfold resolveChild
          simp only [hc]
          split <;> simp
        simp only [resolveFields, this, Res.bind, ih, List.map_cons]
    refine ⟨c, ?_⟩
    have hk : isMarked c (.obj fs r i) = false := rfl
    simp only [resolveN, hk, Bool.false_eq_true, if_false, resolveSubstitutions, resolveObject]
    split
    · exact hcheck _ _
    · simp only [hc, hf, Res.bind, modifiedObject, if_true]
      exact hcheck _ _

/-- A substitution for a setting that is such a delayed merge. -/
theorem ref_nested {fs : Fields} {r i : Bool} {k : Str} {m : Value} (hk : findKey fs k = some m) (hm : Nested m)
    (n : Nat) (c : Ctx) (s : Source) (hs : s.root = some (.obj fs r i)) (id : Nat) (opt : Bool) (x : Ctx × Option Value) :
    resolveN env n c s (.ref id [k] opt 0) ≠ .ok x := by
  intro h
  cases n with
  | zero => simp [resolveN] at h
  | succ n =>
    simp only [resolveN] at h
    split at h
    · simp at h
    · obtain ⟨r1, h1, _⟩ := bind_ok h
      simp only [resolveSubstitutions, resolveRef] at h1
      split at h1
      · simp at h1
      · obtain ⟨r2, h2, _⟩ := bind_ok h1
        unfold tryRef at h2
        rw [hs] at h2
        rcases look_one (env := env) fs r i k n ((c.mark id).restrict [k]) ⟨some (.obj fs r i), []⟩ rfl with h3 | ⟨c', h3⟩
        · simp [lookupSubst, findInObject, h3, Res.bind] at h2
        · simp only [lookupSubst, findInObject, h3, Res.bind, Value.isObject, if_true, findPeek, Value.attemptPeek, hk,
            List.isEmpty_nil, Option.isNone_some, Bool.false_eq_true, if_false, resolveFound] at h2
          rcases nested_not_ok (env := env) hm n (c'.restrict (c.mark id).restr)
            ⟨[Value.obj fs r i].getLast?.bind asObject, [Value.obj fs r i]⟩ with h4 | h4
          · rw [h4] at h2; simp [catchCycle] at h2
          · rw [h4] at h2; simp [catchCycle] at h2

/-- All pieces are resolved. -/
theorem pieces_each {ra : Resolver} {s : Source} {p : Value} : {ps : List Value} → p ∈ ps → {c : Ctx} →
    {x : Ctx × List Value} → resolvePieces ra s c ps = .ok x → ∃ c' y, ra c' s p = .ok y
  | q :: ps, hp, c, x, h => by
    simp only [resolvePieces] at h
    obtain ⟨r1, h1, h⟩ := bind_ok h
    obtain ⟨r2, h2, h⟩ := bind_ok h
    rcases List.mem_cons.1 hp with rfl | hp
    · exact ⟨_, _, h1⟩
    · exact pieces_each hp h2

theorem replaceInFields_find {child m : Value} {k : Str} : {fs : Fields} → (keysOf fs).Nodup →
    (∀ k' v, (k', v) ∈ fs → v = child → k' = k) → (k, child) ∈ fs →
    ∃ gs, replaceInFields child (some m) fs = some gs ∧ findKey gs k = some m
  | (k', v) :: fs, hn, hu, hm => by
    simp only [keysOf, List.map_cons, List.nodup_cons] at hn
    simp only [replaceInFields]
    by_cases hv : v = child
    · have := hu k' v (by simp) hv
      subst this
      rw [if_pos hv]
      exact ⟨_, rfl, by simp [findKey]⟩
    · rw [if_neg hv]
      have hm' : (k, child) ∈ fs := by
        rcases List.mem_cons.1 hm with h | h
        · cases h; exact absurd rfl hv
        · exact h
      obtain ⟨gs, h1, h2⟩ := replaceInFields_find hn.2 (fun k' v h => hu k' v (List.mem_cons_of_mem _ h)) hm'
      have hk : k' ≠ k := by
        rintro rfl
        exact hn.1 (List.mem_map.2 ⟨_, hm', rfl⟩)
      exact ⟨_, by rw [h1]; rfl, by rw [findKey, if_neg hk]; exact h2⟩

theorem fields_run_each {ra : Resolver} {s : Source} {k : Str} {x : Value} : {fs : Fields} → (k, x) ∈ fs →
    {c : Ctx} → c.restr = [] → {r : Ctx × List (Str × Option Value)} → resolveFields ra [] s c fs = .ok r →
    ∃ c1 y, ra c1 s x = .ok y
  | (k', x') :: fs, hm, c, hc, r, h => by
    simp only [resolveFields] at h
    obtain ⟨r1, h1, h⟩ := bind_ok h
    obtain ⟨r2, h2, h⟩ := bind_ok h
    unfold resolveChild at h1
    simp only [hc] at h1
    obtain ⟨r3, h3, h1⟩ := bind_ok h1
    simp only [Res.ok.injEq] at h1
    subst h1
    rcases List.mem_cons.1 hm with hm | hm
    · cases hm
      exact ⟨_, _, h3⟩
    · exact fields_run_each hm rfl h2

/-- Appending more than twice: `resolve` gives no result. -/
theorem many_appends {fs : Fields} {i : Bool} {k : Str} {id : Nat} {opt : Bool} {ps qs us more : List Value} {v0 : Value}
    (hn : (keysOf fs).Nodup) (hf : (k, .dm (.concat ps :: .concat qs :: .concat us :: v0 :: more)) ∈ fs)
    (hu : ∀ k' v, (k', v) ∈ fs → v = .dm (.concat ps :: .concat qs :: .concat us :: v0 :: more) → k' = k)
    (hp : .ref id [k] opt 0 ∈ ps) (n : Nat) (o : Options) (w : Option Value) :
    configResolve env n (.obj fs false i) o ≠ .ok w := by
  intro h
  unfold configResolve configResolveWith resolveTop at h
  obtain ⟨r, h1, _⟩ := bind_ok h
  obtain ⟨r1, h2, _⟩ := bind_ok h1
  cases n with
  | zero => simp [resolveN] at h2
  | succ n =>
    have hk : isMarked ⟨o, [], []⟩ (.obj fs false i) = false := rfl
    simp only [resolveN, hk, Bool.false_eq_true, if_false, resolveSubstitutions, resolveObject] at h2
    obtain ⟨r2, h3, _⟩ := bind_ok h2
    obtain ⟨r3, h4, _⟩ := bind_ok h3
    have hpush : (⟨some (.obj fs false i), []⟩ : Source).push (.obj fs false i) = ⟨some (.obj fs false i), [.obj fs false i]⟩ := by
      simp [Source.push, asObject, Value.isObject]
    rw [hpush] at h4
    obtain ⟨c1, y, h5⟩ := fields_run_each hf rfl h4
    cases n with
    | zero => simp [resolveN] at h5
    | succ n =>
      simp only [resolveN] at h5
      split at h5
      · simp at h5
      · obtain ⟨r4, h6, _⟩ := bind_ok h5
        simp only [resolveSubstitutions, resolveStack] at h6
        obtain ⟨s', h7, h6⟩ := bind_ok h6
        obtain ⟨r5, h8, _⟩ := bind_ok h6
        simp only [sourceForEnd, Value.isDelayed, Bool.false_eq_true, if_false, Value.isUnmergeable, if_true] at h7
        obtain ⟨m, h9, h10⟩ := bind_ok h7
        cases m with
        | none =>
          simp only [makeReplacement] at h9
          obtain ⟨_, _, h9⟩ := bind_ok h9
          simp at h9
        | some m =>
          have hm := nested_replacement h9
          obtain ⟨gs, g1, g2⟩ := replaceInFields_find (m := m) hn hu hf
          simp only [Source.replaceWithin, replaceChild, g1, Res.bind, asContainer, isContainer, if_true, replacePath,
            rootOfPath, List.getLast?_singleton, asObject, Value.isObject, Res.ok.injEq] at h10
          cases n with
          | zero => simp [resolveN] at h8
          | succ n =>
            simp only [resolveN] at h8
            split at h8
            · simp at h8
            · obtain ⟨r6, h11, _⟩ := bind_ok h8
              simp only [resolveSubstitutions, resolveConcat] at h11
              obtain ⟨r7, h12, _⟩ := bind_ok h11
              obtain ⟨c', y, h13⟩ := pieces_each hp h12
              exact ref_nested g2 hm n c' s' (by rw [← h10]) id opt y h13

end Resolve
end Hocon
