import Verif.Lemmas.ResolveClosed

/-!
# Predicates on values that parsing and merging preserve

`Built P E` is weaker than `Closed P`: a concatenation or delayed merge need have `P` only if its
parts meet the demand `E`.
-/

set_option autoImplicit false
set_option linter.unusedSectionVars false

namespace Hocon
namespace Resolve
open Value

/-- Some value is unresolved. -/
def SomeOpen (vs : List Value) : Prop := ∃ v ∈ vs, v.resolved = false

/-- A predicate that is determined by the parts of a value; `E` is an extra demand on the parts of
concatenations and delayed merges that is met if one of them is unresolved. -/
structure Built (P : Value → Prop) (E : List Value → Prop) : Prop where
  opn : ∀ vs, SomeOpen vs → E vs
  grow : ∀ v vs, E vs → E (v :: vs)
  scalar : ∀ s, P (.scalar s)
  ref : ∀ id p opt pre, P (.ref id p opt pre)
  list : ∀ vs, P (.list vs) ↔ ∀ v ∈ vs, P v
  fields : ∀ fs r i, P (.obj fs r i) → ∀ f ∈ fs, P f.2
  nodup : ∀ fs r i, P (.obj fs r i) → (keysOf fs).Nodup
  obj : ∀ fs i, (keysOf fs).Nodup → (∀ f ∈ fs, P f.2) → P (.obj fs (resolvedFields fs) i)
  ign : ∀ fs r i j, P (.obj fs r i) → P (.obj fs r j)
  concat : ∀ ps, P (.concat ps) → ∀ v ∈ ps, P v
  mkConcat : ∀ ps, E ps → (∀ v ∈ ps, P v) → P (.concat ps)
  dm : ∀ ps, P (.dm ps) ↔ (∀ v ∈ ps, P v) ∧ E ps
  dmo : ∀ ps, P (.dmo ps) ↔ (∀ v ∈ ps, P v) ∧ E ps

section
variable {P : Value → Prop} {E : List Value → Prop} (hP : Built P E)
include hP

theorem Built.findKey {fs : Fields} (h : ∀ f ∈ fs, P f.2) {k : Str} {v : Value}
    (hf : findKey fs k = some v) : P v := by
  induction fs with
  | nil => simp [Hocon.findKey] at hf
  | cons f fs ih =>
    obtain ⟨k', w⟩ := f
    rw [Hocon.findKey] at hf
    split at hf
    · cases hf; exact h (k', v) (by simp)
    · exact ih (fun f hf => h f (by simp [hf])) hf

theorem Built.constructDelayedMerge {v c : Value} {st : List Value} (he : E st) (hs : ∀ x ∈ st, P x)
    (h : constructDelayedMerge v st = .ok c) : P c := by
  unfold Value.constructDelayedMerge mkDm mkDmo at h
  split at h
  · split at h
    · cases h
    · split at h
      · split at h
        · cases h
        · cases h; exact (hP.dmo _).2 ⟨hs, he⟩
      · cases h
  · split at h
    · cases h
    · cases h; exact (hP.dm _).2 ⟨hs, he⟩

theorem Built.unmerged {v : Value} (h : P v) : ∀ x ∈ v.unmergedValues, P x := by
  cases v with
  | dm st => exact ((hP.dm st).1 h).1
  | dmo st => exact ((hP.dmo st).1 h).1
  | _ => intro x hx; simp [unmergedValues] at hx; subst hx; exact h

theorem Built.unmergedE {v : Value} (h : P v) (hu : v.isUnmergeable = true) : E v.unmergedValues := by
  cases v with
  | dm st => exact ((hP.dm st).1 h).2
  | dmo st => exact ((hP.dmo st).1 h).2
  | ref => exact hP.opn _ ⟨_, by simp [unmergedValues]; rfl, by simp [Value.resolved]⟩
  | concat => exact hP.opn _ ⟨_, by simp [unmergedValues]; rfl, by simp [Value.resolved]⟩
  | _ => simp [isUnmergeable] at hu

theorem Built.mergedWithUnmergeable {a b c : Value} (ha : P a) (hb : P b) (hu : b.isUnmergeable = true)
    (h : mergedWithUnmergeable a b = .ok c) : P c := by
  refine hP.constructDelayedMerge (hP.grow _ _ (hP.unmergedE hb hu)) ?_ h
  intro x hx
  simp only [List.mem_cons] at hx
  rcases hx with rfl | hx
  · exact ha
  · exact hP.unmerged hb x hx

theorem Built.withFallbacksIgnored {a c : Value} (ha : P a)
    (h : withFallbacksIgnored a = .ok c) : P c := by
  cases a with
  | obj fs r i => cases h; exact hP.ign _ _ _ _ ha
  | _ =>
    simp only [Value.withFallbacksIgnored] at h
    split at h
    · cases h; exact ha
    · cases h

theorem Built.mergedWithNonObject {a b c : Value} (ha : P a) (hb : P b)
    (h : mergedWithNonObject a b = .ok c) : P c := by
  unfold Value.mergedWithNonObject at h
  split at h
  · exact hP.withFallbacksIgnored ha h
  · rename_i hr
    refine hP.constructDelayedMerge (hP.opn _ ⟨a, by simp, by simpa using hr⟩) ?_ h
    intro x hx
    simp only [List.mem_cons, List.not_mem_nil, or_false] at hx
    rcases hx with rfl | rfl
    · exact ha
    · exact hb

mutual
theorem Built.withFallback : (a b c : Value) → P a → P b → withFallback a b = .ok c → P c
  | .scalar s, b, c, ha, hb, h => by simp only [Value.withFallback] at h; cases h; exact ha
  | .list vs, b, c, ha, hb, h => by
    simp only [Value.withFallback] at h
    split at h
    · cases h; exact ha
    · split at h
      · exact hP.mergedWithUnmergeable ha hb (by assumption) h
      · exact hP.mergedWithNonObject ha hb h
  | .obj fs r i, b, c, ha, hb, h => by
    simp only [Value.withFallback] at h
    split at h
    · cases h; exact ha
    · split at h
      · exact hP.mergedWithUnmergeable ha hb (by assumption) h
      · split at h
        · rename_i gs r' j _
          obtain ⟨m, hm, h⟩ := Res.bind_eq_ok.1 h
          cases h
          refine hP.obj _ _ (nodup_merged (hP.nodup _ _ _ ha) (hP.nodup _ _ _ hb) hm) ?_
          intro f hf
          rcases List.mem_append.1 hf with hf | hf
          · exact Built.mergeFields fs gs m (hP.fields _ _ _ ha) (hP.fields _ _ _ hb) hm f hf
          · exact hP.fields _ _ _ hb f (List.mem_filter.1 hf).1
        · exact hP.mergedWithNonObject ha hb h
  | .ref .., b, c, ha, hb, h => by
    simp only [Value.withFallback] at h
    split at h
    · exact hP.mergedWithUnmergeable ha hb (by assumption) h
    · exact hP.mergedWithNonObject ha hb h
  | .concat ps, b, c, ha, hb, h => by
    simp only [Value.withFallback] at h
    split at h
    · exact hP.mergedWithUnmergeable ha hb (by assumption) h
    · exact hP.mergedWithNonObject ha hb h
  | .dm st, b, c, ha, hb, h => by
    simp only [Value.withFallback] at h
    split at h
    · cases h; exact ha
    · split at h
      · exact hP.mergedWithUnmergeable ha hb (by assumption) h
      · exact hP.mergedWithNonObject ha hb h
  | .dmo st, b, c, ha, hb, h => by
    simp only [Value.withFallback] at h
    split at h
    · cases h; exact ha
    · split at h
      · exact hP.mergedWithUnmergeable ha hb (by assumption) h
      · split at h
        · cases h
        · exact hP.mergedWithNonObject ha hb h
theorem Built.mergeFields : (fs gs m : Fields) → (∀ f ∈ fs, P f.2) → (∀ f ∈ gs, P f.2) →
    mergeFields fs gs = .ok m → ∀ f ∈ m, P f.2
  | [], gs, m, hf, hg, h => by simp only [Value.mergeFields] at h; cases h; simp
  | (k, v) :: fs, gs, m, hf, hg, h => by
    simp only [Value.mergeFields] at h
    obtain ⟨kept, hk, h⟩ := Res.bind_eq_ok.1 h
    obtain ⟨rest, hr, h⟩ := Res.bind_eq_ok.1 h
    cases h
    have h1 : P kept := by
      cases hw : Hocon.findKey gs k with
      | none => rw [hw] at hk; cases hk; exact hf (k, v) (by simp)
      | some w =>
        rw [hw] at hk
        exact Built.withFallback v w kept (hf (k, v) (by simp)) (hP.findKey hg hw) hk
    intro f hf'
    rcases List.mem_cons.1 hf' with rfl | hf'
    · exact h1
    · exact Built.mergeFields fs gs rest (fun f h => hf f (by simp [h])) hg hr f hf'
end

theorem Built.join {env : Env} {a b : Value} {o : Option Value} (ha : P a) (hb : P b)
    (h : join env a b = .ok o) : ∀ c, o = some c → P c := by
  unfold Value.join at h
  split at h
  · cases h
  · split at h
    · cases h
    · split at h
      · obtain ⟨j, hj, h⟩ := Res.bind_eq_ok.1 h
        cases h
        rintro c ⟨⟩
        exact hP.withFallback _ _ _ hb ha hj
      · split at h
        · rename_i hl
          cases h
          rintro c ⟨⟩
          cases a with
          | list x =>
            cases b with
            | list y =>
              simp only [appendLists]
              refine (hP.list _).2 fun v hv => ?_
              rcases List.mem_append.1 hv with hv | hv
              · exact (hP.list _).1 ha v hv
              · exact (hP.list _).1 hb v hv
            | _ => exact ha
          | _ => exact ha
        · split at h
          · cases h; rintro c ⟨⟩; exact ha
          · split at h
            · cases h
            · split at h
              · cases h; rintro c ⟨⟩
              · split at h
                · cases h
                · cases h; rintro c ⟨⟩; exact hP.scalar _

theorem Built.joinLoop {env : Env} : (done : List Value) → (a : Value) → (vs ws : List Value) →
    (∀ v ∈ done, P v) → P a → (∀ v ∈ vs, P v) → joinLoop env done a vs = .ok ws → ∀ v ∈ ws, P v
  | done, a, [], ws, hd, ha, hv, h => by
    simp only [Value.joinLoop] at h
    cases h
    intro v hv
    rcases List.mem_append.1 hv with hv | hv
    · exact hd v hv
    · simp at hv; subst hv; exact ha
  | done, a, b :: vs, ws, hd, ha, hv, h => by
    simp only [Value.joinLoop] at h
    obtain ⟨o, ho, h⟩ := Res.bind_eq_ok.1 h
    cases o with
    | some j =>
      exact Built.joinLoop done j vs ws hd (hP.join ha (hv b (by simp)) ho j rfl)
        (fun v h => hv v (by simp [h])) h
    | none =>
      refine Built.joinLoop (done ++ [a]) b vs ws ?_ (hv b (by simp)) (fun v h => hv v (by simp [h])) h
      intro v hv
      rcases List.mem_append.1 hv with hv | hv
      · exact hd v hv
      · simp at hv; subst hv; exact ha

theorem Built.flattenPieces {ps : List Value} (h : ∀ v ∈ ps, P v) : ∀ v ∈ flattenPieces ps, P v := by
  induction ps with
  | nil => simp [Value.flattenPieces]
  | cons p ps ih =>
    have ih := ih (fun v hv => h v (by simp [hv]))
    have hp := h p (by simp)
    cases p with
    | concat qs =>
      simp only [Value.flattenPieces]
      intro v hv
      rcases List.mem_append.1 hv with hv | hv
      · exact hP.concat _ hp v hv
      · exact ih v hv
    | _ =>
      simp only [Value.flattenPieces]
      intro v hv
      rcases List.mem_cons.1 hv with rfl | hv
      · exact hp
      · exact ih v hv

theorem Built.consolidate {env : Env} {ps ws : List Value} (h : ∀ v ∈ ps, P v)
    (hc : consolidate env ps = .ok ws) : ∀ v ∈ ws, P v := by
  unfold Value.consolidate at hc
  split at hc
  · cases hc; exact h
  · have hf := hP.flattenPieces h
    split at hc
    · cases hc; simp
    · rename_i v vs hv
      rw [hv] at hf
      exact hP.joinLoop [] v vs ws (by simp) (hf v (by simp)) (fun v h => hf v (by simp [h])) hc

theorem Built.mkConcat' {ps : List Value} {c : Value} (h : ∀ v ∈ ps, P v)
    (hc : Value.mkConcat ps = .ok c) : P c := by
  unfold Value.mkConcat at hc
  split at hc
  · cases hc
  · split at hc
    · cases hc
    · split at hc
      · rename_i hu
        cases hc
        obtain ⟨v, hv, hu⟩ := List.any_eq_true.1 hu
        exact hP.mkConcat _ (hP.opn _ ⟨v, hv, by cases v <;> simp_all [isUnmergeable, Value.resolved]⟩) h
      · cases hc


theorem Built.empty : P Value.empty := hP.obj [] false (by simp [keysOf]) (by simp)

end

/-- Every closed predicate that holds of substitutions. -/
theorem Closed.built {P : Value → Prop} (hP : Closed P) (href : ∀ id p opt pre, P (.ref id p opt pre))
    (hne : P (.concat []) ∧ P (.dm []) ∧ P (.dmo [])) : Built P (fun _ => True) where
  opn := fun _ _ => trivial
  grow := fun _ _ _ => trivial
  scalar := hP.scalar
  ref := href
  list := hP.list
  fields := hP.fields
  nodup := hP.nodup
  obj := hP.obj
  ign := hP.ign
  concat := fun _ => hP.concatParts
  mkConcat := fun ps _ h => by
    cases ps with
    | nil => exact hne.1
    | cons v vs => exact (hP.concat _ (by simp)).2 h
  dm := fun ps => by
    cases ps with
    | nil => simp [hne.2.1]
    | cons v vs => simp [hP.dm (v :: vs) (by simp)]
  dmo := fun ps => by
    cases ps with
    | nil => simp [hne.2.2]
    | cons v vs => simp [hP.dmo (v :: vs) (by simp)]

end Resolve
end Hocon
