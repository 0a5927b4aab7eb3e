import Verif.Resolve
import Verif.Lemmas.AccessLemmas

/-!
# Predicates on values that resolution preserves

`Closed P`: `P` is passed from containers to their children and back. Every such predicate is
preserved by merging, concatenation and resolution.
-/

set_option autoImplicit false
set_option linter.unusedSectionVars false

namespace Hocon
namespace Resolve
open Value

theorem bind_ok {α β : Type} {x : Res α} {f : α → Res β} {b : β} (h : x.bind f = .ok b) :
    ∃ a, x = .ok a ∧ f a = .ok b := by
  cases x with
  | ok a => exact ⟨a, rfl, h⟩
  | err e => cases h
  | ub => cases h
  | fuel => cases h

/-- A predicate that is determined by the parts of a value. -/
structure Closed (P : Value → Prop) : Prop where
  scalar : ∀ s, P (.scalar s)
  list : ∀ vs, P (.list vs) ↔ ∀ v ∈ vs, P v
  fields : ∀ fs r i, P (.obj fs r i) → ∀ f ∈ fs, P f.2
  nodup : ∀ fs r i, P (.obj fs r i) → (keysOf fs).Nodup
  obj : ∀ fs i, (keysOf fs).Nodup → (∀ f ∈ fs, P f.2) → P (.obj fs (resolvedFields fs) i)
  ign : ∀ fs r i j, P (.obj fs r i) → P (.obj fs r j)
  concat : ∀ ps, ps ≠ [] → (P (.concat ps) ↔ ∀ v ∈ ps, P v)
  dm : ∀ ps, ps ≠ [] → (P (.dm ps) ↔ ∀ v ∈ ps, P v)
  dmo : ∀ ps, ps ≠ [] → (P (.dmo ps) ↔ ∀ v ∈ ps, P v)

section
variable {P : Value → Prop} (hP : Closed P)
include hP

theorem Closed.concatParts {ps : List Value} (h : P (.concat ps)) : ∀ v ∈ ps, P v := by
  cases ps with
  | nil => simp
  | cons v vs => exact (hP.concat _ (by simp)).1 h

theorem Closed.dmParts {ps : List Value} (h : P (.dm ps)) : ∀ v ∈ ps, P v := by
  cases ps with
  | nil => simp
  | cons v vs => exact (hP.dm _ (by simp)).1 h

theorem Closed.dmoParts {ps : List Value} (h : P (.dmo ps)) : ∀ v ∈ ps, P v := by
  cases ps with
  | nil => simp
  | cons v vs => exact (hP.dmo _ (by simp)).1 h

theorem Closed.findKey {fs : Fields} (h : ∀ f ∈ fs, P f.2) {k : Str} {v : Value}
    (hf : findKey fs k = some v) : P v := by
  induction fs with
  | nil => simp [Hocon.findKey] at hf
  | cons f fs ih =>
    obtain ⟨k', w⟩ := f
    rw [Hocon.findKey] at hf
    split at hf
    · cases hf; exact h (k', v) (by simp)
    · exact ih (fun f hf => h f (by simp [hf])) hf

theorem Closed.constructDelayedMerge {v c : Value} {st : List Value} (hs : ∀ x ∈ st, P x)
    (h : constructDelayedMerge v st = .ok c) : P c := by
  unfold Value.constructDelayedMerge mkDm mkDmo at h
  split at h
  · split at h
    · cases h
    · split at h
      · split at h
        · cases h
        · cases h; exact (hP.dmo _ (by simp)).2 hs
      · cases h
  · split at h
    · cases h
    · rename_i hne; cases h; exact (hP.dm _ (by simpa using hne)).2 hs

theorem Closed.unmerged {v : Value} (h : P v) : ∀ x ∈ v.unmergedValues, P x := by
  cases v with
  | dm st => exact hP.dmParts h
  | dmo st => exact hP.dmoParts h
  | _ => intro x hx; simp [unmergedValues] at hx; subst hx; exact h

theorem Closed.mergedWithUnmergeable {a b c : Value} (ha : P a) (hb : P b)
    (h : mergedWithUnmergeable a b = .ok c) : P c := by
  refine hP.constructDelayedMerge ?_ h
  intro x hx
  simp only [List.mem_cons] at hx
  rcases hx with rfl | hx
  · exact ha
  · exact hP.unmerged hb x hx

theorem Closed.withFallbacksIgnored {a c : Value} (ha : P a)
    (h : withFallbacksIgnored a = .ok c) : P c := by
  cases a with
  | obj fs r i => cases h; exact hP.ign _ _ _ _ ha
  | _ =>
    simp only [Value.withFallbacksIgnored] at h
    split at h
    · cases h; exact ha
    · cases h

theorem Closed.mergedWithNonObject {a b c : Value} (ha : P a) (hb : P b)
    (h : mergedWithNonObject a b = .ok c) : P c := by
  unfold Value.mergedWithNonObject at h
  split at h
  · exact hP.withFallbacksIgnored ha h
  · refine hP.constructDelayedMerge ?_ h
    intro x hx
    simp only [List.mem_cons, List.not_mem_nil, or_false] at hx
    rcases hx with rfl | rfl
    · exact ha
    · exact hb

mutual
theorem Closed.withFallback : (a b c : Value) → P a → P b → withFallback a b = .ok c → P c
  | .scalar s, b, c, ha, hb, h => by simp only [Value.withFallback] at h; cases h; exact ha
  | .list vs, b, c, ha, hb, h => by
    simp only [Value.withFallback] at h
    split at h
    · cases h; exact ha
    · split at h
      · exact hP.mergedWithUnmergeable ha hb h
      · exact hP.mergedWithNonObject ha hb h
  | .obj fs r i, b, c, ha, hb, h => by
    simp only [Value.withFallback] at h
    split at h
    · cases h; exact ha
    · split at h
      · exact hP.mergedWithUnmergeable ha hb h
      · split at h
        · rename_i gs r' j _
          obtain ⟨m, hm, h⟩ := Res.bind_eq_ok.1 h
          cases h
          refine hP.obj _ _ (nodup_merged (hP.nodup _ _ _ ha) (hP.nodup _ _ _ hb) hm) ?_
          intro f hf
          rcases List.mem_append.1 hf with hf | hf
          · exact Closed.mergeFields fs gs m (hP.fields _ _ _ ha) (hP.fields _ _ _ hb) hm f hf
          · exact hP.fields _ _ _ hb f (List.mem_filter.1 hf).1
        · exact hP.mergedWithNonObject ha hb h
  | .ref .., b, c, ha, hb, h => by
    simp only [Value.withFallback] at h
    split at h
    · exact hP.mergedWithUnmergeable ha hb h
    · exact hP.mergedWithNonObject ha hb h
  | .concat ps, b, c, ha, hb, h => by
    simp only [Value.withFallback] at h
    split at h
    · exact hP.mergedWithUnmergeable ha hb h
    · exact hP.mergedWithNonObject ha hb h
  | .dm st, b, c, ha, hb, h => by
    simp only [Value.withFallback] at h
    split at h
    · cases h; exact ha
    · split at h
      · exact hP.mergedWithUnmergeable ha hb h
      · exact hP.mergedWithNonObject ha hb h
  | .dmo st, b, c, ha, hb, h => by
    simp only [Value.withFallback] at h
    split at h
    · cases h; exact ha
    · split at h
      · exact hP.mergedWithUnmergeable ha hb h
      · split at h
        · cases h
        · exact hP.mergedWithNonObject ha hb h
theorem Closed.mergeFields : (fs gs m : Fields) → (∀ f ∈ fs, P f.2) → (∀ f ∈ gs, P f.2) →
    mergeFields fs gs = .ok m → ∀ f ∈ m, P f.2
  | [], gs, m, hf, hg, h => by simp only [Value.mergeFields] at h; cases h; simp
  | (k, v) :: fs, gs, m, hf, hg, h => by
    simp only [Value.mergeFields] at h
    obtain ⟨kept, hk, h⟩ := Res.bind_eq_ok.1 h
    obtain ⟨rest, hr, h⟩ := Res.bind_eq_ok.1 h
    cases h
    have h1 : P kept := by
      cases hw : Hocon.findKey gs k with
      | none => rw [hw] at hk; cases hk; exact hf (k, v) (by simp)
      | some w =>
        rw [hw] at hk
        exact Closed.withFallback v w kept (hf (k, v) (by simp)) (hP.findKey hg hw) hk
    intro f hf'
    rcases List.mem_cons.1 hf' with rfl | hf'
    · exact h1
    · exact Closed.mergeFields fs gs rest (fun f h => hf f (by simp [h])) hg hr f hf'
end

theorem Closed.join {env : Env} {a b : Value} {o : Option Value} (ha : P a) (hb : P b)
    (h : join env a b = .ok o) : ∀ c, o = some c → P c := by
  unfold Value.join at h
  split at h
  · cases h
  · split at h
    · cases h
    · split at h
      · obtain ⟨j, hj, h⟩ := Res.bind_eq_ok.1 h
        cases h
        rintro c ⟨⟩
        exact hP.withFallback _ _ _ hb ha hj
      · split at h
        · rename_i hl
          cases h
          rintro c ⟨⟩
          cases a with
          | list x =>
            cases b with
            | list y =>
              simp only [appendLists]
              refine (hP.list _).2 fun v hv => ?_
              rcases List.mem_append.1 hv with hv | hv
              · exact (hP.list _).1 ha v hv
              · exact (hP.list _).1 hb v hv
            | _ => exact ha
          | _ => exact ha
        · split at h
          · cases h; rintro c ⟨⟩; exact ha
          · split at h
            · cases h
            · split at h
              · cases h; rintro c ⟨⟩
              · split at h
                · cases h
                · cases h; rintro c ⟨⟩; exact hP.scalar _

theorem Closed.joinLoop {env : Env} : (done : List Value) → (a : Value) → (vs ws : List Value) →
    (∀ v ∈ done, P v) → P a → (∀ v ∈ vs, P v) → joinLoop env done a vs = .ok ws → ∀ v ∈ ws, P v
  | done, a, [], ws, hd, ha, hv, h => by
    simp only [Value.joinLoop] at h
    cases h
    intro v hv
    rcases List.mem_append.1 hv with hv | hv
    · exact hd v hv
    · simp at hv; subst hv; exact ha
  | done, a, b :: vs, ws, hd, ha, hv, h => by
    simp only [Value.joinLoop] at h
    obtain ⟨o, ho, h⟩ := Res.bind_eq_ok.1 h
    cases o with
    | some j =>
      exact Closed.joinLoop done j vs ws hd (hP.join ha (hv b (by simp)) ho j rfl)
        (fun v h => hv v (by simp [h])) h
    | none =>
      refine Closed.joinLoop (done ++ [a]) b vs ws ?_ (hv b (by simp)) (fun v h => hv v (by simp [h])) h
      intro v hv
      rcases List.mem_append.1 hv with hv | hv
      · exact hd v hv
      · simp at hv; subst hv; exact ha

theorem Closed.flattenPieces {ps : List Value} (h : ∀ v ∈ ps, P v) : ∀ v ∈ flattenPieces ps, P v := by
  induction ps with
  | nil => simp [Value.flattenPieces]
  | cons p ps ih =>
    have ih := ih (fun v hv => h v (by simp [hv]))
    have hp := h p (by simp)
    cases p with
    | concat qs =>
      simp only [Value.flattenPieces]
      intro v hv
      rcases List.mem_append.1 hv with hv | hv
      · exact hP.concatParts hp v hv
      · exact ih v hv
    | _ =>
      simp only [Value.flattenPieces]
      intro v hv
      rcases List.mem_cons.1 hv with rfl | hv
      · exact hp
      · exact ih v hv

theorem Closed.consolidate {env : Env} {ps ws : List Value} (h : ∀ v ∈ ps, P v)
    (hc : consolidate env ps = .ok ws) : ∀ v ∈ ws, P v := by
  unfold Value.consolidate at hc
  split at hc
  · cases hc; exact h
  · have hf := hP.flattenPieces h
    split at hc
    · cases hc; simp
    · rename_i v vs hv
      rw [hv] at hf
      exact hP.joinLoop [] v vs ws (by simp) (hf v (by simp)) (fun v h => hf v (by simp [h])) hc

theorem Closed.mkConcat {ps : List Value} {c : Value} (h : ∀ v ∈ ps, P v)
    (hc : mkConcat ps = .ok c) : P c := by
  unfold Value.mkConcat at hc
  split at hc
  · cases hc
  · split at hc
    · cases hc
    · split at hc
      · cases hc; exact (hP.concat _ (by rintro rfl; simp at *)).2 h
      · cases hc

theorem Closed.mkDm {ps : List Value} {c : Value} (h : ∀ v ∈ ps, P v)
    (hc : mkDm ps = .ok c) : P c := by
  unfold Value.mkDm at hc
  split at hc
  · cases hc
  · rename_i hne; cases hc; exact (hP.dm _ (by simpa using hne)).2 h

theorem Closed.mergeAll : (v : Value) → (vs : List Value) → (m : Value) → P v → (∀ v ∈ vs, P v) →
    mergeAll v vs = .ok m → P m
  | v, [], m, h, _, hm => by simp only [Resolve.mergeAll] at hm; cases hm; exact h
  | v, w :: ws, m, h, hs, hm => by
    simp only [Resolve.mergeAll] at hm
    obtain ⟨x, hx, hm⟩ := bind_ok hm
    exact Closed.mergeAll x ws m (hP.withFallback _ _ _ h (hs w (by simp)) hx)
      (fun v h => hs v (by simp [h])) hm

theorem Closed.makeReplacement {st : List Value} {o : Option Value} (h : ∀ v ∈ st, P v)
    (hm : makeReplacement st = .ok o) : ∀ c, o = some c → P c := by
  cases st with
  | nil => cases hm; rintro c ⟨⟩
  | cons v vs =>
    simp only [Resolve.makeReplacement] at hm
    obtain ⟨x, hx, hm⟩ := bind_ok hm
    cases hm
    rintro c ⟨⟩
    exact hP.mergeAll v vs x (h v (by simp)) (fun v hv => h v (by simp [hv])) hx

omit hP in
theorem replaceInList_mem {child : Value} {repl : Option Value} : {vs ws : List Value} →
    replaceInList child repl vs = some ws → ∀ w ∈ ws, w ∈ vs ∨ repl = some w
  | [], ws, h => by simp [replaceInList] at h
  | v :: vs, ws, h => by
    simp only [replaceInList] at h
    split at h
    · cases h
      intro w hw
      cases repl with
      | none => exact .inl (by simp at hw; simp [hw])
      | some r =>
        simp at hw
        rcases hw with rfl | hw
        · exact .inr rfl
        · exact .inl (by simp [hw])
    · simp only [Option.map_eq_some_iff] at h
      obtain ⟨ws', h', rfl⟩ := h
      intro w hw
      rcases List.mem_cons.1 hw with rfl | hw
      · exact .inl (by simp)
      · rcases replaceInList_mem h' w hw with h | h
        · exact .inl (by simp [h])
        · exact .inr h

omit hP in
theorem replaceInFields_mem {child : Value} {repl : Option Value} : {vs ws : Fields} →
    replaceInFields child repl vs = some ws →
    ∀ w ∈ ws, (w ∈ vs ∨ repl = some w.2) ∧ w.1 ∈ keysOf vs
  | [], ws, h => by simp [replaceInFields] at h
  | (k, v) :: vs, ws, h => by
    simp only [replaceInFields] at h
    split at h
    · cases h
      intro w hw
      cases repl with
      | none =>
        simp at hw
        exact ⟨.inl (by simp [hw]), by simp only [keysOf, List.map_cons, List.mem_cons]; right; exact List.mem_map_of_mem hw⟩
      | some r =>
        simp at hw
        rcases hw with rfl | hw
        · exact ⟨.inr rfl, by simp [keysOf]⟩
        · exact ⟨.inl (by simp [hw]), by simp only [keysOf, List.map_cons, List.mem_cons]; right; exact List.mem_map_of_mem hw⟩
    · simp only [Option.map_eq_some_iff] at h
      obtain ⟨ws', h', rfl⟩ := h
      intro w hw
      rcases List.mem_cons.1 hw with rfl | hw
      · exact ⟨.inl (by simp), by simp [keysOf]⟩
      · obtain ⟨h1, h2⟩ := replaceInFields_mem h' w hw
        refine ⟨?_, by simp only [keysOf, List.map_cons, List.mem_cons] at h2 ⊢; exact .inr h2⟩
        rcases h1 with h | h
        · exact .inl (by simp [h])
        · exact .inr h

omit hP in
theorem replaceInFields_keys {child : Value} {repl : Option Value} : {vs ws : Fields} →
    replaceInFields child repl vs = some ws → (keysOf ws).Sublist (keysOf vs)
  | [], ws, h => by simp [replaceInFields] at h
  | (k, v) :: vs, ws, h => by
    simp only [replaceInFields] at h
    split at h
    · cases h
      cases repl with
      | none => exact List.sublist_cons_self _ _
      | some r => exact List.Sublist.refl _
    · simp only [Option.map_eq_some_iff] at h
      obtain ⟨ws', h', rfl⟩ := h
      exact (replaceInFields_keys h').cons_cons k

theorem Closed.replaceChild {p child : Value} {repl o : Option Value} (hp : P p)
    (hr : ∀ c, repl = some c → P c) (h : replaceChild p child repl = .ok o) :
    ∀ c, o = some c → P c := by
  have key : ∀ {vs ws : List Value}, (∀ v ∈ vs, P v) → replaceInList child repl vs = some ws →
      ∀ w ∈ ws, P w := by
    intro vs ws hv hw w hm
    rcases replaceInList_mem hw w hm with h | h
    · exact hv w h
    · exact hr w h
  cases p with
  | obj fs r i =>
    simp only [Resolve.replaceChild] at h
    split at h
    · cases h
    · rename_i gs hg
      cases h
      rintro c ⟨⟩
      refine hP.obj _ _ ((hP.nodup _ _ _ hp).sublist (replaceInFields_keys hg)) ?_
      intro f hf
      rcases (replaceInFields_mem hg f hf).1 with h | h
      · exact hP.fields _ _ _ hp f h
      · exact hr _ h
  | list vs =>
    simp only [Resolve.replaceChild] at h
    split at h
    · cases h
    · rename_i ws hw
      split at h
      · cases h; rintro c ⟨⟩
      · cases h; rintro c ⟨⟩
        exact (hP.list _).2 (key ((hP.list _).1 hp) hw)
  | concat vs =>
    simp only [Resolve.replaceChild] at h
    split at h
    · cases h
    · rename_i ws hw
      split at h
      · cases h; rintro c ⟨⟩
      · obtain ⟨x, hx, h⟩ := bind_ok h
        cases h; rintro c ⟨⟩
        exact hP.mkConcat (key (hP.concatParts hp) hw) hx
  | dm vs =>
    simp only [Resolve.replaceChild] at h
    split at h
    · cases h
    · rename_i ws hw
      split at h
      · cases h; rintro c ⟨⟩
      · obtain ⟨x, hx, h⟩ := bind_ok h
        cases h; rintro c ⟨⟩
        exact hP.mkDm (key (hP.dmParts hp) hw) hx
  | dmo vs =>
    simp only [Resolve.replaceChild] at h
    split at h
    · cases h
    · rename_i ws hw
      split at h
      · cases h; rintro c ⟨⟩
      · obtain ⟨x, hx, h⟩ := bind_ok h
        cases h; rintro c ⟨⟩
        exact hP.mkDm (key (hP.dmoParts hp) hw) hx
  | _ => cases h

omit hP in
theorem asContainer_some {o : Option Value} {c : Value} (h : asContainer o = some c) : o = some c := by
  cases o with
  | none => cases h
  | some v =>
    simp only [asContainer] at h
    split at h
    · exact h
    · cases h

theorem Closed.replacePath : (path : List Value) → (repl : Option Value) → (out : List Value) →
    (∀ v ∈ path, P v) → (∀ c, repl = some c → P c) → replacePath path repl = .ok out →
    ∀ v ∈ out, P v
  | [], _, _, _, _, h => by cases h
  | [old], repl, out, hp, hr, h => by
    simp only [Resolve.replacePath] at h
    split at h
    · cases h; simp
    · rename_i r hc
      cases h
      intro v hv
      simp at hv
      subst hv
      exact hr _ (asContainer_some hc)
  | old :: parent :: rest, repl, out, hp, hr, h => by
    simp only [Resolve.replacePath] at h
    have hp' : ∀ v ∈ parent :: rest, P v := fun v hv => hp v (by simp at hv ⊢; tauto)
    split at h
    · obtain ⟨np, hnp, h⟩ := bind_ok h
      exact Closed.replacePath (parent :: rest) np out hp'
        (hP.replaceChild (hp parent (by simp)) (by rintro c ⟨⟩) hnp) h
    · rename_i r hc
      have hrr : P r := hr _ (asContainer_some hc)
      obtain ⟨np, hnp, h⟩ := bind_ok h
      obtain ⟨tail, ht, h⟩ := bind_ok h
      cases h
      intro v hv
      rcases List.mem_cons.1 hv with rfl | hv
      · exact hrr
      · exact Closed.replacePath (parent :: rest) np tail hp'
          (hP.replaceChild (hp parent (by simp)) (by rintro c ⟨⟩; exact hrr) hnp) ht v hv

theorem Closed.empty : P Value.empty := hP.obj [] false (by simp [keysOf]) (by simp)

/-- All values of a source satisfy `P`. -/
def SrcP (P : Value → Prop) (s : Source) : Prop := (∀ r, s.root = some r → P r) ∧ ∀ v ∈ s.path, P v

omit hP in
theorem asObject_some {v w : Value} (h : asObject v = some w) : v = w ∧ w.isObject = true := by
  unfold asObject at h
  split at h
  · rename_i hv; cases h; exact ⟨rfl, hv⟩
  · cases h

theorem Closed.push {s : Source} {v : Value} (hs : SrcP P s) (hv : P v) : SrcP P (s.push v) := by
  unfold Source.push
  split
  · split
    · exact ⟨hs.1, by simpa using hv⟩
    · exact hs
  · refine ⟨hs.1, ?_⟩
    intro w hw
    rcases List.mem_cons.1 hw with rfl | hw
    · exact hv
    · exact hs.2 w hw

theorem Closed.replaceWithin {s s' : Source} {old : Value} {repl : Option Value} (hs : SrcP P s)
    (hr : ∀ c, repl = some c → P c) (h : s.replaceWithin old repl = .ok s') : SrcP P s' := by
  unfold Source.replaceWithin at h
  split at h
  · rename_i parent rest hp
    have hpath := hs.2
    rw [hp] at hpath
    obtain ⟨np, hnp, h⟩ := bind_ok h
    obtain ⟨p, hpp, h⟩ := bind_ok h
    cases h
    have h1 := hP.replacePath _ _ _ hpath
      (fun c hc => hP.replaceChild (hpath parent (by simp)) hr hnp c (asContainer_some hc)) hpp
    refine ⟨?_, by simp⟩
    intro r hr
    simp only [rootOfPath] at hr
    split at hr
    · cases hr; exact hP.empty
    · rename_i v hv
      obtain ⟨rfl, _⟩ := asObject_some hr
      exact h1 _ (List.mem_of_getLast? hv)
  · split at h
    · cases h
    · rename_i r hc
      split at h
      · cases h
        refine ⟨?_, by simp⟩
        intro x hx
        cases hx
        split
        · exact hr _ (asContainer_some hc)
        · exact hP.empty
      · cases h

/-- The resolver keeps `P`. -/
def KeepsP (P : Value → Prop) (rec : Resolver) : Prop :=
  ∀ c s v c' o, SrcP P s → P v → rec c s v = .ok (c', o) → ∀ w, o = some w → P w

mutual
theorem Closed.attemptPeek : (v : Value) → (k : Str) → (o : Option Value) → P v →
    attemptPeek v k = .ok o → ∀ w, o = some w → P w
  | .obj fs r i, k, o, hv, h, w, hw => by
    simp only [Value.attemptPeek] at h
    cases h
    exact hP.findKey (hP.fields _ _ _ hv) hw
  | .dmo st, k, o, hv, h, w, hw => by
    simp only [Value.attemptPeek] at h
    exact Closed.peekStack st k o (hP.dmoParts hv) h w hw
  | .scalar _, k, o, hv, h, w, hw => by simp [Value.attemptPeek] at h
  | .list _, k, o, hv, h, w, hw => by simp [Value.attemptPeek] at h
  | .ref .., k, o, hv, h, w, hw => by simp [Value.attemptPeek] at h
  | .concat _, k, o, hv, h, w, hw => by simp [Value.attemptPeek] at h
  | .dm _, k, o, hv, h, w, hw => by simp [Value.attemptPeek] at h
theorem Closed.peekStack : (st : List Value) → (k : Str) → (o : Option Value) → (∀ v ∈ st, P v) →
    peekStack st k = .ok o → ∀ w, o = some w → P w
  | [], k, o, hv, h, w, hw => by simp [Value.peekStack] at h
  | l :: rest, k, o, hv, h, w, hw => by
    rw [Value.peekStack.eq_def] at h
    have hr : ∀ v ∈ rest, P v := fun v h => hv v (by simp [h])
    simp only at h
    split at h
    · obtain ⟨x, hx, h⟩ := bind_ok h
      have := Closed.attemptPeek l k x (hv l (by simp)) hx
      cases x with
      | some x =>
        simp only at h
        split at h
        · cases h; exact this w hw
        · exact Closed.peekStack rest k o hr h w hw
      | none =>
        simp only at h
        split at h
        · cases h
        · exact Closed.peekStack rest k o hr h w hw
    · split at h
      · cases h
      · split at h
        · exact Closed.peekStack rest k o hr h w hw
        · split at h
          · cases h
          · cases h; cases hw
end

theorem Closed.findPeek : (v : Value) → (p : Path) → (ps : List Value) →
    (out : Option Value × List Value) → P v → (∀ x ∈ ps, P x) → findPeek v p ps = .ok out →
    (∀ w, out.1 = some w → P w) ∧ ∀ x ∈ out.2, P x
  | _, [], _, _, _, _, h => by cases h
  | v, k :: next, ps, out, hv, hps, h => by
    simp only [Resolve.findPeek] at h
    obtain ⟨o, ho, h⟩ := bind_ok h
    have h1 := hP.attemptPeek v k o hv ho
    have h2 : ∀ x ∈ v :: ps, P x := by
      intro x hx
      rcases List.mem_cons.1 hx with rfl | hx
      · exact hv
      · exact hps x hx
    split at h
    · cases h; exact ⟨h1, h2⟩
    · cases o with
      | none => cases h; exact ⟨(by rintro w ⟨⟩), h2⟩
      | some w =>
        simp only at h
        split at h
        · exact Closed.findPeek w next (v :: ps) out (h1 w rfl) h2 h
        · cases h; exact ⟨(by rintro w ⟨⟩), h2⟩

/-- The value and the containers of a lookup satisfy `P`. -/
def FoundP (P : Value → Prop) (r : Ctx × Option Value × List Value) : Prop :=
  (∀ w, r.2.1 = some w → P w) ∧ ∀ x ∈ r.2.2, P x

theorem Closed.findInObject {rec : Resolver} (hrec : KeepsP P rec) {obj : Option Value} {c : Ctx}
    {p : Path} {r : Ctx × Option Value × List Value} (ho : ∀ r, obj = some r → P r)
    (h : findInObject rec obj c p = .ok r) : FoundP P r := by
  unfold Resolve.findInObject at h
  cases obj with
  | none => cases h
  | some o =>
    simp only at h
    obtain ⟨⟨c', x⟩, hx, h⟩ := bind_ok h
    have h1 := hrec _ _ _ _ _ ⟨ho, by simp⟩ (ho o rfl) hx
    cases x with
    | none => cases h
    | some v =>
      simp only at h
      split at h
      · obtain ⟨f, hf, h⟩ := bind_ok h
        cases h
        exact hP.findPeek v p [] f (h1 v rfl) (by simp) hf
      · cases h

theorem Closed.lookupEnv {env : Env} {c : Ctx} {p : Path} {r r' : Ctx × Option Value × List Value}
    (hr : FoundP P r) (h : lookupEnv env c p r = .ok r') : FoundP P r' := by
  unfold Resolve.lookupEnv at h
  split at h
  · obtain ⟨v, hv, h⟩ := bind_ok h
    cases h
    refine ⟨?_, by simp⟩
    intro w hw
    simp only at hw
    subst hw
    match p, hv with
    | [k], hv =>
      simp only [findEnv, Res.ok.injEq] at hv
      simp only [Option.map_eq_some_iff] at hv
      obtain ⟨s, _, rfl⟩ := hv
      exact hP.scalar _
    | _ :: _ :: _, hv => cases hv
  · cases h; exact hr

theorem Closed.lookupSubst {env : Env} {rec : Resolver} (hrec : KeepsP P rec) {root : Option Value}
    {c : Ctx} {p : Path} {pre : Nat} {r : Ctx × Option Value × List Value}
    (ho : ∀ r, root = some r → P r) (h : lookupSubst env rec root c p pre = .ok r) : FoundP P r := by
  unfold Resolve.lookupSubst at h
  obtain ⟨x, hx, h⟩ := bind_ok h
  have h1 := hP.findInObject hrec ho hx
  split at h
  · split at h
    · obtain ⟨y, hy, h⟩ := bind_ok h
      exact hP.lookupEnv (hP.findInObject hrec ho hy) h
    · exact hP.lookupEnv h1 h
  · cases h; exact h1

theorem Closed.resolveFound {rec : Resolver} (hrec : KeepsP P rec) {opt : Bool}
    {l : Ctx × Option Value × List Value} {r : Ctx × Option Value} (hl : FoundP P l)
    (h : resolveFound rec opt l = .ok r) : ∀ w, r.2 = some w → P w := by
  obtain ⟨c, o, ps⟩ := l
  unfold Resolve.resolveFound at h
  cases o with
  | none => cases h; rintro w ⟨⟩
  | some v =>
    simp only [catchCycle] at h
    split at h
    · split at h
      · cases h; rintro w ⟨⟩
      · cases h
    · obtain ⟨c', o⟩ := r
      refine hrec _ _ _ _ _ ⟨?_, hl.2⟩ (hl.1 v rfl) h
      intro x hx
      simp only [Option.bind_eq_some_iff] at hx
      obtain ⟨y, hy, hx⟩ := hx
      obtain ⟨rfl, _⟩ := asObject_some hx
      exact hl.2 _ (List.mem_of_getLast? hy)

theorem Closed.tryRef {env : Env} {rec : Resolver} (hrec : KeepsP P rec) {c : Ctx} {s : Source}
    {p : Path} {opt : Bool} {pre : Nat} {r : Ctx × Option Value} (hs : SrcP P s)
    (h : tryRef env rec c s p opt pre = .ok r) : ∀ w, r.2 = some w → P w := by
  unfold Resolve.tryRef at h
  split at h
  · rename_i l hl
    exact hP.resolveFound hrec (hP.lookupSubst hrec hs.1 hl) h
  · simp only [catchCycle] at h
    split at h
    · split at h
      · cases h; rintro w ⟨⟩
      · cases h
    · cases h
  · cases h
  · cases h

theorem Closed.resolveRef {env : Env} {rec : Resolver} (hrec : KeepsP P rec) {c : Ctx} {s : Source}
    {id : Nat} {p : Path} {opt : Bool} {pre : Nat} {r : Ctx × Option Value} (hs : SrcP P s)
    (hv : P (.ref id p opt pre)) (h : resolveRef env rec c s id p opt pre = .ok r) :
    ∀ w, r.2 = some w → P w := by
  unfold Resolve.resolveRef at h
  split at h
  · cases h
  · obtain ⟨⟨c', o⟩, hx, h⟩ := bind_ok h
    have h1 := hP.tryRef hrec hs hx
    cases o with
    | some v => cases h; exact h1
    | none =>
      simp only [finishRef] at h
      split at h
      · cases h; rintro w ⟨⟩
      · split at h
        · cases h; rintro w ⟨⟩; exact hv
        · cases h

theorem Closed.resolveFields {rec : Resolver} (hrec : KeepsP P rec) {orig : Path} {s : Source}
    (hs : SrcP P s) : (c : Ctx) → (fs : Fields) → (r : Ctx × List (Str × Option Value)) →
    (∀ f ∈ fs, P f.2) → resolveFields rec orig s c fs = .ok r →
    ∀ f ∈ r.2, ∀ w, f.2 = some w → P w
  | c, [], r, _, h => by cases h; simp
  | c, (k, v) :: fs, r, hf, h => by
    simp only [Resolve.resolveFields] at h
    obtain ⟨⟨c', o⟩, hx, h⟩ := bind_ok h
    obtain ⟨rest, hr, h⟩ := bind_ok h
    cases h
    have h1 : ∀ w, o = some w → P w := by
      have hv : P v := hf (k, v) (by simp)
      unfold resolveChild at hx
      split at hx
      · obtain ⟨⟨_, _⟩, hy, hx⟩ := bind_ok hx
        cases hx
        exact hrec _ _ _ _ _ hs hv hy
      · split at hx
        · split at hx
          · cases hx; rintro w ⟨⟩; exact hv
          · obtain ⟨⟨_, _⟩, hy, hx⟩ := bind_ok hx
            cases hx
            exact hrec _ _ _ _ _ hs hv hy
        · cases hx; rintro w ⟨⟩; exact hv
    intro f hf'
    rcases List.mem_cons.1 hf' with rfl | hf'
    · exact h1
    · exact Closed.resolveFields hrec hs c' fs rest (fun f h => hf f (by simp [h])) hr f hf'

omit hP in
theorem mem_keptFields {f : Str × Value} : {fs : List (Str × Option Value)} →
    (f ∈ keptFields fs ↔ (f.1, some f.2) ∈ fs)
  | [] => by simp [keptFields]
  | (k, some v) :: fs => by
    simp only [keptFields, List.mem_cons, mem_keptFields (fs := fs)]
    obtain ⟨a, b⟩ := f
    simp
  | (k, none) :: fs => by
    simp only [keptFields, List.mem_cons, mem_keptFields (fs := fs)]
    obtain ⟨a, b⟩ := f
    simp

omit hP in
theorem resolveFields_keys {rec : Resolver} {orig : Path} {s : Source} : (c : Ctx) → (fs : Fields) →
    (r : Ctx × List (Str × Option Value)) → resolveFields rec orig s c fs = .ok r →
    (keysOf (keptFields r.2)).Sublist (keysOf fs)
  | c, [], r, h => by cases h; exact List.Sublist.refl _
  | c, (k, v) :: fs, r, h => by
    simp only [Resolve.resolveFields] at h
    obtain ⟨⟨c', o⟩, hx, h⟩ := bind_ok h
    obtain ⟨rest, hr, h⟩ := bind_ok h
    cases h
    have ih := resolveFields_keys _ fs rest hr
    cases o with
    | none => exact ih.cons k
    | some w => exact ih.cons_cons k

theorem Closed.modifiedObject {fs : Fields} {r i : Bool} {new : List (Str × Option Value)}
    (ho : P (.obj fs r i)) (hk : (keysOf (keptFields new)).Nodup) (hn : ∀ f ∈ new, ∀ w, f.2 = some w → P w) :
    P (modifiedObject fs r i new) := by
  unfold Resolve.modifiedObject
  split
  · exact ho
  · exact hP.obj _ _ hk fun f hf => hn _ (mem_keptFields.1 hf) _ rfl

theorem Closed.resolveElems {rec : Resolver} (hrec : KeepsP P rec) {s : Source} (hs : SrcP P s) :
    (c : Ctx) → (vs : List Value) → (r : Ctx × List (Option Value)) → (∀ v ∈ vs, P v) →
    resolveElems rec s c vs = .ok r → ∀ o ∈ r.2, ∀ w, o = some w → P w
  | c, [], r, _, h => by cases h; simp
  | c, v :: vs, r, hf, h => by
    simp only [Resolve.resolveElems] at h
    obtain ⟨⟨c', o⟩, hx, h⟩ := bind_ok h
    obtain ⟨rest, hr, h⟩ := bind_ok h
    cases h
    intro f hf'
    rcases List.mem_cons.1 hf' with rfl | hf'
    · exact hrec _ _ _ _ _ hs (hf v (by simp)) hx
    · exact Closed.resolveElems hrec hs c' vs rest (fun v h => hf v (by simp [h])) hr f hf'

theorem Closed.changedElems : (before : List Value) → (init : Bool) → (changed : List Value) →
    (l : List (Value × Option Value)) → (∀ v ∈ before, P v) → (∀ v ∈ changed, P v) →
    (∀ x ∈ l, P x.1 ∧ ∀ w, x.2 = some w → P w) →
    ∀ v ∈ (changedElems before init changed l).2, P v
  | before, init, changed, [], hb, hc, hl => hc
  | before, init, changed, (old, new) :: rest, hb, hc, hl => by
    have ho := (hl (old, new) (by simp))
    have hb' : ∀ v ∈ before ++ [old], P v := by
      intro v hv
      rcases List.mem_append.1 hv with hv | hv
      · exact hb v hv
      · simp at hv; subst hv; exact ho.1
    have happ : ∀ ws : List Value, (∀ v ∈ ws, P v) → ∀ v ∈ ws ++ new.toList, P v := by
      intro ws hw v hv
      rcases List.mem_append.1 hv with hv | hv
      · exact hw v hv
      · exact ho.2 v (by simpa [eq_comm] using hv)
    have hl' : ∀ x ∈ rest, P x.1 ∧ ∀ w, x.2 = some w → P w := fun x h => hl x (by simp [h])
    simp only [Resolve.changedElems]
    split
    · exact Closed.changedElems _ _ _ rest hb' (happ _ hb) hl'
    · split
      · exact Closed.changedElems _ _ _ rest hb' (happ _ hc) hl'
      · exact Closed.changedElems _ _ _ rest hb' hc hl'

theorem Closed.modifiedList {allow : Bool} {vs : List Value} {new : List (Option Value)} {c : Value}
    (hv : ∀ v ∈ vs, P v) (hn : ∀ o ∈ new, ∀ w, o = some w → P w)
    (h : modifiedList allow vs new = .ok c) : P c := by
  unfold Resolve.modifiedList at h
  split at h
  · cases h; exact (hP.list _).2 hv
  · rename_i ws hw
    split at h
    · cases h
      refine (hP.list _).2 ?_
      have := hP.changedElems [] false [] (vs.zip new) (by simp) (by simp) (by
        intro x hx
        obtain ⟨a, b⟩ := x
        exact ⟨hv a (List.of_mem_zip hx).1, hn b (List.of_mem_zip hx).2⟩)
      rwa [hw] at this
    · cases h

theorem Closed.resolvePieces {rec : Resolver} (hrec : KeepsP P rec) {s : Source} (hs : SrcP P s) :
    (c : Ctx) → (vs : List Value) → (r : Ctx × List Value) → (∀ v ∈ vs, P v) →
    resolvePieces rec s c vs = .ok r → ∀ v ∈ r.2, P v
  | c, [], r, _, h => by cases h; simp
  | c, v :: vs, r, hf, h => by
    simp only [Resolve.resolvePieces] at h
    obtain ⟨⟨c', o⟩, hx, h⟩ := bind_ok h
    obtain ⟨rest, hr, h⟩ := bind_ok h
    cases h
    intro w hw
    rcases List.mem_append.1 hw with hw | hw
    · exact hrec _ _ _ _ _ hs (hf v (by simp)) hx w (by simpa [eq_comm] using hw)
    · exact Closed.resolvePieces hrec hs _ vs rest (fun v h => hf v (by simp [h])) hr w hw

theorem Closed.resolveStack {rec : Resolver} (hrec : KeepsP P rec) {self : Value} {s : Source}
    (hs : SrcP P s) (hself : P self) : (c : Ctx) → (merged : Option Value) → (vs : List Value) →
    (r : Ctx × Option Value) → (∀ w, merged = some w → P w) → (∀ v ∈ vs, P v) →
    resolveStack rec self s c merged vs = .ok r → ∀ w, r.2 = some w → P w
  | c, merged, [], r, hm, _, h => by cases h; exact hm
  | c, merged, v :: rest, r, hm, hv, h => by
    simp only [Resolve.resolveStack] at h
    obtain ⟨s', hs', h⟩ := bind_ok h
    obtain ⟨⟨c', o⟩, hx, h⟩ := bind_ok h
    obtain ⟨m, hmm, h⟩ := bind_ok h
    have hrest : ∀ v ∈ rest, P v := fun v h => hv v (by simp [h])
    have h1 : SrcP P s' := by
      unfold sourceForEnd at hs'
      split at hs'
      · cases hs'
      · split at hs'
        · obtain ⟨rep, hrep, hs'⟩ := bind_ok hs'
          exact hP.replaceWithin hs (hP.makeReplacement hrest hrep) hs'
        · cases hs'; exact hP.push hs hself
    have h2 := hrec _ _ _ _ _ h1 (hv v (by simp)) hx
    refine Closed.resolveStack hrec hs hself c' m rest r ?_ hrest h
    unfold mergeEnd at hmm
    cases merged with
    | none =>
      cases o with
      | none => cases hmm; exact hm
      | some x => cases hmm; exact h2
    | some y =>
      cases o with
      | none => cases hmm; exact hm
      | some x =>
        simp only at hmm
        obtain ⟨z, hz, hmm⟩ := bind_ok hmm
        cases hmm
        rintro w ⟨⟩
        exact hP.withFallback _ _ _ (hm y rfl) (h2 x rfl) hz

theorem Closed.resolveSubstitutions {env : Env} {rec : Resolver} (hrec : KeepsP P rec) {c : Ctx}
    {s : Source} {v : Value} {r : Ctx × Option Value} (hs : SrcP P s) (hv : P v)
    (h : resolveSubstitutions env rec c s v = .ok r) : ∀ w, r.2 = some w → P w := by
  cases v with
  | scalar x => cases h; rintro w ⟨⟩; exact hv
  | list vs =>
    simp only [Resolve.resolveSubstitutions, resolveList] at h
    split at h
    · cases h; rintro w ⟨⟩; exact hv
    · split at h
      · cases h; rintro w ⟨⟩; exact hv
      · obtain ⟨x, hx, h⟩ := bind_ok h
        obtain ⟨y, hy, h⟩ := bind_ok h
        cases h
        rintro w ⟨⟩
        have hvs := (hP.list _).1 hv
        exact hP.modifiedList hvs (hP.resolveElems hrec (hP.push hs hv) c vs x hvs hx) hy
  | obj fs res i =>
    simp only [Resolve.resolveSubstitutions, resolveObject] at h
    split at h
    · cases h; rintro w ⟨⟩; exact hv
    · obtain ⟨x, hx, h⟩ := bind_ok h
      cases h
      rintro w ⟨⟩
      exact hP.modifiedObject hv ((hP.nodup _ _ _ hv).sublist (resolveFields_keys c fs x hx)) (hP.resolveFields hrec (hP.push hs hv) c fs x (hP.fields _ _ _ hv) hx)
  | ref id p opt pre => exact hP.resolveRef hrec hs hv h
  | concat ps =>
    simp only [Resolve.resolveSubstitutions, resolveConcat] at h
    obtain ⟨x, hx, h⟩ := bind_ok h
    obtain ⟨j, hj, h⟩ := bind_ok h
    obtain ⟨o, ho, h⟩ := bind_ok h
    cases h
    have hps := hP.concatParts hv
    have hjj := hP.consolidate (hP.resolvePieces hrec hs c ps x hps hx) hj
    unfold joinedPieces at ho
    split at ho
    · cases ho; rintro w ⟨⟩
    · cases ho; rintro w ⟨⟩; exact hjj _ (by simp)
    · split at ho
      · obtain ⟨y, hy, ho⟩ := bind_ok ho
        cases ho
        rintro w ⟨⟩
        exact hP.mkConcat hjj hy
      · cases ho
  | dm st =>
    exact hP.resolveStack hrec hs hv c none st r (by rintro w ⟨⟩) (hP.dmParts hv) h
  | dmo st =>
    exact hP.resolveStack hrec hs hv c none st r (by rintro w ⟨⟩) (hP.dmoParts hv) h

theorem Closed.resolveN {env : Env} : (n : Nat) → KeepsP P (resolveN env n)
  | 0, c, s, v, c', o, _, _, h => by cases h
  | n + 1, c, s, v, c', o, hs, hv, h => by
    simp only [Resolve.resolveN] at h
    split at h
    · cases h
    · obtain ⟨x, hx, h⟩ := bind_ok h
      have h1 := hP.resolveSubstitutions (Closed.resolveN n) hs hv hx
      have : x = (c', o) := by
        unfold checkResult at h
        split at h
        · cases h; rfl
        · split at h
          · cases h; rfl
          · cases h
      subst this
      exact h1

end

end Resolve
end Hocon
