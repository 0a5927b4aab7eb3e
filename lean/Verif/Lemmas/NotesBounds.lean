import Verif.ParseNotes
import Verif.Lemmas.NotesErase
import Verif.Lemmas.TokenPlaces
import Verif.Lemmas.DocParserLemmas

/-!
# What holds of all origins in a parsed value
-/

set_option autoImplicit false

namespace Hocon
namespace Notes

open Spec

theorem mem_originsL {o : Origin} {vs : List AVal} : o ∈ originsL vs ↔ ∃ v ∈ vs, o ∈ origins v := by
  induction vs with
  | nil => simp [originsL]
  | cons v vs ih => simp [originsL, ih]

theorem mem_originsF {o : Origin} {fs : AFields} : o ∈ originsF fs ↔ ∃ f ∈ fs, o ∈ origins f.2 := by
  induction fs with
  | nil => simp [originsF]
  | cons f fs ih => obtain ⟨k, v⟩ := f; simp [originsF, ih]

/-- All origins in the value. -/
def All (P : Origin → Prop) (v : AVal) : Prop := ∀ o ∈ origins v, P o
/-- The same for fields. -/
def AllF (P : Origin → Prop) (fs : AFields) : Prop := ∀ f ∈ fs, All P f.2
/-- The same for a list. -/
def AllL (P : Origin → Prop) (vs : List AVal) : Prop := ∀ v ∈ vs, All P v

variable {P : Origin → Prop} {K : Str → Prop}

theorem all_scalar {o : Origin} {s : Scalar} : All P (.scalar o s) ↔ P o := by simp [All, origins]
theorem all_ref {o : Origin} {n : Nat} {p : Path} {opt : Bool} {k : Nat} : All P (.ref o n p opt k) ↔ P o := by
  simp [All, origins]
theorem all_list {o : Origin} {vs : List AVal} : All P (.list o vs) ↔ P o ∧ AllL P vs := by
  simp only [All, origins, List.mem_cons, mem_originsL, AllL]
  constructor
  · intro h; exact ⟨h o (Or.inl rfl), fun v hv x hx => h x (Or.inr ⟨v, hv, hx⟩)⟩
  · rintro ⟨h1, h2⟩ x (rfl | ⟨v, hv, hx⟩)
    · exact h1
    · exact h2 v hv x hx
theorem all_concat {o : Origin} {vs : List AVal} : All P (.concat o vs) ↔ P o ∧ AllL P vs := by
  rw [← all_list]; rfl
theorem all_dm {o : Origin} {vs : List AVal} : All P (.dm o vs) ↔ P o ∧ AllL P vs := by
  rw [← all_list]; rfl
theorem all_dmo {o : Origin} {vs : List AVal} : All P (.dmo o vs) ↔ P o ∧ AllL P vs := by
  rw [← all_list]; rfl
theorem all_obj {o : Origin} {fs : AFields} {r i : Bool} : All P (.obj o fs r i) ↔ P o ∧ AllF P fs := by
  simp only [All, origins, List.mem_cons, mem_originsF, AllF]
  constructor
  · intro h; exact ⟨h o (Or.inl rfl), fun v hv x hx => h x (Or.inr ⟨v, hv, hx⟩)⟩
  · rintro ⟨h1, h2⟩ x (rfl | ⟨v, hv, hx⟩)
    · exact h1
    · exact h2 v hv x hx

theorem all_origin {v : AVal} (h : All P v) : P v.origin := by
  cases v <;> exact h _ (by simp [origins, AVal.origin])

theorem all_withOrigin {v : AVal} {o : Origin} (h : All P v) (ho : P o) : All P (v.withOrigin o) := by
  cases v <;>
    simp only [AVal.withOrigin, all_scalar, all_list, all_obj, all_ref, all_concat, all_dm, all_dmo] at h ⊢ <;>
    first | exact ho | exact ⟨ho, h.2⟩

/-- What merging and adding comments preserves. -/
structure Closed (K : Str → Prop) (P : Origin → Prop) : Prop where
  merge : ∀ {a b}, P a → P b → P (Origin.mergeTwo a b)
  append : ∀ {o cs}, P o → (∀ c ∈ cs, K c) → P (o.appendComments cs)
  prepend : ∀ {o cs}, P o → (∀ c ∈ cs, K c) → P (o.prependComments cs)

variable (hP : Closed K P)
include hP

theorem Closed.three {a b c : Origin} (ha : P a) (hb : P b) (hc : P c) : P (Origin.mergeThree a b c) := by
  unfold Origin.mergeThree
  split
  · exact hP.merge (hP.merge ha hb) hc
  · exact hP.merge ha (hP.merge hb hc)

theorem Closed.loop : (n : Nat) → (os : List Origin) → (o : Option Origin) → (∀ x ∈ os, P x) →
    Origin.mergeLoop n (os.map some) = .ok o → ∃ x, o = some x ∧ P x
  | _, [], o, _, h => by simp [Origin.mergeLoop] at h
  | _, [a], o, ha, h => by
    simp only [List.map_cons, List.map_nil, Origin.mergeLoop, Res.ok.injEq] at h
    exact ⟨a, h.symm, ha a (by simp)⟩
  | _, [b, a], o, ha, h => by
    simp only [List.map_cons, List.map_nil, Origin.mergeLoop, Origin.mergeTwo?, Res.ok.injEq] at h
    exact ⟨_, h.symm, hP.merge (ha a (by simp)) (ha b (by simp))⟩
  | 0, c :: b :: a :: r, o, ha, h => by simp [Origin.mergeLoop] at h
  | n + 1, c :: b :: a :: r, o, ha, h => by
    simp only [List.map_cons, Origin.mergeLoop, Origin.mergeThree?, Res.bind] at h
    refine Closed.loop n (Origin.mergeThree a b c :: r) o ?_ h
    intro x hx
    rcases List.mem_cons.1 hx with rfl | hx
    · exact hP.three (ha _ (by simp)) (ha _ (by simp)) (ha _ (by simp))
    · exact ha x (by simp [hx])

theorem Closed.all {os : List Origin} {o : Origin} (h : ∀ x ∈ os, P x) (hm : mergeAll os = .ok o) : P o := by
  unfold mergeAll Origin.mergeOrigins at hm
  change ((Origin.mergeLoop _ (os.map some).reverse) >>= notNull) = _ at hm
  rw [Res.bind_eq_ok, ← List.map_reverse] at hm
  obtain ⟨o', h1, h2⟩ := hm
  obtain ⟨x, rfl, hx⟩ := hP.loop _ _ _ (by simpa using h) h1
  simp only [notNull, Res.ok.injEq] at h2
  exact h2 ▸ hx

theorem Closed.stack {st : List AVal} {o : Origin} (h : AllL P st) (hm : mergeStack st = .ok o) : P o := by
  unfold mergeStack at hm
  split at hm
  · simp at hm
  · rename_i v r
    split at hm
    · exact hP.all (by simpa using all_origin (h v (by simp))) hm
    · refine hP.all ?_ hm
      intro x hx
      rw [List.mem_map] at hx
      obtain ⟨w, hw, rfl⟩ := hx
      exact all_origin (h w (List.mem_filter.1 hw).1)

omit hP in
theorem all_unmerged {v : AVal} (h : All P v) : AllL P (unmergedA v) := by
  cases v <;> simp only [unmergedA]
  case dm o st => exact (all_dm.1 h).2
  case dmo o st => exact (all_dmo.1 h).2
  all_goals (intro w hw; simp only [List.mem_singleton] at hw; exact hw ▸ h)

omit hP in
theorem all_delayed {v w : AVal} {o : Origin} {st : List AVal} (ho : P o) (hs : AllL P st)
    (h : delayedA v o st = .ok w) : All P w := by
  unfold delayedA at h
  repeat' split at h
  all_goals first
    | (simp at h; done)
    | (simp only [Res.ok.injEq] at h; subst h; first | exact all_dmo.2 ⟨ho, hs⟩ | exact all_dm.2 ⟨ho, hs⟩)

theorem Closed.delay {v w : AVal} {b : Bool} {st : List AVal} (hs : AllL P st) (h : delayA v st = .ok (w, b)) :
    All P w := by
  unfold delayA at h
  simp only [Res.bind_eq_ok, Res.ok.injEq, Prod.mk.injEq] at h
  obtain ⟨o, h1, d, h2, rfl, _⟩ := h
  exact all_delayed (hP.stack hs h1) hs h2

omit hP in
theorem all_ignoring {v w : AVal} {b : Bool} (hv : All P v) (h : ignoringA v = .ok (w, b)) : All P w := by
  unfold ignoringA at h
  split at h
  · simp only [Res.ok.injEq, Prod.mk.injEq] at h
    obtain ⟨rfl, _⟩ := h
    exact all_obj.2 (all_obj.1 hv)
  · split at h
    · simp only [Res.ok.injEq, Prod.mk.injEq] at h
      exact h.1 ▸ hv
    · simp at h

omit hP in
theorem allL_two {a b : AVal} (ha : All P a) (hb : All P b) : AllL P [a, b] := by
  intro x hx
  simp only [List.mem_cons, List.not_mem_nil, or_false] at hx
  rcases hx with rfl | rfl
  · exact ha
  · exact hb

omit hP in
theorem allL_cons {a : AVal} {vs : List AVal} (ha : All P a) (hb : AllL P vs) : AllL P (a :: vs) := by
  intro x hx
  rcases List.mem_cons.1 hx with rfl | hx
  · exact ha
  · exact hb x hx

omit hP in
theorem allL_append {us vs : List AVal} (ha : AllL P us) (hb : AllL P vs) : AllL P (us ++ vs) := by
  intro x hx
  rcases List.mem_append.1 hx with hx | hx
  · exact ha x hx
  · exact hb x hx

theorem Closed.nonObject {v fb w : AVal} {b : Bool} (hv : All P v) (hf : All P fb)
    (h : nonObjectA v fb = .ok (w, b)) : All P w := by
  unfold nonObjectA at h
  split at h
  · exact all_ignoring hv h
  · exact hP.delay (allL_two hv hf) h

omit hP in
theorem all_findKey {fs : AFields} {k : Str} {v : AVal} (h : AllF P fs) (hf : findKeyA fs k = some v) : All P v := by
  induction fs with
  | nil => simp [findKeyA] at hf
  | cons f fs ih =>
    obtain ⟨k', w⟩ := f
    rw [findKeyA] at hf
    split at hf
    · simp only [Option.some.injEq] at hf
      exact hf ▸ h (k', w) (by simp)
    · exact ih (fun g hg => h g (by simp [hg])) hf

theorem Closed.mergedObj {o : Origin} {fs : AFields} {r i : Bool} {fb w : AVal} {j : Bool} {m : AFields} {c b : Bool}
    (ha : All P (.obj o fs r i)) (hf : All P fb) (hm : AllF P m)
    (h : mergedObjA o fs r i fb j m c = .ok (w, b)) : All P w := by
  unfold mergedObjA at h
  simp only at h
  split at h
  · simp only [Res.bind_eq_ok, Res.ok.injEq, Prod.mk.injEq] at h
    obtain ⟨o', h1, rfl, _⟩ := h
    exact all_obj.2 ⟨hP.stack (allL_two ha hf) h1, hm⟩
  · split at h
    · simp only [Res.ok.injEq, Prod.mk.injEq] at h
      exact h.1 ▸ all_obj.2 (all_obj.1 ha)
    · simp only [Res.ok.injEq, Prod.mk.injEq] at h
      exact h.1 ▸ ha

mutual
theorem Closed.fallback : (a b c : AVal) → (x : Bool) → All P a → All P b → fallbackA a b = .ok (c, x) → All P c
  | .scalar o s, b, c, x, ha, hb, h => by
    simp only [fallbackA, Res.ok.injEq, Prod.mk.injEq] at h
    exact h.1 ▸ ha
  | .list o vs, b, c, x, ha, hb, h => by
    rw [fallbackA] at h
    split at h
    · simp only [Res.ok.injEq, Prod.mk.injEq] at h
      exact h.1 ▸ ha
    · split at h
      · exact hP.delay (allL_cons ha (all_unmerged hb)) h
      · exact hP.nonObject ha hb h
  | .obj o fs r i, b, c, x, ha, hb, h => by
    rw [fallbackA.eq_def] at h
    simp only at h
    split at h
    · simp only [Res.ok.injEq, Prod.mk.injEq] at h
      exact h.1 ▸ ha
    · split at h
      · exact hP.delay (allL_cons ha (all_unmerged hb)) h
      · split at h
        · rename_i o' gs r' j hx
          rw [Res.bind_eq_ok] at h
          obtain ⟨⟨m, chg⟩, hm, h⟩ := h
          have h1 := Closed.mergeFields fs gs m chg (all_obj.1 ha).2 (all_obj.1 hb).2 hm
          refine hP.mergedObj ha hb ?_ h
          intro f hf
          rcases List.mem_append.1 hf with hf | hf
          · exact h1 f hf
          · exact (all_obj.1 hb).2 f (List.mem_filter.1 hf).1
        · exact hP.nonObject ha hb h
  | .ref o n p opt k, b, c, x, ha, hb, h => by
    rw [fallbackA] at h
    split at h
    · exact hP.delay (allL_cons ha (all_unmerged hb)) h
    · exact hP.nonObject ha hb h
  | .concat o ps, b, c, x, ha, hb, h => by
    rw [fallbackA] at h
    split at h
    · exact hP.delay (allL_cons ha (all_unmerged hb)) h
    · exact hP.nonObject ha hb h
  | .dm o st, b, c, x, ha, hb, h => by
    rw [fallbackA] at h
    split at h
    · simp only [Res.ok.injEq, Prod.mk.injEq] at h
      exact h.1 ▸ ha
    · split at h
      · exact hP.delay (allL_cons ha (all_unmerged hb)) h
      · exact hP.nonObject ha hb h
  | .dmo o st, b, c, x, ha, hb, h => by
    rw [fallbackA] at h
    split at h
    · simp only [Res.ok.injEq, Prod.mk.injEq] at h
      exact h.1 ▸ ha
    · split at h
      · exact hP.delay (allL_cons ha (all_unmerged hb)) h
      · split at h
        · simp at h
        · exact hP.nonObject ha hb h
theorem Closed.mergeFields : (fs gs m : AFields) → (x : Bool) → AllF P fs → AllF P gs →
    mergeFieldsA fs gs = .ok (m, x) → AllF P m
  | [], gs, m, x, hf, hg, h => by
    simp only [mergeFieldsA, Res.ok.injEq, Prod.mk.injEq] at h
    exact h.1 ▸ hf
  | (k, v) :: fs, gs, m, x, hf, hg, h => by
    rw [mergeFieldsA] at h
    simp only [Res.bind_eq_ok] at h
    obtain ⟨⟨kept, c1⟩, hk, ⟨rest, c2⟩, hr, h⟩ := h
    simp only [Res.ok.injEq, Prod.mk.injEq] at h
    obtain ⟨rfl, _⟩ := h
    have hv : All P v := hf (k, v) (by simp)
    have h1 : All P kept := by
      split at hk
      · simp only [Res.ok.injEq, Prod.mk.injEq] at hk
        exact hk.1 ▸ hv
      · rename_i w hw
        exact Closed.fallback v w kept c1 hv (all_findKey hg hw) hk
    have h2 := Closed.mergeFields fs gs rest c2 (fun f h => hf f (by simp [h])) hg hr
    intro f hf'
    rcases List.mem_cons.1 hf' with rfl | hf'
    · exact h1
    · exact h2 f hf'
end

theorem Closed.join {env : Env} {a b : AVal} {o : Option AVal} (ha : All P a) (hb : All P b)
    (h : joinA env a b = .ok o) : ∀ v, o = some v → All P v := by
  unfold joinA at h
  split at h
  · simp at h
  · split at h
    · simp at h
    · split at h
      · rw [Res.bind_eq_ok] at h
        obtain ⟨⟨j, x⟩, hj, h⟩ := h
        simp only [Res.ok.injEq] at h
        rintro v rfl
        simp only [Option.some.injEq] at h
        exact h ▸ hP.fallback b a j x hb ha hj
      · split at h
        · simp only [Res.ok.injEq] at h
          subst h
          simp only [Option.some.injEq, forall_eq']
          exact all_list.2 ⟨hP.merge (all_list.1 ha).1 (all_list.1 hb).1,
            allL_append (all_list.1 ha).2 (all_list.1 hb).2⟩
        · repeat' split at h
          all_goals first
            | (simp at h; done)
            | (simp only [Res.ok.injEq] at h
               subst h
               simp only [Option.some.injEq, forall_eq', reduceCtorEq, false_implies, implies_true]
               first | done | exact ha | exact all_scalar.2 (hP.merge (all_origin ha) (all_origin hb)))

theorem Closed.joinLoop {env : Env} : (done : List AVal) → (a : AVal) → (vs ws : List AVal) → AllL P done → All P a →
    AllL P vs → joinLoopA env done a vs = .ok ws → AllL P ws
  | done, a, [], ws, hd, ha, hv, h => by
    simp only [joinLoopA, Res.ok.injEq] at h
    subst h
    exact allL_append hd (allL_cons ha (by simp [AllL]))
  | done, a, b :: vs, ws, hd, ha, hv, h => by
    rw [joinLoopA, Res.bind_eq_ok] at h
    obtain ⟨o, ho, h⟩ := h
    have hj := hP.join ha (hv b (by simp)) ho
    split at h
    · rename_i j
      exact Closed.joinLoop done j vs ws hd (hj j rfl) (fun v h => hv v (by simp [h])) h
    · exact Closed.joinLoop (done ++ [a]) b vs ws (allL_append hd (allL_cons ha (by simp [AllL]))) (hv b (by simp))
        (fun v h => hv v (by simp [h])) h

omit hP in
theorem all_flatten : (vs : List AVal) → AllL P vs → AllL P (flattenA vs)
  | [], _ => by simp [flattenA, AllL]
  | v :: vs, h => by
    have h1 := all_flatten vs (fun w hw => h w (by simp [hw]))
    have h2 := h v (by simp)
    unfold flattenA
    split
    · simp [AllL]
    · rename_i heq
      simp only [List.cons.injEq] at heq
      obtain ⟨rfl, rfl⟩ := heq
      exact allL_append (all_concat.1 h2).2 h1
    · rename_i heq
      simp only [List.cons.injEq] at heq
      obtain ⟨rfl, rfl⟩ := heq
      exact allL_cons h2 h1

theorem Closed.concatenate {env : Env} {ps : List AVal} {o : Option AVal} (h : AllL P ps)
    (hc : concatenateA env ps = .ok o) : ∀ v, o = some v → All P v := by
  unfold concatenateA at hc
  rw [Res.bind_eq_ok] at hc
  obtain ⟨c, h1, hc⟩ := hc
  have h2 : AllL P c := by
    unfold consolidateA at h1
    split at h1
    · simp only [Res.ok.injEq] at h1
      exact h1 ▸ h
    · have hf := all_flatten ps h
      split at h1
      · simp only [Res.ok.injEq] at h1
        subst h1
        simp [AllL]
      · rename_i v vs heq
        rw [heq] at hf
        exact hP.joinLoop [] v vs c (by simp [AllL]) (hf v (by simp)) (fun w hw => hf w (by simp [hw])) h1
  split at hc
  · simp only [Res.ok.injEq] at hc
    subst hc
    simp
  · simp only [Res.ok.injEq] at hc
    subst hc
    simp only [Option.some.injEq, forall_eq']
    exact h2 _ (by simp)
  · rw [Res.bind_eq_ok] at hc
    obtain ⟨o', ho, hc⟩ := hc
    have hp : P o' := by
      refine hP.all ?_ ho
      intro x hx
      rw [List.mem_map] at hx
      obtain ⟨w, hw, rfl⟩ := hx
      exact all_origin (h2 w hw)
    repeat' split at hc
    all_goals first
      | (simp at hc; done)
      | (simp only [Res.ok.injEq] at hc
         subst hc
         simp only [Option.some.injEq, forall_eq']
         exact all_concat.2 ⟨hp, h2⟩)

theorem Closed.prep {cs : List Str} {v : AVal} (hc : ∀ c ∈ cs, K c) (h : All P v) : All P (Notes.prepend cs v) := by
  unfold Notes.prepend
  split
  · exact h
  · exact all_withOrigin h (hP.prepend (all_origin h) hc)

theorem Closed.app {cs : List Str} {v : AVal} (hc : ∀ c ∈ cs, K c) (h : All P v) : All P (Notes.append cs v) :=
  all_withOrigin h (hP.append (all_origin h) hc)

omit hP in
theorem all_underPath {v : AVal} (h : All P v) : (p : Path) → (w : AVal) → underPathA p v = .ok w → All P w
  | [], w, hw => by simp [underPathA] at hw
  | [k], w, hw => by
    simp only [underPathA, Res.ok.injEq] at hw
    subst hw
    refine all_obj.2 ⟨by simpa [Origin.withComments] using all_origin h, ?_⟩
    intro f hf
    simp only [List.mem_singleton] at hf
    exact hf ▸ h
  | k :: k' :: p, w, hw => by
    rw [underPathA, Res.bind_eq_ok] at hw
    · obtain ⟨o, ho, hw⟩ := hw
      simp only [Res.ok.injEq] at hw
      subst hw
      refine all_obj.2 ⟨by simpa [Origin.withComments] using all_origin h, ?_⟩
      intro f hf
      simp only [List.mem_singleton] at hf
      exact hf ▸ all_underPath h (k' :: p) o ho
    · simp

omit hP in
theorem all_putKey {fs : AFields} {k : Str} {v : AVal} (hf : AllF P fs) (hv : All P v) : AllF P (putKey k v fs) := by
  induction fs with
  | nil => intro f h; simp only [putKey, List.mem_singleton] at h; exact h ▸ hv
  | cons g fs ih =>
    obtain ⟨k', w⟩ := g
    rw [putKey]
    split
    · intro f h
      rcases List.mem_cons.1 h with rfl | h
      · exact hv
      · exact hf f (by simp [h])
    · intro f h
      rcases List.mem_cons.1 h with rfl | h
      · exact hf (k', w) (by simp)
      · exact ih (fun g hg => hf g (by simp [hg])) f h

theorem Closed.putMerged {fs fs' : AFields} {k : Str} {v : AVal} (hf : AllF P fs) (hv : All P v)
    (h : putMergedA fs k v = .ok fs') : AllF P fs' := by
  unfold putMergedA at h
  split at h
  · simp only [Res.ok.injEq] at h
    exact h ▸ all_putKey hf hv
  · rename_i old ho
    rw [Res.bind_eq_ok] at h
    obtain ⟨⟨m, x⟩, hm, h⟩ := h
    simp only [Res.ok.injEq] at h
    exact h ▸ all_putKey hf (hP.fallback v old m x hv (all_findKey hf ho) hm)

theorem Closed.putField {json : Bool} {fs fs' : AFields} {p : Path} {v : AVal} (hf : AllF P fs) (hv : All P v)
    (h : putFieldA json fs p v = .ok fs') : AllF P fs' := by
  unfold putFieldA at h
  split at h
  · simp at h
  · split at h
    · simp at h
    · exact hP.putMerged hf hv h
  · split at h
    · simp at h
    · rw [Res.bind_eq_ok] at h
      obtain ⟨o, ho, h⟩ := h
      exact hP.putMerged hf (all_underPath hv _ o ho) h

theorem Closed.putAll : (gs fs fs' : AFields) → AllF P fs → AllF P gs → putAllA fs gs = .ok fs' → AllF P fs'
  | [], fs, fs', hf, hg, h => by
    simp only [putAllA, Res.ok.injEq] at h
    exact h ▸ hf
  | (k, v) :: gs, fs, fs', hf, hg, h => by
    rw [putAllA, Res.bind_eq_ok] at h
    obtain ⟨m, hm, h⟩ := h
    exact Closed.putAll gs m fs' (hP.putMerged hf (hg (k, v) (by simp)) hm) (fun g h => hg g (by simp [h])) h

/-- The includer yields values with such origins only. -/
def IncP (P : Origin → Prop) (inc : AIncluder) : Prop :=
  (∀ name n v m, inc.file name n = .ok (v, m) → All P v) ∧
  (∀ name n v m, inc.heuristic name n = .ok (v, m) → All P v)

theorem Closed.parseInclude {env : Env} {inc : AIncluder} (hi : IncP P inc) {arr : Nat} {kind : IncludeKind}
    {cs : List Node} {fs fs' : AFields} {n m : Nat} (hf : AllF P fs)
    (h : parseIncludeA env inc arr kind cs fs n = .ok (fs', m)) : AllF P fs' := by
  unfold parseIncludeA at h
  rw [Res.bind_eq_ok] at h
  obtain ⟨⟨o, n1⟩, ho, h⟩ := h
  simp only [Res.bind_eq_ok] at h
  obtain ⟨fs1, h1, h⟩ := h
  simp only [Res.ok.injEq, Prod.mk.injEq] at h
  obtain ⟨rfl, _⟩ := h
  have hoP : All P o := by
    unfold callIncluderA at ho
    split at ho
    · rw [Res.bind_eq_ok] at ho
      obtain ⟨⟨nm, k⟩, _, ho⟩ := ho
      exact hi.1 _ _ _ _ ho
    · rw [Res.bind_eq_ok] at ho
      obtain ⟨⟨nm, k⟩, _, ho⟩ := ho
      exact hi.2 _ _ _ _ ho
    · simp at ho
    · simp at ho
  unfold putIncludedA at h1
  split at h1
  · simp at h1
  · split at h1
    · exact hP.putAll _ _ _ hf (all_obj.1 hoP).2 h1
    · simp at h1
    · simp at h1

theorem Closed.plusValue {env : Env} {outer : Path} {v w : AVal} {n m : Nat} (hv : All P v)
    (h : plusValueA env outer v n = .ok (w, m)) : All P w := by
  unfold plusValueA at h
  rw [Res.bind_eq_ok] at h
  obtain ⟨o, ho, h⟩ := h
  have := hP.concatenate (allL_two (all_ref.2 (all_origin hv))
    (all_list.2 ⟨all_origin hv, allL_cons hv (by simp [AllL])⟩)) ho
  split at h
  · simp only [Res.ok.injEq, Prod.mk.injEq] at h
    exact h.1 ▸ this _ rfl
  · simp at h

omit hP in
/-- What is assumed of the scalars and comments of a tree. -/
def LeafOk (K : Str → Prop) (N : Int) : Node → Prop
  | .simple t => ∀ l, t.originLine = some l → 1 ≤ l ∧ l ≤ N
  | .comment t => K (commentText t)
  | _ => True

/-- The number of newlines. -/
def nls (ns : List Node) : Int := (Tok.textList (Node.tokensList ns)).count '\n'

omit hP in
theorem nls_cons (n : Node) (ns : List Node) : nls (n :: ns) = nls [n] + nls ns := by
  simp [nls, Node.tokensList, Tok.textList_append]

omit hP in
theorem nls_nonneg (ns : List Node) : 0 ≤ nls ns := by simp [nls]

omit hP in
theorem nls_newline (l : Int) : nls [.single (.newline l)] = 1 := by
  simp [nls, Node.tokensList, Node.tokens, Tok.textList, Tok.text]

omit hP in
theorem nls_wrap {ns : List Node} {n : Node}
    (hn : n = .field ns ∨ n = .object ns ∨ n = .array ns ∨ n = .concat ns) : nls [n] = nls ns := by
  rcases hn with rfl | rfl | rfl | rfl <;> simp [nls, Node.tokensList, Node.tokens]

open DocParser (leaves leavesList)

/-- The assumption for a list of nodes. -/
def LeavesOk (K : Str → Prop) (N : Int) (ns : List Node) : Prop := ∀ n ∈ leavesList ns, LeafOk K N n

variable {N : Int}

omit hP in
theorem leavesOk_cons {n : Node} {ns : List Node} : LeavesOk K N (n :: ns) ↔ LeavesOk K N [n] ∧ LeavesOk K N ns := by
  simp only [LeavesOk, leavesList, List.mem_append, List.append_nil]
  constructor
  · intro h; exact ⟨fun x hx => h x (Or.inl hx), fun x hx => h x (Or.inr hx)⟩
  · rintro ⟨h1, h2⟩ x (hx | hx)
    · exact h1 x hx
    · exact h2 x hx

omit hP in
theorem leavesOk_wrap {ns : List Node} {n : Node} (h : LeavesOk K N [n])
    (hn : n = .field ns ∨ n = .object ns ∨ n = .array ns ∨ n = .concat ns) : LeavesOk K N ns := by
  rcases hn with rfl | rfl | rfl | rfl <;> simpa [LeavesOk, leavesList, leaves] using h

omit hP in
theorem leavesOk_comment {t : Tok} (h : LeavesOk K N [.comment t]) : K (commentText t) := by
  simpa [LeavesOk, leavesList, leaves, LeafOk] using h

omit hP in
theorem trailing_ok {ns : List Node} {c : Str} (h : LeavesOk K N ns) (hc : trailing ns = some c) : K c := by
  induction ns with
  | nil => simp [trailing] at hc
  | cons n ns ih =>
    have h1 := (leavesOk_cons.1 h).1
    have h2 := (leavesOk_cons.1 h).2
    unfold trailing at hc
    split at hc
    · rename_i heq
      simp only [List.cons.injEq] at heq
      obtain ⟨rfl, rfl⟩ := heq
      simp only [Option.some.injEq] at hc
      exact hc ▸ leavesOk_comment h1
    · rename_i heq
      simp only [List.cons.injEq] at heq
      obtain ⟨rfl, rfl⟩ := heq
      exact ih h2 hc
    · rename_i heq
      simp only [List.cons.injEq] at heq
      obtain ⟨rfl, rfl⟩ := heq
      exact ih h2 hc
    · simp at hc

theorem Closed.appTrailing {ns : List Node} {v : AVal} (h : LeavesOk K N ns) (hv : All P v) :
    All P (appendTrailing ns v) := by
  unfold appendTrailing
  split
  · rename_i c hc
    exact hP.app (by simpa using trailing_ok h hc) hv
  · exact hv

omit hP in
theorem fieldComments_ok {ns : List Node} (h : LeavesOk K N ns) : ∀ c ∈ Node.fieldComments ns, K c := by
  induction ns with
  | nil => simp [Node.fieldComments]
  | cons n ns ih =>
    have h1 := (leavesOk_cons.1 h).1
    have h2 := ih (leavesOk_cons.1 h).2
    unfold Node.fieldComments
    split
    · simp
    · rename_i heq
      simp only [List.cons.injEq] at heq
      obtain ⟨rfl, rfl⟩ := heq
      intro c hc
      rcases List.mem_cons.1 hc with rfl | hc
      · exact leavesOk_comment h1
      · exact h2 c hc
    · rename_i heq
      simp only [List.cons.injEq] at heq
      obtain ⟨rfl, rfl⟩ := heq
      exact h2

omit hP in
theorem getValueA_ok {env : Env} {base : Origin} {t : Tok} {n m : Nat} {v : AVal}
    (hb : ∀ l : Int, 1 ≤ l → l ≤ N → P (base.withLineNumber l)) (ht : LeavesOk K N [.simple t])
    (h : getValueA env base t n = .ok (v, m)) : All P v := by
  have ht : ∀ l, t.originLine = some l → 1 ≤ l ∧ l ≤ N := by
    simpa [LeavesOk, leavesList, leaves, LeafOk] using ht
  unfold getValueA at h
  split at h
  · simp only [Res.ok.injEq, Prod.mk.injEq] at h
    have := ht _ rfl
    exact h.1 ▸ all_scalar.2 (hb _ this.1 this.2)
  · simp only [Res.ok.injEq, Prod.mk.injEq] at h
    have := ht _ rfl
    exact h.1 ▸ all_scalar.2 (hb _ this.1 this.2)
  · simp only [Res.bind_eq_ok, Res.ok.injEq, Prod.mk.injEq] at h
    obtain ⟨p, _, rfl, _⟩ := h
    have := ht _ rfl
    exact all_ref.2 (hb _ this.1 this.2)
  · simp at h

omit hP in
theorem comment_ok {s : Loop} {t : Tok} (h : ∀ c ∈ s.comments, K c) (ht : LeavesOk K N [.comment t]) :
    ∀ c ∈ (s.comment t).comments, K c := by
  intro c hc
  simp only [Loop.comment, List.mem_append, List.mem_singleton] at hc
  rcases hc with hc | rfl
  · exact h c hc
  · exact leavesOk_comment ht

omit hP in
theorem newline_ok {s : Loop} (h : ∀ c ∈ s.comments, K c) : ∀ c ∈ s.newline.comments, K c := by
  intro c hc
  simp only [Loop.newline] at hc
  split at hc
  · simp at hc
  · exact h c hc

omit hP in
theorem comments_append {a b : List Str} (ha : ∀ c ∈ a, K c) (hb : ∀ c ∈ b, K c) : ∀ c ∈ a ++ b, K c := by
  intro c hc
  rcases List.mem_append.1 hc with hc | hc
  · exact ha c hc
  · exact hb c hc

variable {env : Env} {base : Origin} {inc : AIncluder}
  (hb : ∀ l : Int, 1 ≤ l → l ≤ N → P (base.withLineNumber l)) (hi : IncP P inc) (json : Bool)
include hb hi

mutual
theorem Closed.parseValue (arr : Nat) (outer : Option Path) : (nd : Node) → (cs : List Str) → (l : Int) → (n : Nat) →
    (v : AVal) → (l' : Int) → (n' : Nat) → LeavesOk K N [nd] → (∀ c ∈ cs, K c) → 1 ≤ l → l + nls [nd] ≤ N →
    parseValueA env base inc json arr outer nd cs l n = .ok (v, l', n') → All P v ∧ l ≤ l' ∧ l' ≤ l + nls [nd]
  | .simple t, cs, l, n, v, l', n', hl, hc, h1, h2, h => by
    simp only [parseValueA, Res.bind_eq_ok] at h
    obtain ⟨⟨w, m⟩, hw, h⟩ := h
    simp only [Res.ok.injEq, Prod.mk.injEq] at h
    obtain ⟨rfl, rfl, _⟩ := h
    have := nls_nonneg [.simple t]
    exact ⟨hP.prep hc (getValueA_ok hb hl hw), by omega, by omega⟩
  | .object ns, cs, l, n, v, l', n', hl, hc, h1, h2, h => by
    simp only [parseValueA, Res.bind_eq_ok] at h
    obtain ⟨⟨fs, l1, m⟩, hw, h⟩ := h
    simp only [Res.ok.injEq, Prod.mk.injEq] at h
    obtain ⟨rfl, rfl, _⟩ := h
    rw [nls_wrap (ns := ns) (by simp)] at h2 ⊢
    have := nls_nonneg ns
    obtain ⟨g1, g2, g3⟩ := Closed.parseFields arr outer ns { line := l } false [] n fs l1 m
      (leavesOk_wrap hl (by simp)) (by simp) h1 h2 (by simp [AllF]) hw
    exact ⟨hP.prep hc (all_obj.2 ⟨hb l h1 (by omega), g1⟩), g2, g3⟩
  | .array ns, cs, l, n, v, l', n', hl, hc, h1, h2, h => by
    simp only [parseValueA, Res.bind_eq_ok] at h
    obtain ⟨⟨vs, l1, m⟩, hw, h⟩ := h
    simp only [Res.ok.injEq, Prod.mk.injEq] at h
    obtain ⟨rfl, rfl, _⟩ := h
    rw [nls_wrap (ns := ns) (by simp)] at h2 ⊢
    have := nls_nonneg ns
    obtain ⟨g1, g2, g3⟩ := Closed.parseElems (arr + 1) outer ns { line := l } none n vs l1 m
      (leavesOk_wrap hl (by simp)) (by simp) h1 h2 (by simp) hw
    exact ⟨hP.prep hc (all_list.2 ⟨hb l h1 (by omega), g1⟩), g2, g3⟩
  | .concat ns, cs, l, n, v, l', n', hl, hc, h1, h2, h => by
    rw [parseValueA] at h
    split at h
    · simp at h
    · simp only [Res.bind_eq_ok] at h
      obtain ⟨⟨vs, l1, m⟩, hw, o, ho, w, hw2, h⟩ := h
      simp only [Res.ok.injEq, Prod.mk.injEq] at h
      obtain ⟨rfl, rfl, _⟩ := h
      rw [nls_wrap (ns := ns) (by simp)] at h2 ⊢
      obtain ⟨g1, g2, g3⟩ := Closed.parsePieces arr outer ns l n vs l1 m
        (leavesOk_wrap hl (by simp)) h1 h2 hw
      refine ⟨hP.prep hc (hP.concatenate g1 ho w ?_), g2, g3⟩
      cases o with
      | none => simp [nonNullA] at hw2
      | some x => simpa [nonNullA] using hw2
  | .single _, _, _, _, _, _, _, _, _, _, _, h => by simp [parseValueA] at h
  | .comment _, _, _, _, _, _, _, _, _, _, _, h => by simp [parseValueA] at h
  | .path _ _, _, _, _, _, _, _, _, _, _, _, h => by simp [parseValueA] at h
  | .field _, _, _, _, _, _, _, _, _, _, _, h => by simp [parseValueA] at h
  | .incl _ _, _, _, _, _, _, _, _, _, _, _, h => by simp [parseValueA] at h
  termination_by structural nd => nd
theorem Closed.parsePieces (arr : Nat) (outer : Option Path) : (ns : List Node) → (l : Int) → (n : Nat) →
    (vs : List AVal) → (l' : Int) → (n' : Nat) → LeavesOk K N ns → 1 ≤ l → l + nls ns ≤ N →
    parsePiecesA env base inc json arr outer ns l n = .ok (vs, l', n') → AllL P vs ∧ l ≤ l' ∧ l' ≤ l + nls ns
  | [], l, n, vs, l', n', hl, h1, h2, h => by
    simp only [parsePiecesA, Res.ok.injEq, Prod.mk.injEq] at h
    obtain ⟨rfl, rfl, _⟩ := h
    have := nls_nonneg []
    exact ⟨by simp [AllL], by omega, by omega⟩
  | c :: ns, l, n, vs, l', n', hl, h1, h2, h => by
    obtain ⟨hl1, hl2⟩ := leavesOk_cons.1 hl
    rw [nls_cons] at h2 ⊢
    have k1 := nls_nonneg [c]
    have k2 := nls_nonneg ns
    rw [parsePiecesA] at h
    split at h
    · simp only [Res.bind_eq_ok] at h
      obtain ⟨⟨v, l1, m⟩, hv, ⟨us, l2, m2⟩, hu, h⟩ := h
      simp only [Res.ok.injEq, Prod.mk.injEq] at h
      obtain ⟨rfl, rfl, _⟩ := h
      obtain ⟨g1, g2, g3⟩ := Closed.parseValue arr outer c [] l n v l1 m hl1 (by simp) h1 (by omega) hv
      obtain ⟨e1, e2, e3⟩ := Closed.parsePieces arr outer ns l1 m us l2 m2 hl2 (by omega) (by omega) hu
      exact ⟨allL_cons g1 e1, by first | omega | (simp only; omega), by first | omega | (simp only; omega)⟩
    · obtain ⟨e1, e2, e3⟩ := Closed.parsePieces arr outer ns l n vs l' n' hl2 h1 (by omega) h
      exact ⟨e1, e2, by omega⟩
  termination_by structural ns => ns
theorem Closed.parseElems (arr : Nat) (outer : Option Path) : (ns : List Node) → (s : Loop) → (v : Option AVal) →
    (n : Nat) → (vs : List AVal) → (l' : Int) → (n' : Nat) → LeavesOk K N ns → (∀ c ∈ s.comments, K c) →
    1 ≤ s.line → s.line + nls ns ≤ N → (∀ w, v = some w → All P w) →
    parseElemsA env base inc json arr outer ns s v n = .ok (vs, l', n') →
    AllL P vs ∧ s.line ≤ l' ∧ l' ≤ s.line + nls ns
  | [], s, v, n, vs, l', n', hl, hc, h1, h2, hv, h => by
    simp only [parseElemsA, Res.ok.injEq, Prod.mk.injEq] at h
    obtain ⟨rfl, rfl, _⟩ := h
    have := nls_nonneg []
    refine ⟨?_, by omega, by omega⟩
    cases v with
    | none => simp [AllL]
    | some w => exact allL_cons (hP.app hc (hv w rfl)) (by simp [AllL])
  | c :: ns, s, v, n, vs, l', n', hl, hc, h1, h2, hv, h => by
    obtain ⟨hl1, hl2⟩ := leavesOk_cons.1 hl
    rw [nls_cons] at h2 ⊢
    have k1 := nls_nonneg [c]
    have k2 := nls_nonneg ns
    rw [parseElemsA.eq_def] at h
    simp only at h
    split at h
    · simp only [Res.bind_eq_ok] at h
      obtain ⟨⟨w, l1, m⟩, hw, ⟨us, l2, m2⟩, hu, h⟩ := h
      simp only [Res.ok.injEq, Prod.mk.injEq] at h
      obtain ⟨rfl, rfl, _⟩ := h
      obtain ⟨g1, g2, g3⟩ := Closed.parseValue arr outer c _ s.line n w l1 m hl1
        (by split; · simp
            · exact hc) h1 (by omega) hw
      obtain ⟨e1, e2, e3⟩ := Closed.parseElems arr outer ns { line := l1 } (some w) m us l2 m2 hl2 (by simp)
        (by first | omega | (simp only; omega)) (by first | omega | (simp only; omega)) (by rintro x ⟨rfl⟩; exact g1) hu
      simp only at e2 e3
      refine ⟨allL_append ?_ e1, by first | omega | (simp only; omega), by first | omega | (simp only; omega)⟩
      cases v with
      | none => simp [AllL]
      | some w => exact allL_cons (hP.app hc (hv w rfl)) (by simp [AllL])
    · split at h
      · obtain ⟨e1, e2, e3⟩ := Closed.parseElems arr outer ns (s.comment _) v n vs l' n' hl2 (comment_ok hc hl1)
          h1 (by simp only [Loop.comment]; omega) hv h
        simp only [Loop.comment] at e2 e3
        exact ⟨e1, e2, by omega⟩
      · rw [nls_newline] at h2 ⊢
        obtain ⟨e1, e2, e3⟩ := Closed.parseElems arr outer ns s.newline none n vs l' n' hl2 (newline_ok hc)
          (by simp only [Loop.newline]; omega) (by simp only [Loop.newline]; omega) (by simp) h
        simp only [Loop.newline] at e2 e3
        exact ⟨e1, by omega, by omega⟩
      · rename_i w hx
        rw [nls_newline] at h2 ⊢
        simp only [Res.bind_eq_ok] at h
        obtain ⟨⟨us, l2, m2⟩, hu, h⟩ := h
        simp only [Res.ok.injEq, Prod.mk.injEq] at h
        obtain ⟨rfl, rfl, _⟩ := h
        obtain ⟨e1, e2, e3⟩ := Closed.parseElems arr outer ns _ none n us l2 m2 hl2 (by simp)
          (by first | omega | (simp only; omega)) (by first | omega | (simp only; omega)) (by simp) hu
        simp only at e2 e3
        exact ⟨allL_cons (hP.app hc (hv w rfl)) e1, by first | omega | (simp only; omega), by first | omega | (simp only; omega)⟩
      · obtain ⟨e1, e2, e3⟩ := Closed.parseElems arr outer ns s v n vs l' n' hl2 hc h1 (by omega) hv h
        exact ⟨e1, e2, by omega⟩
  termination_by structural ns => ns
theorem Closed.parseFieldValue (arr : Nat) (outer : Option Path) : (ns : List Node) → (cs : List Str) → (l : Int) →
    (n : Nat) → (v : AVal) → (l' : Int) → (n' : Nat) → LeavesOk K N ns → (∀ c ∈ cs, K c) → 1 ≤ l → l + nls ns ≤ N →
    parseFieldValueA env base inc json arr outer ns cs l n = .ok (v, l', n') → All P v ∧ l ≤ l' ∧ l' ≤ l + nls ns
  | [], cs, l, n, v, l', n', hl, hc, h1, h2, h => by simp [parseFieldValueA] at h
  | c :: ns, cs, l, n, v, l', n', hl, hc, h1, h2, h => by
    obtain ⟨hl1, hl2⟩ := leavesOk_cons.1 hl
    rw [nls_cons] at h2 ⊢
    have k1 := nls_nonneg [c]
    have k2 := nls_nonneg ns
    rw [parseFieldValueA] at h
    split at h
    · obtain ⟨g1, g2, g3⟩ := Closed.parseValue arr outer c cs l n v l' n' hl1 hc h1 (by omega) h
      exact ⟨g1, g2, by omega⟩
    · obtain ⟨g1, g2, g3⟩ := Closed.parseFieldValue arr outer ns cs l n v l' n' hl2 hc h1 (by omega) h
      exact ⟨g1, g2, by omega⟩
  termination_by structural ns => ns
theorem Closed.parseFields (arr : Nat) (outer : Option Path) : (ns : List Node) → (s : Loop) → (taken : Bool) →
    (fs : AFields) → (n : Nat) → (fs' : AFields) → (l' : Int) → (n' : Nat) → LeavesOk K N ns →
    (∀ c ∈ s.comments, K c) → 1 ≤ s.line → s.line + nls ns ≤ N → AllF P fs →
    parseFieldsA env base inc json arr outer ns s taken fs n = .ok (fs', l', n') →
    AllF P fs' ∧ s.line ≤ l' ∧ l' ≤ s.line + nls ns
  | [], s, taken, fs, n, fs', l', n', hl, hc, h1, h2, hf, h => by
    simp only [parseFieldsA, Res.ok.injEq, Prod.mk.injEq] at h
    obtain ⟨rfl, rfl, _⟩ := h
    have := nls_nonneg []
    exact ⟨hf, by omega, by omega⟩
  | c :: ns, s, taken, fs, n, fs', l', n', hl, hc, h1, h2, hf, h => by
    obtain ⟨hl1, hl2⟩ := leavesOk_cons.1 hl
    rw [nls_cons] at h2 ⊢
    have k1 := nls_nonneg [c]
    have k2 := nls_nonneg ns
    cases c with
    | comment t =>
      rw [parseFieldsA] at h
      cases taken with
      | true =>
        simp only [if_true] at h
        obtain ⟨e1, e2, e3⟩ := Closed.parseFields arr outer ns s false fs n fs' l' n' hl2 hc h1 (by omega) hf h
        exact ⟨e1, e2, by omega⟩
      | false =>
        simp only [Bool.false_eq_true, if_false] at h
        obtain ⟨e1, e2, e3⟩ := Closed.parseFields arr outer ns (s.comment t) false fs n fs' l' n' hl2
          (comment_ok hc hl1) h1 (by simp only [Loop.comment]; omega) hf h
        simp only [Loop.comment] at e2 e3
        exact ⟨e1, e2, by omega⟩
    | incl cs kind =>
      rw [parseFieldsA] at h
      split at h
      · obtain ⟨e1, e2, e3⟩ := Closed.parseFields arr outer ns s false fs n fs' l' n' hl2 hc h1 (by omega) hf h
        exact ⟨e1, e2, by omega⟩
      · simp only [Res.bind_eq_ok] at h
        obtain ⟨⟨fs1, m⟩, hinc, h⟩ := h
        obtain ⟨e1, e2, e3⟩ := Closed.parseFields arr outer ns { s with afterNewline := false } false fs1 m fs' l' n'
          hl2 hc h1 (by first | omega | (simp only; omega)) (hP.parseInclude hi hf hinc) h
        simp only at e2 e3
        exact ⟨e1, e2, by omega⟩
    | field cs =>
      have hlc : LeavesOk K N cs := leavesOk_wrap hl1 (by simp)
      rw [nls_wrap (ns := cs) (by simp)] at h2 k1 ⊢
      rw [parseFieldsA] at h
      simp only [Res.bind_eq_ok] at h
      obtain ⟨⟨p, x⟩, hp, h⟩ := h
      simp only at h
      split at h
      · split at h
        · simp at h
        · simp only [Res.bind_eq_ok] at h
          obtain ⟨⟨v, l1, m⟩, hv, ⟨w, m2⟩, hw, fs1, hput, h⟩ := h
          obtain ⟨g1, g2, g3⟩ := Closed.parseFieldValue _ _ cs _ s.line n v l1 m hlc
            (comments_append hc (fieldComments_ok hlc)) h1 (by omega) hv
          obtain ⟨e1, e2, e3⟩ := Closed.parseFields arr outer ns _ _ fs1 m2 fs' l' n' hl2 (by simp)
            (by first | omega | (simp only; omega)) (by first | omega | (simp only; omega))
            (hP.putField hf (hP.appTrailing hl2 (hP.plusValue g1 hw)) hput) h
          simp only at e2 e3
          exact ⟨e1, by omega, by omega⟩
      · simp only [Res.bind_eq_ok] at h
        obtain ⟨⟨v, l1, m⟩, hv, fs1, hput, h⟩ := h
        obtain ⟨g1, g2, g3⟩ := Closed.parseFieldValue _ _ cs _ s.line n v l1 m hlc
          (comments_append hc (fieldComments_ok hlc)) h1 (by omega) hv
        obtain ⟨e1, e2, e3⟩ := Closed.parseFields arr outer ns _ _ fs1 m fs' l' n' hl2 (by simp)
          (by first | omega | (simp only; omega)) (by first | omega | (simp only; omega))
          (hP.putField hf (hP.appTrailing hl2 g1) hput) h
        simp only at e2 e3
        exact ⟨e1, by omega, by omega⟩
    | single t =>
      by_cases ht : ∃ x, t = .newline x
      · obtain ⟨x, rfl⟩ := ht
        rw [parseFieldsA] at h
        rw [nls_newline] at h2 ⊢
        obtain ⟨e1, e2, e3⟩ := Closed.parseFields arr outer ns s.newline taken fs n fs' l' n' hl2 (newline_ok hc)
          (by simp only [Loop.newline]; omega) (by simp only [Loop.newline]; omega) hf h
        simp only [Loop.newline] at e2 e3
        exact ⟨e1, by omega, by omega⟩
      · have h : parseFieldsA env base inc json arr outer ns s taken fs n = .ok (fs', l', n') := by
          cases t <;> first
            | exact absurd ⟨_, rfl⟩ ht
            | (simp only [parseFieldsA] at h; exact h)
        obtain ⟨e1, e2, e3⟩ := Closed.parseFields arr outer ns s taken fs n fs' l' n' hl2 hc h1 (by omega) hf h
        exact ⟨e1, e2, by omega⟩
    | _ =>
      simp only [parseFieldsA] at h
      obtain ⟨e1, e2, e3⟩ := Closed.parseFields arr outer ns s taken fs n fs' l' n' hl2 hc h1 (by omega) hf h
      exact ⟨e1, e2, by omega⟩
  termination_by structural ns => ns
end

theorem Closed.parseRoot : (ns : List Node) → (s : Loop) → (r : Option AVal) → (n : Nat) → (r' : Option AVal) →
    (n' : Nat) → LeavesOk K N ns → (∀ c ∈ s.comments, K c) → 1 ≤ s.line → s.line + nls ns ≤ N →
    (∀ w, r = some w → All P w) → parseRootA env base inc json ns s r n = .ok (r', n') → ∀ w, r' = some w → All P w
  | [], s, r, n, r', n', hl, hc, h1, h2, hr, h => by
    simp only [parseRootA, Res.ok.injEq, Prod.mk.injEq] at h
    exact h.1 ▸ hr
  | c :: ns, s, r, n, r', n', hl, hc, h1, h2, hr, h => by
    obtain ⟨hl1, hl2⟩ := leavesOk_cons.1 hl
    rw [nls_cons] at h2
    have k1 := nls_nonneg [c]
    have k2 := nls_nonneg ns
    rw [parseRootA.eq_def] at h
    simp only at h
    split at h
    · simp only [Res.bind_eq_ok] at h
      obtain ⟨⟨v, l1, m⟩, hv, h⟩ := h
      obtain ⟨g1, g2, g3⟩ := hP.parseValue hb hi json 0 none c s.comments s.line n v l1 m hl1 hc h1 (by omega) hv
      exact Closed.parseRoot ns { line := l1 } (some v) m r' n' hl2 (by simp) (by first | omega | (simp only; omega))
        (by first | omega | (simp only; omega)) (by rintro x ⟨rfl⟩; exact g1) h
    · split at h
      · exact Closed.parseRoot ns _ r n r' n' hl2 (comment_ok hc hl1) h1 (by simp only [Loop.comment]; omega) hr h
      · simp only [Res.ok.injEq, Prod.mk.injEq] at h
        rintro w hw
        rw [← h.1, Option.some.injEq] at hw
        exact hw ▸ hP.app hc (hr _ rfl)
      · rw [nls_newline] at h2
        exact Closed.parseRoot ns s.newline none n r' n' hl2 (newline_ok hc) (by simp only [Loop.newline]; omega)
          (by simp only [Loop.newline]; omega) (by simp) h
      · exact Closed.parseRoot ns s r n r' n' hl2 hc h1 (by omega) hr h

end Notes
end Hocon
