import Verif.Value
import Mathlib.Data.List.Nodup

/-!
# Lemmas about merging
-/

set_option autoImplicit false

namespace Hocon
namespace Value

/-! ## Maps -/

@[simp] theorem findKey_nil (k : Str) : findKey [] k = none := rfl

theorem findKey_cons (k' : Str) (v : Value) (r : Fields) (k : Str) :
    findKey ((k', v) :: r) k = if k' = k then some v else findKey r k := rfl

theorem findKey_mem {fs : Fields} {k : Str} {v : Value} (h : findKey fs k = some v) :
    (k, v) ∈ fs := by
  induction fs with
  | nil => simp at h
  | cons f fs ih =>
    obtain ⟨k', w⟩ := f
    rw [findKey_cons] at h
    split at h
    · rename_i hk; subst hk; simp only [Option.some.injEq] at h; subst h; simp
    · exact List.mem_cons_of_mem _ (ih h)

theorem findKey_none {fs : Fields} {k : Str} : findKey fs k = none ↔ k ∉ keysOf fs := by
  induction fs with
  | nil => simp [keysOf]
  | cons f fs ih =>
    obtain ⟨k', w⟩ := f
    rw [findKey_cons]
    split
    · rename_i hk; subst hk; simp [keysOf]
    · rename_i hk
      rw [ih]
      simp only [keysOf, List.map_cons, List.mem_cons, not_or]
      constructor
      · intro h; exact ⟨fun e => hk e.symm, h⟩
      · intro h; exact h.2

theorem findKey_append (fs gs : Fields) (k : Str) :
    findKey (fs ++ gs) k = (findKey fs k).or (findKey gs k) := by
  induction fs with
  | nil => simp
  | cons f fs ih =>
    obtain ⟨k', w⟩ := f
    rw [List.cons_append, findKey_cons, findKey_cons]
    split
    · simp
    · exact ih

theorem findKey_filter (fs : Fields) (p : Str → Bool) (k : Str) :
    findKey (fs.filter fun f => p f.1) k = if p k then findKey fs k else none := by
  induction fs with
  | nil => simp
  | cons f fs ih =>
    obtain ⟨k', w⟩ := f
    rw [List.filter_cons]
    split
    · rename_i hp
      rw [findKey_cons, findKey_cons, ih]
      split
      · rename_i hk; subst hk; simp only at hp; rw [hp]; simp
      · rfl
    · rename_i hp
      rw [ih, findKey_cons]
      split
      · rename_i hpk
        split
        · rename_i hk; subst hk; exact absurd hpk hp
        · rfl
      · rfl

theorem findKey_of_mem {fs : Fields} {k : Str} {v : Value} (hn : (keysOf fs).Nodup)
    (h : (k, v) ∈ fs) : findKey fs k = some v := by
  induction fs with
  | nil => simp at h
  | cons f fs ih =>
    obtain ⟨k', w⟩ := f
    simp only [keysOf, List.map_cons, List.nodup_cons] at hn
    rw [findKey_cons]
    rcases List.mem_cons.1 h with h | h
    · simp only [Prod.mk.injEq] at h
      rw [if_pos h.1.symm, h.2]
    · rw [if_neg, ih hn.2 h]
      rintro rfl
      exact hn.1 (List.mem_map_of_mem (f := Prod.fst) h)

theorem keysOf_append (fs gs : Fields) : keysOf (fs ++ gs) = keysOf fs ++ keysOf gs := by
  simp [keysOf]

theorem findKey_extra (ks : List Str) (gs : Fields) (k : Str) :
    findKey (extraFields ks gs) k = if k ∈ ks then none else findKey gs k := by
  unfold extraFields
  rw [findKey_filter gs (fun x => !(ks.contains x)) k]
  by_cases h : k ∈ ks <;> simp [h]

theorem mem_keysOf {fs : Fields} {k : Str} : k ∈ keysOf fs ↔ ∃ v, findKey fs k = some v := by
  cases h : findKey fs k with
  | none => simp [findKey_none.1 h]
  | some v =>
    simp only [Option.some.injEq, exists_eq', iff_true]
    exact List.mem_map_of_mem (f := Prod.fst) (findKey_mem h)

/-! ## Well-formed values -/

mutual
/-- Every object's keys are distinct and its stored status says whether all its values are
resolved. Values built by the parser and by merging have this property; `with_value` may break
it. -/
def Wf : Value → Prop
  | .scalar _ => True
  | .list vs => WfL vs
  | .obj fs r _ => r = resolvedFields fs ∧ (keysOf fs).Nodup ∧ WfF fs
  | .ref .. => True
  | .concat ps => WfL ps
  | .dm st => WfL st
  | .dmo st => WfL st
/-- `Wf` for all elements. -/
def WfL : List Value → Prop
  | [] => True
  | v :: vs => v.Wf ∧ WfL vs
/-- `Wf` for all fields. -/
def WfF : Fields → Prop
  | [] => True
  | (_, v) :: fs => v.Wf ∧ WfF fs
end

theorem WfL.iff {vs : List Value} : WfL vs ↔ ∀ v ∈ vs, v.Wf := by
  induction vs with
  | nil => simp [WfL]
  | cons v vs ih => simp [WfL, ih]

theorem WfF.iff {fs : Fields} : WfF fs ↔ ∀ f ∈ fs, f.2.Wf := by
  induction fs with
  | nil => simp [WfF]
  | cons f fs ih => obtain ⟨k, v⟩ := f; simp [WfF, ih]

theorem resolvedAll_iff {vs : List Value} : resolvedAll vs = true ↔ ∀ v ∈ vs, v.resolved = true := by
  induction vs with
  | nil => simp [resolvedAll]
  | cons v vs ih => simp [resolvedAll, ih]

theorem resolvedFields_iff {fs : Fields} :
    resolvedFields fs = true ↔ ∀ f ∈ fs, f.2.resolved = true := by
  simp [resolvedFields]

/-- A well-formed resolved value. -/
structure Plain (v : Value) : Prop where
  wf : v.Wf
  res : v.resolved = true

/-- Well-formed resolved fields with distinct keys. -/
structure PlainF (fs : Fields) : Prop where
  nodup : (keysOf fs).Nodup
  all : ∀ f ∈ fs, f.2.Plain

theorem plain_obj {fs : Fields} {r i : Bool} :
    (Value.obj fs r i).Plain ↔ r = true ∧ PlainF fs := by
  constructor
  · rintro ⟨hw, hr⟩
    simp only [Wf] at hw
    simp only [resolved] at hr
    refine ⟨hr, hw.2.1, fun f hf => ⟨WfF.iff.1 hw.2.2 f hf, ?_⟩⟩
    exact resolvedFields_iff.1 (hw.1 ▸ hr) f hf
  · rintro ⟨rfl, hn, ha⟩
    refine ⟨?_, rfl⟩
    simp only [Wf]
    exact ⟨(resolvedFields_iff.2 fun f hf => (ha f hf).res).symm, hn,
      WfF.iff.2 fun f hf => (ha f hf).wf⟩

theorem PlainF.cons {k : Str} {v : Value} {fs : Fields} (h : PlainF ((k, v) :: fs)) :
    v.Plain ∧ PlainF fs ∧ k ∉ keysOf fs := by
  have hn := h.nodup
  simp only [keysOf, List.map_cons, List.nodup_cons] at hn
  exact ⟨h.all (k, v) (by simp), ⟨hn.2, fun f hf => h.all f (List.mem_cons_of_mem _ hf)⟩, hn.1⟩

theorem PlainF.find {fs : Fields} (h : PlainF fs) {k : Str} {v : Value}
    (hf : findKey fs k = some v) : v.Plain := h.all _ (findKey_mem hf)

theorem PlainF.extra {fs : Fields} (h : PlainF fs) (ks : List Str) : PlainF (extraFields ks fs) := by
  constructor
  · exact h.nodup.sublist (List.Sublist.map Prod.fst (List.filter_sublist))
  · intro f hf
    exact h.all f (List.mem_of_mem_filter hf)

theorem Plain.cases {v : Value} (h : v.Plain) :
    (v.isObject = false ∧ v.isUnmergeable = false ∧ v.ignoresFallbacks = true) ∨
    ∃ fs i, v = .obj fs true i ∧ PlainF fs := by
  cases v with
  | scalar s => exact .inl ⟨rfl, rfl, rfl⟩
  | list vs => exact .inl ⟨rfl, rfl, by simpa [ignoresFallbacks] using h.res⟩
  | obj fs r i =>
    obtain ⟨rfl, hf⟩ := plain_obj.1 h
    exact .inr ⟨fs, i, rfl, hf⟩
  | _ => exact absurd h.res (by simp [resolved])

/-! ## Merging resolved values is a total function -/

mutual
/-- The merge of resolved values. -/
def pmerge (a b : Value) : Value :=
  match a with
  | .obj fs r i =>
    if i then .obj fs r i
    else match b with
      | .obj gs _ j => .obj (pmergeF fs gs ++ extraFields (keysOf fs) gs) true j
      | _ => .obj fs r true
  | a => a
/-- The merge of the common fields. -/
def pmergeF : Fields → Fields → Fields
  | [], _ => []
  | (k, v) :: fs, gs =>
    (k, match findKey gs k with
      | none => v
      | some w => pmerge v w) :: pmergeF fs gs
end

theorem keysOf_pmergeF (fs gs : Fields) : keysOf (pmergeF fs gs) = keysOf fs := by
  induction fs with
  | nil => rfl
  | cons f fs ih =>
    obtain ⟨k, v⟩ := f
    rw [pmergeF]
    simpa [keysOf] using ih

theorem findKey_pmergeF (fs gs : Fields) (k : Str) : findKey (pmergeF fs gs) k =
    (findKey fs k).map fun v => match findKey gs k with
      | none => v
      | some w => pmerge v w := by
  induction fs with
  | nil => rfl
  | cons f fs ih =>
    obtain ⟨k', v⟩ := f
    rw [pmergeF, findKey_cons, findKey_cons]
    split
    · rename_i hk; subst hk; rfl
    · exact ih

theorem mergedNodup {fs gs : Fields} (hf : (keysOf fs).Nodup) (hg : (keysOf gs).Nodup) :
    (keysOf (pmergeF fs gs ++ extraFields (keysOf fs) gs)).Nodup := by
  rw [keysOf_append, keysOf_pmergeF]
  refine List.Nodup.append hf (hg.sublist (List.Sublist.map Prod.fst (List.filter_sublist))) ?_
  intro k h1 h2
  obtain ⟨v, hv⟩ := mem_keysOf.1 h2
  rw [findKey_extra, if_pos h1] at hv
  simp at hv

theorem keysOf_mergeFields {fs gs m : Fields} (h : mergeFields fs gs = .ok m) :
    keysOf m = keysOf fs := by
  induction fs generalizing m with
  | nil => rw [mergeFields] at h; simp only [Res.ok.injEq] at h; subst h; rfl
  | cons f fs ih =>
    obtain ⟨k, v⟩ := f
    rw [mergeFields, Res.bind_eq_ok] at h
    obtain ⟨kept, _, h⟩ := h
    rw [Res.bind_eq_ok] at h
    obtain ⟨rest, h1, h⟩ := h
    simp only [Res.ok.injEq] at h
    subst h
    simpa [keysOf] using ih h1

theorem nodup_merged {fs gs m : Fields} (hf : (keysOf fs).Nodup) (hg : (keysOf gs).Nodup)
    (h : mergeFields fs gs = .ok m) : (keysOf (m ++ extraFields (keysOf fs) gs)).Nodup := by
  have := mergedNodup hf hg
  rwa [keysOf_append, keysOf_pmergeF, ← keysOf_mergeFields h, ← keysOf_append,
    keysOf_mergeFields h] at this

theorem pmerge_nonobj {a : Value} (b : Value) (h : a.isObject = false) : pmerge a b = a := by
  rw [pmerge.eq_def]
  cases a <;> first | (simp [isObject] at h; done) | rfl

theorem pmerge_dmo (st : List Value) (b : Value) : pmerge (.dmo st) b = .dmo st := by
  rw [pmerge.eq_def]

theorem pmerge_sealed (fs : Fields) (r : Bool) (b : Value) :
    pmerge (.obj fs r true) b = .obj fs r true := by rw [pmerge.eq_def]; rfl

theorem pmerge_over_nonobj (fs : Fields) (r : Bool) {b : Value} (h : b.isObject = false) :
    pmerge (.obj fs r false) b = .obj fs r true := by
  rw [pmerge.eq_def]
  cases b <;> first | (simp [isObject] at h; done) | rfl

theorem pmerge_obj (fs gs : Fields) (r r' j : Bool) :
    pmerge (.obj fs r false) (.obj gs r' j) =
      .obj (pmergeF fs gs ++ extraFields (keysOf fs) gs) true j := by
  rw [pmerge.eq_def]; rfl

theorem withFallback_sealed (fs : Fields) (r : Bool) (b : Value) :
    withFallback (.obj fs r true) b = .ok (.obj fs r true) := by rw [withFallback.eq_def]; rfl

theorem withFallback_over_nonobj (fs : Fields) {b : Value} (h : b.isObject = false)
    (h2 : b.isUnmergeable = false) :
    withFallback (.obj fs true false) b = .ok (.obj fs true true) := by
  rw [withFallback.eq_def]
  cases b <;> first | (simp [isObject] at h; done) | (simp [isUnmergeable] at h2; done) | rfl

theorem withFallback_obj (fs gs : Fields) (r r' j : Bool) :
    withFallback (.obj fs r false) (.obj gs r' j) = (mergeFields fs gs >>= fun m =>
      .ok (.obj (m ++ extraFields (keysOf fs) gs)
        (resolvedFields (m ++ extraFields (keysOf fs) gs)) j)) := by
  rw [withFallback.eq_def]; rfl

mutual
theorem withFallback_plain (a b : Value) (ha : a.Plain) (hb : b.Plain) :
    withFallback a b = .ok (pmerge a b) ∧ (pmerge a b).Plain := by
  match a, ha with
  | .scalar s, ha =>
    exact ⟨by rw [pmerge_nonobj _ rfl, withFallback], by rw [pmerge_nonobj _ rfl]; exact ha⟩
  | .list vs, ha =>
    have hr := ha.res
    refine ⟨?_, by rw [pmerge_nonobj _ rfl]; exact ha⟩
    rw [withFallback, if_pos (by simpa [ignoresFallbacks] using hr), pmerge_nonobj _ rfl]
  | .obj fs r i, ha =>
    obtain ⟨rfl, hf⟩ := plain_obj.1 ha
    cases i with
    | true => exact ⟨by rw [withFallback_sealed, pmerge_sealed], by rw [pmerge_sealed]; exact ha⟩
    | false =>
      rcases hb.cases with ⟨h1, h2, h3⟩ | ⟨gs, j, rfl, hg⟩
      · rw [withFallback_over_nonobj fs h1 h2, pmerge_over_nonobj fs true h1]
        exact ⟨rfl, plain_obj.2 ⟨rfl, hf⟩⟩
      · obtain ⟨h1, h2⟩ := mergeFields_plain fs gs hf hg
        have hp : PlainF (pmergeF fs gs ++ extraFields (keysOf fs) gs) := by
          refine ⟨mergedNodup hf.nodup hg.nodup, ?_⟩
          intro f hm
          rcases List.mem_append.1 hm with hm | hm
          · exact h2 f hm
          · exact (hg.extra _).all f hm
        refine ⟨?_, ?_⟩
        · rw [withFallback_obj, pmerge_obj, h1, Res.ok_bind,
            resolvedFields_iff.2 fun f hf => (hp.all f hf).res]
        · rw [pmerge_obj]
          exact plain_obj.2 ⟨rfl, hp⟩
  | .ref .., ha => exact absurd ha.res (by simp [resolved])
  | .concat _, ha => exact absurd ha.res (by simp [resolved])
  | .dm _, ha => exact absurd ha.res (by simp [resolved])
  | .dmo _, ha => exact absurd ha.res (by simp [resolved])
theorem mergeFields_plain (fs gs : Fields) (hf : PlainF fs) (hg : PlainF gs) :
    mergeFields fs gs = .ok (pmergeF fs gs) ∧ ∀ f ∈ pmergeF fs gs, f.2.Plain := by
  match fs, hf with
  | [], _ => exact ⟨by rw [mergeFields, pmergeF], by rw [pmergeF]; simp⟩
  | (k, v) :: fs, hf =>
    obtain ⟨hv, hf', _⟩ := hf.cons
    obtain ⟨h1, h2⟩ := mergeFields_plain fs gs hf' hg
    rw [mergeFields, pmergeF]
    cases hk : findKey gs k with
    | none =>
      refine ⟨by simp [h1], ?_⟩
      intro f hm
      rcases List.mem_cons.1 hm with rfl | hm
      · exact hv
      · exact h2 f hm
    | some w =>
      obtain ⟨h3, h4⟩ := withFallback_plain v w hv (hg.find hk)
      refine ⟨by simp [h1, h3], ?_⟩
      intro f hm
      rcases List.mem_cons.1 hm with rfl | hm
      · exact h4
      · exact h2 f hm
end

theorem Plain.merge {a b : Value} (ha : a.Plain) (hb : b.Plain) : (pmerge a b).Plain :=
  (withFallback_plain a b ha hb).2

theorem pmergeF_append (fs fs' gs : Fields) :
    pmergeF (fs ++ fs') gs = pmergeF fs gs ++ pmergeF fs' gs := by
  induction fs with
  | nil => simp [pmergeF]
  | cons f fs ih => obtain ⟨k, v⟩ := f; simp [pmergeF, ih]

theorem extraFields_append (ks : List Str) (gs hs : Fields) :
    extraFields ks (gs ++ hs) = extraFields ks gs ++ extraFields ks hs := by
  simp [extraFields]

theorem extraFields_pmergeF (ks : List Str) (gs hs : Fields) :
    extraFields ks (pmergeF gs hs) = pmergeF (extraFields ks gs) hs := by
  induction gs with
  | nil => rfl
  | cons g gs ih =>
    obtain ⟨k, v⟩ := g
    unfold extraFields at ih ⊢
    rw [pmergeF, List.filter_cons, List.filter_cons]
    by_cases hk : k ∈ ks
    · simp [hk] at ih ⊢; exact ih
    · simp [hk, pmergeF] at ih ⊢; exact ih

theorem extraFields_extraFields (ks ks' : List Str) (hs : Fields) :
    extraFields ks (extraFields ks' hs) = extraFields (ks ++ ks') hs := by
  simp [extraFields, List.filter_filter]

theorem extraFields_keys (ks : List Str) (gs hs : Fields) :
    extraFields (ks ++ keysOf (extraFields ks gs)) hs = extraFields (ks ++ keysOf gs) hs := by
  unfold extraFields
  refine List.filter_congr ?_
  rintro ⟨k, v⟩ _
  by_cases h : k ∈ ks
  · simp [h]
  · have : k ∈ keysOf (extraFields ks gs) ↔ k ∈ keysOf gs := by
      rw [mem_keysOf, mem_keysOf, findKey_extra, if_neg h]
    unfold extraFields at this
    simp only [List.contains_eq_mem] at this
    simp only [List.contains_eq_mem, List.mem_append, h, false_or]
    rw [decide_eq_decide.2 this]

mutual
theorem pmerge_assoc (a b c : Value) (hb : b.Plain) (hc : c.Plain) :
    pmerge (pmerge a b) c = pmerge a (pmerge b c) := by
  match a with
  | .scalar s => simp only [pmerge_nonobj (a := .scalar s) _ rfl]
  | .list vs => simp only [pmerge_nonobj (a := .list vs) _ rfl]
  | .ref a b c d => simp only [pmerge_nonobj (a := .ref a b c d) _ rfl]
  | .concat vs => simp only [pmerge_nonobj (a := .concat vs) _ rfl]
  | .dm vs => simp only [pmerge_nonobj (a := .dm vs) _ rfl]
  | .dmo _ => simp only [pmerge_dmo]
  | .obj fs r true => simp [pmerge_sealed]
  | .obj fs r false =>
    rcases hb.cases with ⟨h1, _, _⟩ | ⟨gs, j, rfl, hg⟩
    · rw [pmerge_over_nonobj fs r h1, pmerge_nonobj c h1, pmerge_sealed, pmerge_over_nonobj fs r h1]
    · cases j with
      | true => rw [pmerge_obj, pmerge_sealed, pmerge_sealed, pmerge_obj]
      | false =>
        rcases hc.cases with ⟨h1, _, _⟩ | ⟨hs, l, rfl, hh⟩
        · rw [pmerge_obj, pmerge_over_nonobj _ _ h1, pmerge_over_nonobj _ _ h1, pmerge_obj]
        · rw [pmerge_obj, pmerge_obj, pmerge_obj, pmerge_obj, pmergeF_assoc fs gs hs hg hh,
            keysOf_append, keysOf_pmergeF, extraFields_append,
            extraFields_pmergeF, extraFields_extraFields, extraFields_keys]
          simp [List.append_assoc]
theorem pmergeF_assoc (fs gs hs : Fields) (hg : PlainF gs) (hh : PlainF hs) :
    pmergeF (pmergeF fs gs ++ extraFields (keysOf fs) gs) hs =
      pmergeF fs (pmergeF gs hs ++ extraFields (keysOf gs) hs) ++
        pmergeF (extraFields (keysOf fs) gs) hs := by
  rw [pmergeF_append]
  congr 1
  exact pmergeF_assoc' fs gs hs hg hh
theorem pmergeF_assoc' (fs gs hs : Fields) (hg : PlainF gs) (hh : PlainF hs) :
    pmergeF (pmergeF fs gs) hs = pmergeF fs (pmergeF gs hs ++ extraFields (keysOf gs) hs) := by
  match fs with
  | [] => simp [pmergeF]
  | (k, v) :: fs =>
    rw [pmergeF, pmergeF, pmergeF, pmergeF_assoc' fs gs hs hg hh]
    congr 2
    rw [findKey_append, findKey_pmergeF, findKey_extra]
    cases h1 : findKey gs k with
    | none =>
      have h2 : k ∉ keysOf gs := findKey_none.1 h1
      simp [h2]
    | some w =>
      cases h3 : findKey hs k with
      | none => simp
      | some x => simpa using pmerge_assoc v w x (hg.find h1) (hh.find h3)
end

mutual
theorem pmerge_self (a : Value) (ha : a.Plain) : pmerge a a = a := by
  match a, ha with
  | .scalar s, _ => exact pmerge_nonobj _ rfl
  | .list vs, _ => exact pmerge_nonobj _ rfl
  | .ref .., _ => exact pmerge_nonobj _ rfl
  | .concat _, _ => exact pmerge_nonobj _ rfl
  | .dm _, _ => exact pmerge_nonobj _ rfl
  | .dmo _, _ => exact pmerge_dmo _ _
  | .obj fs r true, _ => simp [pmerge_sealed]
  | .obj fs r false, ha =>
    obtain ⟨rfl, hf⟩ := plain_obj.1 ha
    rw [pmerge_obj, pmergeF_self fs fs hf (fun f hm => findKey_of_mem hf.nodup hm)]
    have : extraFields (keysOf fs) fs = [] := by
      unfold extraFields
      rw [List.filter_eq_nil_iff]
      intro f hf
      simp [keysOf, List.mem_map_of_mem (f := Prod.fst) hf]
    rw [this, List.append_nil]
theorem pmergeF_self (fs gs : Fields) (hf : PlainF fs)
    (hs : ∀ f ∈ fs, findKey gs f.1 = some f.2) : pmergeF fs gs = fs := by
  match fs, hf with
  | [], _ => rw [pmergeF]
  | (k, v) :: fs, hf =>
    obtain ⟨hv, hf', _⟩ := hf.cons
    rw [pmergeF, hs (k, v) (by simp), pmergeF_self fs gs hf'
      (fun f hm => hs f (List.mem_cons_of_mem _ hm))]
    simp only
    rw [pmerge_self v hv]
end

end Value
end Hocon
