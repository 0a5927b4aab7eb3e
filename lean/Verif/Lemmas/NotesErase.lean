import Verif.ParseNotes
import Verif.Props.OriginProps

/-!
# The parser with origins builds the values of the parser without
-/

set_option autoImplicit false

namespace Hocon

/-- The outcome with its value mapped. -/
def Res.mapOk {α β : Type} (f : α → β) (x : Res α) : Res β := x.bind fun a => .ok (f a)

@[simp] theorem Res.mapOk_ok {α β : Type} (f : α → β) (a : α) : Res.mapOk f (.ok a) = .ok (f a) := rfl
@[simp] theorem Res.mapOk_err {α β : Type} (f : α → β) (e : Err) : Res.mapOk f (.err e) = .err e := rfl
@[simp] theorem Res.mapOk_ub {α β : Type} (f : α → β) : Res.mapOk f .ub = .ub := rfl
@[simp] theorem Res.mapOk_fuel {α β : Type} (f : α → β) : Res.mapOk f .fuel = .fuel := rfl

theorem Res.mapOk_bind {α β γ : Type} (f : β → γ) (x : Res α) (g : α → Res β) :
    Res.mapOk f (x >>= g) = x >>= fun a => Res.mapOk f (g a) := by
  cases x <;> rfl

theorem Res.bind_mapOk {α β γ : Type} (f : α → β) (x : Res α) (g : β → Res γ) :
    (Res.mapOk f x >>= g) = x >>= fun a => g (f a) := by
  cases x <;> rfl

/-- Two computations that go on in the same way. -/
theorem Res.bind_erase {α α' β β' : Type} {f : α → α'} {h : β → β'} {x : Res α} {x' : Res α'} {g : α → Res β}
    {g' : α' → Res β'} (h1 : Res.mapOk f x = x') (h2 : ∀ a, Res.mapOk h (g a) = g' (f a)) :
    Res.mapOk h (x >>= g) = x' >>= g' := by
  subst h1
  rw [Res.mapOk_bind, Res.bind_mapOk]
  congr 1
  funext a
  exact h2 a

namespace Notes

open Value ConfigParser

theorem eraseL_map (vs : List AVal) : eraseL vs = vs.map AVal.erase := by
  induction vs with
  | nil => rfl
  | cons v vs ih => rw [eraseL, ih]; rfl

theorem eraseF_map (fs : AFields) : eraseF fs = fs.map fun f => (f.1, f.2.erase) := by
  induction fs with
  | nil => rfl
  | cons f fs ih => rw [eraseF, ih]; rfl

theorem eraseL_append (a b : List AVal) : eraseL (a ++ b) = eraseL a ++ eraseL b := by simp [eraseL_map]
theorem eraseF_append (a b : AFields) : eraseF (a ++ b) = eraseF a ++ eraseF b := by simp [eraseF_map]

@[simp] theorem erase_withOrigin (o : Origin) (v : AVal) : (v.withOrigin o).erase = v.erase := by
  cases v <;> rfl

@[simp] theorem erase_prepend (cs : List Str) (v : AVal) : (prepend cs v).erase = v.erase := by
  unfold prepend; split <;> simp

@[simp] theorem erase_append (cs : List Str) (v : AVal) : (append cs v).erase = v.erase := by simp [append]

@[simp] theorem erase_appendTrailing (rest : List Node) (v : AVal) : (appendTrailing rest v).erase = v.erase := by
  unfold appendTrailing; split <;> simp

theorem findKeyA_erase (fs : AFields) (k : Str) : findKey (eraseF fs) k = (findKeyA fs k).map AVal.erase := by
  induction fs with
  | nil => rfl
  | cons f fs ih =>
    obtain ⟨k', v⟩ := f
    rw [eraseF, findKey, findKeyA, ih]
    split <;> rfl

theorem putKey_erase (k : Str) (v : AVal) (fs : AFields) : eraseF (putKey k v fs) = putKey k v.erase (eraseF fs) := by
  induction fs with
  | nil => rfl
  | cons f fs ih =>
    obtain ⟨k', w⟩ := f
    rw [putKey, eraseF, putKey]
    split
    · rfl
    · rw [eraseF, ih]

theorem resolved_erase (fs : AFields) : (fs.all fun f => f.2.erase.resolved) = resolvedFields (eraseF fs) := by
  rw [resolvedFields, eraseF_map, List.all_map]
  rfl

theorem mergeAll_ok {os : List Origin} (h : os ≠ []) : ∃ o, mergeAll os = .ok o := by
  obtain ⟨m, e, -⟩ := Origin.C45_comments os h
  exact ⟨m, by rw [mergeAll, e]; rfl⟩

theorem mergeStack_ok {st : List AVal} (h : st ≠ []) : ∃ o, mergeStack st = .ok o := by
  cases st with
  | nil => exact absurd rfl h
  | cons v st =>
    rw [mergeStack]
    split
    · exact mergeAll_ok (by simp)
    · rename_i hw
      refine mergeAll_ok ?_
      rintro e
      exact hw (List.map_eq_nil_iff.1 e)

theorem delayedA_erase (v : AVal) (o : Origin) (st : List AVal) :
    Res.mapOk AVal.erase (delayedA v o st) = constructDelayedMerge v.erase (eraseL st) := by
  rw [delayedA.eq_def, constructDelayedMerge]
  split
  · cases st with
    | nil => rfl
    | cons w ws =>
      rw [eraseL, mkDmo]
      have : (w.erase :: eraseL ws).any isDelayed = (w :: ws).any (fun x => x.erase.isDelayed) := by
        rw [← eraseL, eraseL_map, List.any_map]; rfl
      simp only [this]
      split
      · split
        · rfl
        · rfl
      · rfl
  · cases st with
    | nil => rfl
    | cons w ws => rfl

theorem delayA_erase (v : AVal) {st : List AVal} (h : st ≠ []) :
    Res.mapOk (fun r => r.1.erase) (delayA v st) = constructDelayedMerge v.erase (eraseL st) := by
  obtain ⟨o, e⟩ := mergeStack_ok h
  rw [delayA, e, ← delayedA_erase v o st]
  simp only [Res.ok_bind]
  cases delayedA v o st <;> rfl

theorem unmergedA_erase (v : AVal) : eraseL (unmergedA v) = v.erase.unmergedValues := by
  cases v <;> rfl

theorem delayA_unmergeable (v b : AVal) :
    Res.mapOk (fun r => r.1.erase) (delayA v (v :: unmergedA b)) = mergedWithUnmergeable v.erase b.erase := by
  rw [delayA_erase v (by simp), mergedWithUnmergeable, eraseL, unmergedA_erase]

theorem ignoringA_erase (v : AVal) :
    Res.mapOk (fun r => r.1.erase) (ignoringA v) = withFallbacksIgnored v.erase := by
  cases v with
  | obj o fs r i => rfl
  | _ =>
    simp only [ignoringA]
    split <;> rename_i h
    · rw [withFallbacksIgnored.eq_def]; simp only [AVal.erase] at h ⊢; simp [h, AVal.erase]
    · rw [withFallbacksIgnored.eq_def]; simp only [AVal.erase] at h ⊢; simp [h]

theorem nonObjectA_erase (v fb : AVal) :
    Res.mapOk (fun r => r.1.erase) (nonObjectA v fb) = mergedWithNonObject v.erase fb.erase := by
  rw [nonObjectA, mergedWithNonObject]
  split
  · exact ignoringA_erase v
  · rw [delayA_erase v (by simp)]; rfl

theorem delayA_new {v w : AVal} {st : List AVal} {c : Bool} (h : delayA v st = .ok (w, c)) : c = true := by
  unfold delayA at h
  rw [Res.bind_eq_ok] at h
  obtain ⟨o, -, h⟩ := h
  rw [Res.bind_eq_ok] at h
  obtain ⟨d, -, h⟩ := h
  cases h
  rfl

theorem nonObjectA_same {v fb w : AVal} (hv : ∀ o fs r i, v = .obj o fs r i → i = false)
    (h : nonObjectA v fb = .ok (w, false)) : w = v := by
  unfold nonObjectA at h
  split at h
  · cases v with
    | obj o fs r i => rw [ignoringA] at h; cases hv _ _ _ _ rfl; cases h
    | _ =>
      simp only [ignoringA] at h
      split at h
      · cases h; rfl
      · cases h
  · cases delayA_new h

theorem mergedObjA_same {o : Origin} {fs m : AFields} {r i j c : Bool} {fb w : AVal}
    (h : mergedObjA o fs r i fb j m c = .ok (w, false)) : w = .obj o fs r i ∧ c = false := by
  unfold mergedObjA at h
  simp only at h
  split at h
  · rw [Res.bind_eq_ok] at h
    obtain ⟨o', -, h⟩ := h
    cases h
  · split at h
    · cases h
    · rename_i hc _
      cases h
      exact ⟨rfl, by simpa using hc⟩

mutual
/-- If nothing changed the value is the old one. -/
theorem fallbackA_same (a b : AVal) {w : AVal} (h : fallbackA a b = .ok (w, false)) : w = a := by
  match a with
  | .scalar o s => rw [fallbackA] at h; cases h; rfl
  | .list o vs =>
    rw [fallbackA] at h
    split at h
    · cases h; rfl
    · split at h
      · cases delayA_new h
      · exact nonObjectA_same (by rintro _ _ _ _ ⟨⟩) h
  | .obj o fs r i =>
    rw [fallbackA.eq_def] at h
    simp only at h
    split at h
    · cases h; rfl
    · rename_i hi
      split at h
      · cases delayA_new h
      · split at h
        · rw [Res.bind_eq_ok] at h
          obtain ⟨⟨m, c⟩, h1, h⟩ := h
          exact (mergedObjA_same h).1
        · exact nonObjectA_same (by rintro _ _ _ _ ⟨⟩; simpa using hi) h
  | .ref o n p opt k =>
    rw [fallbackA] at h
    split at h
    · cases delayA_new h
    · exact nonObjectA_same (by rintro _ _ _ _ ⟨⟩) h
  | .concat o ps =>
    rw [fallbackA] at h
    split at h
    · cases delayA_new h
    · exact nonObjectA_same (by rintro _ _ _ _ ⟨⟩) h
  | .dm o st =>
    rw [fallbackA] at h
    split at h
    · cases h; rfl
    · split at h
      · cases delayA_new h
      · exact nonObjectA_same (by rintro _ _ _ _ ⟨⟩) h
  | .dmo o st =>
    rw [fallbackA] at h
    split at h
    · cases h; rfl
    · split at h
      · cases delayA_new h
      · split at h
        · cases h
        · exact nonObjectA_same (by rintro _ _ _ _ ⟨⟩) h
/-- The same for fields. -/
theorem mergeFieldsA_same (fs gs : AFields) {m : AFields} (h : mergeFieldsA fs gs = .ok (m, false)) : m = fs := by
  match fs with
  | [] => rw [mergeFieldsA] at h; cases h; rfl
  | (k, v) :: fs =>
    rw [mergeFieldsA] at h
    rw [Res.bind_eq_ok] at h
    obtain ⟨⟨kept, c⟩, h1, h⟩ := h
    rw [Res.bind_eq_ok] at h
    obtain ⟨⟨rest, c'⟩, h2, h⟩ := h
    simp only [Res.ok.injEq, Prod.mk.injEq, Bool.or_eq_false_iff] at h
    obtain ⟨rfl, rfl, rfl⟩ := h
    have e2 := mergeFieldsA_same fs gs h2
    have e1 : kept = v := by
      cases hf : findKeyA gs k with
      | none => rw [hf] at h1; cases h1; rfl
      | some x => rw [hf] at h1; exact fallbackA_same v x h1
    rw [e1, e2]
end

theorem extraA_erase (fs gs : AFields) : eraseF (extraA fs gs) = extraFields (keysOf (eraseF fs)) (eraseF gs) := by
  have hk : keysOf (eraseF fs) = fs.map Prod.fst := by
    rw [keysOf, eraseF_map, List.map_map]; rfl
  rw [extraA, extraFields, hk, eraseF_map, eraseF_map, List.filter_map]
  rfl

theorem mergedObjA_erase {o o' : Origin} {fs gs m : AFields} {r i r' j c : Bool}
    (hm : c = false → m = fs) :
    Res.mapOk (fun r => r.1.erase) (mergedObjA o fs r i (.obj o' gs r' j) j m c)
      = .ok (.obj (eraseF m) (resolvedFields (eraseF m)) j) := by
  unfold mergedObjA
  simp only [resolved_erase]
  split
  · obtain ⟨o2, e⟩ := mergeStack_ok (st := [.obj o fs r i, .obj o' gs r' j]) (by simp)
    rw [e]
    rfl
  · rename_i hc
    obtain rfl := hm (by simpa using hc)
    split
    · rfl
    · rename_i h
      have h : resolvedFields (eraseF m) = r ∧ j = i := by
        constructor
        · exact Classical.not_not.1 (fun x => h (Or.inl x))
        · exact Classical.not_not.1 (fun x => h (Or.inr x))
      rw [h.1, h.2]
      rfl

mutual
/-- Merging with origins gives the merged value. -/
theorem fallbackA_erase (a b : AVal) :
    Res.mapOk (fun r => r.1.erase) (fallbackA a b) = withFallback a.erase b.erase := by
  match a with
  | .scalar o s => rw [fallbackA]; rw [AVal.erase, withFallback]; rfl
  | .list o vs =>
    rw [fallbackA]
    rw [show (AVal.list o vs).erase = .list (eraseL vs) from rfl, withFallback.eq_def]
    simp only
    split
    · rfl
    · split
      · exact delayA_unmergeable (.list o vs) b
      · exact nonObjectA_erase (.list o vs) b
  | .obj o fs r i =>
    rw [fallbackA.eq_def, show (AVal.obj o fs r i).erase = .obj (eraseF fs) r i from rfl, withFallback.eq_def]
    simp only
    split
    · rfl
    · split
      · exact delayA_unmergeable (.obj o fs r i) b
      · cases b with
        | obj o' gs r' j =>
          simp only [AVal.erase]
          rw [← mergeFieldsA_erase fs gs, Res.mapOk_bind, Res.bind_mapOk]
          cases hm : mergeFieldsA fs gs with
          | ok mc =>
            obtain ⟨m, c⟩ := mc
            simp only [Res.ok_bind]
            rw [mergedObjA_erase, eraseF_append, extraA_erase]
            intro hc
            simp only [Bool.or_eq_false_iff] at hc
            obtain ⟨rfl, hc⟩ := hc
            rw [mergeFieldsA_same fs gs hm]
            have : extraA fs gs = [] := by simpa using hc
            simp [this]
          | err e => rfl
          | ub => rfl
          | fuel => rfl
        | _ => exact nonObjectA_erase (.obj o fs r i) _
  | .ref o n p opt k =>
    rw [fallbackA, show (AVal.ref o n p opt k).erase = .ref n p opt k from rfl, withFallback.eq_def]
    simp only
    split
    · exact delayA_unmergeable (.ref o n p opt k) b
    · exact nonObjectA_erase (.ref o n p opt k) b
  | .concat o ps =>
    rw [fallbackA, show (AVal.concat o ps).erase = .concat (eraseL ps) from rfl, withFallback.eq_def]
    simp only
    split
    · exact delayA_unmergeable (.concat o ps) b
    · exact nonObjectA_erase (.concat o ps) b
  | .dm o st =>
    rw [fallbackA.eq_def, show (AVal.dm o st).erase = .dm (eraseL st) from rfl, withFallback.eq_def]
    simp only [show (AVal.dm o st).erase.ignoresFallbacks = ignoresLast (eraseL st) from rfl]
    split
    · rfl
    · split
      · exact delayA_unmergeable (.dm o st) b
      · exact nonObjectA_erase (.dm o st) b
  | .dmo o st =>
    rw [fallbackA.eq_def, show (AVal.dmo o st).erase = .dmo (eraseL st) from rfl, withFallback.eq_def]
    simp only [show (AVal.dmo o st).erase.ignoresFallbacks = ignoresLast (eraseL st) from rfl]
    split
    · rfl
    · split
      · exact delayA_unmergeable (.dmo o st) b
      · split
        · rfl
        · exact nonObjectA_erase (.dmo o st) b
/-- The same for fields. -/
theorem mergeFieldsA_erase (fs gs : AFields) :
    Res.mapOk (fun r => eraseF r.1) (mergeFieldsA fs gs) = mergeFields (eraseF fs) (eraseF gs) := by
  match fs with
  | [] => rw [mergeFieldsA, eraseF, mergeFields]; rfl
  | (k, v) :: fs =>
    rw [mergeFieldsA, eraseF, mergeFields, findKeyA_erase]
    refine Res.bind_erase (f := fun r => r.1.erase) ?_ ?_
    · cases findKeyA gs k with
      | none => rfl
      | some w => exact fallbackA_erase v w
    · intro r
      refine Res.bind_erase (f := fun r => eraseF r.1) (mergeFieldsA_erase fs gs) ?_
      intro r'
      rfl
end

theorem mapOk_snd {α β : Type} (x : Res (α × Bool)) (f : α → β) :
    Res.mapOk f (x >>= fun r => .ok r.1) = Res.mapOk (fun r => f r.1) x := by
  cases x <;> rfl

theorem joinA_erase (env : Env) (l r : AVal) :
    Res.mapOk (Option.map AVal.erase) (joinA env l r) = join env l.erase r.erase := by
  rw [joinA.eq_def, join]
  split
  · rfl
  · split
    · rfl
    · split
      · refine Res.bind_erase (f := fun r => r.1.erase) (fallbackA_erase r l) ?_
        intro a; rfl
      · by_cases hb : l.erase.isList && r.erase.isList
        · rw [if_pos hb]
          cases l <;> simp only [AVal.erase, isList, Bool.false_and, Bool.false_eq_true] at hb
          cases r <;> simp only [AVal.erase, Bool.and_false, Bool.false_eq_true] at hb
          simp only [Res.mapOk_ok, Option.map_some, AVal.erase, appendLists, eraseL_append]
        · rw [if_neg hb]
          split
          · exact absurd rfl hb
          · split
            · rfl
            · split
              · rfl
              · split
                · rfl
                · split <;> rfl

theorem joinLoopA_erase (env : Env) (done : List AVal) (last : AVal) (vs : List AVal) :
    Res.mapOk eraseL (joinLoopA env done last vs) = joinLoop env (eraseL done) last.erase (eraseL vs) := by
  induction vs generalizing done last with
  | nil => rw [joinLoopA, eraseL, joinLoop, Res.mapOk_ok, eraseL_append]; rfl
  | cons v vs ih =>
    rw [joinLoopA, eraseL, joinLoop]
    refine Res.bind_erase (f := Option.map AVal.erase) (joinA_erase env last v) ?_
    intro o
    cases o with
    | none => simp only [Option.map_none]; rw [ih, eraseL_append]; rfl
    | some j => simp only [Option.map_some]; rw [ih]

theorem flattenA_erase (ps : List AVal) : eraseL (flattenA ps) = flattenPieces (eraseL ps) := by
  induction ps with
  | nil => rfl
  | cons v vs ih =>
    cases v <;> simp only [flattenA, eraseL, eraseL_append, AVal.erase, flattenPieces, ih]

theorem eraseL_length (vs : List AVal) : (eraseL vs).length = vs.length := by simp [eraseL_map]

theorem consolidateA_erase (env : Env) (ps : List AVal) :
    Res.mapOk eraseL (consolidateA env ps) = consolidate env (eraseL ps) := by
  rw [consolidateA, consolidate, eraseL_length, ← flattenA_erase]
  split
  · rfl
  · cases flattenA ps with
    | nil => rfl
    | cons v vs => exact joinLoopA_erase env [] v vs

theorem concatenateA_erase (env : Env) (ps : List AVal) :
    Res.mapOk (Option.map AVal.erase) (concatenateA env ps) = concatenate env (eraseL ps) := by
  rw [concatenateA, concatenate]
  refine Res.bind_erase (f := eraseL) (consolidateA_erase env ps) ?_
  intro c
  match c with
  | [] => rfl
  | [v] => rfl
  | v :: w :: vs =>
    obtain ⟨o, e⟩ := mergeAll_ok (os := (v :: w :: vs).map AVal.origin) (by simp)
    simp only [e, Res.ok_bind, eraseL, mkConcat]
    have h1 : ∀ f : Value → Bool, (v.erase :: w.erase :: eraseL vs).any f = (v :: w :: vs).any (fun x => f x.erase) := by
      intro f; simp [eraseL_map, List.any_map]; rfl
    simp only [h1, List.length_cons]
    have hl : ¬ vs.length + 1 + 1 < 2 := by omega
    simp only [eraseL_length, hl, if_false]
    split
    · rfl
    · split
      · rfl
      · rfl

/-! ## The parser -/

/-- The includer without origins. -/
def AIncluder.erase (inc : AIncluder) : Includer where
  file := fun s n => Res.mapOk (fun r => (r.1.erase, r.2)) (inc.file s n)
  heuristic := fun s n => Res.mapOk (fun r => (r.1.erase, r.2)) (inc.heuristic s n)

theorem getValueA_erase (env : Env) (base : Origin) (t : Tok) (n : Nat) :
    Res.mapOk (fun r => (r.1.erase, r.2)) (getValueA env base t n) = ConfigParser.getValue env t n := by
  cases t with
  | subst opt expr l =>
    simp only [getValueA, ConfigParser.getValue]
    rw [Res.mapOk_bind]
    rfl
  | _ => rfl

theorem underPathA_erase (p : Path) (v : AVal) :
    Res.mapOk AVal.erase (underPathA p v) = createValueUnderPath p v.erase := by
  induction p with
  | nil => rfl
  | cons k p ih =>
    cases p with
    | nil => simp [underPathA, createValueUnderPath, AVal.erase, eraseF, newObj, resolvedFields]
    | cons k' p =>
      rw [underPathA, createValueUnderPath]
      refine Res.bind_erase ih ?_
      intro o
      simp [AVal.erase, eraseF, newObj, resolvedFields]
      all_goals simp

theorem putMergedA_erase (fs : AFields) (k : Str) (v : AVal) :
    Res.mapOk eraseF (putMergedA fs k v) = putMerged (eraseF fs) k v.erase := by
  rw [putMergedA, putMerged, findKeyA_erase]
  cases findKeyA fs k with
  | none => simp only [Option.map_none, Res.mapOk_ok, putKey_erase]
  | some old =>
    simp only [Option.map_some]
    refine Res.bind_erase (f := fun r => r.1.erase) (fallbackA_erase v old) ?_
    intro r
    simp only [Res.mapOk_ok, putKey_erase]

theorem putFieldA_erase (json : Bool) (fs : AFields) (p : Path) (v : AVal) :
    Res.mapOk eraseF (putFieldA json fs p v) = putField json (eraseF fs) p v.erase := by
  match p with
  | [] => rfl
  | [k] =>
    rw [putFieldA, putField, findKeyA_erase]
    simp only [Option.isSome_map]
    split
    · rfl
    · exact putMergedA_erase fs k v
  | k :: k' :: p =>
    rw [putFieldA, putField]
    · split
      · rfl
      · refine Res.bind_erase (underPathA_erase _ v) ?_
        intro o
        exact putMergedA_erase fs k o
    · simp
    · simp

theorem putAllA_erase (fs gs : AFields) : Res.mapOk eraseF (putAllA fs gs) = putAll (eraseF fs) (eraseF gs) := by
  induction gs generalizing fs with
  | nil => rfl
  | cons g gs ih =>
    obtain ⟨k, v⟩ := g
    rw [putAllA, eraseF, putAll]
    refine Res.bind_erase (putMergedA_erase fs k v) ?_
    intro fs'
    exact ih fs'

theorem putIncludedA_erase (arr : Nat) (fs : AFields) (o : AVal) :
    Res.mapOk eraseF (putIncludedA arr fs o) = putIncluded arr (eraseF fs) o.erase := by
  rw [putIncludedA.eq_def, putIncluded.eq_def]
  split
  · rfl
  · cases o with
    | obj o gs r i => exact putAllA_erase fs gs
    | _ => rfl

theorem callIncluderA_erase (env : Env) (inc : AIncluder) (kind : IncludeKind) (cs : List Node) (n : Nat) :
    Res.mapOk (fun r => (r.1.erase, r.2)) (callIncluderA env inc kind cs n) = callIncluder env inc.erase kind cs n := by
  cases kind with
  | file =>
    simp only [callIncluderA, callIncluder]
    rw [Res.mapOk_bind]
    rfl
  | heuristic =>
    simp only [callIncluderA, callIncluder]
    rw [Res.mapOk_bind]
    rfl
  | _ => rfl

theorem parseIncludeA_erase (env : Env) (inc : AIncluder) (arr : Nat) (kind : IncludeKind) (cs : List Node)
    (fs : AFields) (n : Nat) :
    Res.mapOk (fun r => (eraseF r.1, r.2)) (parseIncludeA env inc arr kind cs fs n)
      = ConfigParser.parseInclude env inc.erase arr kind cs (eraseF fs) n := by
  rw [parseIncludeA, ConfigParser.parseInclude]
  refine Res.bind_erase (callIncluderA_erase env inc kind cs n) ?_
  intro r
  refine Res.bind_erase (putIncludedA_erase arr fs r.1) ?_
  intro fs'
  rfl

theorem nonNullA_erase (o : Option AVal) : Res.mapOk AVal.erase (nonNullA o) = nonNull (o.map AVal.erase) := by
  cases o <;> rfl

theorem plusValueA_erase (env : Env) (outer : Path) (v : AVal) (n : Nat) :
    Res.mapOk (fun r => (r.1.erase, r.2)) (plusValueA env outer v n) = plusValue env outer v.erase n := by
  rw [plusValueA, plusValue]
  refine Res.bind_erase (concatenateA_erase env _) ?_
  intro o
  cases o <;> rfl

theorem erase_newObjA (o : Origin) (fs : AFields) : (newObjA o fs).erase = newObj (eraseF fs) := by
  rw [newObjA, AVal.erase, newObj, resolved_erase]

/-- What is compared: values and the counter of references. -/
def out (r : AVal × Int × Nat) : Value × Nat := (r.1.erase, r.2.2)
/-- The same for lists. -/
def outL (r : List AVal × Int × Nat) : List Value × Nat := (eraseL r.1, r.2.2)
/-- The same for fields. -/
def outF (r : AFields × Int × Nat) : Fields × Nat := (eraseF r.1, r.2.2)

mutual
theorem parseValueA_erase (env : Env) (base : Origin) (inc : AIncluder) (json : Bool) (arr : Nat) (outer : Option Path)
    (c : Node) (cs : List Str) (l : Int) (n : Nat) :
    Res.mapOk out (parseValueA env base inc json arr outer c cs l n)
      = ConfigParser.parseValue env inc.erase json arr outer c n := by
  match c with
  | .simple t =>
    rw [parseValueA, ConfigParser.parseValue, ← getValueA_erase env base t n]
    cases getValueA env base t n <;> simp [out]
  | .object ns =>
    rw [parseValueA, ConfigParser.parseValue]
    refine Res.bind_erase (parseFieldsA_erase env base inc json arr outer ns _ _ [] n) ?_
    intro r
    simp [out, outF, erase_newObjA]
  | .array ns =>
    rw [parseValueA, ConfigParser.parseValue]
    refine Res.bind_erase (f := outL) ?_ ?_
    · have := parseElemsA_erase env base inc json (arr + 1) outer ns { line := l } none n
      rw [this]
      cases parseElems env inc.erase json (arr + 1) outer ns n <;> rfl
    · intro r
      simp [out, outL, AVal.erase]
  | .concat ns =>
    rw [parseValueA, ConfigParser.parseValue]
    split
    · rfl
    · refine Res.bind_erase (parsePiecesA_erase env base inc json arr outer ns l n) ?_
      intro r
      refine Res.bind_erase (concatenateA_erase env r.1) ?_
      intro o
      refine Res.bind_erase (nonNullA_erase o) ?_
      intro v
      simp [out]
  | .single _ => rw [parseValueA, ConfigParser.parseValue] <;> simp
  | .comment _ => rw [parseValueA, ConfigParser.parseValue] <;> simp
  | .path _ _ => rw [parseValueA, ConfigParser.parseValue] <;> simp
  | .field _ => rw [parseValueA, ConfigParser.parseValue] <;> simp
  | .incl _ _ => rw [parseValueA, ConfigParser.parseValue] <;> simp
theorem parsePiecesA_erase (env : Env) (base : Origin) (inc : AIncluder) (json : Bool) (arr : Nat)
    (outer : Option Path) (ns : List Node) (l : Int) (n : Nat) :
    Res.mapOk outL (parsePiecesA env base inc json arr outer ns l n)
      = parseElems env inc.erase json arr outer ns n := by
  match ns with
  | [] => rw [parsePiecesA, parseElems]; rfl
  | c :: ns =>
    rw [parsePiecesA, parseElems]
    split
    · refine Res.bind_erase (parseValueA_erase env base inc json arr outer c [] l n) ?_
      intro r
      refine Res.bind_erase (parsePiecesA_erase env base inc json arr outer ns r.2.1 r.2.2) ?_
      intro r'
      rfl
    · exact parsePiecesA_erase env base inc json arr outer ns l n
theorem parseElemsA_erase (env : Env) (base : Origin) (inc : AIncluder) (json : Bool) (arr : Nat)
    (outer : Option Path) (ns : List Node) (s : Loop) (v : Option AVal) (n : Nat) :
    Res.mapOk outL (parseElemsA env base inc json arr outer ns s v n)
      = Res.mapOk (fun r => ((v.map AVal.erase).toList ++ r.1, r.2)) (parseElems env inc.erase json arr outer ns n) := by
  match ns with
  | [] =>
    rw [parseElemsA, parseElems]
    cases v <;> simp [outL, eraseL]
  | c :: ns =>
    rw [parseElemsA.eq_def, parseElems]
    simp only
    split
    · rw [Res.mapOk_bind _ (ConfigParser.parseValue env inc.erase json arr outer c n)]
      refine Res.bind_erase (parseValueA_erase env base inc json arr outer c _ s.line n) ?_
      intro r
      have := parseElemsA_erase env base inc json arr outer ns { line := r.2.1 } (some r.1) r.2.2
      simp only [out]
      rw [Res.mapOk_bind, Res.mapOk_bind]
      revert this
      cases hA : parseElemsA env base inc json arr outer ns { line := r.2.1 } (some r.1) r.2.2 <;>
        cases hB : parseElems env inc.erase json arr outer ns r.2.2 <;> intro this <;>
        simp_all [outL]
      cases v <;> simp_all [eraseL]
    · have ih := parseElemsA_erase env base inc json arr outer ns
      split
      · exact ih _ _ n
      · exact ih _ none n
      · rw [Res.mapOk_bind]
        have := ih { afterNewline := true, line := s.line + 1 } none n
        revert this
        cases parseElemsA env base inc json arr outer ns { afterNewline := true, line := s.line + 1 } none n <;>
          cases parseElems env inc.erase json arr outer ns n <;> intro this <;> simp_all [outL, eraseL]
      · exact ih _ _ n
theorem parseFieldValueA_erase (env : Env) (base : Origin) (inc : AIncluder) (json : Bool) (arr : Nat)
    (outer : Option Path) (ns : List Node) (cs : List Str) (l : Int) (n : Nat) :
    Res.mapOk out (parseFieldValueA env base inc json arr outer ns cs l n)
      = parseFieldValue env inc.erase json arr outer ns n := by
  match ns with
  | [] => rw [parseFieldValueA, parseFieldValue]; rfl
  | c :: ns =>
    rw [parseFieldValueA, parseFieldValue]
    split
    · exact parseValueA_erase env base inc json arr outer c cs l n
    · exact parseFieldValueA_erase env base inc json arr outer ns cs l n
theorem parseFieldsA_erase (env : Env) (base : Origin) (inc : AIncluder) (json : Bool) (arr : Nat)
    (outer : Option Path) (ns : List Node) (s : Loop) (taken : Bool) (fs : AFields) (n : Nat) :
    Res.mapOk outF (parseFieldsA env base inc json arr outer ns s taken fs n)
      = parseFields env inc.erase json arr outer ns (eraseF fs) n := by
  match ns with
  | [] => rw [parseFieldsA, parseFields]; rfl
  | .comment t :: rest =>
    rw [parseFieldsA, parseFields]
    · exact parseFieldsA_erase env base inc json arr outer rest _ _ fs n
    · simp
    · simp
  | .incl cs kind :: rest =>
    rw [parseFieldsA, parseFields]
    split
    · exact parseFieldsA_erase env base inc json arr outer rest _ _ fs n
    · refine Res.bind_erase (parseIncludeA_erase env inc arr kind cs fs n) ?_
      intro r
      exact parseFieldsA_erase env base inc json arr outer rest _ _ r.1 r.2
  | .field cs :: rest =>
    rw [parseFieldsA, parseFields]
    rw [Res.mapOk_bind]
    congr 1
    funext p
    obtain ⟨p, ts⟩ := p
    simp only
    split
    · split
      · rfl
      · refine Res.bind_erase (parseFieldValueA_erase env base inc json (arr + 1) _ cs _ s.line n) ?_
        intro r
        refine Res.bind_erase (plusValueA_erase env _ r.1 r.2.2) ?_
        intro r'
        refine Res.bind_erase (f := eraseF) ?_ ?_
        · rw [putFieldA_erase, erase_appendTrailing]
        · intro fs'
          exact parseFieldsA_erase env base inc json arr outer rest _ _ fs' r'.2
    · refine Res.bind_erase (parseFieldValueA_erase env base inc json arr _ cs _ s.line n) ?_
      intro r
      refine Res.bind_erase (f := eraseF) ?_ ?_
      · rw [putFieldA_erase, erase_appendTrailing]; rfl
      · intro fs'
        exact parseFieldsA_erase env base inc json arr outer rest _ _ fs' r.2.2
  | .single t :: rest =>
    have ih := fun s taken => parseFieldsA_erase env base inc json arr outer rest s taken fs n
    rw [parseFields]
    · cases t <;> rw [parseFieldsA] <;> first | exact ih _ _ | simp
    · simp
    · simp
  | .path _ _ :: rest =>
    have ih := fun s taken => parseFieldsA_erase env base inc json arr outer rest s taken fs n
    rw [parseFields, parseFieldsA] <;> first | exact ih _ _ | simp
  | .simple _ :: rest =>
    have ih := fun s taken => parseFieldsA_erase env base inc json arr outer rest s taken fs n
    rw [parseFields, parseFieldsA] <;> first | exact ih _ _ | simp
  | .object _ :: rest =>
    have ih := fun s taken => parseFieldsA_erase env base inc json arr outer rest s taken fs n
    rw [parseFields, parseFieldsA] <;> first | exact ih _ _ | simp
  | .array _ :: rest =>
    have ih := fun s taken => parseFieldsA_erase env base inc json arr outer rest s taken fs n
    rw [parseFields, parseFieldsA] <;> first | exact ih _ _ | simp
  | .concat _ :: rest =>
    have ih := fun s taken => parseFieldsA_erase env base inc json arr outer rest s taken fs n
    rw [parseFields, parseFieldsA] <;> first | exact ih _ _ | simp
end

theorem parseRootA_erase (env : Env) (base : Origin) (inc : AIncluder) (json : Bool) (cs : List Node) (s : Loop)
    (r : Option AVal) (n : Nat) :
    Res.mapOk (fun r => (r.1.map AVal.erase, r.2)) (parseRootA env base inc json cs s r n)
      = parseRoot env inc.erase json cs (r.map AVal.erase) n := by
  induction cs generalizing s r n with
  | nil => rfl
  | cons c cs ih =>
    rw [parseRootA.eq_def, parseRoot.eq_def]
    simp only
    split
    · refine Res.bind_erase (parseValueA_erase env base inc json 0 none c s.comments s.line n) ?_
      intro x
      exact ih _ _ _
    · cases c with
      | single t => cases t <;> cases r <;> simp only [Option.map_none, Option.map_some] <;> first | exact ih _ _ _ | simp
      | _ => cases r <;> exact ih _ _ _

/-- The values of a text do not depend on origins and comments. -/
theorem parseTextA_erase (env : Env) (base : Origin) (inc : AIncluder) (fl : PathParser.Syntax) (s : Str) (n : Nat) :
    Res.mapOk (fun r => (r.1.erase, r.2)) (parseTextA env base inc fl s n) = parseText env inc.erase fl s n := by
  rw [parseTextA, parseText, Res.mapOk_bind]
  congr 1
  funext cs
  refine Res.bind_erase (parseRootA_erase env base inc (fl = .json) cs _ none n) ?_
  intro r
  refine Res.bind_erase (nonNullA_erase r.1) ?_
  intro v
  rfl

end Notes
end Hocon
