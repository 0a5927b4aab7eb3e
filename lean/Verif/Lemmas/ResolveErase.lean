import Verif.ResolveNotes
import Verif.Lemmas.NotesErase
import Verif.Lemmas.AccessNotesErase

/-!
# Resolving with origins gives the values of resolving without them
-/

set_option autoImplicit false

namespace Hocon
namespace ResolveA

open Notes Resolve

theorem bindE {α α' β β' : Type} {f : α → α'} {h : β → β'} {x : Res α} {x' : Res α'} {g : α → Res β}
    {g' : α' → Res β'} (h1 : Res.mapOk f x = x') (h2 : ∀ a, Res.mapOk h (g a) = g' (f a)) :
    Res.mapOk h (x.bind g) = x'.bind g' := Res.bind_erase h1 h2

theorem iteE {α β : Type} {f : α → β} {p : Prop} {d d' : Decidable p} {x y : Res α} {x' y' : Res β}
    (h1 : p → Res.mapOk f x = x') (h2 : ¬ p → Res.mapOk f y = y') :
    Res.mapOk f (@ite _ p d x y) = @ite _ p d' x' y' := by
  by_cases h : p
  · rw [if_pos h, if_pos h, h1 h]
  · rw [if_neg h, if_neg h, h2 h]

/-- The source without origins. -/
def ASource.erase (s : ASource) : Source := ⟨s.root.map AVal.erase, eraseL s.path⟩

/-- A result without origins. -/
def outR (r : Ctx × Option AVal) : Ctx × Option Value := (r.1, r.2.map AVal.erase)

/-- What a lookup finds, without origins. -/
def outL (r : Ctx × Option AVal × List AVal) : Ctx × Option Value × List Value :=
  (r.1, r.2.1.map AVal.erase, eraseL r.2.2)

/-- The two resolvers agree. -/
def Refines (ra : AResolver) (r : Resolver) : Prop := ∀ c s v, Res.mapOk outR (ra c s v) = r c s.erase v.erase

theorem asObjectA_erase (v : AVal) : (asObjectA v).map AVal.erase = asObject v.erase := by
  unfold asObjectA asObject
  split <;> rfl

theorem push_erase (s : ASource) (v : AVal) : (s.push v).erase = s.erase.push v.erase := by
  unfold ASource.push Source.push ASource.erase
  rw [asObjectA_erase]
  have : (eraseL s.path).isEmpty = s.path.isEmpty := by rw [eraseL_map]; simp
  simp only [this]
  split
  · split <;> rfl
  · rfl

theorem replaceInListA_erase (child : AVal) (repl : Option AVal) (vs : List AVal) :
    (replaceInListA child repl vs).map eraseL = replaceInList child.erase (repl.map AVal.erase) (eraseL vs) := by
  induction vs with
  | nil => rfl
  | cons v vs ih =>
    simp only [eraseL, replaceInListA, replaceInList]
    by_cases hv : v.erase = child.erase
    · rw [if_pos hv, if_pos hv]; cases repl <;> rfl
    · rw [if_neg hv, if_neg hv, ← ih, Option.map_map, Option.map_map]; rfl

theorem replaceInFieldsA_erase (child : AVal) (repl : Option AVal) (fs : AFields) :
    (replaceInFieldsA child repl fs).map eraseF = replaceInFields child.erase (repl.map AVal.erase) (eraseF fs) := by
  induction fs with
  | nil => rfl
  | cons f fs ih =>
    obtain ⟨k, v⟩ := f
    simp only [eraseF, replaceInFieldsA, replaceInFields]
    by_cases hv : v.erase = child.erase
    · rw [if_pos hv, if_pos hv]; cases repl <;> rfl
    · rw [if_neg hv, if_neg hv, ← ih, Option.map_map, Option.map_map]; rfl

theorem any_erase (p : Value → Bool) (vs : List AVal) : (vs.any fun v => p v.erase) = (eraseL vs).any p := by
  rw [eraseL_map, List.any_map]; rfl

theorem mkDmA_erase (o : Origin) (st : List AVal) : Res.mapOk AVal.erase (mkDmA o st) = Value.mkDm (eraseL st) := by
  unfold mkDmA Value.mkDm
  cases st <;> rfl

theorem mkConcatA_erase (o : Origin) (ps : List AVal) :
    Res.mapOk AVal.erase (mkConcatA o ps) = Value.mkConcat (eraseL ps) := by
  unfold mkConcatA Value.mkConcat
  rw [eraseL_length, any_erase, any_erase]
  split
  · rfl
  · split
    · rfl
    · split <;> rfl

theorem someE {α β : Type} (f : α → β) (x : Res α) :
    Res.mapOk (Option.map f) (x.bind fun v => .ok (some v)) = (Res.mapOk f x).bind fun v => .ok (some v) := by
  cases x <;> rfl

theorem isEmpty_erase (vs : List AVal) : (eraseL vs).isEmpty = vs.isEmpty := by cases vs <;> rfl

theorem replaceChildA_erase (parent child : AVal) (repl : Option AVal) :
    Res.mapOk (Option.map AVal.erase) (replaceChildA parent child repl)
      = replaceChild parent.erase child.erase (repl.map AVal.erase) := by
  cases parent with
  | scalar o s => rfl
  | ref o n p opt pre => rfl
  | obj o fs r i =>
    simp only [replaceChildA, AVal.erase, replaceChild, ← replaceInFieldsA_erase]
    cases replaceInFieldsA child repl fs with
    | none => rfl
    | some gs =>
      simp only [Option.map_some, Res.mapOk_ok, AVal.erase, resolved_erase]
  | list o vs =>
    simp only [replaceChildA, AVal.erase, replaceChild, ← replaceInListA_erase]
    cases replaceInListA child repl vs with
    | none => rfl
    | some ws =>
      simp only [Option.map_some, isEmpty_erase]
      split <;> rfl
  | concat o vs =>
    simp only [replaceChildA, AVal.erase, replaceChild, ← replaceInListA_erase]
    cases replaceInListA child repl vs with
    | none => rfl
    | some ws =>
      simp only [Option.map_some, isEmpty_erase]
      split
      · rfl
      · rw [someE, mkConcatA_erase]
  | dm o vs =>
    simp only [replaceChildA, AVal.erase, replaceChild, ← replaceInListA_erase]
    cases replaceInListA child repl vs with
    | none => rfl
    | some ws =>
      simp only [Option.map_some, isEmpty_erase]
      split
      · rfl
      · rw [someE, mkDmA_erase]
  | dmo o vs =>
    simp only [replaceChildA, AVal.erase, replaceChild, ← replaceInListA_erase]
    cases replaceInListA child repl vs with
    | none => rfl
    | some ws =>
      simp only [Option.map_some, isEmpty_erase]
      split
      · rfl
      · rw [someE, mkDmA_erase]

theorem asContainerA_erase (v : Option AVal) : (asContainerA v).map AVal.erase = asContainer (v.map AVal.erase) := by
  cases v with
  | none => rfl
  | some v =>
    simp only [asContainerA, asContainer, Option.map_some]
    split <;> rfl

theorem replacePathA_erase : (p : List AVal) → (repl : Option AVal) →
    Res.mapOk eraseL (replacePathA p repl) = replacePath (eraseL p) (repl.map AVal.erase)
  | [], _ => rfl
  | [v], repl => by
    simp only [replacePathA, eraseL, replacePath, ← asContainerA_erase]
    cases asContainerA repl <;> rfl
  | old :: parent :: rest, repl => by
    simp only [replacePathA, eraseL, replacePath, ← asContainerA_erase]
    cases asContainerA repl with
    | none =>
      refine bindE (replaceChildA_erase parent old none) ?_
      intro np
      exact replacePathA_erase (parent :: rest) np
    | some r =>
      refine bindE (replaceChildA_erase parent old (some r)) ?_
      intro np
      refine bindE (replacePathA_erase (parent :: rest) np) ?_
      intro t
      rfl

theorem getLast_erase (vs : List AVal) : (eraseL vs).getLast? = vs.getLast?.map AVal.erase := by
  rw [eraseL_map, List.getLast?_map]

theorem rootOfPathA_erase (p : List AVal) : (rootOfPathA p).map AVal.erase = rootOfPath (eraseL p) := by
  unfold rootOfPathA rootOfPath
  rw [getLast_erase]
  cases p.getLast? with
  | none => rfl
  | some v => exact asObjectA_erase v

theorem replaceWithin_erase (s : ASource) (old : AVal) (repl : Option AVal) :
    Res.mapOk ASource.erase (s.replaceWithin old repl) = s.erase.replaceWithin old.erase (repl.map AVal.erase) := by
  obtain ⟨root, path⟩ := s
  cases path with
  | cons parent rest =>
    simp only [ASource.replaceWithin, ASource.erase, eraseL, Source.replaceWithin]
    refine bindE (replaceChildA_erase parent old repl) ?_
    intro np
    rw [← asContainerA_erase]
    refine bindE (replacePathA_erase (parent :: rest) (asContainerA np)) ?_
    intro p
    simp only [Res.mapOk_ok, ← rootOfPathA_erase]
    rfl
  | nil =>
    simp only [ASource.replaceWithin, ASource.erase, eraseL, Source.replaceWithin, ← asContainerA_erase]
    cases asContainerA repl with
    | none => rfl
    | some r =>
      simp only [Option.map_some]
      refine iteE (fun _ => ?_) (fun _ => rfl)
      simp only [Res.mapOk_ok, ASource.erase, Option.map_some, eraseL]
      split <;> rfl

/-- What is found and the containers passed, without origins. -/
def outP (r : Option AVal × List AVal) : Option Value × List Value := (r.1.map AVal.erase, eraseL r.2)

theorem findPeekA_erase : (v : AVal) → (p : Path) → (ps : List AVal) →
    Res.mapOk outP (findPeekA v p ps) = findPeek v.erase p (eraseL ps)
  | _, [], _ => rfl
  | v, k :: next, ps => by
    simp only [findPeekA, findPeek]
    refine bindE (attemptPeekA_erase v k) ?_
    intro o
    split
    · rfl
    · cases o with
      | none => rfl
      | some w =>
        simp only [Option.map_some]
        split
        · exact findPeekA_erase w next (v :: ps)
        · rfl

variable {ra : AResolver} {r : Resolver}

theorem findInObjectA_erase (h : Refines ra r) (obj : Option AVal) (c : Ctx) (p : Path) :
    Res.mapOk outL (findInObjectA ra obj c p) = findInObject r (obj.map AVal.erase) c p := by
  cases obj with
  | none => rfl
  | some o =>
    simp only [findInObjectA, findInObject, Option.map_some]
    refine bindE (h _ _ _) ?_
    rintro ⟨c', v⟩
    cases v with
    | none => rfl
    | some v =>
      simp only [outR, Option.map_some]
      split
      · refine bindE (findPeekA_erase v p []) ?_
        intro f
        rfl
      · rfl

theorem findEnvA_erase (env : Env) (p : Path) :
    Res.mapOk (Option.map AVal.erase) (findEnvA env p) = findEnv env p := by
  match p with
  | [] => rfl
  | [k] => simp only [findEnvA, findEnv, Res.mapOk_ok, Option.map_map]; rfl
  | _ :: _ :: _ => rfl

theorem lookupEnvA_erase (env : Env) (c : Ctx) (p : Path) (l : Ctx × Option AVal × List AVal) :
    Res.mapOk outL (lookupEnvA env c p l) = lookupEnv env c p (outL l) := by
  obtain ⟨c', v, ps⟩ := l
  simp only [lookupEnvA, lookupEnv, outL, Option.isNone_map]
  split
  · refine bindE (findEnvA_erase env p) ?_
    intro v
    rfl
  · rfl

theorem lookupSubstA_erase (h : Refines ra r) (env : Env) (root : Option AVal) (c : Ctx) (p : Path) (pre : Nat) :
    Res.mapOk outL (lookupSubstA env ra root c p pre) = lookupSubst env r (root.map AVal.erase) c p pre := by
  unfold lookupSubstA lookupSubst
  refine bindE (findInObjectA_erase h root c p) ?_
  rintro ⟨c', v, ps⟩
  simp only [outL, Option.isNone_map]
  split
  · split
    · exact bindE (findInObjectA_erase h root c' _) (fun l => lookupEnvA_erase env c _ l)
    · exact lookupEnvA_erase env c _ (c', v, ps)
  · rfl

theorem catchCycleA_erase (opt : Bool) (c : Ctx) (x : Res (Ctx × Option AVal)) :
    Res.mapOk outR (catchCycleA opt c x) = catchCycle opt c (Res.mapOk outR x) := by
  cases x with
  | ok a => rfl
  | err e =>
    cases e <;> simp only [catchCycleA, catchCycle, Res.mapOk_err]
    split <;> rfl
  | ub => rfl
  | fuel => rfl

theorem finishRefA_erase (self : AVal) (id : Nat) (opt : Bool) (x : Ctx × Option AVal) :
    Res.mapOk outR (finishRefA self id opt x) = finishRef self.erase id opt (outR x) := by
  obtain ⟨c, v⟩ := x
  cases v with
  | some v => rfl
  | none =>
    simp only [finishRefA, finishRef, outR, Option.map_none]
    exact iteE (fun _ => rfl) (fun _ => iteE (fun _ => rfl) (fun _ => rfl))

theorem resolveFoundA_erase (h : Refines ra r) (opt : Bool) (l : Ctx × Option AVal × List AVal) :
    Res.mapOk outR (resolveFoundA ra opt l) = resolveFound r opt (outL l) := by
  obtain ⟨c, v, ps⟩ := l
  cases v with
  | none => rfl
  | some v =>
    simp only [resolveFoundA, resolveFound, outL, Option.map_some]
    rw [catchCycleA_erase, h]
    congr 2
    simp only [ASource.erase, getLast_erase]
    congr 1
    cases ps.getLast? with
    | none => rfl
    | some w => exact asObjectA_erase w

theorem tryRefA_erase (h : Refines ra r) (env : Env) (c : Ctx) (s : ASource) (p : Path) (opt : Bool) (pre : Nat) :
    Res.mapOk outR (tryRefA env ra c s p opt pre) = tryRef env r c s.erase p opt pre := by
  have hl := lookupSubstA_erase h env s.root c p pre
  unfold tryRefA tryRef
  have hr : s.erase.root = s.root.map AVal.erase := rfl
  rw [hr, ← hl]
  cases lookupSubstA env ra s.root c p pre with
  | ok l => exact resolveFoundA_erase h opt l
  | err e => exact catchCycleA_erase opt _ (.err e)
  | ub => rfl
  | fuel => rfl

theorem resolveRefA_erase (h : Refines ra r) (env : Env) (c : Ctx) (s : ASource) (o : Origin) (id : Nat) (p : Path)
    (opt : Bool) (pre : Nat) :
    Res.mapOk outR (resolveRefA env ra c s o id p opt pre) = resolveRef env r c s.erase id p opt pre := by
  unfold resolveRefA resolveRef
  split
  · rfl
  · exact bindE (tryRefA_erase h env _ s p opt pre) (fun x => finishRefA_erase _ id opt x)

theorem resolveChildA_erase (h : Refines ra r) (orig : Path) (c : Ctx) (s : ASource) (k : Str) (v : AVal) :
    Res.mapOk outR (resolveChildA ra orig c s k v) = resolveChild r orig c s.erase k v.erase := by
  unfold resolveChildA resolveChild
  cases c.restr with
  | nil => exact bindE (f := outR) (h _ _ _) (fun x => by rfl)
  | cons key rem =>
    simp only
    by_cases hk : k = key
    · rw [if_pos hk, if_pos hk]
      cases rem.isEmpty
      · exact bindE (f := outR) (h _ _ _) (fun x => by rfl)
      · rfl
    · rw [if_neg hk, if_neg hk]; rfl

/-- New fields without origins. -/
def eraseO (new : List (Str × Option AVal)) : List (Str × Option Value) :=
  new.map fun f => (f.1, f.2.map AVal.erase)

theorem resolveFieldsA_erase (h : Refines ra r) (orig : Path) (s : ASource) (c : Ctx) (fs : AFields) :
    Res.mapOk (fun x => (x.1, eraseO x.2)) (resolveFieldsA ra orig s c fs)
      = resolveFields r orig s.erase c (eraseF fs) := by
  induction fs generalizing c with
  | nil => rfl
  | cons f fs ih =>
    obtain ⟨k, v⟩ := f
    simp only [resolveFieldsA, eraseF, resolveFields]
    refine bindE (resolveChildA_erase h orig c s k v) ?_
    intro x
    refine bindE (ih x.1) ?_
    intro rest
    rfl

theorem keptFieldsA_erase : (new : List (Str × Option AVal)) → eraseF (keptFieldsA new) = keptFields (eraseO new)
  | [] => rfl
  | (k, some v) :: fs => by
    rw [keptFieldsA, eraseF, keptFieldsA_erase fs]; rfl
  | (k, none) :: fs => by
    rw [keptFieldsA, keptFieldsA_erase fs]; rfl

theorem keptFields_same (fs : Fields) : keptFields (fs.map fun f => (f.1, some f.2)) = fs := by
  induction fs with
  | nil => rfl
  | cons f fs ih => rw [List.map_cons, keptFields, ih]

theorem modifiedObjectA_erase (o : Origin) (fs : AFields) (res ign : Bool) (new : List (Str × Option AVal)) :
    (modifiedObjectA o fs res ign new).erase = modifiedObject (eraseF fs) res ign (eraseO new) := by
  have he : (eraseF fs).map (fun f => (f.1, some f.2)) = fs.map (fun f => (f.1, some f.2.erase)) := by
    rw [eraseF_map, List.map_map]; rfl
  unfold modifiedObjectA modifiedObject
  rw [AVal.erase, keptFieldsA_erase, resolved_erase, keptFieldsA_erase, ← he]
  by_cases hq : eraseO new = (eraseF fs).map (fun f => (f.1, some f.2))
  · rw [if_pos (c := eraseO new = _) hq]
    refine (congrArg (fun b => Value.obj _ b ign) (if_pos hq)).trans ?_
    rw [hq, keptFields_same]
  · rw [if_neg (c := eraseO new = _) hq]
    exact congrArg (fun b => Value.obj _ b ign) (if_neg hq)

theorem resolveObjectA_erase (h : Refines ra r) (c : Ctx) (s : ASource) (o : Origin) (fs : AFields) (res ign : Bool) :
    Res.mapOk outR (resolveObjectA ra c s o fs res ign) = resolveObject r c s.erase (eraseF fs) res ign := by
  unfold resolveObjectA resolveObject
  split
  · rfl
  · have hp := push_erase s (.obj o fs res ign)
    rw [AVal.erase] at hp
    rw [← hp]
    refine bindE (resolveFieldsA_erase h _ _ c fs) ?_
    intro x
    simp only [Res.mapOk_ok, outR, Option.map_some, modifiedObjectA_erase]

/-- New elements without origins. -/
def eraseE (new : List (Option AVal)) : List (Option Value) := new.map fun v => v.map AVal.erase

theorem resolveElemsA_erase (h : Refines ra r) (s : ASource) (c : Ctx) (vs : List AVal) :
    Res.mapOk (fun x => (x.1, eraseE x.2)) (resolveElemsA ra s c vs) = resolveElems r s.erase c (eraseL vs) := by
  induction vs generalizing c with
  | nil => rfl
  | cons v vs ih =>
    simp only [resolveElemsA, eraseL, resolveElems]
    refine bindE (h c s v) ?_
    intro x
    refine bindE (ih x.1) ?_
    intro rest
    rfl

theorem toList_erase (v : Option AVal) : eraseL v.toList = (v.map AVal.erase).toList := by cases v <;> rfl

/-- Old and new elements without origins. -/
def eraseP (xs : List (AVal × Option AVal)) : List (Value × Option Value) :=
  xs.map fun x => (x.1.erase, x.2.map AVal.erase)

theorem changedElemsA_erase (before : List AVal) (init : Bool) (changed : List AVal) (xs : List (AVal × Option AVal)) :
    (fun x => (x.1, eraseL x.2)) (changedElemsA before init changed xs)
      = changedElems (eraseL before) init (eraseL changed) (eraseP xs) := by
  induction xs generalizing before init changed with
  | nil => rfl
  | cons x xs ih =>
    obtain ⟨old, new⟩ := x
    have hc : eraseP ((old, new) :: xs) = (old.erase, new.map AVal.erase) :: eraseP xs := rfl
    rw [hc, changedElemsA, changedElems, isEmpty_erase]
    have ho : eraseL (before ++ [old]) = eraseL before ++ [old.erase] := by rw [eraseL_append]; rfl
    split
    · rw [ih, ho, eraseL_append, toList_erase]
    · split
      · rw [ih, ho, eraseL_append, toList_erase]
      · rw [ih, ho]

theorem zip_erase (vs : List AVal) (new : List (Option AVal)) : eraseP (vs.zip new) = (eraseL vs).zip (eraseE new) := by
  rw [eraseP, eraseL_map, eraseE, List.zip_map]
  rfl

theorem modifiedListA_erase (au : Bool) (o : Origin) (vs : List AVal) (new : List (Option AVal)) :
    Res.mapOk AVal.erase (modifiedListA au o vs new) = modifiedList au (eraseL vs) (eraseE new) := by
  unfold modifiedListA modifiedList
  have hc := changedElemsA_erase [] false [] (vs.zip new)
  rw [zip_erase] at hc
  simp only [eraseL] at hc
  rw [← hc]
  obtain ⟨b, ws⟩ := changedElemsA [] false [] (vs.zip new)
  cases b with
  | false => rfl
  | true => exact iteE (fun _ => rfl) (fun _ => rfl)

theorem resolveListA_erase (h : Refines ra r) (c : Ctx) (s : ASource) (o : Origin) (vs : List AVal) :
    Res.mapOk outR (resolveListA ra c s o vs) = resolveList r c s.erase (eraseL vs) := by
  unfold resolveListA resolveList
  have hp := push_erase s (.list o vs)
  rw [AVal.erase] at hp ⊢
  split
  · rfl
  · split
    · rfl
    · rw [← hp]
      refine bindE (resolveElemsA_erase h _ c vs) ?_
      intro x
      exact bindE (modifiedListA_erase _ o vs x.2) (fun v => rfl)

theorem resolvePiecesA_erase (h : Refines ra r) (s : ASource) (c : Ctx) (ps : List AVal) :
    Res.mapOk (fun x => (x.1, eraseL x.2)) (resolvePiecesA ra s c ps) = resolvePieces r s.erase c (eraseL ps) := by
  induction ps generalizing c with
  | nil => rfl
  | cons p ps ih =>
    simp only [resolvePiecesA, eraseL, resolvePieces]
    refine bindE (h _ s p) ?_
    intro x
    refine bindE (ih _) ?_
    intro rest
    simp only [Res.mapOk_ok, eraseL_append, toList_erase, outR]

theorem joinedPiecesA_erase (au : Bool) (o : Origin) (js : List AVal) :
    Res.mapOk (Option.map AVal.erase) (joinedPiecesA au o js) = joinedPieces au (eraseL js) := by
  match js with
  | [] => rfl
  | [v] => rfl
  | v :: w :: vs =>
    simp only [joinedPiecesA, joinedPieces, eraseL]
    split
    · rw [someE, mkConcatA_erase]; rfl
    · rfl

theorem resolveConcatA_erase (h : Refines ra r) (env : Env) (c : Ctx) (s : ASource) (o : Origin) (ps : List AVal) :
    Res.mapOk outR (resolveConcatA env ra c s o ps) = resolveConcat env r c s.erase (eraseL ps) := by
  unfold resolveConcatA resolveConcat
  refine bindE (resolvePiecesA_erase h s c ps) ?_
  intro x
  refine bindE (consolidateA_erase env x.2) ?_
  intro js
  exact bindE (joinedPiecesA_erase _ o js) (fun v => rfl)

theorem overA_erase (v w : AVal) : Res.mapOk AVal.erase (overA v w) = Value.withFallback v.erase w.erase := by
  rw [← fallbackA_erase, overA]
  cases fallbackA v w <;> rfl

theorem mergeAllA_erase (v : AVal) (vs : List AVal) :
    Res.mapOk AVal.erase (mergeAllA v vs) = Resolve.mergeAll v.erase (eraseL vs) := by
  induction vs generalizing v with
  | nil => rfl
  | cons w vs ih =>
    simp only [mergeAllA, eraseL, Resolve.mergeAll]
    exact bindE (overA_erase v w) ih

theorem makeReplacementA_erase (vs : List AVal) :
    Res.mapOk (Option.map AVal.erase) (makeReplacementA vs) = makeReplacement (eraseL vs) := by
  cases vs with
  | nil => rfl
  | cons v vs =>
    simp only [makeReplacementA, eraseL, makeReplacement]
    exact bindE (mergeAllA_erase v vs) (fun m => rfl)

theorem sourceForEndA_erase (self : AVal) (s : ASource) (v : AVal) (rest : List AVal) :
    Res.mapOk ASource.erase (sourceForEndA self s v rest) = sourceForEnd self.erase s.erase v.erase (eraseL rest) := by
  unfold sourceForEndA sourceForEnd
  split
  · rfl
  · split
    · exact bindE (makeReplacementA_erase rest) (fun x => replaceWithin_erase s self x)
    · simp only [Res.mapOk_ok, push_erase]

theorem mergeEndA_erase (m n : Option AVal) :
    Res.mapOk (Option.map AVal.erase) (mergeEndA m n) = mergeEnd (m.map AVal.erase) (n.map AVal.erase) := by
  cases m <;> cases n <;> simp only [mergeEndA, mergeEnd, Option.map_none, Option.map_some, Res.mapOk_ok]
  exact bindE (overA_erase _ _) (fun m => rfl)

theorem resolveStackA_erase (h : Refines ra r) (self : AVal) (s : ASource) (c : Ctx) (m : Option AVal) (st : List AVal) :
    Res.mapOk outR (resolveStackA ra self s c m st)
      = resolveStack r self.erase s.erase c (m.map AVal.erase) (eraseL st) := by
  induction st generalizing c m with
  | nil => rfl
  | cons v rest ih =>
    simp only [resolveStackA, eraseL, resolveStack]
    refine bindE (sourceForEndA_erase self s v rest) ?_
    intro s'
    refine bindE (h c s' v) ?_
    intro x
    refine bindE (mergeEndA_erase m x.2) ?_
    intro m'
    exact ih x.1 m'

theorem checkResultA_erase (c : Ctx) (x : Ctx × Option AVal) :
    Res.mapOk outR (checkResultA c x) = checkResult c (outR x) := by
  obtain ⟨c', v⟩ := x
  cases v with
  | none => rfl
  | some v =>
    simp only [checkResultA, checkResult, outR, Option.map_some]
    split <;> rfl

theorem resolveNA_erase (env : Env) (n : Nat) : Refines (resolveNA env n) (resolveN env n) := by
  induction n with
  | zero => intro c s v; rfl
  | succ n ih =>
    intro c s v
    simp only [resolveNA, resolveN]
    split
    · rfl
    · refine bindE ?_ (fun x => checkResultA_erase c x)
      cases v with
      | scalar o x => rfl
      | list o vs => exact resolveListA_erase ih c s o vs
      | obj o fs r i => exact resolveObjectA_erase ih c s o fs r i
      | ref o id p opt pre => exact resolveRefA_erase ih env c s o id p opt pre
      | concat o ps => exact resolveConcatA_erase ih env c s o ps
      | dm o st => exact resolveStackA_erase ih (.dm o st) s c none st
      | dmo o st => exact resolveStackA_erase ih (.dmo o st) s c none st

theorem configResolveWithA_erase (env : Env) (n : Nat) (self source : AVal) (o : Resolve.Options) :
    Res.mapOk (Option.map AVal.erase) (configResolveWithA env n self source o)
      = configResolveWith env n self.erase source.erase o := by
  unfold configResolveWithA configResolveWith resolveTopA resolveTop
  refine bindE (f := Option.map AVal.erase) ?_ ?_
  · exact bindE (resolveNA_erase env n _ _ _) (fun x => rfl)
  · intro x
    cases x with
    | none => rfl
    | some v => simp only [Option.bind_some, Option.map_some, Res.mapOk_ok, asObjectA_erase]

end ResolveA
end Hocon
