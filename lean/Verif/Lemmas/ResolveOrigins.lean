import Verif.ResolveNotes
import Verif.Lemmas.NotesBounds
import Verif.Lemmas.ResolveClosed
import Verif.Props.PositionProps

/-!
# Resolving makes up no origins
-/

set_option autoImplicit false

namespace Hocon
namespace ResolveA

open Notes Resolve PositionProps

theorem bokA {α β : Type} {x : Res α} {f : α → Res β} {b : β} (h : x.bind f = .ok b) :
    ∃ a, x = .ok a ∧ f a = .ok b := Res.bind_eq_ok.1 h

/-- All origins of a possibly missing value. -/
def AllO (P : Origin → Prop) (o : Option AVal) : Prop := ∀ v, o = some v → All P v

variable {P : Origin → Prop} {K : Str → Prop} {env : Env}

theorem allO_none : AllO P none := by intro v h; simp at h
theorem allO_some {v : AVal} (h : All P v) : AllO P (some v) := by
  intro w hw; simp only [Option.some.injEq] at hw; exact hw ▸ h
theorem AllO.get {v : AVal} (h : AllO P (some v)) : All P v := h v rfl
theorem allO_toList {o : Option AVal} (h : AllO P o) : AllL P o.toList := by
  cases o with
  | none => intro v hv; simp at hv
  | some w => intro v hv; simp only [Option.toList_some, List.mem_singleton] at hv; exact hv ▸ h.get

/-- All origins of a source. -/
structure AllS (P : Origin → Prop) (s : ASource) : Prop where
  root : AllO P s.root
  path : AllL P s.path

/-- A resolver that makes up no origins. -/
def Keeps (P : Origin → Prop) (ra : AResolver) : Prop :=
  ∀ c s v r, AllS P s → All P v → ra c s v = .ok r → AllO P r.2

theorem asObjectA_all {v : AVal} (h : All P v) : AllO P (asObjectA v) := by
  unfold asObjectA
  split
  · exact allO_some h
  · exact allO_none

theorem asContainerA_all {v : Option AVal} (h : AllO P v) : AllO P (asContainerA v) := by
  cases v with
  | none => exact allO_none
  | some v =>
    simp only [asContainerA]
    split
    · exact h
    · exact allO_none

theorem push_all {s : ASource} {v : AVal} (hs : AllS P s) (hv : All P v) : AllS P (s.push v) := by
  unfold ASource.push
  split
  · split
    · refine ⟨hs.root, ?_⟩
      intro w hw
      simp only [List.mem_singleton] at hw
      exact hw ▸ hv
    · exact hs
  · exact ⟨hs.root, allL_cons hv hs.path⟩

theorem replaceInListA_all {child : AVal} {repl : Option AVal} (hr : AllO P repl) {vs ws : List AVal}
    (hv : AllL P vs) (h : replaceInListA child repl vs = some ws) : AllL P ws := by
  induction vs generalizing ws with
  | nil => simp [replaceInListA] at h
  | cons v vs ih =>
    have hvs : AllL P vs := fun w hw => hv w (by simp [hw])
    simp only [replaceInListA] at h
    split at h
    · cases repl with
      | none => simp only [Option.some.injEq] at h; exact h ▸ hvs
      | some r => simp only [Option.some.injEq] at h; exact h ▸ allL_cons hr.get hvs
    · rw [Option.map_eq_some_iff] at h
      obtain ⟨us, hu, rfl⟩ := h
      exact allL_cons (hv v (by simp)) (ih hvs hu)

theorem allF_cons {k : Str} {v : AVal} {fs : AFields} (hv : All P v) (hf : AllF P fs) : AllF P ((k, v) :: fs) := by
  intro f h
  rcases List.mem_cons.1 h with rfl | h
  · exact hv
  · exact hf f h

theorem replaceInFieldsA_all {child : AVal} {repl : Option AVal} (hr : AllO P repl) {fs gs : AFields}
    (hv : AllF P fs) (h : replaceInFieldsA child repl fs = some gs) : AllF P gs := by
  induction fs generalizing gs with
  | nil => simp [replaceInFieldsA] at h
  | cons f fs ih =>
    obtain ⟨k, v⟩ := f
    have hvs : AllF P fs := fun w hw => hv w (by simp [hw])
    simp only [replaceInFieldsA] at h
    split at h
    · cases repl with
      | none => simp only [Option.some.injEq] at h; exact h ▸ hvs
      | some r => simp only [Option.some.injEq] at h; exact h ▸ allF_cons hr.get hvs
    · rw [Option.map_eq_some_iff] at h
      obtain ⟨us, hu, rfl⟩ := h
      exact allF_cons (hv (k, v) (by simp)) (ih hvs hu)

theorem mkDmA_all {o : Origin} {st : List AVal} {v : AVal} (ho : P o) (hs : AllL P st) (h : mkDmA o st = .ok v) :
    All P v := by
  unfold mkDmA at h
  split at h
  · simp at h
  · simp only [Res.ok.injEq] at h
    exact h ▸ all_dm.2 ⟨ho, hs⟩

theorem mkConcatA_all {o : Origin} {st : List AVal} {v : AVal} (ho : P o) (hs : AllL P st) (h : mkConcatA o st = .ok v) :
    All P v := by
  unfold mkConcatA at h
  repeat' split at h
  all_goals first
    | (simp at h; done)
    | (simp only [Res.ok.injEq] at h; exact h ▸ all_concat.2 ⟨ho, hs⟩)

theorem replaceChildA_all {parent child : AVal} {repl : Option AVal} {r : Option AVal} (hp : All P parent)
    (hr : AllO P repl) (h : replaceChildA parent child repl = .ok r) : AllO P r := by
  cases parent with
  | scalar o s => simp [replaceChildA] at h
  | ref o n p opt pre => simp [replaceChildA] at h
  | obj o fs rr i =>
    have hp := all_obj.1 hp
    simp only [replaceChildA] at h
    split at h
    · simp at h
    · rename_i gs hg
      simp only [Res.ok.injEq] at h
      exact h ▸ allO_some (all_obj.2 ⟨hp.1, replaceInFieldsA_all hr hp.2 hg⟩)
  | list o vs =>
    have hp := all_list.1 hp
    simp only [replaceChildA] at h
    split at h
    · simp at h
    · rename_i gs hg
      have hw := replaceInListA_all hr hp.2 hg
      split at h
      · simp only [Res.ok.injEq] at h; exact h ▸ allO_none
      · simp only [Res.ok.injEq] at h; exact h ▸ allO_some (all_list.2 ⟨hp.1, hw⟩)
  | concat o vs =>
    have hp := all_concat.1 hp
    simp only [replaceChildA] at h
    split at h
    · simp at h
    · rename_i gs hg
      have hw := replaceInListA_all hr hp.2 hg
      split at h
      · simp only [Res.ok.injEq] at h; exact h ▸ allO_none
      · obtain ⟨v, hv, h⟩ := bokA h
        simp only [Res.ok.injEq] at h
        exact h ▸ allO_some (mkConcatA_all hp.1 hw hv)
  | dm o vs =>
    have hp := all_dm.1 hp
    simp only [replaceChildA] at h
    split at h
    · simp at h
    · rename_i gs hg
      have hw := replaceInListA_all hr hp.2 hg
      split at h
      · simp only [Res.ok.injEq] at h; exact h ▸ allO_none
      · obtain ⟨v, hv, h⟩ := bokA h
        simp only [Res.ok.injEq] at h
        exact h ▸ allO_some (mkDmA_all hp.1 hw hv)
  | dmo o vs =>
    have hp := all_dmo.1 hp
    simp only [replaceChildA] at h
    split at h
    · simp at h
    · rename_i gs hg
      have hw := replaceInListA_all hr hp.2 hg
      split at h
      · simp only [Res.ok.injEq] at h; exact h ▸ allO_none
      · obtain ⟨v, hv, h⟩ := bokA h
        simp only [Res.ok.injEq] at h
        exact h ▸ allO_some (mkDmA_all hp.1 hw hv)

theorem allL_tail {v : AVal} {vs : List AVal} (h : AllL P (v :: vs)) : AllL P vs := fun w hw => h w (by simp [hw])

theorem replacePathA_all : (p : List AVal) → (repl : Option AVal) → (q : List AVal) → AllL P p → AllO P repl →
    replacePathA p repl = .ok q → AllL P q
  | [], _, _, _, _, h => by simp [replacePathA] at h
  | [_], repl, q, hp, hr, h => by
    have hc := asContainerA_all hr
    simp only [replacePathA] at h
    split at h
    · simp only [Res.ok.injEq] at h
      subst h
      intro v hv
      simp at hv
    · rename_i r hr'
      simp only [Res.ok.injEq] at h
      subst h
      intro v hv
      simp only [List.mem_singleton] at hv
      exact hc v (hv ▸ hr')
  | old :: parent :: rest, repl, q, hp, hr, h => by
    have hc := asContainerA_all hr
    have hpa := hp parent (by simp)
    simp only [replacePathA] at h
    split at h
    · obtain ⟨np, h1, h⟩ := bokA h
      exact replacePathA_all (parent :: rest) np q (allL_tail hp) (replaceChildA_all hpa allO_none h1) h
    · rename_i r hr'
      rw [hr'] at hc
      obtain ⟨np, h1, h⟩ := bokA h
      obtain ⟨t, h2, h⟩ := bokA h
      simp only [Res.ok.injEq] at h
      subst h
      exact allL_cons hc.get
        (replacePathA_all (parent :: rest) np t (allL_tail hp) (replaceChildA_all hpa hc h1) h2)

theorem empty_all (hE : P (FilesA.source (ch "empty config"))) : All P FilesA.emptyA := by
  refine all_obj.2 ⟨hE, ?_⟩
  intro f hf
  simp at hf

theorem getLast_all {p : List AVal} (hp : AllL P p) : AllO P p.getLast? := by
  intro v hv
  exact hp v (List.mem_of_mem_getLast? hv)

theorem rootOfPathA_all (hE : P (FilesA.source (ch "empty config"))) {p : List AVal} (hp : AllL P p) :
    AllO P (rootOfPathA p) := by
  unfold rootOfPathA
  split
  · exact allO_some (empty_all hE)
  · rename_i v hv
    exact asObjectA_all (getLast_all hp v hv)

theorem replaceWithin_all (hE : P (FilesA.source (ch "empty config"))) {s s' : ASource} {old : AVal}
    {repl : Option AVal} (hs : AllS P s) (hr : AllO P repl) (h : s.replaceWithin old repl = .ok s') : AllS P s' := by
  have hnil : AllL P ([] : List AVal) := by intro v hv; simp at hv
  unfold ASource.replaceWithin at h
  split at h
  · rename_i parent rest hp
    have hpath := hs.path
    rw [hp] at hpath
    obtain ⟨np, h1, h⟩ := bokA h
    obtain ⟨p, h2, h⟩ := bokA h
    simp only [Res.ok.injEq] at h
    subst h
    exact ⟨rootOfPathA_all hE (replacePathA_all _ _ _ hpath
      (asContainerA_all (replaceChildA_all (hpath parent (by simp)) hr h1)) h2), hnil⟩
  · split at h
    · simp at h
    · rename_i r hr'
      have hc := asContainerA_all hr
      rw [hr'] at hc
      split at h
      · simp only [Res.ok.injEq] at h
        subst h
        refine ⟨allO_some ?_, hnil⟩
        split
        · exact hc.get
        · exact empty_all hE
      · simp at h

theorem peek_all {v : AVal} {k : Str} {o : Option AVal} (hv : All P v) (h : attemptPeekA v k = .ok o) : AllO P o := by
  intro w hw
  subst hw
  exact fun x hx => hv x (peek_origins v k w h x hx)

theorem findPeekA_all : (v : AVal) → (p : Path) → (ps : List AVal) → (r : Option AVal × List AVal) → All P v →
    AllL P ps → findPeekA v p ps = .ok r → AllO P r.1 ∧ AllL P r.2
  | _, [], _, _, _, _, h => by simp [findPeekA] at h
  | v, k :: next, ps, r, hv, hps, h => by
    simp only [findPeekA] at h
    obtain ⟨o, h1, h⟩ := bokA h
    have ho := peek_all hv h1
    split at h
    · simp only [Res.ok.injEq] at h
      exact h ▸ ⟨ho, allL_cons hv hps⟩
    · split at h
      · rename_i w
        split at h
        · exact findPeekA_all w next (v :: ps) r ho.get (allL_cons hv hps) h
        · simp only [Res.ok.injEq] at h
          exact h ▸ ⟨allO_none, allL_cons hv hps⟩
      · simp only [Res.ok.injEq] at h
        exact h ▸ ⟨allO_none, allL_cons hv hps⟩

variable {ra : AResolver}

theorem findInObjectA_all (h : Keeps P ra) {obj : Option AVal} {c : Ctx} {p : Path}
    {r : Ctx × Option AVal × List AVal} (ho : AllO P obj) (hf : findInObjectA ra obj c p = .ok r) :
    AllO P r.2.1 ∧ AllL P r.2.2 := by
  have hnil : AllL P ([] : List AVal) := by intro v hv; simp at hv
  cases obj with
  | none => simp [findInObjectA] at hf
  | some o =>
    simp only [findInObjectA] at hf
    obtain ⟨x, h1, hf⟩ := bokA hf
    have hx := h _ _ _ _ ⟨allO_some ho.get, hnil⟩ ho.get h1
    split at hf
    · simp at hf
    · rename_i v hv
      rw [hv] at hx
      split at hf
      · obtain ⟨f, h2, hf⟩ := bokA hf
        simp only [Res.ok.injEq] at hf
        subst hf
        exact findPeekA_all v p [] f hx.get hnil h2
      · simp at hf

theorem findEnvA_all (hV : ∀ k x, env.getenv k = some x → P (envOrigin k)) {p : Path} {o : Option AVal}
    (h : findEnvA env p = .ok o) : AllO P o := by
  match p with
  | [] => simp [findEnvA] at h
  | [k] =>
    simp only [findEnvA, Res.ok.injEq] at h
    subst h
    intro v hv
    rw [Option.map_eq_some_iff] at hv
    obtain ⟨x, hx, rfl⟩ := hv
    exact all_scalar.2 (hV k x hx)
  | _ :: _ :: _ =>
    simp only [findEnvA, Res.ok.injEq] at h
    exact h ▸ allO_none

theorem lookupEnvA_all (hV : ∀ k x, env.getenv k = some x → P (envOrigin k)) {c : Ctx} {p : Path}
    {l r : Ctx × Option AVal × List AVal} (hl : AllO P l.2.1 ∧ AllL P l.2.2) (h : lookupEnvA env c p l = .ok r) :
    AllO P r.2.1 ∧ AllL P r.2.2 := by
  unfold lookupEnvA at h
  split at h
  · obtain ⟨v, h1, h⟩ := bokA h
    simp only [Res.ok.injEq] at h
    subst h
    exact ⟨findEnvA_all hV h1, by intro v hv; simp at hv⟩
  · simp only [Res.ok.injEq] at h
    exact h ▸ hl

theorem lookupSubstA_all (hV : ∀ k x, env.getenv k = some x → P (envOrigin k)) (h : Keeps P ra)
    {root : Option AVal} {c : Ctx} {p : Path} {pre : Nat} {r : Ctx × Option AVal × List AVal} (ho : AllO P root)
    (hl : lookupSubstA env ra root c p pre = .ok r) : AllO P r.2.1 ∧ AllL P r.2.2 := by
  unfold lookupSubstA at hl
  obtain ⟨x, h1, hl⟩ := bokA hl
  have hx := findInObjectA_all h ho h1
  split at hl
  · split at hl
    · obtain ⟨y, h2, hl⟩ := bokA hl
      exact lookupEnvA_all hV (findInObjectA_all h ho h2) hl
    · exact lookupEnvA_all hV hx hl
  · simp only [Res.ok.injEq] at hl
    exact hl ▸ hx

theorem catchCycleA_all {opt : Bool} {c : Ctx} {x : Res (Ctx × Option AVal)} {r : Ctx × Option AVal}
    (hx : ∀ y, x = .ok y → AllO P y.2) (h : catchCycleA opt c x = .ok r) : AllO P r.2 := by
  unfold catchCycleA at h
  split at h
  · split at h
    · simp only [Res.ok.injEq] at h
      exact h ▸ allO_none
    · simp at h
  · exact hx r h

theorem resolveRefA_all (hV : ∀ k x, env.getenv k = some x → P (envOrigin k)) (h : Keeps P ra) {c : Ctx}
    {s : ASource} {o : Origin} {id : Nat} {p : Path} {opt : Bool} {pre : Nat} {r : Ctx × Option AVal}
    (hs : AllS P s) (ho : P o) (hr : resolveRefA env ra c s o id p opt pre = .ok r) : AllO P r.2 := by
  unfold resolveRefA at hr
  split at hr
  · simp at hr
  · obtain ⟨x, h1, hr⟩ := bokA hr
    have hx : AllO P x.2 := by
      unfold tryRefA at h1
      split at h1
      · rename_i l hl
        have hl := lookupSubstA_all hV h hs.root hl
        unfold resolveFoundA at h1
        split at h1
        · simp only [Res.ok.injEq] at h1
          exact h1 ▸ allO_none
        · rename_i v hv
          rw [hv] at hl
          refine catchCycleA_all ?_ h1
          intro y hy
          refine h _ _ _ _ ⟨?_, hl.2⟩ hl.1.get hy
          intro w hw
          rw [Option.bind_eq_some_iff] at hw
          obtain ⟨u, hu, hw⟩ := hw
          exact asObjectA_all (getLast_all hl.2 u hu) w hw
      · exact catchCycleA_all (by simp) h1
      · simp at h1
      · simp at h1
    unfold finishRefA at hr
    split at hr
    · rename_i v hv
      rw [hv] at hx
      simp only [Res.ok.injEq] at hr
      exact hr ▸ allO_some hx.get
    · split at hr
      · simp only [Res.ok.injEq] at hr
        exact hr ▸ allO_none
      · split at hr
        · simp only [Res.ok.injEq] at hr
          exact hr ▸ allO_some (all_ref.2 ho)
        · simp at hr

theorem resolveChildA_all (h : Keeps P ra) {orig : Path} {c : Ctx} {s : ASource} {k : Str} {v : AVal}
    {r : Ctx × Option AVal} (hs : AllS P s) (hv : All P v) (hr : resolveChildA ra orig c s k v = .ok r) :
    AllO P r.2 := by
  unfold resolveChildA at hr
  split at hr
  · obtain ⟨x, h1, hr⟩ := bokA hr
    simp only [Res.ok.injEq] at hr
    subst hr
    exact h _ _ _ x hs hv h1
  · split at hr
    · split at hr
      · simp only [Res.ok.injEq] at hr
        exact hr ▸ allO_some hv
      · obtain ⟨x, h1, hr⟩ := bokA hr
        simp only [Res.ok.injEq] at hr
        subst hr
        exact h _ _ _ x hs hv h1
    · simp only [Res.ok.injEq] at hr
      exact hr ▸ allO_some hv

theorem resolveFieldsA_all (h : Keeps P ra) {orig : Path} {s : ASource} (hs : AllS P s) {fs : AFields} (hf : AllF P fs)
    {c : Ctx} {r : Ctx × List (Str × Option AVal)} (hr : resolveFieldsA ra orig s c fs = .ok r) :
    ∀ f ∈ r.2, AllO P f.2 := by
  induction fs generalizing c r with
  | nil =>
    simp only [resolveFieldsA, Res.ok.injEq] at hr
    subst hr
    intro f hf
    simp at hf
  | cons f fs ih =>
    obtain ⟨k, v⟩ := f
    simp only [resolveFieldsA] at hr
    obtain ⟨x, h1, hr⟩ := bokA hr
    obtain ⟨y, h2, hr⟩ := bokA hr
    simp only [Res.ok.injEq] at hr
    subst hr
    have hy := ih (fun f h => hf f (by simp [h])) h2
    intro f hm
    rcases List.mem_cons.1 hm with rfl | hm
    · exact resolveChildA_all h hs (hf (k, v) (by simp)) h1
    · exact hy f hm

theorem keptFieldsA_all : (new : List (Str × Option AVal)) → (∀ f ∈ new, AllO P f.2) → AllF P (keptFieldsA new)
  | [], _ => by intro f hf; simp [keptFieldsA] at hf
  | (k, some v) :: fs, h => by
    rw [keptFieldsA]
    exact allF_cons (h (k, some v) (by simp)).get (keptFieldsA_all fs fun f hf => h f (by simp [hf]))
  | (k, none) :: fs, h => by
    rw [keptFieldsA]
    exact keptFieldsA_all fs fun f hf => h f (by simp [hf])

theorem resolveObjectA_all (h : Keeps P ra) {c : Ctx} {s : ASource} {o : Origin} {fs : AFields} {res ign : Bool}
    {r : Ctx × Option AVal} (hs : AllS P s) (hv : All P (.obj o fs res ign))
    (hr : resolveObjectA ra c s o fs res ign = .ok r) : AllO P r.2 := by
  unfold resolveObjectA at hr
  split at hr
  · simp only [Res.ok.injEq] at hr
    exact hr ▸ allO_some hv
  · obtain ⟨x, h1, hr⟩ := bokA hr
    simp only [Res.ok.injEq] at hr
    subst hr
    have hv' := all_obj.1 hv
    exact allO_some (all_obj.2 ⟨hv'.1, keptFieldsA_all _ (resolveFieldsA_all h (push_all hs hv) hv'.2 h1)⟩)

theorem resolveElemsA_all (h : Keeps P ra) {s : ASource} (hs : AllS P s) {vs : List AVal} (hf : AllL P vs)
    {c : Ctx} {r : Ctx × List (Option AVal)} (hr : resolveElemsA ra s c vs = .ok r) : ∀ f ∈ r.2, AllO P f := by
  induction vs generalizing c r with
  | nil =>
    simp only [resolveElemsA, Res.ok.injEq] at hr
    subst hr
    intro f hf
    simp at hf
  | cons v vs ih =>
    simp only [resolveElemsA] at hr
    obtain ⟨x, h1, hr⟩ := bokA hr
    obtain ⟨y, h2, hr⟩ := bokA hr
    simp only [Res.ok.injEq] at hr
    subst hr
    have hy := ih (allL_tail hf) h2
    intro f hm
    rcases List.mem_cons.1 hm with rfl | hm
    · exact h _ _ _ _ hs (hf v (by simp)) h1
    · exact hy f hm

theorem changedElemsA_all (xs : List (AVal × Option AVal)) (before : List AVal) (init : Bool) (changed : List AVal)
    (hx : ∀ x ∈ xs, All P x.1 ∧ AllO P x.2) (hb : AllL P before) (hc : AllL P changed) :
    AllL P (changedElemsA before init changed xs).2 := by
  induction xs generalizing before init changed with
  | nil => exact hc
  | cons x xs ih =>
    obtain ⟨old, new⟩ := x
    have h0 := hx (old, new) (by simp)
    have hxs : ∀ x ∈ xs, All P x.1 ∧ AllO P x.2 := fun x h => hx x (by simp [h])
    have hb' : AllL P (before ++ [old]) := allL_append hb (allL_cons h0.1 (by simp [AllL]))
    rw [changedElemsA]
    split
    · exact ih _ _ _ hxs hb' (allL_append hb (allO_toList h0.2))
    · split
      · exact ih _ _ _ hxs hb' (allL_append hc (allO_toList h0.2))
      · exact ih _ _ _ hxs hb' hc

theorem resolveListA_all (h : Keeps P ra) {c : Ctx} {s : ASource} {o : Origin} {vs : List AVal}
    {r : Ctx × Option AVal} (hs : AllS P s) (hv : All P (.list o vs)) (hr : resolveListA ra c s o vs = .ok r) :
    AllO P r.2 := by
  unfold resolveListA at hr
  split at hr
  · simp only [Res.ok.injEq] at hr
    exact hr ▸ allO_some hv
  · split at hr
    · simp only [Res.ok.injEq] at hr
      exact hr ▸ allO_some hv
    · obtain ⟨x, h1, hr⟩ := bokA hr
      obtain ⟨w, h2, hr⟩ := bokA hr
      simp only [Res.ok.injEq] at hr
      subst hr
      have hv' := all_list.1 hv
      have hx := resolveElemsA_all h (push_all hs hv) hv'.2 h1
      have hc := changedElemsA_all (vs.zip x.2) [] false []
        (fun p hp => ⟨hv'.2 _ (List.of_mem_zip hp).1, hx _ (List.of_mem_zip hp).2⟩) (by simp [AllL]) (by simp [AllL])
      unfold modifiedListA at h2
      split at h2
      · simp only [Res.ok.injEq] at h2
        exact h2 ▸ allO_some hv
      · rename_i ws hws
        rw [hws] at hc
        split at h2
        · simp only [Res.ok.injEq] at h2
          exact h2 ▸ allO_some (all_list.2 ⟨hv'.1, hc⟩)
        · simp at h2

theorem resolvePiecesA_all (h : Keeps P ra) {s : ASource} (hs : AllS P s) {vs : List AVal} (hf : AllL P vs)
    {c : Ctx} {r : Ctx × List AVal} (hr : resolvePiecesA ra s c vs = .ok r) : AllL P r.2 := by
  induction vs generalizing c r with
  | nil =>
    simp only [resolvePiecesA, Res.ok.injEq] at hr
    subst hr
    intro f hf
    simp at hf
  | cons v vs ih =>
    simp only [resolvePiecesA] at hr
    obtain ⟨x, h1, hr⟩ := bokA hr
    obtain ⟨y, h2, hr⟩ := bokA hr
    simp only [Res.ok.injEq] at hr
    subst hr
    exact allL_append (allO_toList (h _ _ _ _ hs (hf v (by simp)) h1)) (ih (allL_tail hf) h2)

theorem consolidateA_all (hP : Closed K P) {ps c : List AVal} (h : AllL P ps) (h1 : consolidateA env ps = .ok c) :
    AllL P c := by
  unfold consolidateA at h1
  split at h1
  · simp only [Res.ok.injEq] at h1
    exact h1 ▸ h
  · have hf := all_flatten ps h
    split at h1
    · simp only [Res.ok.injEq] at h1
      subst h1
      simp [AllL]
    · rename_i v vs heq
      rw [heq] at hf
      exact hP.joinLoop [] v vs c (by simp [AllL]) (hf v (by simp)) (fun w hw => hf w (by simp [hw])) h1

theorem resolveConcatA_all (hP : Closed K P) (h : Keeps P ra) {c : Ctx} {s : ASource} {o : Origin} {ps : List AVal}
    {r : Ctx × Option AVal} (hs : AllS P s) (hv : All P (.concat o ps))
    (hr : resolveConcatA env ra c s o ps = .ok r) : AllO P r.2 := by
  have hv' := all_concat.1 hv
  unfold resolveConcatA at hr
  obtain ⟨x, h1, hr⟩ := bokA hr
  obtain ⟨js, h2, hr⟩ := bokA hr
  obtain ⟨w, h3, hr⟩ := bokA hr
  simp only [Res.ok.injEq] at hr
  subst hr
  have hj := consolidateA_all hP (resolvePiecesA_all h hs hv'.2 h1) h2
  unfold joinedPiecesA at h3
  split at h3
  · simp only [Res.ok.injEq] at h3
    exact h3 ▸ allO_none
  · simp only [Res.ok.injEq] at h3
    exact h3 ▸ allO_some (hj _ (by simp))
  · split at h3
    · obtain ⟨y, h4, h3⟩ := bokA h3
      simp only [Res.ok.injEq] at h3
      exact h3 ▸ allO_some (mkConcatA_all hv'.1 hj h4)
    · simp at h3

theorem overA_all (hP : Closed K P) {v w m : AVal} (hv : All P v) (hw : All P w) (h : overA v w = .ok m) : All P m := by
  unfold overA at h
  obtain ⟨⟨x, b⟩, h1, h⟩ := bokA h
  simp only [Res.ok.injEq] at h
  exact h ▸ hP.fallback _ _ _ _ hv hw h1

theorem mergeAllA_all (hP : Closed K P) (vs : List AVal) {v m : AVal} (hv : All P v) (hw : AllL P vs)
    (h : mergeAllA v vs = .ok m) : All P m := by
  induction vs generalizing v with
  | nil =>
    simp only [mergeAllA, Res.ok.injEq] at h
    exact h ▸ hv
  | cons w vs ih =>
    simp only [mergeAllA] at h
    obtain ⟨x, h1, h⟩ := bokA h
    exact ih (overA_all hP hv (hw w (by simp)) h1) (allL_tail hw) h

theorem sourceForEndA_all (hP : Closed K P) (hE : P (FilesA.source (ch "empty config"))) {self v : AVal}
    {s s' : ASource} {rest : List AVal} (hs : AllS P s) (hself : All P self) (hr : AllL P rest)
    (h : sourceForEndA self s v rest = .ok s') : AllS P s' := by
  unfold sourceForEndA at h
  split at h
  · simp at h
  · split at h
    · obtain ⟨x, h1, h⟩ := bokA h
      refine replaceWithin_all hE hs ?_ h
      unfold makeReplacementA at h1
      split at h1
      · simp only [Res.ok.injEq] at h1
        exact h1 ▸ allO_none
      · obtain ⟨m, h2, h1⟩ := bokA h1
        simp only [Res.ok.injEq] at h1
        exact h1 ▸ allO_some (mergeAllA_all hP _ (hr _ (by simp)) (allL_tail hr) h2)
    · simp only [Res.ok.injEq] at h
      exact h ▸ push_all hs hself

theorem resolveStackA_all (hP : Closed K P) (hE : P (FilesA.source (ch "empty config"))) (h : Keeps P ra)
    {self : AVal} {s : ASource} (hs : AllS P s) (hself : All P self) {st : List AVal} (hst : AllL P st)
    {c : Ctx} {m : Option AVal} (hm : AllO P m) {r : Ctx × Option AVal}
    (hr : resolveStackA ra self s c m st = .ok r) : AllO P r.2 := by
  induction st generalizing c m with
  | nil =>
    simp only [resolveStackA, Res.ok.injEq] at hr
    exact hr ▸ hm
  | cons v rest ih =>
    simp only [resolveStackA] at hr
    obtain ⟨s', h1, hr⟩ := bokA hr
    obtain ⟨x, h2, hr⟩ := bokA hr
    obtain ⟨m', h3, hr⟩ := bokA hr
    refine ih (allL_tail hst) ?_ hr
    have hx := h _ _ _ _ (sourceForEndA_all hP hE hs hself (allL_tail hst) h1) (hst v (by simp)) h2
    cases hn : x.2 with
    | none =>
      rw [hn] at h3
      simp only [mergeEndA, Res.ok.injEq] at h3
      exact h3 ▸ hm
    | some w =>
    rw [hn] at h3 hx
    cases m with
    | none =>
      simp only [mergeEndA, Res.ok.injEq] at h3
      exact h3 ▸ allO_some hx.get
    | some m0 =>
      simp only [mergeEndA] at h3
      obtain ⟨y, h4, h3⟩ := bokA h3
      simp only [Res.ok.injEq] at h3
      exact h3 ▸ allO_some (overA_all hP hm.get hx.get h4)

theorem resolveNA_all (hP : Closed K P) (hE : P (FilesA.source (ch "empty config")))
    (hV : ∀ k x, env.getenv k = some x → P (envOrigin k)) (n : Nat) : Keeps P (resolveNA env n) := by
  induction n with
  | zero => intro c s v r _ _ h; simp [resolveNA] at h
  | succ n ih =>
    intro c s v r hs hv h
    simp only [resolveNA] at h
    split at h
    · simp at h
    · obtain ⟨x, h1, h⟩ := bokA h
      have hx : AllO P x.2 := by
        cases v with
        | scalar o y =>
          simp only [resolveSubstitutionsA, Res.ok.injEq] at h1
          exact h1 ▸ allO_some hv
        | list o vs => exact resolveListA_all ih hs hv h1
        | obj o fs r i => exact resolveObjectA_all ih hs hv h1
        | ref o id p opt pre => exact resolveRefA_all hV ih hs (all_ref.1 hv) h1
        | concat o ps => exact resolveConcatA_all hP ih hs hv h1
        | dm o st => exact resolveStackA_all hP hE ih hs hv (all_dm.1 hv).2 allO_none h1
        | dmo o st => exact resolveStackA_all hP hE ih hs hv (all_dmo.1 hv).2 allO_none h1
      unfold checkResultA at h
      split at h
      · simp only [Res.ok.injEq] at h
        exact h ▸ hx
      · split at h
        · simp only [Res.ok.injEq] at h
          exact h ▸ hx
        · simp at h

theorem configResolveWithA_all (hP : Closed K P) (hE : P (FilesA.source (ch "empty config")))
    (hV : ∀ k x, env.getenv k = some x → P (envOrigin k)) {n : Nat} {self source w : AVal} {o : Resolve.Options}
    (hs : All P self) (hr : All P source) (h : configResolveWithA env n self source o = .ok (some w)) : All P w := by
  unfold configResolveWithA resolveTopA at h
  obtain ⟨x, h1, h⟩ := bokA h
  obtain ⟨y, h2, h1⟩ := bokA h1
  simp only [Res.ok.injEq] at h1 h
  have := resolveNA_all hP hE hV n _ _ _ _ ⟨allO_some hr, by simp [AllL]⟩ hs h2
  rw [h1] at this
  rw [Option.bind_eq_some_iff] at h
  obtain ⟨z, rfl, hz⟩ := h
  exact asObjectA_all this.get w hz

end ResolveA
end Hocon
