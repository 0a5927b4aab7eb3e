import Verif.Lemmas.StatusLemmas

/-!
# Exactness of the resolve status after an incomplete resolve
-/

set_option autoImplicit false

namespace Hocon
namespace Resolve
open Value Spec

/-- No concatenation and no delayed merge is without parts. -/
def Full (v : Value) : Prop := ∀ u, Occurs u v → u ≠ .concat [] ∧ u ≠ .dm [] ∧ u ≠ .dmo []

/-- Well-formed and full. -/
def Sound (v : Value) : Prop := v.Wf ∧ Full v

theorem sound_of_live {v : Value} (h : Live v) : Sound v := by
  refine ⟨h.1, fun u hu => ⟨?_, ?_, ?_⟩⟩ <;> rintro rfl
  · obtain ⟨_, _, _, _, ho⟩ := h.2 _ hu (by simp [Value.resolved])
    cases ho with
    | concat hm _ => simp at hm
  · obtain ⟨_, _, _, _, ho⟩ := h.2 _ hu (by simp [Value.resolved])
    cases ho with
    | dm hm _ => simp at hm
  · obtain ⟨_, _, _, _, ho⟩ := h.2 _ hu (by simp [Value.resolved])
    cases ho with
    | dmo hm _ => simp at hm

theorem closed_sound : Closed Sound where
  scalar s := ⟨closed_wf.scalar s, fun u hu => by cases hu; simp⟩
  list vs := by
    refine ⟨fun h v hv => ⟨(closed_wf.list vs).1 h.1 v hv, fun u hu => h.2 u (.list hv hu)⟩,
      fun h => ⟨(closed_wf.list vs).2 fun v hv => (h v hv).1, fun u hu => ?_⟩⟩
    cases hu with
    | here => simp
    | list hm hu => exact (h _ hm).2 u hu
  fields fs r i h f hf := ⟨closed_wf.fields fs r i h.1 f hf, fun u hu => h.2 u (.obj (k := f.1) hf hu)⟩
  nodup fs r i h := closed_wf.nodup fs r i h.1
  obj fs i hn h := by
    refine ⟨closed_wf.obj fs i hn fun f hf => (h f hf).1, fun u hu => ?_⟩
    cases hu with
    | here => simp
    | obj hm hu => exact (h _ hm).2 u hu
  ign fs r i j h := by
    refine ⟨closed_wf.ign fs r i j h.1, fun u hu => ?_⟩
    cases hu with
    | here => simp
    | obj hm hu => exact h.2 u (.obj hm hu)
  concat vs hne := by
    refine ⟨fun h v hv => ⟨closed_wf.concatParts h.1 v hv, fun u hu => h.2 u (.concat hv hu)⟩,
      fun h => ⟨(closed_wf.concat vs hne).2 fun v hv => (h v hv).1, fun u hu => ?_⟩⟩
    cases hu with
    | here => simp [hne]
    | concat hm hu => exact (h _ hm).2 u hu
  dm vs hne := by
    refine ⟨fun h v hv => ⟨closed_wf.dmParts h.1 v hv, fun u hu => h.2 u (.dm hv hu)⟩,
      fun h => ⟨(closed_wf.dm vs hne).2 fun v hv => (h v hv).1, fun u hu => ?_⟩⟩
    cases hu with
    | here => simp [hne]
    | dm hm hu => exact (h _ hm).2 u hu
  dmo vs hne := by
    refine ⟨fun h v hv => ⟨closed_wf.dmoParts h.1 v hv, fun u hu => h.2 u (.dmo hv hu)⟩,
      fun h => ⟨(closed_wf.dmo vs hne).2 fun v hv => (h v hv).1, fun u hu => ?_⟩⟩
    cases hu with
    | here => simp [hne]
    | dmo hm hu => exact (h _ hm).2 u hu

/-- What `resolve_context::resolve` without a restriction does to sound values: whatever it returns has an
exact status, and what it drops had one and was not resolved. -/
def LiveRec (rec : Resolver) : Prop :=
  ∀ c s v c' o, c.restr = [] → SrcP Sound s → Sound v → rec c s v = .ok (c', o) →
    c'.restr = [] ∧ (∀ w, o = some w → Live w) ∧ (o = none → Live v ∧ v.resolved = false)

theorem live_ref (id : Nat) (p : Path) (opt : Bool) (pre : Nat) : Live (.ref id p opt pre) :=
  built_live.ref id p opt pre

theorem lookup_restr {env : Env} {rec : Resolver} {root : Option Value} {c : Ctx} {p : Path} {pre : Nat}
    {r : Ctx × Option Value × List Value} (hc : c.restr = []) (h : lookupSubst env rec root c p pre = .ok r) :
    r.1.restr = [] := by
  have key : ∀ {c : Ctx} {p : Path} {r : Ctx × Option Value × List Value}, c.restr = [] →
      findInObject rec root c p = .ok r → r.1.restr = [] := by
    intro c p r hc h
    unfold Resolve.findInObject at h
    cases root with
    | none => cases h
    | some o =>
      simp only at h
      obtain ⟨⟨c', x⟩, hx, h⟩ := bind_ok h
      cases x with
      | none => cases h
      | some v =>
        simp only at h
        split at h
        · obtain ⟨f, hf, h⟩ := bind_ok h
          cases h
          exact hc
        · cases h
  have henv : ∀ {p : Path} {r r' : Ctx × Option Value × List Value}, r.1.restr = [] →
      lookupEnv env c p r = .ok r' → r'.1.restr = [] := by
    intro p r r' hr h
    unfold Resolve.lookupEnv at h
    split at h
    · obtain ⟨v, hv, h⟩ := bind_ok h
      cases h
      rfl
    · cases h; exact hr
  unfold Resolve.lookupSubst at h
  obtain ⟨x, hx, h⟩ := bind_ok h
  have h1 := key hc hx
  split at h
  · split at h
    · obtain ⟨y, hy, h⟩ := bind_ok h
      exact henv (key h1 hy) h
    · exact henv h1 h
  · cases h; exact h1

theorem resolveRef_live {env : Env} {rec : Resolver} (hk : KeepsP Sound rec) (hr : LiveRec rec) {c : Ctx} {s : Source}
    {id : Nat} {p : Path} {opt : Bool} {pre : Nat} {r : Ctx × Option Value} (hc : c.restr = [])
    (hs : SrcP Sound s) (h : resolveRef env rec c s id p opt pre = .ok r) :
    r.1.restr = [] ∧ ∀ w, r.2 = some w → Live w := by
  unfold Resolve.resolveRef at h
  split at h
  · cases h
  · obtain ⟨⟨c', o⟩, hx, h⟩ := bind_ok h
    have h1 : c'.restr = [] ∧ ∀ w, o = some w → Live w := by
      unfold Resolve.tryRef at hx
      split at hx
      · rename_i l hl
        have hf := closed_sound.lookupSubst hk hs.1 hl
        have hlr := lookup_restr (c := c.mark id) hc hl
        obtain ⟨cl, ol, ps⟩ := l
        unfold Resolve.resolveFound at hx
        cases ol with
        | none => cases hx; exact ⟨hlr, by rintro w ⟨⟩⟩
        | some v =>
          simp only [catchCycle] at hx
          split at hx
          · split at hx
            · cases hx; exact ⟨hlr, by rintro w ⟨⟩⟩
            · cases hx
          · have := hr _ _ _ _ _ hlr ⟨?_, hf.2⟩ (hf.1 v rfl) hx
            · exact ⟨this.1, this.2.1⟩
            · intro x hx
              simp only [Option.bind_eq_some_iff] at hx
              obtain ⟨y, hy, hx⟩ := hx
              obtain ⟨rfl, _⟩ := asObject_some hx
              exact hf.2 _ (List.mem_of_getLast? hy)
      · simp only [catchCycle] at hx
        split at hx
        · split at hx
          · cases hx; exact ⟨rfl, by rintro w ⟨⟩⟩
          · cases hx
        · cases hx
      · cases hx
      · cases hx
    cases o with
    | some v => cases h; exact h1
    | none =>
      simp only [finishRef] at h
      split at h
      · cases h; exact ⟨h1.1, by rintro w ⟨⟩⟩
      · split at h
        · cases h
          refine ⟨h1.1, ?_⟩
          rintro w ⟨⟩
          exact live_ref _ _ _ _
        · cases h

theorem resolveFields_live {rec : Resolver} (hr : LiveRec rec) {s : Source} (hs : SrcP Sound s) :
    (c : Ctx) → (fs : Fields) → (r : Ctx × List (Str × Option Value)) → c.restr = [] →
    (∀ f ∈ fs, Sound f.2) → resolveFields rec [] s c fs = .ok r →
    r.1.restr = [] ∧ ∀ f ∈ r.2, ∀ w, f.2 = some w → Live w
  | c, [], r, hc, _, h => by cases h; exact ⟨hc, by simp⟩
  | c, (k, v) :: fs, r, hc, hf, h => by
    simp only [Resolve.resolveFields] at h
    obtain ⟨⟨c', o⟩, hx, h⟩ := bind_ok h
    obtain ⟨rest, hrest, h⟩ := bind_ok h
    cases h
    simp only [resolveChild, hc] at hx
    obtain ⟨⟨c1, o1⟩, hy, hx⟩ := bind_ok hx
    cases hx
    have h1 := hr _ _ _ _ _ rfl hs (hf (k, v) (by simp)) hy
    have h2 := resolveFields_live hr hs _ fs rest rfl (fun f h => hf f (by simp [h])) hrest
    refine ⟨h2.1, fun f hf' => ?_⟩
    rcases List.mem_cons.1 hf' with rfl | hf'
    · exact h1.2.1
    · exact h2.2 f hf'

theorem resolveElems_live {rec : Resolver} (hr : LiveRec rec) {s : Source} (hs : SrcP Sound s) :
    (c : Ctx) → (vs : List Value) → (r : Ctx × List (Option Value)) → c.restr = [] → (∀ v ∈ vs, Sound v) →
    resolveElems rec s c vs = .ok r → r.1.restr = [] ∧ r.2.length = vs.length ∧
      ∀ x ∈ vs.zip r.2, (∀ w, x.2 = some w → Live w) ∧ (x.2 = none → Live x.1)
  | c, [], r, hc, _, h => by cases h; exact ⟨hc, rfl, by simp⟩
  | c, v :: vs, r, hc, hf, h => by
    simp only [Resolve.resolveElems] at h
    obtain ⟨⟨c', o⟩, hx, h⟩ := bind_ok h
    obtain ⟨rest, hrest, h⟩ := bind_ok h
    cases h
    have h1 := hr _ _ _ _ _ hc hs (hf v (by simp)) hx
    have h2 := resolveElems_live hr hs c' vs rest h1.1 (fun v h => hf v (by simp [h])) hrest
    refine ⟨h2.1, by simp [h2.2.1], fun x hx' => ?_⟩
    rcases List.mem_cons.1 hx' with rfl | hx'
    · exact ⟨h1.2.1, fun h => (h1.2.2 h).1⟩
    · exact h2.2.2 x hx'

theorem changedElems_live : (before : List Value) → (init : Bool) → (changed : List Value) →
    (l : List (Value × Option Value)) → (changed = [] → ∀ v ∈ before, Live v) → (∀ v ∈ changed, Live v) →
    (init = false → changed = []) → (∀ x ∈ l, (∀ w, x.2 = some w → Live w) ∧ (x.2 = none → Live x.1)) →
    (∀ v ∈ (changedElems before init changed l).2, Live v) ∧
      ((changedElems before init changed l).1 = false → ∀ v ∈ before ++ l.map Prod.fst, Live v)
  | before, init, changed, [], hb, hc, hi, _ => ⟨hc, fun h => by
      simpa using hb (hi (by simpa [changedElems] using h))⟩
  | before, init, changed, (old, new) :: rest, hb, hc, hi, hl => by
    have ho := hl (old, new) (by simp)
    have hl' : ∀ x ∈ rest, (∀ w, x.2 = some w → Live w) ∧ (x.2 = none → Live x.1) :=
      fun x h => hl x (by simp [h])
    have happ : ∀ ws : List Value, (∀ v ∈ ws, Live v) → ∀ v ∈ ws ++ new.toList, Live v := by
      intro ws hw v hv
      rcases List.mem_append.1 hv with hv | hv
      · exact hw v hv
      · exact ho.1 v (by simpa [eq_comm] using hv)
    have hbo : changed = [] → Live old → ∀ v ∈ before ++ [old], Live v := by
      intro h1 h2 v hv
      rcases List.mem_append.1 hv with hv | hv
      · exact hb h1 v hv
      · simp at hv; subst hv; exact h2
    have hlist : before ++ List.map Prod.fst ((old, new) :: rest) = (before ++ [old]) ++ rest.map Prod.fst := by
      simp
    rw [hlist]
    simp only [Resolve.changedElems]
    split
    · rename_i h
      simp only [Bool.and_eq_true, List.isEmpty_iff] at h
      refine changedElems_live _ _ _ rest ?_ (happ _ (hb h.1)) (by simp) hl'
      intro h'
      obtain ⟨h1, h2⟩ := List.append_eq_nil_iff.1 h'
      exact hbo h.1 (ho.2 (by simpa using h2))
    · rename_i h
      have hsame : changed = [] → new = some old := by
        intro h1
        simpa [h1] using h
      split
      · refine changedElems_live _ _ _ rest ?_ (happ _ hc) (by simp_all) hl'
        intro h'
        obtain ⟨h1, h2⟩ := List.append_eq_nil_iff.1 h'
        rw [hsame h1] at h2
        simp at h2
      · refine changedElems_live _ _ _ rest ?_ hc hi hl'
        intro h'
        exact hbo h' (ho.1 old (hsame h'))

theorem modifiedList_live {allow : Bool} {vs : List Value} {new : List (Option Value)} {c : Value}
    (hlen : new.length = vs.length)
    (hz : ∀ x ∈ vs.zip new, (∀ w, x.2 = some w → Live w) ∧ (x.2 = none → Live x.1))
    (h : modifiedList allow vs new = .ok c) : Live c := by
  have key := changedElems_live [] false [] (vs.zip new) (by simp) (by simp) (by simp) hz
  unfold Resolve.modifiedList at h
  split at h
  · rename_i x hx
    cases h
    rw [hx] at key
    have := key.2 rfl
    rw [List.nil_append, List.map_fst_zip (by omega)] at this
    exact (live_list _).2 this
  · rename_i ws hw
    split at h
    · cases h
      rw [hw] at key
      exact (live_list _).2 key.1
    · cases h

theorem resolvePieces_live {rec : Resolver} (hr : LiveRec rec) {s : Source} (hs : SrcP Sound s) :
    (c : Ctx) → (vs : List Value) → (r : Ctx × List Value) → c.restr = [] → (∀ v ∈ vs, Sound v) →
    resolvePieces rec s c vs = .ok r →
      r.1.restr = [] ∧ (∀ v ∈ r.2, Live v) ∧ (r.2 = [] → ∀ v ∈ vs, Live v ∧ v.resolved = false)
  | c, [], r, hc, _, h => by cases h; exact ⟨hc, by simp, by simp⟩
  | c, v :: vs, r, hc, hf, h => by
    simp only [Resolve.resolvePieces] at h
    obtain ⟨⟨c', o⟩, hx, h⟩ := bind_ok h
    obtain ⟨rest, hrest, h⟩ := bind_ok h
    cases h
    have h1 := hr _ _ _ _ _ rfl hs (hf v (by simp)) hx
    have h2 := resolvePieces_live hr hs (c'.restrict c.restr) vs rest (show c.restr = [] from hc) (fun v h => hf v (by simp [h])) hrest
    refine ⟨h2.1, fun w hw => ?_, fun he => ?_⟩
    · rcases List.mem_append.1 hw with hw | hw
      · exact h1.2.1 w (by simpa [eq_comm] using hw)
      · exact h2.2.1 w hw
    · obtain ⟨e1, e2⟩ := List.append_eq_nil_iff.1 he
      intro w hw
      rcases List.mem_cons.1 hw with rfl | hw
      · exact h1.2.2 (by simpa using e1)
      · exact h2.2.2 e2 w hw

theorem joinLoop_some {env : Env} : (done : List Value) → (a : Value) → (vs ws : List Value) →
    joinLoop env done a vs = .ok ws → ws ≠ []
  | done, a, [], ws, h => by simp only [Value.joinLoop] at h; cases h; simp
  | done, a, b :: vs, ws, h => by
    simp only [Value.joinLoop] at h
    obtain ⟨o, ho, h⟩ := Res.bind_eq_ok.1 h
    cases o with
    | some j => exact joinLoop_some _ _ _ _ h
    | none => exact joinLoop_some _ _ _ _ h

theorem flattenPieces_some {ps : List Value} (hp : ps ≠ []) (h : ∀ v ∈ ps, Live v) : flattenPieces ps ≠ [] := by
  cases ps with
  | nil => exact absurd rfl hp
  | cons p ps =>
    cases p with
    | concat qs =>
      have := ((sound_of_live (h (.concat qs) (by simp))).2 _ .here).1
      intro he
      simp only [Value.flattenPieces, List.append_eq_nil_iff] at he
      rw [he.1] at this
      exact this rfl
    | _ => simp [Value.flattenPieces]

theorem consolidate_some {env : Env} {ps ws : List Value} (hp : ps ≠ []) (h : ∀ v ∈ ps, Live v)
    (hc : consolidate env ps = .ok ws) : ws ≠ [] := by
  unfold Value.consolidate at hc
  split at hc
  · cases hc; exact hp
  · split at hc
    · rename_i he; exact absurd he (flattenPieces_some hp h)
    · exact joinLoop_some _ _ _ _ hc

theorem resolveStack_live {rec : Resolver} (hr : LiveRec rec) {self : Value} {s : Source}
    (hs : SrcP Sound s) (hself : Sound self) : (c : Ctx) → (merged : Option Value) → (vs : List Value) →
    (r : Ctx × Option Value) → c.restr = [] → (∀ w, merged = some w → Live w) → (∀ v ∈ vs, Sound v) →
    resolveStack rec self s c merged vs = .ok r →
      r.1.restr = [] ∧ (∀ w, r.2 = some w → Live w) ∧
        (r.2 = none → merged = none ∧ ∀ v ∈ vs, Live v ∧ v.resolved = false)
  | c, merged, [], r, hc, hm, _, h => by cases h; exact ⟨hc, hm, fun h => ⟨h, by simp⟩⟩
  | c, merged, v :: rest, r, hc, hm, hv, h => by
    simp only [Resolve.resolveStack] at h
    obtain ⟨s', hs', h⟩ := bind_ok h
    obtain ⟨⟨c', o⟩, hx, h⟩ := bind_ok h
    obtain ⟨m, hmm, h⟩ := bind_ok h
    have hrest : ∀ v ∈ rest, Sound v := fun v h => hv v (by simp [h])
    have h1 : SrcP Sound s' := by
      unfold sourceForEnd at hs'
      split at hs'
      · cases hs'
      · split at hs'
        · obtain ⟨rep, hrep, hs'⟩ := bind_ok hs'
          exact closed_sound.replaceWithin hs (closed_sound.makeReplacement hrest hrep) hs'
        · cases hs'; exact closed_sound.push hs hself
    have h2 := hr _ _ _ _ _ hc h1 (hv v (by simp)) hx
    have h3 : (∀ w, m = some w → Live w) ∧ (m = none → merged = none ∧ o = none) := by
      unfold mergeEnd at hmm
      cases merged with
      | none =>
        cases o with
        | none => cases hmm; exact ⟨hm, fun _ => ⟨rfl, rfl⟩⟩
        | some x => cases hmm; exact ⟨h2.2.1, by simp⟩
      | some y =>
        cases o with
        | none => cases hmm; exact ⟨hm, by simp⟩
        | some x =>
          simp only at hmm
          obtain ⟨z, hz, hmm⟩ := bind_ok hmm
          cases hmm
          refine ⟨?_, by simp⟩
          rintro w ⟨⟩
          exact built_live.withFallback _ _ _ (hm y rfl) (h2.2.1 x rfl) hz
    have h4 := resolveStack_live hr hs hself c' m rest r h2.1 h3.1 hrest h
    refine ⟨h4.1, h4.2.1, fun he => ?_⟩
    obtain ⟨e1, e2⟩ := h4.2.2 he
    obtain ⟨e3, e4⟩ := h3.2 e1
    refine ⟨e3, fun w hw => ?_⟩
    rcases List.mem_cons.1 hw with rfl | hw
    · exact h2.2.2 e4
    · exact e2 w hw

theorem resolveSubstitutions_live {env : Env} {rec : Resolver} (hk : KeepsP Sound rec) (hr : LiveRec rec)
    {c : Ctx} {s : Source} {v : Value} {r : Ctx × Option Value} (hc : c.restr = []) (hs : SrcP Sound s)
    (hv : Sound v) (h : resolveSubstitutions env rec c s v = .ok r) :
    r.1.restr = [] ∧ (∀ w, r.2 = some w → Live w) ∧ (r.2 = none → Live v ∧ v.resolved = false) := by
  have hopen : ∀ {st : List Value}, st ≠ [] → (∀ v ∈ st, Live v ∧ v.resolved = false) → SomeOpen st := by
    intro st hne h
    cases st with
    | nil => exact absurd rfl hne
    | cons a st => exact ⟨a, by simp, (h a (by simp)).2⟩
  cases v with
  | scalar x =>
    cases h
    exact ⟨hc, by rintro w ⟨⟩; exact built_live.scalar _, by simp⟩
  | list vs =>
    simp only [Resolve.resolveSubstitutions, resolveList, hc] at h
    split at h
    · rename_i hres
      cases h
      exact ⟨hc, by rintro w ⟨⟩; exact live_of_resolved hv.1 hres, by simp⟩
    · simp only [List.isEmpty_nil, Bool.not_true, Bool.false_eq_true, if_false] at h
      obtain ⟨x, hx, h⟩ := bind_ok h
      obtain ⟨y, hy, h⟩ := bind_ok h
      cases h
      have hvs := (closed_sound.list _).1 hv
      have h1 := resolveElems_live hr (closed_sound.push hs hv) c vs x hc hvs hx
      refine ⟨h1.1, ?_, by simp⟩
      rintro w ⟨⟩
      exact modifiedList_live h1.2.1 h1.2.2 hy
  | obj fs res i =>
    simp only [Resolve.resolveSubstitutions, resolveObject] at h
    split at h
    · rename_i hres
      cases h
      exact ⟨hc, by rintro w ⟨⟩; exact live_of_resolved hv.1 (by simpa [Value.resolved] using hres), by simp⟩
    · obtain ⟨x, hx, h⟩ := bind_ok h
      cases h
      rw [hc] at hx
      have h1 := resolveFields_live hr (closed_sound.push hs hv) c fs x hc (closed_sound.fields _ _ _ hv) hx
      refine ⟨h1.1, ?_, by simp⟩
      rintro w ⟨⟩
      have hnd := closed_wf.nodup _ _ _ hv.1
      unfold Resolve.modifiedObject
      split
      · rename_i he
        rw [hv.1.1]
        refine live_obj hnd fun f hf => h1.2 (f.1, some f.2) ?_ f.2 rfl
        rw [he]
        exact List.mem_map_of_mem (f := fun f => (f.1, some f.2)) hf
      · exact live_obj (hnd.sublist (resolveFields_keys c fs x hx)) fun f hf =>
          h1.2 _ (mem_keptFields.1 hf) _ rfl
  | ref id p opt pre =>
    have h1 := resolveRef_live hk hr hc hs h
    exact ⟨h1.1, h1.2, fun _ => ⟨live_ref _ _ _ _, by simp [Value.resolved]⟩⟩
  | concat ps =>
    simp only [Resolve.resolveSubstitutions, resolveConcat] at h
    obtain ⟨x, hx, h⟩ := bind_ok h
    obtain ⟨j, hj, h⟩ := bind_ok h
    obtain ⟨o, ho, h⟩ := bind_ok h
    cases h
    have h1 := resolvePieces_live hr hs c ps x hc (closed_sound.concatParts hv) hx
    have hjj := built_live.consolidate h1.2.1 hj
    refine ⟨h1.1, ?_⟩
    unfold joinedPieces at ho
    split at ho
    · cases ho
      refine ⟨by rintro w ⟨⟩, fun _ => ?_⟩
      have he : x.2 = [] := by
        by_contra hne
        exact consolidate_some hne h1.2.1 hj rfl
      have h2 := h1.2.2 he
      have hne : ps ≠ [] := by
        rintro rfl
        exact (hv.2 _ .here).1 rfl
      exact ⟨(live_concat ps).2 ⟨fun v hv => (h2 v hv).1, hopen hne h2⟩, by simp [Value.resolved]⟩
    · cases ho
      refine ⟨?_, by simp⟩
      rintro w ⟨⟩
      exact hjj _ (by simp)
    · split at ho
      · obtain ⟨y, hy, ho⟩ := bind_ok ho
        cases ho
        refine ⟨?_, by simp⟩
        rintro w ⟨⟩
        exact built_live.mkConcat' hjj hy
      · cases ho
  | dm st =>
    have h1 := resolveStack_live hr hs hv c none st r hc (by rintro w ⟨⟩) (closed_sound.dmParts hv) h
    refine ⟨h1.1, h1.2.1, fun he => ?_⟩
    have h2 := (h1.2.2 he).2
    have hne : st ≠ [] := by
      rintro rfl
      exact (hv.2 _ .here).2.1 rfl
    exact ⟨(live_dm st).2 ⟨fun v hv => (h2 v hv).1, hopen hne h2⟩, by simp [Value.resolved]⟩
  | dmo st =>
    have h1 := resolveStack_live hr hs hv c none st r hc (by rintro w ⟨⟩) (closed_sound.dmoParts hv) h
    refine ⟨h1.1, h1.2.1, fun he => ?_⟩
    have h2 := (h1.2.2 he).2
    have hne : st ≠ [] := by
      rintro rfl
      exact (hv.2 _ .here).2.2 rfl
    exact ⟨(live_dmo st).2 ⟨fun v hv => (h2 v hv).1, hopen hne h2⟩, by simp [Value.resolved]⟩

theorem resolveN_live {env : Env} : (n : Nat) → LiveRec (resolveN env n)
  | 0, c, s, v, c', o, _, _, _, h => by cases h
  | n + 1, c, s, v, c', o, hc, hs, hv, h => by
    simp only [Resolve.resolveN] at h
    split at h
    · cases h
    · obtain ⟨x, hx, h⟩ := bind_ok h
      have h1 := resolveSubstitutions_live (closed_sound.resolveN n) (resolveN_live n) hc hs hv hx
      have : x = (c', o) := by
        unfold checkResult at h
        split at h
        · cases h; rfl
        · split at h
          · cases h; rfl
          · cases h
      subst this
      exact h1

/-- `config::resolve_with`. -/
theorem configResolveWith_live {env : Env} {n : Nat} {v src r : Value} {o : Options} (hv : Live v) (hs : Live src)
    (h : configResolveWith env n v src o = .ok (some r)) : Live r := by
  unfold configResolveWith resolveTop at h
  obtain ⟨o1, h1, h⟩ := bind_ok h
  obtain ⟨⟨c', o'⟩, hx, h'⟩ := bind_ok h1
  cases h'
  cases o' with
  | none => cases h
  | some z =>
    have : z = r := by
      simp only [Option.bind_some, asObject] at h
      split at h <;> simp_all
    subst this
    exact (resolveN_live n _ _ _ _ _ rfl ⟨by rintro x ⟨⟩; exact sound_of_live hs, by simp⟩
      (sound_of_live hv) hx).2.1 z rfl

end Resolve
end Hocon
