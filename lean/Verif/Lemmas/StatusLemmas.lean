import Verif.Lemmas.ParsedClosed
import Verif.Lemmas.SubstPart
import Verif.Spec.Status

/-!
# Exactness of the resolve status
-/

set_option autoImplicit false

namespace Hocon
namespace Resolve
open Value Spec

theorem occurs_trans {u v w : Value} (h : Occurs u v) (h' : Occurs v w) : Occurs u w := by
  induction h' with
  | here => exact h
  | list hm _ ih => exact .list hm ih
  | obj hm _ ih => exact .obj hm ih
  | concat hm _ ih => exact .concat hm ih
  | dm hm _ ih => exact .dm hm ih
  | dmo hm _ ih => exact .dmo hm ih

theorem occurs_wf {u v : Value} (h : Occurs u v) (hv : v.Wf) : u.Wf := by
  induction h with
  | here => exact hv
  | list hm _ ih => exact ih ((closed_wf.list _).1 hv _ hm)
  | obj hm _ ih => exact ih (closed_wf.fields _ _ _ hv _ hm)
  | concat hm _ ih => exact ih (closed_wf.concatParts hv _ hm)
  | dm hm _ ih => exact ih (closed_wf.dmParts hv _ hm)
  | dmo hm _ ih => exact ih (closed_wf.dmoParts hv _ hm)

/-- A well-formed value with an unresolved part is unresolved. -/
theorem occurs_open {u v : Value} (h : Occurs u v) (hv : v.Wf) (hu : u.resolved = false) : v.resolved = false := by
  induction h with
  | here => exact hu
  | @list vs v hm _ ih =>
    have := ih ((closed_wf.list _).1 hv _ hm)
    rw [Value.resolved, Bool.eq_false_iff, Ne, resolvedAll_iff]
    intro h
    rw [h v hm] at this
    cases this
  | @obj fs r i k v hm _ ih =>
    have := ih (closed_wf.fields _ _ _ hv _ hm)
    rw [Value.resolved, hv.1, Bool.eq_false_iff, Ne, resolvedFields_iff]
    intro h
    rw [h _ hm] at this
    cases this
  | concat => simp [Value.resolved]
  | dm => simp [Value.resolved]
  | dmo => simp [Value.resolved]

theorem hasSubst_open {v : Value} (hv : v.Wf) (h : HasSubst v) : v.resolved = false := by
  obtain ⟨id, p, opt, pre, h⟩ := h
  exact occurs_open h hv (by simp [Value.resolved])

/-- Well-formed, and whatever is unresolved contains a substitution. -/
def Live (v : Value) : Prop := v.Wf ∧ ∀ u, Occurs u v → u.resolved = false → HasSubst u

theorem Live.exact {v : Value} (h : Live v) : StatusExact v := by
  intro u hu
  constructor
  · intro hr hs
    rw [hasSubst_open (occurs_wf hu h.1) hs] at hr
    cases hr
  · intro hs
    cases hr : u.resolved with
    | true => rfl
    | false => exact absurd (h.2 u hu hr) hs

theorem live_iff {v : Value} : Live v ↔ v.Wf ∧ StatusExact v := by
  refine ⟨fun h => ⟨h.1, h.exact⟩, fun h => ⟨h.1, fun u hu hr => ?_⟩⟩
  by_contra hs
  rw [(h.2 u hu).2 hs] at hr
  cases hr

theorem live_of_resolved {v : Value} (hw : v.Wf) (h : v.resolved = true) : Live v :=
  ⟨hw, fun u hu hr => by rw [occurs_open hu hw hr] at h; cases h⟩

private theorem delayed {C : List Value → Value} (hw : ∀ ps, (C ps).Wf ↔ ∀ v ∈ ps, v.Wf)
    (ho : ∀ ps u, Occurs u (C ps) ↔ u = C ps ∨ ∃ v ∈ ps, Occurs u v) (hr : ∀ ps, (C ps).resolved = false)
    (hn : ∀ ps id p opt pre, Value.ref id p opt pre ≠ C ps) (ps : List Value) :
    Live (C ps) ↔ (∀ v ∈ ps, Live v) ∧ SomeOpen ps := by
  constructor
  · intro h
    refine ⟨fun v hv => ⟨(hw ps).1 h.1 v hv, fun u hu => h.2 u ((ho ps u).2 (Or.inr ⟨v, hv, hu⟩))⟩, ?_⟩
    obtain ⟨id, p, opt, pre, h'⟩ := h.2 _ ((ho ps _).2 (Or.inl rfl)) (hr ps)
    rcases (ho ps _).1 h' with h' | ⟨v, hv, h'⟩
    · exact absurd h' (hn _ _ _ _ _)
    · exact ⟨v, hv, occurs_open h' ((hw ps).1 h.1 v hv) (by simp [Value.resolved])⟩
  · rintro ⟨h, v, hv, ho'⟩
    refine ⟨(hw ps).2 fun v hv => (h v hv).1, fun u hu hur => ?_⟩
    rcases (ho ps u).1 hu with rfl | ⟨w, hw', hu⟩
    · obtain ⟨id, p, opt, pre, h'⟩ := (h v hv).2 v .here ho'
      exact ⟨id, p, opt, pre, (ho ps _).2 (Or.inr ⟨v, hv, h'⟩)⟩
    · exact (h w hw').2 u hu hur

theorem live_concat (ps : List Value) : Live (.concat ps) ↔ (∀ v ∈ ps, Live v) ∧ SomeOpen ps :=
  delayed (C := .concat) (fun ps => by simp only [Wf, WfL.iff])
    (fun ps u => ⟨fun h => by cases h with
      | here => exact Or.inl rfl
      | concat hm h => exact Or.inr ⟨_, hm, h⟩, fun h => by
        rcases h with rfl | ⟨v, hm, h⟩
        · exact .here
        · exact .concat hm h⟩) (fun _ => by simp [Value.resolved]) (by simp) ps

theorem live_dm (ps : List Value) : Live (.dm ps) ↔ (∀ v ∈ ps, Live v) ∧ SomeOpen ps :=
  delayed (C := .dm) (fun ps => by simp only [Wf, WfL.iff])
    (fun ps u => ⟨fun h => by cases h with
      | here => exact Or.inl rfl
      | dm hm h => exact Or.inr ⟨_, hm, h⟩, fun h => by
        rcases h with rfl | ⟨v, hm, h⟩
        · exact .here
        · exact .dm hm h⟩) (fun _ => by simp [Value.resolved]) (by simp) ps

theorem live_dmo (ps : List Value) : Live (.dmo ps) ↔ (∀ v ∈ ps, Live v) ∧ SomeOpen ps :=
  delayed (C := .dmo) (fun ps => by simp only [Wf, WfL.iff])
    (fun ps u => ⟨fun h => by cases h with
      | here => exact Or.inl rfl
      | dmo hm h => exact Or.inr ⟨_, hm, h⟩, fun h => by
        rcases h with rfl | ⟨v, hm, h⟩
        · exact .here
        · exact .dmo hm h⟩) (fun _ => by simp [Value.resolved]) (by simp) ps

theorem live_list (vs : List Value) : Live (.list vs) ↔ ∀ v ∈ vs, Live v := by
  constructor
  · intro h v hv
    exact ⟨(closed_wf.list _).1 h.1 v hv, fun u hu => h.2 u (.list hv hu)⟩
  · intro h
    refine ⟨(closed_wf.list _).2 fun v hv => (h v hv).1, fun u hu hr => ?_⟩
    cases hu with
    | here =>
      rw [Value.resolved, Bool.eq_false_iff, Ne, resolvedAll_iff] at hr
      simp only [not_forall] at hr
      obtain ⟨v, hv, hr⟩ := hr
      obtain ⟨id, p, opt, pre, h'⟩ := (h v hv).2 v .here (by simpa using hr)
      exact ⟨id, p, opt, pre, .list hv h'⟩
    | list hm hu => exact (h _ hm).2 u hu hr

theorem live_obj {fs : Fields} {i : Bool} (hn : (keysOf fs).Nodup) (h : ∀ f ∈ fs, Live f.2) :
    Live (.obj fs (resolvedFields fs) i) := by
  refine ⟨closed_wf.obj _ _ hn fun f hf => (h f hf).1, fun u hu hr => ?_⟩
  cases hu with
  | here =>
    rw [Value.resolved, Bool.eq_false_iff, Ne, resolvedFields_iff] at hr
    simp only [not_forall] at hr
    obtain ⟨f, hf, hr⟩ := hr
    obtain ⟨id, p, opt, pre, h'⟩ := (h f hf).2 f.2 .here (by simpa using hr)
    exact ⟨id, p, opt, pre, .obj (k := f.1) hf h'⟩
  | obj hm hu => exact (h _ hm).2 u hu hr

theorem live_fields {fs : Fields} {r i : Bool} (h : Live (.obj fs r i)) : ∀ f ∈ fs, Live f.2 :=
  fun f hf => ⟨closed_wf.fields _ _ _ h.1 f hf, fun u hu => h.2 u (.obj (k := f.1) hf hu)⟩

theorem built_live : Built Live SomeOpen where
  opn := fun _ h => h
  grow := fun v vs ⟨w, hw, h⟩ => ⟨w, .tail _ hw, h⟩
  scalar := fun s => live_of_resolved (closed_wf.scalar s) (by simp [Value.resolved])
  ref := fun id p opt pre => ⟨by simp [Wf], fun u hu _ => by cases hu; exact ⟨id, p, opt, pre, .here⟩⟩
  list := live_list
  fields := fun _ _ _ => live_fields
  nodup := fun fs r i h => closed_wf.nodup fs r i h.1
  obj := fun _ _ => live_obj
  ign := fun fs r i j h => by
    have := live_obj (i := j) (closed_wf.nodup _ _ _ h.1) (live_fields h)
    rwa [← h.1.1] at this
  concat := fun ps h => ((live_concat ps).1 h).1
  mkConcat := fun ps he h => (live_concat ps).2 ⟨h, he⟩
  dm := live_dm
  dmo := live_dmo

/-- Distinct keys are part of well-formedness. -/
theorem wf_keys {v : Value} (h : v.Wf) : KeysDistinct v := by
  intro fs r i ho
  exact closed_wf.nodup _ _ _ (occurs_wf ho h)

private theorem part {u v : Value} (hs : StatusExact v) (hk : KeysDistinct v)
    (h : ∀ w, Occurs w u → Occurs w v) : StatusExact u ∧ KeysDistinct u :=
  ⟨fun w hw => hs w (h w hw), fun fs r i hw => hk fs r i (h _ hw)⟩

mutual
private theorem wf_of : (v : Value) → StatusExact v → KeysDistinct v → v.Wf
  | .scalar _, _, _ => by simp [Wf]
  | .ref .., _, _ => by simp [Wf]
  | .list vs, hs, hk => wfL_of vs fun v hv => part hs hk fun _ h => .list hv h
  | .concat vs, hs, hk => wfL_of vs fun v hv => part hs hk fun _ h => .concat hv h
  | .dm vs, hs, hk => wfL_of vs fun v hv => part hs hk fun _ h => .dm hv h
  | .dmo vs, hs, hk => wfL_of vs fun v hv => part hs hk fun _ h => .dmo hv h
  | .obj fs r i, hs, hk => by
    have hp : ∀ f ∈ fs, StatusExact f.2 ∧ KeysDistinct f.2 := fun f hf =>
      part hs hk fun _ h => .obj (k := f.1) hf h
    refine ⟨?_, hk fs r i .here, wfF_of fs hp⟩
    rw [Bool.eq_iff_iff, resolvedFields_iff]
    have h0 := hs _ .here
    rw [Value.resolved] at h0
    rw [h0]
    constructor
    · intro hn f hf
      rw [(hp f hf).1 _ .here]
      rintro ⟨id, p, opt, pre, h⟩
      exact hn ⟨id, p, opt, pre, .obj (k := f.1) hf h⟩
    · rintro h ⟨id, p, opt, pre, h'⟩
      cases h' with
      | obj hm h' => exact ((hp _ hm).1 _ .here).1 (h _ hm) ⟨id, p, opt, pre, h'⟩
private theorem wfL_of : (vs : List Value) → (∀ v ∈ vs, StatusExact v ∧ KeysDistinct v) → WfL vs
  | [], _ => trivial
  | v :: vs, h => ⟨wf_of v (h v (by simp)).1 (h v (by simp)).2, wfL_of vs fun w hw => h w (by simp [hw])⟩
private theorem wfF_of : (fs : Fields) → (∀ f ∈ fs, StatusExact f.2 ∧ KeysDistinct f.2) → WfF fs
  | [], _ => trivial
  | (k, v) :: fs, h => ⟨wf_of v (h (k, v) (by simp)).1 (h (k, v) (by simp)).2, wfF_of fs fun f hf => h f (by simp [hf])⟩
end

theorem live_spec {v : Value} : Live v ↔ StatusExact v ∧ KeysDistinct v :=
  ⟨fun h => ⟨h.exact, wf_keys h.1⟩, fun h => live_iff.2 ⟨wf_of v h.1 h.2, h.1⟩⟩

end Resolve
end Hocon
