import Verif.Lemmas.SubstSpec
import Verif.Lemmas.ParsedClosed

/-!
# Partially resolved trees

`Part v v'`: `v'` is `v` with some of its substitutions replaced by what they stand for. The
resolver looks up paths in such trees.
-/

set_option autoImplicit false
set_option linter.unusedSectionVars false

namespace Hocon
namespace Spec
open Value

theorem CleanL.iff {vs : List Value} : CleanL vs ↔ ∀ v ∈ vs, Clean v := by
  induction vs with
  | nil => simp [CleanL]
  | cons v vs ih => simp [CleanL, ih]

theorem CleanF.iff {fs : Fields} : CleanF fs ↔ ∀ f ∈ fs, Clean f.2 := by
  induction fs with
  | nil => simp [CleanF]
  | cons f fs ih => obtain ⟨k, v⟩ := f; simp [CleanF, ih]

mutual
theorem Clean.resolved : (v : Value) → Clean v → v.resolved = true
  | .scalar _, _ => rfl
  | .list vs, h => by
    simp only [Value.resolved]
    exact CleanL.resolved vs h
  | .obj fs r i, h => h.1
  | .ref .., h => h.elim
  | .concat _, h => h.elim
  | .dm _, h => h.elim
  | .dmo _, h => h.elim
theorem CleanL.resolved : (vs : List Value) → CleanL vs → resolvedAll vs = true
  | [], _ => rfl
  | v :: vs, h => by
    simp only [resolvedAll, Bool.and_eq_true]
    exact ⟨Clean.resolved v h.1, CleanL.resolved vs h.2⟩
end

theorem CleanF.resolved {fs : Fields} (h : CleanF fs) : resolvedFields fs = true :=
  resolvedFields_iff.2 fun f hf => Clean.resolved _ (CleanF.iff.1 h f hf)

mutual
theorem clean_of_plain : (v : Value) → v.Wf → v.resolved = true → Clean v
  | .scalar _, _, _ => trivial
  | .list vs, hw, hr => by
    simp only [Wf] at hw
    simp only [Value.resolved] at hr
    exact cleanL_of_plain vs hw hr
  | .obj fs r i, hw, hr => by
    simp only [Wf] at hw
    simp only [Value.resolved] at hr
    refine ⟨hr, cleanF_of_plain fs hw.2.2 ?_⟩
    rw [← hw.1]; exact hr
  | .ref .., _, hr => by simp [Value.resolved] at hr
  | .concat _, _, hr => by simp [Value.resolved] at hr
  | .dm _, _, hr => by simp [Value.resolved] at hr
  | .dmo _, _, hr => by simp [Value.resolved] at hr
theorem cleanL_of_plain : (vs : List Value) → WfL vs → resolvedAll vs = true → CleanL vs
  | [], _, _ => trivial
  | v :: vs, hw, hr => by
    simp only [resolvedAll, Bool.and_eq_true] at hr
    exact ⟨clean_of_plain v hw.1 hr.1, cleanL_of_plain vs hw.2 hr.2⟩
theorem cleanF_of_plain : (fs : Fields) → WfF fs → resolvedFields fs = true → CleanF fs
  | [], _, _ => trivial
  | (k, v) :: fs, hw, hr => by
    simp only [resolvedFields, List.all_cons, Bool.and_eq_true] at hr
    exact ⟨clean_of_plain v hw.1 hr.1, cleanF_of_plain fs hw.2 hr.2⟩
end

/-- `Wf` is determined by the parts. -/
theorem closed_wf : Resolve.Closed Wf where
  scalar _ := by simp [Wf]
  list vs := by simp only [Wf, WfL.iff]
  fields fs r i h := by simp only [Wf] at h; exact WfF.iff.1 h.2.2
  nodup fs r i h := by simp only [Wf] at h; exact h.2.1
  obj fs i hn h := by simp only [Wf, true_and]; exact ⟨hn, WfF.iff.2 h⟩
  ign fs r i j h := by simp only [Wf] at h ⊢; exact h
  concat ps _ := by simp only [Wf, WfL.iff]
  dm ps _ := by simp only [Wf, WfL.iff]
  dmo ps _ := by simp only [Wf, WfL.iff]

variable {env : Env} {root : Value} {ext : Path → Option Str}

mutual
/-- A clean value stands for itself. -/
theorem Clean.den : (v : Value) → Clean v → Den env root ext v (some v)
  | .scalar s, _ => .scalar s
  | .list vs, h => .list (CleanL.den vs h)
  | .obj fs r i, h => by
    obtain ⟨rfl, h⟩ := h
    exact .obj (CleanF.den fs h)
  | .ref .., h => h.elim
  | .concat _, h => h.elim
  | .dm _, h => h.elim
  | .dmo _, h => h.elim
theorem CleanL.den : (vs : List Value) → CleanL vs → DenL env root ext vs vs
  | [], _ => .nil
  | v :: vs, h => .keep (Clean.den v h.1) (CleanL.den vs h.2)
theorem CleanF.den : (fs : Fields) → CleanF fs → DenF env root ext fs fs
  | [], _ => .nil
  | (_, v) :: fs, h => .keep (Clean.den v h.1) (CleanF.den fs h.2)
end

theorem DenF.keys {fs gs : Fields} (h : DenF env root ext fs gs) :
    (keysOf gs).Sublist (keysOf fs) :=
  match h with
  | .nil => .refl _
  | .keep _ h => (DenF.keys h).cons_cons _
  | .drop _ h => (DenF.keys h).cons _

/-- Every value reached from a well-formed value is well-formed, and what it stands for is plain. -/
structure Sane (root : Value) : Prop where
  wf : root.Wf

section
variable (hroot : root.Wf)
include hroot

mutual
theorem Den.plain' {v : Value} {o : Option Value} (hv : v.Wf) (h : Den env root ext v o) :
    ∀ r, o = some r → r.Plain :=
  match h with
  | .scalar s => by rintro r ⟨⟩; exact ⟨by simp [Wf], rfl⟩
  | .list h => by
    rintro r ⟨⟩
    simp only [Wf] at hv
    have := DenL.plain hv h
    refine ⟨?_, ?_⟩
    · simp only [Wf, WfL.iff]; exact fun w hw => (this w hw).wf
    · simp only [Value.resolved, resolvedAll_iff]; exact fun w hw => (this w hw).res
  | .obj h => by
    rintro r ⟨⟩
    simp only [Wf] at hv
    exact plain_obj.2 ⟨rfl, hv.2.1.sublist (DenF.keys h), DenF.plain hv.2.2 h⟩
  | .ref h1 h2 => Den.plain' (At.wf hroot h1) h2
  | .refExt _ _ => by rintro r ⟨⟩; exact ⟨by simp [Wf], rfl⟩
  | .refAbsent _ _ => by rintro r ⟨⟩
  | .concat h1 hc => by
    rintro r rfl
    simp only [Wf] at hv
    exact ConfigParser.concatenate_plain _ _ _ (DenL.plain hv h1) hc
termination_by structural h
theorem DenL.plain {vs ws : List Value} (hv : WfL vs) (h : DenL env root ext vs ws) :
    ∀ w ∈ ws, w.Plain :=
  match h with
  | .nil => by simp
  | .keep h1 h2 =>
    have i1 := Den.plain' hv.1 h1 _ rfl
    have i2 := DenL.plain hv.2 h2
    fun w hw => by
      rcases List.mem_cons.1 hw with rfl | hw
      · exact i1
      · exact i2 w hw
  | .drop _ h2 => DenL.plain hv.2 h2
termination_by structural h
theorem DenF.plain {fs gs : Fields} (hv : WfF fs) (h : DenF env root ext fs gs) :
    ∀ f ∈ gs, f.2.Plain :=
  match h with
  | .nil => by simp
  | .keep h1 h2 =>
    have i1 := Den.plain' hv.1 h1 _ rfl
    have i2 := DenF.plain hv.2 h2
    fun w hw => by
      rcases List.mem_cons.1 hw with rfl | hw
      · exact i1
      · exact i2 w hw
  | .drop _ h2 => DenF.plain hv.2 h2
termination_by structural h
theorem At.wf {v w : Value} {p : Path} (hv : v.Wf) (h : At env root ext v p w) : w.Wf :=
  match h with
  | .nil => hv
  | .obj hf h => At.wf (closed_wf.findKey (closed_wf.fields _ _ _ hv) hf) h
  | .ref h1 h2 => At.wf (At.wf hroot h1) h2
  | .concat h1 h2 => At.wf (Den.plain' hv h1 _ rfl).wf h2
termination_by structural h
end

theorem Den.plain {v r : Value} (hv : v.Wf) (h : Den env root ext v (some r)) : r.Plain :=
  Den.plain' hroot hv h r rfl
end

mutual
/-- Partial resolution. -/
inductive Part (env : Env) (root : Value) (ext : Path → Option Str) : Value → Value → Prop
  | refl (v : Value) : Part env root ext v v
  | den {v r : Value} : Den env root ext v (some r) → Clean r → Part env root ext v r
  | obj {fs gs : Fields} {r i : Bool} : PartF env root ext fs gs →
      Part env root ext (.obj fs r i) (.obj gs (resolvedFields gs) i)
  | ref {id : Nat} {p : Path} {opt : Bool} {v v' : Value} : At env root ext root p v →
      Part env root ext v v' → Head v' → Part env root ext (.ref id p opt 0) v'
/-- Partial resolution of fields. -/
inductive PartF (env : Env) (root : Value) (ext : Path → Option Str) : Fields → Fields → Prop
  | nil : PartF env root ext [] []
  | keep {k : Str} {v w : Value} {fs gs : Fields} : Part env root ext v w → PartF env root ext fs gs →
      PartF env root ext ((k, v) :: fs) ((k, w) :: gs)
  | drop {k : Str} {v : Value} {fs gs : Fields} : Den env root ext v none → PartF env root ext fs gs →
      PartF env root ext ((k, v) :: fs) gs
end

theorem PartF.refl : (fs : Fields) → PartF env root ext fs fs
  | [] => .nil
  | (_, v) :: fs => .keep (.refl v) (PartF.refl fs)

theorem PartF.keys {fs gs : Fields} (h : PartF env root ext fs gs) :
    (keysOf gs).Sublist (keysOf fs) :=
  match h with
  | .nil => .refl _
  | .keep _ h => (PartF.keys h).cons_cons _
  | .drop _ h => (PartF.keys h).cons _

theorem DenF.partF {fs gs : Fields} (h : DenF env root ext fs gs) (hc : CleanF gs) :
    PartF env root ext fs gs :=
  match h with
  | .nil => .nil
  | .keep h1 h2 => .keep (.den h1 hc.1) (DenF.partF h2 hc.2)
  | .drop h1 h2 => .drop h1 (DenF.partF h2 hc)

mutual
theorem Part.clean : {v w : Value} → Clean v → Part env root ext v w → w = v
  | _, _, _, .refl _ => rfl
  | _, _, hc, .den h _ => by
    have := (Den.det h).1 _ (Clean.den _ hc)
    exact Option.some.inj this
  | _, _, hc, .obj h => by
    obtain ⟨rfl, hc⟩ := hc
    rw [PartF.clean hc h, CleanF.resolved hc]
  | _, _, hc, .ref _ _ _ => hc.elim
theorem PartF.clean : {fs gs : Fields} → CleanF fs → PartF env root ext fs gs → gs = fs
  | _, _, _, .nil => rfl
  | _, _, hc, .keep h1 h2 => by rw [Part.clean hc.1 h1, PartF.clean hc.2 h2]
  | _, _, hc, .drop h1 _ => by cases (Den.det h1).1 _ (Clean.den _ hc.1)
end

theorem Head.den_some {v : Value} (h : Head v) : Stays env root ext v := by
  intro hn
  cases hn <;> exact h.elim

mutual
theorem Part.den_trans : {v w : Value} → {o : Option Value} → Part env root ext v w →
    Den env root ext w o → Den env root ext v o
  | _, _, _, .refl _, hd => hd
  | _, _, _, .den h hc, hd => by
    rw [← (Den.det (Clean.den _ hc)).1 _ hd]; exact h
  | _, _, _, .obj h, hd => by
    cases hd with
    | obj hd => exact .obj (PartF.den_trans h hd)
  | _, _, o, .ref h1 h2 hh, hd => by
    cases o with
    | none => exact absurd hd hh.den_some
    | some r => exact .ref h1 (Part.den_trans h2 hd)
theorem PartF.den_trans : {fs gs hs : Fields} → PartF env root ext fs gs →
    DenF env root ext gs hs → DenF env root ext fs hs
  | _, _, _, .nil, hd => hd
  | _, _, _, .keep h1 h2, hd => by
    cases hd with
    | keep d1 d2 => exact .keep (Part.den_trans h1 d1) (PartF.den_trans h2 d2)
    | drop d1 d2 => exact .drop (Part.den_trans h1 d1) (PartF.den_trans h2 d2)
  | _, _, _, .drop h1 h2, hd => .drop h1 (PartF.den_trans h2 hd)
end

theorem Clean.head {v : Value} (h : Clean v) : Head v := by
  cases v <;> trivial

theorem Part.head {v w : Value} (hh : Head v) (h : Part env root ext v w) : Head w := by
  cases h with
  | refl => exact hh
  | den _ hc => exact hc.head
  | obj => trivial
  | ref _ _ h => exact h

mutual
theorem Part.trans : {u v w : Value} → Part env root ext u v → Part env root ext v w →
    Part env root ext u w
  | _, _, _, .refl _, h' => h'
  | _, _, _, .den h hc, h' => by rw [Part.clean hc h']; exact .den h hc
  | _, _, _, .obj h, h' => by
    cases h' with
    | refl => exact .obj h
    | den hd hc =>
      cases hd with
      | obj hd => exact .den (.obj (PartF.den_trans h hd)) hc
    | obj h'' => exact .obj (PartF.trans h h'')
  | _, _, _, .ref h1 h2 hh, h' => .ref h1 (Part.trans h2 h') (h'.head hh)
theorem PartF.trans : {fs gs hs : Fields} → PartF env root ext fs gs → PartF env root ext gs hs →
    PartF env root ext fs hs
  | _, _, _, .nil, h' => h'
  | _, _, _, .keep h1 h2, h' => by
    cases h' with
    | keep d1 d2 => exact .keep (Part.trans h1 d1) (PartF.trans h2 d2)
    | drop d1 d2 => exact .drop (Part.den_trans h1 d1) (PartF.trans h2 d2)
  | _, _, _, .drop h1 h2, h' => .drop h1 (PartF.trans h2 h')
end

/-- A field of a partially resolved object comes from a field of the original. -/
theorem PartF.find {fs gs : Fields} (h : PartF env root ext fs gs) (hn : (keysOf fs).Nodup) {k : Str}
    {x : Value} (hf : findKey gs k = some x) :
    ∃ x0, findKey fs k = some x0 ∧ Part env root ext x0 x :=
  match h with
  | .nil => by simp at hf
  | .keep (k := k') (v := v) (fs := fs') h1 h2 => by
    rw [findKey_cons] at hf ⊢
    simp only [keysOf, List.map_cons, List.nodup_cons] at hn
    split at hf
    · rename_i hk
      cases hf
      rw [if_pos hk]
      exact ⟨v, rfl, h1⟩
    · rename_i hk
      rw [if_neg hk]
      exact PartF.find h2 hn.2 hf
  | .drop (k := k') (fs := fs') h1 h2 => by
    simp only [keysOf, List.map_cons, List.nodup_cons] at hn
    rw [findKey_cons, if_neg]
    · exact PartF.find h2 hn.2 hf
    · rintro rfl
      exact hn.1 ((PartF.keys h2).subset (mem_keysOf.2 ⟨x, hf⟩))

/-- A missing field was missing or has vanished. -/
theorem PartF.find_none {fs gs : Fields} (h : PartF env root ext fs gs) (hn : (keysOf fs).Nodup) {k : Str}
    (hf : findKey gs k = none) :
    findKey fs k = none ∨ ∃ x0, findKey fs k = some x0 ∧ Den env root ext x0 none :=
  match h with
  | .nil => .inl rfl
  | .keep (k := k') (v := v) (fs := fs') h1 h2 => by
    rw [findKey_cons] at hf ⊢
    simp only [keysOf, List.map_cons, List.nodup_cons] at hn
    split at hf
    · cases hf
    · rename_i hk
      rw [if_neg hk]
      exact PartF.find_none h2 hn.2 hf
  | .drop (k := k') (v := v) (fs := fs') h1 h2 => by
    simp only [keysOf, List.map_cons, List.nodup_cons] at hn
    rw [findKey_cons]
    split
    · exact .inr ⟨v, rfl, h1⟩
    · exact PartF.find_none h2 hn.2 hf

section
variable (hroot : root.Wf)
include hroot

/-- The original of a field. -/
def Origin (env : Env) (root : Value) (ext : Path → Option Str) (v : Value) (k : Str) (x : Value) :
    Prop :=
  ∃ x0, Part env root ext x0 x ∧ x0.Wf ∧
    (∀ p w, At env root ext x0 p w → At env root ext v (k :: p) w) ∧
    (∀ p, Absent env root ext x0 p → Absent env root ext v (k :: p))

omit hroot in
theorem Origin.ref {id : Nat} {q : Path} {opt : Bool} {v x : Value} {k : Str}
    (h1 : At env root ext root q v) (h : Origin env root ext v k x) :
    Origin env root ext (.ref id q opt 0) k x := by
  obtain ⟨x0, a, b, c, d⟩ := h
  exact ⟨x0, a, b, fun p w ha => .ref h1 (c p w ha), fun p ha => .ref h1 (d p ha)⟩

omit hroot in
theorem Origin.field {fs : Fields} {r i : Bool} {k : Str} {x x0 : Value} (hv : (Value.obj fs r i).Wf)
    (h1 : findKey fs k = some x0) (h : Part env root ext x0 x) :
    Origin env root ext (.obj fs r i) k x :=
  ⟨x0, h, closed_wf.findKey (closed_wf.fields _ _ _ hv) h1,
    fun _ _ ha => .obj h1 ha, fun _ ha => .deeper h1 ha⟩

theorem Den.step {v : Value} {o : Option Value} (hv : v.Wf) (h : Den env root ext v o) {gs : Fields}
    {r i : Bool} (ho : o = some (.obj gs r i)) (hc : Clean (.obj gs r i)) {k : Str} {x : Value}
    (hf : findKey gs k = some x) : Origin env root ext v k x :=
  match h with
  | .scalar s => by cases ho
  | .list _ => by cases ho
  | .refExt _ _ => by cases ho
  | .refAbsent _ _ => by cases ho
  | .obj hf' => by
    cases ho
    obtain ⟨x0, h1, h2⟩ := (DenF.partF hf' hc.2).find (closed_wf.nodup _ _ _ hv) hf
    exact .field hv h1 h2
  | .ref h1 h2 => .ref h1 (Den.step (At.wf hroot hroot h1) h2 ho hc hf)
  | .concat h1 hc' => by
    subst ho
    have hw := (Den.plain hroot hv (.concat h1 hc')).wf
    exact ⟨x, .refl x, closed_wf.findKey (closed_wf.fields _ _ _ hw) hf,
      fun p w ha => .concat (.concat h1 hc') (.obj hf ha),
      fun p ha => .concat (.concat h1 hc') (.deeper hf ha)⟩
termination_by structural h

/-- One step along a path. -/
theorem Part.step {v v' : Value} {gs : Fields} {r i : Bool} (hv : v.Wf)
    (h : Part env root ext v v') (he : v' = .obj gs r i) {k : Str} {x : Value}
    (hf : findKey gs k = some x) : Origin env root ext v k x :=
  match h with
  | .refl v => by subst he; exact .field hv hf (.refl x)
  | .den hd hc => by subst he; exact Den.step hroot hv hd rfl hc hf
  | .obj h => by
    cases he
    obtain ⟨x0, h1, h2⟩ := h.find (closed_wf.nodup _ _ _ hv) hf
    exact .field hv h1 h2
  | .ref h1 h2 _ => .ref h1 (Part.step (At.wf hroot hroot h1) h2 he hf)
termination_by structural h

omit hroot in
theorem Head.absent {v : Value} {k : Str} (hh : Head v)
    (hf : ∀ gs r i, v = .obj gs r i → findKey gs k = none) (p : Path) :
    Absent env root ext v (k :: p) := by
  cases v with
  | scalar s => exact .scalar
  | list vs => exact .list
  | obj gs r i => exact .missing (hf gs r i rfl)
  | _ => exact hh.elim

omit hroot in
theorem PartF.absent {fs gs : Fields} {r i : Bool} (hv : (Value.obj fs r i).Wf)
    (h : PartF env root ext fs gs) {k : Str} (hf : findKey gs k = none) (p : Path) :
    Absent env root ext (.obj fs r i) (k :: p) := by
  rcases h.find_none (closed_wf.nodup _ _ _ hv) hf with h | ⟨x, h, hn⟩
  · exact .missing h
  · exact .deeper h (.gone hn)

theorem Den.absent {v v' : Value} {o : Option Value} (hv : v.Wf) (h : Den env root ext v o)
    (ho : o = some v') (hc : Clean v') {k : Str}
    (hf : ∀ gs r i, v' = .obj gs r i → findKey gs k = none) (p : Path) :
    Absent env root ext v (k :: p) :=
  match h with
  | .scalar s => .scalar
  | .list _ => .list
  | .refExt h1 he => .refExt h1 he
  | .refAbsent _ _ => by cases ho
  | .obj hf' => by
    cases ho
    exact (DenF.partF hf' hc.2).absent hv (hf _ _ _ rfl) p
  | .ref h1 h2 => .ref h1 (Den.absent (At.wf hroot hroot h1) h2 ho hc hf p)
  | .concat h1 hc' => by
    subst ho
    exact .concat (.concat h1 hc') (hc.head.absent hf p)
termination_by structural h

/-- Nothing below this key. -/
theorem Part.absent {v v' : Value} (hv : v.Wf) (h : Part env root ext v v') (hh : Head v') {k : Str}
    (hf : ∀ gs r i, v' = .obj gs r i → findKey gs k = none) (p : Path) :
    Absent env root ext v (k :: p) :=
  match h with
  | .refl v => hh.absent hf p
  | .den hd hc => Den.absent hroot hv hd rfl hc hf p
  | .obj h => h.absent hv (hf _ _ _ rfl) p
  | .ref h1 h2 _ => .ref h1 (Part.absent (At.wf hroot hroot h1) h2 hh hf p)
termination_by structural h

end

/-- `At` to a value that vanishes is `Absent`. -/
theorem At.absent {v w : Value} {p : Path} (h : At env root ext v p w) (hn : Absent env root ext w []) :
    Absent env root ext v p :=
  match h with
  | .nil => hn
  | .obj hf h => .deeper hf (At.absent h hn)
  | .ref h1 h => .ref h1 (At.absent h hn)
  | .concat h1 h => .concat h1 (At.absent h hn)

end Spec
end Hocon
