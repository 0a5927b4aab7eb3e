import Verif.Lemmas.SubstPart

/-!
# Paths in the tree a config stands for
-/

set_option autoImplicit false

namespace Hocon
namespace Spec
open Value

theorem child_eq_findKey {fs : Fields} {r i : Bool} {k : Str} :
    child (.obj fs r i) k = findKey fs k := by
  simp only [child, fieldsOf]
  induction fs with
  | nil => rfl
  | cons f fs ih =>
    obtain ⟨k', v⟩ := f
    rw [findKey_cons, List.find?_cons]
    by_cases h : k' = k
    · simp [h]
    · simp [h, ih]

theorem at?_obj {fs : Fields} {r i : Bool} {k : Str} {p : Path} :
    at? (.obj fs r i) (k :: p) = (findKey fs k).bind fun w => at? w p := by
  rw [at?, child_eq_findKey]

theorem at?_cons_some {v u : Value} {k : Str} {p : Path} (h : at? v (k :: p) = some u) :
    ∃ fs r i x, v = .obj fs r i ∧ findKey fs k = some x ∧ at? x p = some u := by
  cases v with
  | obj fs r i =>
    rw [at?_obj] at h
    cases hf : findKey fs k with
    | none => rw [hf] at h; cases h
    | some x => rw [hf] at h; exact ⟨fs, r, i, x, rfl, hf, h⟩
  | _ => simp [at?, child, fieldsOf] at h

variable {env : Env} {root : Value} {ext : Path → Option Str}

theorem At.of_at? : {v u : Value} → {q : Path} → at? v q = some u → At env root ext v q u
  | v, u, [], h => by cases h; exact .nil
  | v, u, k :: q, h => by
    obtain ⟨fs, r, i, x, rfl, hf, h⟩ := at?_cons_some h
    exact .obj hf (At.of_at? h)

theorem DenF.find {fs gs : Fields} (h : DenF env root ext fs gs) (hn : (keysOf fs).Nodup) {k : Str}
    {x : Value} (hf : findKey fs k = some x) :
    (∃ w, Den env root ext x (some w) ∧ findKey gs k = some w) ∨
      (Den env root ext x none ∧ findKey gs k = none) :=
  match h with
  | .nil => by simp at hf
  | .keep (k := k') (v := v) (w := w) (fs := fs') (gs := gs') h1 h2 => by
    rw [findKey_cons] at hf ⊢
    simp only [keysOf, List.map_cons, List.nodup_cons] at hn
    split at hf
    · rename_i hk
      cases hf
      rw [if_pos hk]
      exact .inl ⟨w, h1, rfl⟩
    · rename_i hk
      rw [if_neg hk]
      exact DenF.find h2 hn.2 hf
  | .drop (k := k') (v := v) (fs := fs') h1 h2 => by
    rw [findKey_cons] at hf
    simp only [keysOf, List.map_cons, List.nodup_cons] at hn
    split at hf
    · rename_i hk
      cases hf
      refine .inr ⟨h1, findKey_none.2 fun hm => hn.1 ?_⟩
      have := h2.keys.subset hm
      rw [hk]
      exact this
    · exact DenF.find h2 hn.2 hf

theorem DenF.find_none {fs gs : Fields} (h : DenF env root ext fs gs) {k : Str}
    (hf : findKey fs k = none) : findKey gs k = none :=
  findKey_none.2 fun hm => findKey_none.1 hf (h.keys.subset hm)

/-- A path through objects leads to corresponding values. -/
theorem Den.at_some : {v r u : Value} → {q : Path} → v.Wf → Den env root ext v (some r) →
    at? v q = some u →
    (∃ w, Den env root ext u (some w) ∧ at? r q = some w) ∨
      (Den env root ext u none ∧ at? r q = none)
  | v, r, u, [], _, hd, h => by cases h; exact .inl ⟨r, hd, rfl⟩
  | v, r, u, k :: q, hv, hd, h => by
    obtain ⟨fs, _, i, x, rfl, hf, h⟩ := at?_cons_some h
    cases hd with
    | obj hd =>
      rcases hd.find (closed_wf.nodup _ _ _ hv) hf with ⟨w, hw, hg⟩ | ⟨hw, hg⟩
      · rw [at?_obj, hg]
        exact Den.at_some (closed_wf.findKey (closed_wf.fields _ _ _ hv) hf) hw h
      · rw [at?_obj, hg]
        cases q with
        | nil => cases h; exact .inr ⟨hw, rfl⟩
        | cons k' q =>
          obtain ⟨fs, r, i, y, rfl, _, _⟩ := at?_cons_some h
          cases hw

theorem At.den_at? (hroot : root.Wf) {v w : Value} {p : Path} (hv : v.Wf) (h : At env root ext v p w) :
    ∀ {r r' : Value}, Den env root ext v (some r) → Den env root ext w (some r') → at? r p = some r' :=
  match h with
  | .nil => fun hd hd' => by
    cases (Den.det hd).1 _ hd'; rfl
  | .obj hf h =>
    have ih := @At.den_at? hroot _ _ _ (closed_wf.findKey (closed_wf.fields _ _ _ hv) hf) h
    fun hd hd' => by
      cases hd with
      | obj hd =>
        rcases hd.find (closed_wf.nodup _ _ _ hv) hf with ⟨w, hw, hg⟩ | ⟨hw, hg⟩
        · rw [at?_obj, hg]
          exact ih hw hd'
        · exact absurd hd' ((Den.det hw).2 rfl _ _ _ h)
  | .ref h1 h =>
    have ih := @At.den_at? hroot _ _ _ (At.wf hroot hroot h1) h
    fun hd hd' => by
      cases hd with
      | ref a1 a2 =>
        cases (At.det h1).1 _ a1
        exact ih a2 hd'
      | refExt a1 a2 => exact absurd hd' (Absent.det a1 _ _ _ (h1.append h))
  | .concat h1 h =>
    have ih := @At.den_at? hroot _ _ _ (Den.plain hroot hv h1).wf h
    fun hd hd' => by
      cases (Den.det h1).1 _ hd
      have hp := Den.plain hroot hv h1
      exact ih (Clean.den _ (clean_of_plain _ hp.wf hp.res)) hd'
termination_by structural h

theorem Absent.den_at? (hroot : root.Wf) {v : Value} {p : Path} (hv : v.Wf) (h : Absent env root ext v p) :
    ∀ {r : Value}, Den env root ext v (some r) → at? r p = none :=
  match h with
  | .missing hf => fun hd => by
    cases hd with
    | obj hd => rw [at?_obj, hd.find_none hf]; rfl
  | .deeper hf h =>
    have ih := @Absent.den_at? hroot _ _ (closed_wf.findKey (closed_wf.fields _ _ _ hv) hf) h
    fun hd => by
      cases hd with
      | obj hd =>
        rcases hd.find (closed_wf.nodup _ _ _ hv) hf with ⟨w, hw, hg⟩ | ⟨hw, hg⟩
        · rw [at?_obj, hg]; exact ih hw
        · rw [at?_obj, hg]; rfl
  | .gone h => fun hd => by cases (Den.det h).1 _ hd
  | .scalar => fun hd => by cases hd; rfl
  | .list => fun hd => by cases hd; rfl
  | .ref h1 h =>
    have ih := @Absent.den_at? hroot _ _ (At.wf hroot hroot h1) h
    fun hd => by
      cases hd with
      | ref a1 a2 =>
        cases (At.det h1).1 _ a1
        exact ih a2
      | refExt a1 a2 => rfl
  | .refExt h1 h2 => fun hd => by
    cases hd with
    | ref a1 a2 =>
      exact absurd a2 (Absent.det h1 [] _ _ (by rw [List.append_nil]; exact a1))
    | refExt a1 a2 => rfl
  | .concat h1 h =>
    have ih := @Absent.den_at? hroot _ _ (Den.plain hroot hv h1).wf h
    fun hd => by
      cases (Den.det h1).1 _ hd
      have hp := Den.plain hroot hv h1
      exact ih (Clean.den _ (clean_of_plain _ hp.wf hp.res))
termination_by structural h

/-! ## Every substitution has a value -/

theorem DenL.mem {vs ws : List Value} (h : DenL env root ext vs ws) {v : Value} (hv : v ∈ vs) :
    ∃ o, Den env root ext v o :=
  match h with
  | .nil => by simp at hv
  | .keep h1 h2 => by
    rcases List.mem_cons.1 hv with rfl | hv
    · exact ⟨_, h1⟩
    · exact DenL.mem h2 hv
  | .drop h1 h2 => by
    rcases List.mem_cons.1 hv with rfl | hv
    · exact ⟨_, h1⟩
    · exact DenL.mem h2 hv

theorem DenF.mem {fs gs : Fields} (h : DenF env root ext fs gs) {f : Str × Value} (hf : f ∈ fs) :
    ∃ o, Den env root ext f.2 o :=
  match h with
  | .nil => by simp at hf
  | .keep h1 h2 => by
    rcases List.mem_cons.1 hf with rfl | hf
    · exact ⟨_, h1⟩
    · exact DenF.mem h2 hf
  | .drop h1 h2 => by
    rcases List.mem_cons.1 hf with rfl | hf
    · exact ⟨_, h1⟩
    · exact DenF.mem h2 hf

theorem Den.occurs {u v : Value} (ho : Occurs u v) : ∀ {o : Option Value}, Den env root ext v o →
    ∃ o', Den env root ext u o' := by
  induction ho with
  | here => exact fun h => ⟨_, h⟩
  | list hm _ ih => intro o h; cases h with | list h => obtain ⟨_, h⟩ := h.mem hm; exact ih h
  | obj hm _ ih => intro o h; cases h with | obj h => obtain ⟨_, h⟩ := h.mem hm; exact ih h
  | concat hm _ ih => intro o h; cases h with | concat h _ => obtain ⟨_, h⟩ := h.mem hm; exact ih h
  | dm => intro o h; cases h
  | dmo => intro o h; cases h

/-- A required substitution without value stands for nothing. -/
theorem Den.required_absent {id : Nat} {p : Path} {o : Option Value} (ha : Absent env root ext root p)
    (he : ext p = none) : ¬ Den env root ext (.ref id p false 0) o := by
  intro h
  cases h with
  | ref h1 h2 => exact Absent.det ha [] _ _ (by rw [List.append_nil]; exact h1) h2
  | refExt _ h => rw [he] at h; cases h

/-- A set of required substitutions that lead to each other stands for nothing. -/
theorem Den.cycle {C : Value → Prop}
    (hC : ∀ v, C v → ∃ id p w, v = .ref id p false 0 ∧ at? root p = some w ∧ C w)
    {v : Value} {o : Option Value} (h : Den env root ext v o) : ¬ C v :=
  match h with
  | .scalar _ => fun hc => by obtain ⟨_, _, _, h, _⟩ := hC _ hc; cases h
  | .list _ => fun hc => by obtain ⟨_, _, _, h, _⟩ := hC _ hc; cases h
  | .obj _ => fun hc => by obtain ⟨_, _, _, h, _⟩ := hC _ hc; cases h
  | .concat _ _ => fun hc => by obtain ⟨_, _, _, h, _⟩ := hC _ hc; cases h
  | .refAbsent _ _ => fun hc => by obtain ⟨_, _, _, h, _⟩ := hC _ hc; cases h
  | .ref h1 h2 =>
    have ih := Den.cycle hC h2
    fun hc => by
      obtain ⟨_, _, w, h, ha, hc'⟩ := hC _ hc
      cases h
      cases (At.det h1).1 _ (.of_at? ha)
      exact ih hc'
  | .refExt h1 h2 => fun hc => by
    obtain ⟨_, _, w, h, ha, hc'⟩ := hC _ hc
    cases h
    refine (At.det (.of_at? ha)).2.1 ?_ h1
    obtain ⟨_, _, _, rfl, _⟩ := hC _ hc'
    intro h
    cases h
termination_by structural h

end Spec
end Hocon
