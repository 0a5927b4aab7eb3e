import Verif.Lemmas.RenderHocon

/-!
# What is read from a HOCON text can be rendered
-/

set_option autoImplicit false

namespace Hocon
namespace Render

open Spec

mutual
/-- `Renderable` except for the strings. -/
def Ready (env : Env) : Value → Prop
  | .scalar (.str _ _) => True
  | .scalar s => Writable env s
  | .list vs => ReadyL env vs
  | .obj fs _ _ => (fs.map Prod.fst).Nodup ∧ ReadyF env fs
  | _ => False
/-- `Ready` for all elements. -/
def ReadyL (env : Env) : List Value → Prop
  | [] => True
  | v :: vs => Ready env v ∧ ReadyL env vs
/-- `Ready` for all fields. -/
def ReadyF (env : Env) : List (Str × Value) → Prop
  | [] => True
  | (_, v) :: fs => Ready env v ∧ ReadyF env fs
end

theorem readyF_iff {env : Env} {fs : List (Str × Value)} : ReadyF env fs ↔ ∀ f ∈ fs, Ready env f.2 := by
  induction fs with
  | nil => simp [ReadyF]
  | cons f fs ih => obtain ⟨k, v⟩ := f; simp [ReadyF, ih]

mutual
theorem ready_renderable {env : Env} : ∀ (v : Value), Ready env v → PlainTree v → Renderable env v
  | .scalar s, h, hp => by
    cases s with
    | str s q => exact hp
    | _ => exact h
  | .list vs, h, hp => by
    rw [Ready] at h; rw [PlainTree] at hp; rw [Renderable]
    exact ready_renderableL vs h hp
  | .obj fs _ _, h, hp => by
    rw [Ready] at h; rw [PlainTree] at hp; rw [Renderable]
    exact ⟨h.1, ready_renderableF fs h.2 hp⟩
  | .ref .., h, _ => by simp [Ready] at h
  | .concat _, h, _ => by simp [Ready] at h
  | .dm _, h, _ => by simp [Ready] at h
  | .dmo _, h, _ => by simp [Ready] at h
theorem ready_renderableL {env : Env} : ∀ (vs : List Value), ReadyL env vs → PlainTreeL vs → RenderableL env vs
  | [], _, _ => by rw [RenderableL]; trivial
  | v :: vs, h, hp => by
    rw [ReadyL] at h; rw [PlainTreeL] at hp; rw [RenderableL]
    exact ⟨ready_renderable v h.1 hp.1, ready_renderableL vs h.2 hp.2⟩
theorem ready_renderableF {env : Env} : ∀ (fs : List (Str × Value)), ReadyF env fs → PlainTreeF fs → RenderableF env fs
  | [], _, _ => by rw [RenderableF]; trivial
  | (k, v) :: fs, h, hp => by
    rw [ReadyF] at h; rw [PlainTreeF] at hp; rw [RenderableF]
    exact ⟨hp.1, ready_renderable v h.1 hp.2.1, ready_renderableF fs h.2 hp.2.2⟩
end

theorem overFields_keys (fs gs : List (Str × Value)) : (overFields fs gs).map Prod.fst = fs.map Prod.fst := by
  induction fs with
  | nil => rw [overFields]
  | cons f fs ih => obtain ⟨k, v⟩ := f; rw [overFields]; simp [ih]

mutual
theorem over_ready {env : Env} : ∀ (v old : Value), Ready env v → Ready env old → Ready env (over v old)
  | .obj fs r false, old, hv, ho => by
    rw [over.eq_def]
    cases old with
    | obj gs r' j =>
      rw [Ready] at hv ho
      simp only
      rw [Ready, readyF_iff]
      refine ⟨?_, ?_⟩
      · rw [List.map_append, overFields_keys]
        refine List.nodup_append.2 ⟨hv.1, (List.filter_sublist.map _).nodup ho.1, ?_⟩
        rintro k hk k' hk' rfl
        obtain ⟨g, hg, rfl⟩ := List.mem_map.1 hk'
        obtain ⟨f, hf, hfe⟩ := List.mem_map.1 hk
        have := (List.mem_filter.1 hg).2
        simp only [Bool.not_eq_true', List.any_eq_false, beq_iff_eq] at this
        exact this f hf hfe
      · intro f hf
        rcases List.mem_append.1 hf with hf | hf
        · exact readyF_iff.1 (overFields_ready fs gs hv.2 ho.2) f hf
        · exact readyF_iff.1 ho.2 f (List.mem_filter.1 hf).1
    | _ =>
      rw [Ready] at hv ⊢
      exact hv
  | .obj fs r true, old, hv, ho => by rw [over.eq_def]; exact hv
  | .scalar _, old, hv, ho => by rw [over.eq_def]; exact hv
  | .list _, old, hv, ho => by rw [over.eq_def]; exact hv
  | .ref .., old, hv, ho => by simp [Ready] at hv
  | .concat _, old, hv, ho => by simp [Ready] at hv
  | .dm _, old, hv, ho => by simp [Ready] at hv
  | .dmo _, old, hv, ho => by simp [Ready] at hv
theorem overFields_ready {env : Env} : ∀ (fs gs : List (Str × Value)), ReadyF env fs → ReadyF env gs →
    ReadyF env (overFields fs gs)
  | [], _, _, _ => by rw [overFields, ReadyF]; trivial
  | (k, v) :: fs, gs, hf, hg => by
    rw [ReadyF] at hf
    rw [overFields, ReadyF]
    refine ⟨?_, overFields_ready fs gs hf.2 hg⟩
    cases h : gs.find? fun g => g.1 == k with
    | none => exact hf.1
    | some g => exact over_ready v g.2 hf.1 (readyF_iff.1 hg g (List.mem_of_find?_eq_some h))
end

theorem under_ready {env : Env} {v : Value} (h : Ready env v) (p : Path) : Ready env (under p v) := by
  induction p with
  | nil => exact h
  | cons k p ih => simp only [under, Ready, ReadyF]; simp [ih]

theorem setField_ready {env : Env} {k : Str} {v : Value} (hv : Ready env v) {fs : List (Str × Value)}
    (hn : (fs.map Prod.fst).Nodup) (hf : ReadyF env fs) :
    ((setField k v fs).map Prod.fst).Nodup ∧ ReadyF env (setField k v fs) ∧
      ∀ k' ∈ (setField k v fs).map Prod.fst, k' = k ∨ k' ∈ fs.map Prod.fst := by
  induction fs with
  | nil => simp [setField, ReadyF, hv]
  | cons f fs ih =>
    obtain ⟨k', w⟩ := f
    rw [ReadyF] at hf
    rw [List.map_cons, List.nodup_cons] at hn
    obtain ⟨h1, h2, h3⟩ := ih hn.2 hf.2
    rw [setField]
    split
    · rename_i e
      subst e
      refine ⟨?_, ?_, ?_⟩
      · rw [List.map_cons, List.nodup_cons]; exact hn
      · rw [ReadyF]; exact ⟨over_ready _ _ hv hf.1, hf.2⟩
      · intro x hx; right; simpa using hx
    · rename_i e
      refine ⟨?_, ?_, ?_⟩
      · rw [List.map_cons, List.nodup_cons]
        refine ⟨fun hx => ?_, h1⟩
        rcases h3 _ hx with h | h
        · exact e h
        · exact hn.1 h
      · rw [ReadyF]; exact ⟨hf.1, h2⟩
      · intro x hx
        rw [List.map_cons, List.mem_cons] at hx ⊢
        rcases hx with hx | hx
        · exact Or.inr (Or.inl hx)
        · rcases h3 x hx with h | h
          · exact Or.inl h
          · exact Or.inr (Or.inr h)

theorem assigned_ready {env : Env} (as : List (Path × Value)) (h : ∀ a ∈ as, Ready env a.2) : Ready env (assigned as) := by
  have H : ∀ (as : List (Path × Value)) (fs : List (Str × Value)), (∀ a ∈ as, Ready env a.2) →
      (fs.map Prod.fst).Nodup → ReadyF env fs →
      ((as.foldl assign fs).map Prod.fst).Nodup ∧ ReadyF env (as.foldl assign fs) := by
    intro as
    induction as with
    | nil => intro fs _ h1 h2; exact ⟨h1, h2⟩
    | cons a as ih =>
      intro fs h h1 h2
      obtain ⟨p, v⟩ := a
      rw [List.foldl_cons]
      have ha := h _ (.head _)
      cases p with
      | nil => exact ih _ (fun b hb => h b (.tail _ hb)) h1 h2
      | cons k p =>
        obtain ⟨e1, e2, _⟩ := setField_ready (k := k) (under_ready ha p) h1 h2
        exact ih _ (fun b hb => h b (.tail _ hb)) e1 e2
  rw [assigned, Ready]
  exact H as [] h .nil (by rw [ReadyF]; trivial)

/-- `Ready` for parts. -/
def ReadyPart (env : Env) : HPart → Prop
  | .value v => Ready env v
  | .elems vs => ReadyL env vs
  | .member _ v => Ready env v
  | .members as => ∀ a ∈ as, Ready env a.2

theorem atom_ready {env : Env} (hnan : NoNaN env) {s : Scalar} {x t : Str} (h : HAtom env (Numeral env) s x t) :
    Ready env (.scalar s) := by
  cases h with
  | num h =>
    have := numeral_writable hnan h
    cases s with
    | str => rw [Ready]; trivial
    | _ => exact this
  | _ => trivial

theorem htext_ready {env : Env} (hnan : NoNaN env) {k : HPart} {t : Str} (h : HText env (Numeral env) k t) :
    ReadyPart env k := by
  induction h with
  | atom h => exact atom_ready hnan h
  | words => trivial
  | emptyArr => simp [ReadyPart, Ready, ReadyL]
  | arr _ _ _ ih => rw [ReadyPart, Ready]; exact ih
  | emptyObj => exact assigned_ready [] (by simp)
  | obj _ _ _ ih => exact assigned_ready _ ih
  | elem _ ih => rw [ReadyPart, ReadyL, ReadyL]; exact ⟨ih, trivial⟩
  | elemCons _ _ _ ih ih2 => rw [ReadyPart, ReadyL]; exact ⟨ih, ih2⟩
  | field _ _ _ _ _ ih => exact ih
  | sect _ _ _ ih => exact ih
  | last _ ih => intro a ha; obtain rfl := List.mem_singleton.1 ha; exact ih
  | memberCons _ _ _ ih ih2 =>
    intro a ha
    rcases List.mem_cons.1 ha with rfl | ha
    · exact ih
    · exact ih2 a ha

theorem hdoc_ready {env : Env} (hnan : NoNaN env) {v : Value} {t : Str} (h : HDoc env (Numeral env) v t) :
    Ready env v := by
  cases h with
  | braces _ h => exact htext_ready hnan h
  | empty => exact assigned_ready [] (by simp)
  | open_ _ h => exact assigned_ready _ (htext_ready hnan h)
  | openComma _ h => exact assigned_ready _ (htext_ready hnan h)

end Render
end Hocon
