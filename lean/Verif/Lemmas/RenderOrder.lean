import Verif.Spec.RenderText
import Verif.Lemmas.RenderSort
import Verif.Lemmas.RenderJson

/-!
# Separators and order of rendered entries
-/

set_option autoImplicit false

namespace Hocon
namespace Render

open Spec

/-! ### Rendering does not depend on the order of fields -/

theorem renderFields_keys (env : Env) (o : Options) (fs : Fields) (ind : Nat) :
    (renderFields env o fs ind).map Prod.fst = fs.map Prod.fst := by
  induction fs with
  | nil => rw [renderFields]; rfl
  | cons f fs ih =>
    obtain ⟨k, v⟩ := f
    cases v <;> rw [renderFields] <;> simp [ih]

/-- One rendered entry. -/
def entry (env : Env) (o : Options) (ind : Nat) (f : Str × Value) : Str × Str :=
  match f.2 with
  | .dm st => (f.1, closeStack o (renderStack env o st ind false f.1))
  | .dmo st => (f.1, closeStack o (renderStack env o st ind false f.1))
  | v => (f.1, keyPrefix o f.1 v ++ render env o v ind false)

theorem renderFields_eq (env : Env) (o : Options) (fs : Fields) (ind : Nat) :
    renderFields env o fs ind = fs.map (entry env o ind) := by
  induction fs with
  | nil => rw [renderFields]; rfl
  | cons f fs ih =>
    obtain ⟨k, v⟩ := f
    cases v <;> rw [renderFields] <;> simp [ih, entry]

theorem reordered_isObject {v w : Value} (h : Reordered v w) : isObject v = isObject w := by
  cases h <;> rfl

theorem reordered_keyPrefix {v w : Value} (h : Reordered v w) (o : Options) (k : Str) :
    keyPrefix o k v = keyPrefix o k w := by
  rw [keyPrefix, keyPrefix, reordered_isObject h]

mutual
theorem render_reordered (env : Env) (o : Options) : ∀ (v w : Value), Reordered v w → ∀ ind root,
    render env o v ind root = render env o w ind root
  | .scalar s, w, h, ind, root => by cases h; rfl
  | .list vs, w, h, ind, root => by
    cases h with
    | list h =>
      cases h with
      | nil => rfl
      | cons h hs =>
        rw [render, render, renderElems_reordered env o _ _ (.cons h hs)]
  | .obj fs r i, w, h, ind, root => by
    cases h with
    | @obj _ gs hs _ _ r' i' hn h hp =>
      have key : ∀ ind, sort (renderFields env o fs ind) = sort (renderFields env o hs ind) := by
        intro ind
        rw [renderFields_reordered env o fs gs h ind]
        refine sort_of_perm ?_ ?_
        · rw [renderFields_eq, renderFields_eq]; exact hp.map _
        · rw [← renderFields_reordered env o fs gs h ind, renderFields_keys]; exact hn
      have hl : fs.length = hs.length := by
        have := congrArg List.length (key 0)
        rw [(sort_perm _).length_eq, (sort_perm _).length_eq, renderFields_eq, renderFields_eq] at this
        simpa using this
      cases fs with
      | nil =>
        cases hs with
        | nil => rw [render, render]
        | cons _ _ => simp at hl
      | cons f fs =>
        cases hs with
        | nil => simp at hl
        | cons g hs =>
          rw [render, render, objectText, objectText]
          simp only [key]
  | .ref .., w, h, ind, root => by cases h; rw [render, render]
  | .concat ps, w, h, ind, root => by
    cases h with
    | concat h => rw [render, render, renderPieces_reordered env o _ _ h]
  | .dm st, w, h, ind, root => by
    cases h with
    | dm h => rw [render, render, renderStack_reordered env o _ _ h]
  | .dmo st, w, h, ind, root => by
    cases h with
    | dmo h => rw [render, render, renderStack_reordered env o _ _ h]
theorem renderElems_reordered (env : Env) (o : Options) : ∀ (vs ws : List Value), ReorderedL vs ws → ∀ ind root,
    renderElems env o vs ind root = renderElems env o ws ind root
  | [], ws, h, ind, root => by cases h; rfl
  | v :: vs, ws, h, ind, root => by
    cases h with
    | cons h hs => rw [renderElems, renderElems, render_reordered env o v _ h, renderElems_reordered env o vs _ hs]
theorem renderPieces_reordered (env : Env) (o : Options) : ∀ (vs ws : List Value), ReorderedL vs ws → ∀ ind root,
    renderPieces env o vs ind root = renderPieces env o ws ind root
  | [], ws, h, ind, root => by cases h; rfl
  | v :: vs, ws, h, ind, root => by
    cases h with
    | cons h hs => rw [renderPieces, renderPieces, render_reordered env o v _ h, renderPieces_reordered env o vs _ hs]
theorem renderStack_reordered (env : Env) (o : Options) : ∀ (vs ws : List Value), ReorderedL vs ws →
    ∀ ind root key, renderStack env o vs ind root key = renderStack env o ws ind root key
  | [], ws, h, ind, root, key => by cases h; rfl
  | v :: vs, ws, h, ind, root, key => by
    cases h with
    | cons h hs => rw [renderStack, renderStack, render_reordered env o v _ h, renderStack_reordered env o vs _ hs]
theorem renderFields_reordered (env : Env) (o : Options) : ∀ (fs gs : Fields), ReorderedF fs gs → ∀ ind,
    renderFields env o fs ind = renderFields env o gs ind
  | [], gs, h, ind => by cases h; rfl
  | (k, v) :: fs, gs, h, ind => by
    cases h with
    | @cons _ _ w _ gs h hs =>
      have ih := renderFields_reordered env o fs gs hs ind
      cases v with
      | dm st =>
        cases h with
        | dm h => rw [renderFields, renderFields, renderStack_reordered env o _ _ h, ih]
      | dmo st =>
        cases h with
        | dmo h => rw [renderFields, renderFields, renderStack_reordered env o _ _ h, ih]
      | scalar s => cases h; rw [renderFields, renderFields, ih] <;> simp
      | list vs =>
        have hr := render_reordered env o _ _ h ind false
        have hk := reordered_keyPrefix h o k
        cases h; rw [renderFields, renderFields, ih, hr, hk] <;> simp
      | obj vs =>
        have hr := render_reordered env o _ _ h ind false
        have hk := reordered_keyPrefix h o k
        cases h; rw [renderFields, renderFields, ih, hr, hk] <;> simp
      | ref =>
        have hr := render_reordered env o _ _ h ind false
        have hk := reordered_keyPrefix h o k
        cases h; rw [renderFields, renderFields, ih, hr, hk] <;> simp
      | concat vs =>
        have hr := render_reordered env o _ _ h ind false
        have hk := reordered_keyPrefix h o k
        cases h; rw [renderFields, renderFields, ih, hr, hk] <;> simp
end

/-! ### Separators -/

theorem entriesText_sepBy (o : Options) (ind : Nat) (es : List (Str × Str)) (hne : es ≠ []) :
    entriesText o ind es = sepBy (entrySep o) (es.map fun e => indent o ind ++ e.2) ++ entrySep o := by
  induction es with
  | nil => exact absurd rfl hne
  | cons e es ih =>
    obtain ⟨k, t⟩ := e
    cases es with
    | nil => rw [entriesText, entriesText, List.append_nil]; rfl
    | cons e2 es =>
      rw [entriesText, ih (by simp)]
      simp only [List.map_cons, sepBy]
      rw [show (if o.formatted = true then if o.json = true then ch ",\n" else ch "\n" else ch ",") = entrySep o from rfl]
      simp

theorem renderElems_sepBy (env : Env) (o : Options) (vs : List Value) (hne : vs ≠ []) (ind : Nat) (root : Bool) :
    renderElems env o vs ind root
      = sepBy (',' :: (if o.formatted then ch "\n" else []))
          (vs.map fun v => indent o (ind + 1) ++ render env o v (ind + 1) root)
        ++ ',' :: (if o.formatted then ch "\n" else []) := by
  induction vs with
  | nil => exact absurd rfl hne
  | cons v vs ih =>
    cases vs with
    | nil => rw [renderElems, renderElems, List.append_nil]; rfl
    | cons v2 vs =>
      rw [renderElems, ih (by simp)]
      simp only [List.map_cons, sepBy]
      simp

theorem indent_concise (n : Nat) : indent concise n = [] := rfl

theorem rootNewline_concise (b : Bool) : rootNewline concise b = [] := by cases b <;> rfl

mutual
/-- Concise rendering does not depend on where the value stands. -/
theorem render_concise (env : Env) : ∀ (v : Value) (ind ind' : Nat) (root root' : Bool),
    render env concise v ind root = render env concise v ind' root'
  | .scalar _, _, _, _, _ => by rw [render, render]
  | .list [], _, _, _, _ => by rw [render, render]
  | .list (v :: vs), ind, ind', root, root' => by
    rw [render, render, renderElems_concise env (v :: vs) ind ind' root root']; rfl
  | .obj [] _ _, _, _, root, root' => by rw [render, render, rootNewline_concise, rootNewline_concise]
  | .obj (f :: fs) _ _, ind, ind', root, root' => by
    have h : ∀ n m, entriesText concise n = entriesText concise m := by
      intro n m; funext es
      induction es with
      | nil => rfl
      | cons e es ih => rw [entriesText, entriesText, ih, indent_concise, indent_concise]
    rw [render, render, rootNewline_concise, rootNewline_concise, objectText, objectText]
    simp only [show concise.json = true from rfl, show concise.formatted = false from rfl, Bool.true_or, if_true,
      Bool.false_eq_true, if_false]
    rw [renderFields_concise env (f :: fs) (ind + 1) (ind' + 1), h (ind + 1) (ind' + 1)]
  | .ref .., _, _, _, _ => by rw [render, render]
  | .concat ps, ind, ind', root, root' => by
    rw [render, render, renderPieces_concise env ps ind ind' root root']
  | .dm st, ind, ind', root, root' => by
    rw [render, render, renderStack_concise env st ind ind' root root']
  | .dmo st, ind, ind', root, root' => by
    rw [render, render, renderStack_concise env st ind ind' root root']
theorem renderElems_concise (env : Env) : ∀ (vs : List Value) (ind ind' : Nat) (root root' : Bool),
    renderElems env concise vs ind root = renderElems env concise vs ind' root'
  | [], _, _, _, _ => by rw [renderElems, renderElems]
  | v :: vs, ind, ind', root, root' => by
    rw [renderElems, renderElems, render_concise env v (ind + 1) (ind' + 1) root root',
      renderElems_concise env vs ind ind' root root', indent_concise, indent_concise]
theorem renderPieces_concise (env : Env) : ∀ (vs : List Value) (ind ind' : Nat) (root root' : Bool),
    renderPieces env concise vs ind root = renderPieces env concise vs ind' root'
  | [], _, _, _, _ => by rw [renderPieces, renderPieces]
  | v :: vs, ind, ind', root, root' => by
    rw [renderPieces, renderPieces, render_concise env v ind ind' root root',
      renderPieces_concise env vs ind ind' root root']
theorem renderStack_concise (env : Env) : ∀ (vs : List Value) (ind ind' : Nat) (root root' : Bool) (key : Str),
    renderStack env concise vs ind root key = renderStack env concise vs ind' root' key
  | [], _, _, _, _, _ => by rw [renderStack, renderStack]
  | v :: vs, ind, ind', root, root', key => by
    rw [renderStack, renderStack, render_concise env v ind ind' root root',
      renderStack_concise env vs ind ind' root root' key, indent_concise, indent_concise]
theorem renderFields_concise (env : Env) : ∀ (fs : Fields) (ind ind' : Nat),
    renderFields env concise fs ind = renderFields env concise fs ind'
  | [], _, _ => by rw [renderFields, renderFields]
  | (k, v) :: fs, ind, ind' => by
    have ih := renderFields_concise env fs ind ind'
    cases v with
    | dm st => rw [renderFields, renderFields, ih, renderStack_concise env st ind ind' false false k]
    | dmo st => rw [renderFields, renderFields, ih, renderStack_concise env st ind ind' false false k]
    | scalar s => rw [renderFields, renderFields, ih, render_concise env _ ind ind' false false] <;> simp
    | list vs => rw [renderFields, renderFields, ih, render_concise env _ ind ind' false false] <;> simp
    | obj fs r i => rw [renderFields, renderFields, ih, render_concise env _ ind ind' false false] <;> simp
    | ref => rw [renderFields, renderFields, ih, render_concise env _ ind ind' false false] <;> simp
    | concat => rw [renderFields, renderFields, ih, render_concise env _ ind ind' false false] <;> simp
end

end Render
end Hocon
