import Verif.Lemmas.ResolveClosed
import Verif.Lemmas.IncludeMono

/-!
# More fuel does not change a result of the resolver
-/

set_option autoImplicit false

namespace Hocon

theorem Res.Le.bnd {α β : Type} {x y : Res α} {f g : α → Res β} (h : x.Le y)
    (hf : ∀ a, (f a).Le (g a)) : (x.bind f).Le (y.bind g) := Res.Le.bind h hf

theorem Res.Le.trans {α : Type} {x y z : Res α} (h : x.Le y) (h' : y.Le z) : x.Le z := by
  rcases h with rfl | rfl
  · exact .inl (.refl _)
  · exact h'

theorem Res.Le.eq {α : Type} {x y : Res α} (h : x.Le y) (hx : x ≠ .fuel) : y = x := by
  rcases h with h | h
  · exact absurd h hx
  · exact h.symm

namespace Resolve
open Value

/-- `rec` does what `rec'` does, or gives up. -/
def LeR (rec rec' : Resolver) : Prop := ∀ c s v, (rec c s v).Le (rec' c s v)

section
variable {env : Env} {rec rec' : Resolver} (h : LeR rec rec')
include h

theorem findInObject_le (o : Option Value) (c : Ctx) (p : Path) :
    (findInObject rec o c p).Le (findInObject rec' o c p) := by
  unfold findInObject
  cases o with
  | none => exact .rfl
  | some o => exact (h _ _ _).bnd fun _ => .rfl

theorem lookupSubst_le (o : Option Value) (c : Ctx) (p : Path) (pre : Nat) :
    (lookupSubst env rec o c p pre).Le (lookupSubst env rec' o c p pre) :=
  (findInObject_le h o c p).bnd fun _ =>
    .ite (.ite ((findInObject_le h _ _ _).bnd fun _ => .rfl) .rfl) .rfl

omit h in
theorem catchCycle_le (opt : Bool) (c : Ctx) {x y : Res (Ctx × Option Value)} (h : x.Le y) :
    (catchCycle opt c x).Le (catchCycle opt c y) := by
  rcases h with rfl | rfl
  · exact .inl rfl
  · exact .rfl

theorem resolveFound_le (opt : Bool) (l : Ctx × Option Value × List Value) :
    (resolveFound rec opt l).Le (resolveFound rec' opt l) := by
  unfold resolveFound
  cases l.2.1 with
  | none => exact .rfl
  | some v => exact catchCycle_le opt _ (h _ _ _)

theorem tryRef_le (c : Ctx) (s : Source) (p : Path) (opt : Bool) (pre : Nat) :
    (tryRef env rec c s p opt pre).Le (tryRef env rec' c s p opt pre) := by
  unfold tryRef
  rcases lookupSubst_le (env := env) h s.root c p pre with hl | hl
  · rw [hl]; exact .inl rfl
  · rw [hl]
    split
    · exact resolveFound_le h _ _
    · exact .rfl
    · exact .rfl
    · exact .rfl

theorem resolveRef_le (c : Ctx) (s : Source) (id : Nat) (p : Path) (opt : Bool) (pre : Nat) :
    (resolveRef env rec c s id p opt pre).Le (resolveRef env rec' c s id p opt pre) :=
  .ite .rfl ((tryRef_le h _ _ _ _ _).bnd fun _ => .rfl)

theorem resolveChild_le (orig : Path) (c : Ctx) (s : Source) (k : Str) (v : Value) :
    (resolveChild rec orig c s k v).Le (resolveChild rec' orig c s k v) := by
  unfold resolveChild
  split
  · exact (h _ _ _).bnd fun _ => .rfl
  · exact .ite (.ite .rfl ((h _ _ _).bnd fun _ => .rfl)) .rfl

theorem resolveFields_le (orig : Path) (s : Source) : (c : Ctx) → (fs : Fields) →
    (resolveFields rec orig s c fs).Le (resolveFields rec' orig s c fs)
  | _, [] => .rfl
  | c, (k, v) :: fs => by
    simp only [resolveFields]
    exact (resolveChild_le h orig c s k v).bnd fun r =>
      (resolveFields_le orig s r.1 fs).bnd fun _ => .rfl

theorem resolveElems_le (s : Source) : (c : Ctx) → (vs : List Value) →
    (resolveElems rec s c vs).Le (resolveElems rec' s c vs)
  | _, [] => .rfl
  | c, v :: vs => by
    simp only [resolveElems]
    exact (h c s v).bnd fun r => (resolveElems_le s r.1 vs).bnd fun _ => .rfl

theorem resolvePieces_le (s : Source) : (c : Ctx) → (vs : List Value) →
    (resolvePieces rec s c vs).Le (resolvePieces rec' s c vs)
  | _, [] => .rfl
  | c, v :: vs => by
    simp only [resolvePieces]
    exact (h _ s v).bnd fun r => (resolvePieces_le s _ vs).bnd fun _ => .rfl

theorem resolveStack_le (self : Value) (s : Source) : (c : Ctx) → (m : Option Value) → (vs : List Value) →
    (resolveStack rec self s c m vs).Le (resolveStack rec' self s c m vs)
  | _, _, [] => .rfl
  | c, m, v :: vs => by
    simp only [resolveStack]
    exact Res.Le.rfl.bnd fun s' => (h c s' v).bnd fun r => Res.Le.rfl.bnd fun m' =>
      resolveStack_le self s r.1 m' vs

theorem resolveSubstitutions_le (c : Ctx) (s : Source) (v : Value) :
    (resolveSubstitutions env rec c s v).Le (resolveSubstitutions env rec' c s v) := by
  cases v with
  | scalar x => exact .rfl
  | list vs =>
    exact .ite .rfl (.ite .rfl ((resolveElems_le h _ _ _).bnd fun _ => .rfl))
  | obj fs r i => exact .ite .rfl ((resolveFields_le h _ _ _ _).bnd fun _ => .rfl)
  | ref id p opt pre => exact resolveRef_le h _ _ _ _ _ _
  | concat ps => exact (resolvePieces_le h _ _ _).bnd fun _ => .rfl
  | dm st => exact resolveStack_le h _ _ _ _ _
  | dmo st => exact resolveStack_le h _ _ _ _ _

end

theorem resolveN_le_succ (env : Env) (n : Nat) : LeR (resolveN env n) (resolveN env (n + 1)) := by
  induction n with
  | zero => intro c s v; exact .inl rfl
  | succ n ih =>
    intro c s v
    rw [resolveN, resolveN]
    exact .ite .rfl ((resolveSubstitutions_le ih c s v).bnd fun _ => .rfl)

theorem resolveN_le (env : Env) {n m : Nat} (h : n ≤ m) : LeR (resolveN env n) (resolveN env m) := by
  induction h with
  | refl => intro c s v; exact .rfl
  | step _ ih => intro c s v; exact (ih c s v).trans (resolveN_le_succ env _ c s v)

theorem configResolveWith_le (env : Env) {n m : Nat} (h : n ≤ m) (v src : Value) (o : Options) :
    (configResolveWith env n v src o).Le (configResolveWith env m v src o) :=
  ((resolveN_le env h _ _ _).bnd fun _ => .rfl).bnd fun _ => .rfl

end Resolve
end Hocon
