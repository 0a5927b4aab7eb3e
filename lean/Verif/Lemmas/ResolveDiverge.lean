import Verif.Lemmas.ResolveTerm

/-!
# Configs whose resolution does not terminate
-/

set_option autoImplicit false

namespace Hocon
namespace Resolve
open Value

section
variable (env : Env) (p0 : Path) (o : Options)

/-- The value of `a = ${?p0}${a}`. -/
def loopValue : Value := .concat [.ref 0 p0 true 0, .ref 1 [ch "a"] false 0]

/-- The config `a = ${?p0}${a}`. -/
def loopRoot : Value := .obj [(ch "a", loopValue p0)] false false

/-- After its first substitution the markers are gone. -/
def Forgets (env : Env) (p0 : Path) (o : Options) : Prop :=
  ∀ n m s, s.root = some (loopRoot p0) → 0 ∉ m →
    resolveN env n ⟨o, [], m⟩ s (.ref 0 p0 true 0) = .fuel ∨
    ∃ w, resolveN env n ⟨o, [], m⟩ s (.ref 0 p0 true 0) = .ok (⟨o, [], []⟩, w)

variable {env p0 o}

theorem findInObject_single {n : Nat} {c : Ctx} {fs : Fields} {r i : Bool} {k : Str} :
    findInObject (resolveN env n) (some (.obj fs r i)) c [k] = .fuel ∨
    findInObject (resolveN env n) (some (.obj fs r i)) c [k] =
      (attemptPeek (.obj fs r i) k).bind fun x => .ok (c, x, [.obj fs r i]) := by
  unfold findInObject
  rcases resolveN_single (env := env) (n := n) (c := c.restrict [k]) (s := ⟨some (.obj fs r i), []⟩)
    (fs := fs) (r := r) (i := i) (k := k) rfl with h | h
  · left; simp only [h]; rfl
  · right
    simp only [h]
    simp only [Res.bind, isObject, if_true, findPeek, List.isEmpty_nil]
    cases attemptPeek (.obj fs r i) k <;> rfl

theorem loop_value (hf : Forgets env p0 o) (n : Nat) : ∀ m s, s.root = some (loopRoot p0) → 0 ∉ m →
    resolveN env n ⟨o, [], m⟩ s (loopValue p0) = .fuel := by
  induction n using Nat.strongRecOn with
  | ind n ih =>
  intro m s hs hm
  cases n with
  | zero => rfl
  | succ n =>
  rw [resolveN_succ rfl]
  suffices h : resolvePieces (resolveN env n) s ⟨o, [], m⟩
      [.ref 0 p0 true 0, .ref 1 [ch "a"] false 0] = .fuel by
    simp only [loopValue, resolveSubstitutions, resolveConcat, h]; rfl
  have hc : Ctx.restrict ⟨o, [], m⟩ [] = ⟨o, [], m⟩ := rfl
  simp only [resolvePieces, hc]
  rcases hf n m s hs hm with h | ⟨w, h⟩
  · simp only [h]; rfl
  suffices h1 : resolveN env n ⟨o, [], []⟩ s (.ref 1 [ch "a"] false 0) = .fuel by
    simp only [h]
    show Res.bind (Res.bind (resolveN env n ⟨o, [], []⟩ s (.ref 1 [ch "a"] false 0)) _) _ = _
    simp only [h1]; rfl
  cases n with
  | zero => rfl
  | succ n =>
  rw [resolveN_succ rfl]
  suffices h2 : tryRef env (resolveN env n) ⟨o, [], [1]⟩ s [ch "a"] false 0 = .fuel by
    show Res.bind (resolveRef env (resolveN env n) ⟨o, [], []⟩ s 1 [ch "a"] false 0) _ = _
    show Res.bind (Res.bind (tryRef env (resolveN env n) ⟨o, [], [1]⟩ s [ch "a"] false 0) _) _ = _
    simp only [h2]; rfl
  have hl : lookupSubst env (resolveN env n) s.root ⟨o, [], [1]⟩ [ch "a"] 0 = .fuel ∨
      lookupSubst env (resolveN env n) s.root ⟨o, [], [1]⟩ [ch "a"] 0 =
        .ok (⟨o, [], [1]⟩, some (loopValue p0), [loopRoot p0]) := by
    rw [hs]
    unfold lookupSubst loopRoot
    rcases findInObject_single (env := env) (n := n) (c := ⟨o, [], [1]⟩)
      (fs := [(ch "a", loopValue p0)]) (r := false) (i := false) (k := ch "a") with h | h
    · left; simp only [h]; rfl
    · right; simp only [h]; rfl
  unfold tryRef
  rcases hl with h | h
  · simp only [h]
  · simp only [h, resolveFound]
    rw [ih n (by omega) [1] _ rfl (by simp)]
    rfl

theorem loop_root (hf : Forgets env p0 o) (n : Nat) : configResolve env n (loopRoot p0) o = .fuel := by
  unfold configResolve configResolveWith resolveTop
  suffices h : resolveN env n ⟨o, [], []⟩ ⟨some (loopRoot p0), []⟩ (loopRoot p0) = .fuel by
    rw [h]; rfl
  cases n with
  | zero => rfl
  | succ n =>
  rw [resolveN_succ rfl]
  suffices h : resolveChild (resolveN env n) [] ⟨o, [], []⟩
      (Source.push ⟨some (loopRoot p0), []⟩ (loopRoot p0)) (ch "a") (loopValue p0) = .fuel by
    show Res.bind (resolveObject (resolveN env n) ⟨o, [], []⟩ ⟨some (loopRoot p0), []⟩
      [(ch "a", loopValue p0)] false false) _ = _
    unfold resolveObject
    simp only [Bool.false_eq_true, if_false, resolveFields]
    show Res.bind (Res.bind (Res.bind (resolveChild (resolveN env n) [] ⟨o, [], []⟩
      (Source.push ⟨some (loopRoot p0), []⟩ (loopRoot p0)) (ch "a") (loopValue p0)) _) _) _ = _
    simp only [h]; rfl
  unfold resolveChild
  simp only
  have hc : Ctx.restrict ⟨o, [], []⟩ [] = ⟨o, [], []⟩ := rfl
  rw [hc, loop_value hf n [] _ (by rw [push_root]) (by simp)]
  rfl

/-- `a = ${?x}${a}` when environment variables are looked up. -/
theorem forgets_env (h : o.useEnv = true) : Forgets env [ch "x"] o := by
  intro n m s hs hm
  cases n with
  | zero => exact .inl rfl
  | succ n =>
  rw [resolveN_succ (by simpa [isMarked] using hm)]
  simp only [resolveSubstitutions, resolveRef]
  have hm' : (m.contains 0) = false := by simpa using hm
  simp only [hm', Bool.false_eq_true, if_false, hm]
  have hl : lookupSubst env (resolveN env n) s.root (Ctx.mark ⟨o, [], m⟩ 0) [ch "x"] 0 = .fuel ∨
      lookupSubst env (resolveN env n) s.root (Ctx.mark ⟨o, [], m⟩ 0) [ch "x"] 0 =
        .ok (⟨o, [], []⟩, (env.getenv (ch "x")).map fun s => .scalar (.str s true), []) := by
    rw [hs]
    unfold lookupSubst loopRoot
    rcases findInObject_single (env := env) (n := n) (c := Ctx.mark ⟨o, [], m⟩ 0)
      (fs := [(ch "a", loopValue [ch "x"])]) (r := false) (i := false) (k := ch "x") with h' | h'
    · left; simp only [h']; rfl
    · right
      simp only [h']
      have : attemptPeek (.obj [(ch "a", loopValue [ch "x"])] false false) (ch "x") = .ok none := rfl
      simp only [this, Res.bind, Option.isNone_none, if_true, gt_iff_lt, Nat.lt_irrefl, if_false,
        lookupEnv, Ctx.mark, h, Bool.and_self]
      rfl
  unfold tryRef
  rcases hl with h' | h'
  · left; simp only [h']; rfl
  · simp only [h', resolveFound]
    cases hg : env.getenv (ch "x") with
    | none => right; exact ⟨none, rfl⟩
    | some t =>
      simp only [Option.map_some]
      cases n with
      | zero => left; rfl
      | succ n => right; exact ⟨some (.scalar (.str t true)), rfl⟩

/-- `a = ${?a.b}${a}`, whatever the options. -/
theorem forgets_cycle : Forgets env [ch "a", ch "b"] o := by
  intro n m s hs hm
  cases n with
  | zero => exact .inl rfl
  | succ n =>
  rw [resolveN_succ (by simpa [isMarked] using hm)]
  simp only [resolveSubstitutions, resolveRef]
  have hm' : (m.contains 0) = false := by simpa using hm
  simp only [hm', Bool.false_eq_true, if_false, hm]
  have key : lookupSubst env (resolveN env n) s.root (Ctx.mark ⟨o, [], m⟩ 0) [ch "a", ch "b"] 0 = .fuel ∨
      lookupSubst env (resolveN env n) s.root (Ctx.mark ⟨o, [], m⟩ 0) [ch "a", ch "b"] 0 =
        .err .notPossible := by
    rw [hs]
    unfold lookupSubst findInObject
    match n with
    | 0 => exact .inl rfl
    | 1 => exact .inl rfl
    | 2 => exact .inl rfl
    | n + 3 =>
      right
      have hmark : isMarked ⟨o, [], m ++ [0]⟩ (.ref 0 [ch "a", ch "b"] true 0) = true := by
        simp [isMarked]
      have h0 : ∀ s', resolveN env (n + 1) ⟨o, [], m ++ [0]⟩ s' (.ref 0 [ch "a", ch "b"] true 0) =
          .err .notPossible := fun s' => by rw [resolveN, if_pos hmark]
      have h1 : ∀ s', resolveN env (n + 2) ⟨o, [ch "b"], m ++ [0]⟩ s' (loopValue [ch "a", ch "b"]) =
          .err .notPossible := fun s' => by
        rw [resolveN_succ rfl]
        show Res.bind (Res.bind (resolvePieces (resolveN env (n + 1)) s' ⟨o, [ch "b"], m ++ [0]⟩
          [.ref 0 [ch "a", ch "b"] true 0, .ref 1 [ch "a"] false 0]) _) _ = _
        show Res.bind (Res.bind (Res.bind (resolveN env (n + 1) ⟨o, [], m ++ [0]⟩ s'
          (.ref 0 [ch "a", ch "b"] true 0)) _) _) _ = _
        rw [h0]; rfl
      have h2 : ∀ s', resolveN env (n + 3) ⟨o, [ch "a", ch "b"], m ++ [0]⟩ s' (loopRoot [ch "a", ch "b"]) =
          .err .notPossible := fun s' => by
        rw [resolveN_succ rfl]
        show Res.bind (Res.bind (Res.bind (Res.bind (resolveN env (n + 2) ⟨o, [ch "b"], m ++ [0]⟩
          (s'.push _) (loopValue [ch "a", ch "b"])) _) _) _) _ = _
        rw [h1]; rfl
      have h3 : Ctx.restrict (Ctx.mark ⟨o, [], m⟩ 0) [ch "a", ch "b"] =
          ⟨o, [ch "a", ch "b"], m ++ [0]⟩ := rfl
      rw [h3]
      show Res.bind (Res.bind (resolveN env (n + 3) _ _ (loopRoot [ch "a", ch "b"])) _) _ = _
      rw [h2]; rfl
  unfold tryRef
  rcases key with h' | h'
  · left; simp only [h']; rfl
  · right
    simp only [h']
    exact ⟨none, rfl⟩

end

end Resolve
end Hocon
