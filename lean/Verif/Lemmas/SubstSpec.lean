import Verif.Spec.Subst

/-!
# The semantics of substitutions is deterministic
-/

set_option autoImplicit false

namespace Hocon
namespace Spec

variable {env : Env} {root : Value} {ext : Path → Option Str}

theorem At.append {v w u : Value} {p q : Path} (h : At env root ext v p w) (h' : At env root ext w q u) :
    At env root ext v (p ++ q) u :=
  match h with
  | .nil => h'
  | .obj hf h => .obj hf (At.append h h')
  | .ref h1 h => .ref h1 (At.append h h')
  | .concat h1 h => .concat h1 (At.append h h')

/-- `v` cannot vanish. -/
def Stays (env : Env) (root : Value) (ext : Path → Option Str) (v : Value) : Prop :=
  ¬ Den env root ext v none

mutual
theorem Den.det {v : Value} {a : Option Value} (h : Den env root ext v a) :
    (∀ b, Den env root ext v b → a = b) ∧
    (a = none → ∀ p w r, At env root ext v p w → ¬ Den env root ext w (some r)) :=
  match h with
  | .scalar s => ⟨fun b hb => by cases hb; rfl, fun h => by cases h⟩
  | .list h => ⟨fun b hb => by cases hb with | list h' => rw [DenL.det h _ h'], fun h => by cases h⟩
  | .obj h => ⟨fun b hb => by cases hb with | obj h' => rw [DenF.det h _ h'], fun h => by cases h⟩
  | .ref h1 h2 =>
    have i1 := At.det h1
    have i2 := Den.det h2
    have ns : Stays env root ext _ := fun hn => by cases i2.1 _ hn
    ⟨fun b hb => by
      cases hb with
      | ref h1' h2' => rw [← i1.1 _ h1'] at h2'; exact i2.1 _ h2'
      | refExt ha _ => exact absurd ha (i1.2.1 ns)
      | refAbsent ha _ => exact absurd ha (i1.2.1 ns), fun h => by cases h⟩
  | .refExt h1 he =>
    have i1 := Absent.det h1
    ⟨fun b hb => by
      cases hb with
      | ref h1' h2' => exact absurd h2' (i1 [] _ _ (by simpa using h1'))
      | refExt ha he' => rw [he] at he'; cases he'; rfl
      | refAbsent ha he' => rw [he] at he'; exact (nomatch he'), fun h => by cases h⟩
  | .refAbsent h1 he =>
    have i1 := Absent.det h1
    have key : ∀ b, Den env root ext _ b → none = b := fun b hb => by
      cases hb with
      | ref h1' h2' => exact absurd h2' (i1 [] _ _ (by simpa using h1'))
      | refExt ha he' => rw [he] at he'; cases he'
      | refAbsent ha he' => rfl
    ⟨key, fun _ p w r ha hd => by
      cases ha with
      | nil => cases key _ hd
      | ref h1' h2' => exact i1 _ _ _ (h1'.append h2') hd⟩
  | .concat h1 hc =>
    have i1 := DenL.det h1
    have key : ∀ b, Den env root ext _ b → _ = b := fun b hb => by
      cases hb with
      | concat h1' hc' =>
        rw [← i1 _ h1', hc] at hc'
        cases hc'
        rfl
    ⟨key, fun hn p w r ha hd => by
      subst hn
      cases ha with
      | nil => cases key _ hd
      | concat h1' _ => cases key _ h1'⟩
theorem DenL.det {vs ws : List Value} (h : DenL env root ext vs ws) :
    ∀ ws', DenL env root ext vs ws' → ws = ws' :=
  match h with
  | .nil => fun _ h' => by cases h'; rfl
  | .keep h1 h2 => fun _ h' => by
    cases h' with
    | keep h1' h2' =>
      have := (Den.det h1).1 _ h1'
      rw [DenL.det h2 _ h2', Option.some.inj this]
    | drop h1' h2' => cases (Den.det h1).1 _ h1'
  | .drop h1 h2 => fun _ h' => by
    cases h' with
    | keep h1' h2' => cases (Den.det h1).1 _ h1'
    | drop h1' h2' => exact DenL.det h2 _ h2'
theorem DenF.det {fs gs : List (Str × Value)} (h : DenF env root ext fs gs) :
    ∀ gs', DenF env root ext fs gs' → gs = gs' :=
  match h with
  | .nil => fun _ h' => by cases h'; rfl
  | .keep h1 h2 => fun _ h' => by
    cases h' with
    | keep h1' h2' =>
      have := (Den.det h1).1 _ h1'
      rw [DenF.det h2 _ h2', Option.some.inj this]
    | drop h1' h2' => cases (Den.det h1).1 _ h1'
  | .drop h1 h2 => fun _ h' => by
    cases h' with
    | keep h1' h2' => cases (Den.det h1).1 _ h1'
    | drop h1' h2' => exact DenF.det h2 _ h2'
theorem At.det {v w : Value} {p : Path} (h : At env root ext v p w) :
    (∀ w', At env root ext v p w' → w = w') ∧
    (Stays env root ext w → ¬ Absent env root ext v p) ∧
    (Stays env root ext w → Stays env root ext v) :=
  match h with
  | .nil => ⟨fun _ h' => by cases h'; rfl, fun hs ha => by
      cases ha with
      | gone h => exact hs h, id⟩
  | .obj hf h =>
    have i := At.det h
    ⟨fun _ h' => by
      cases h' with
      | obj hf' h' =>
        rw [hf] at hf'; cases hf'
        exact i.1 _ h',
     fun hs ha => by
      cases ha with
      | missing hf' => rw [hf] at hf'; cases hf'
      | deeper hf' ha =>
        rw [hf] at hf'; cases hf'
        exact i.2.1 hs ha
      | gone h => exact (nomatch h),
     fun hs hn => by cases hn⟩
  | .ref h1 h2 =>
    have i1 := At.det h1
    have i2 := At.det h2
    have hst : Stays env root ext _ → Stays env root ext _ := fun hs hn => by
      cases hn with
      | refAbsent ha _ => exact i1.2.1 (i2.2.2 hs) ha
    ⟨fun _ h' => by
      cases h' with
      | ref h1' h2' => rw [← i1.1 _ h1'] at h2'; exact i2.1 _ h2',
     fun hs ha => by
      cases ha with
      | gone hn => exact hst hs hn
      | ref h1' ha => rw [← i1.1 _ h1'] at ha; exact i2.2.1 hs ha
      | refExt ha _ => exact i1.2.1 (i2.2.2 hs) ha,
     hst⟩
  | .concat h1 h2 =>
    have i1 := Den.det h1
    have i2 := At.det h2
    ⟨fun _ h' => by
      cases h' with
      | concat h1' h2' => cases i1.1 _ h1'; exact i2.1 _ h2',
     fun hs ha => by
      cases ha with
      | gone hn => cases i1.1 _ hn
      | concat h1' ha => cases i1.1 _ h1'; exact i2.2.1 hs ha,
     fun _ hn => by cases i1.1 _ hn⟩
theorem Absent.det {v : Value} {p : Path} (h : Absent env root ext v p) :
    ∀ p' w r, At env root ext v (p ++ p') w → ¬ Den env root ext w (some r) :=
  match h with
  | .missing hf => fun p' w r ha _ => by
    cases ha with
    | obj hf' _ => rw [hf] at hf'; cases hf'
  | .deeper hf h => fun p' w r ha hd => by
    cases ha with
    | obj hf' ha => rw [hf] at hf'; cases hf'; exact Absent.det h _ _ _ ha hd
  | .gone h => fun p' w r ha hd => (Den.det h).2 rfl _ _ _ ha hd
  | .scalar => fun p' w r ha _ => by cases ha
  | .list => fun p' w r ha _ => by cases ha
  | .ref h1 h2 => fun p' w r ha hd => by
    cases ha with
    | ref h1' ha => rw [← (At.det h1).1 _ h1'] at ha; exact Absent.det h2 _ _ _ ha hd
  | .refExt h1 _ => fun p' w r ha hd => by
    cases ha with
    | ref h1' ha => exact Absent.det h1 _ _ _ (h1'.append ha) hd
  | .concat h1 h2 => fun p' w r ha hd => by
    cases ha with
    | concat h1' ha => cases (Den.det h1).1 _ h1'; exact Absent.det h2 _ _ _ ha hd
end

end Spec
end Hocon
