import Verif.Lemmas.HoconAccept
import Verif.Lemmas.ResolveClosed

/-!
# What is written is what the parser makes of it
-/

set_option autoImplicit false

namespace Hocon
namespace SubstRun

open Spec HoconParse
open ConfigParser (putField putMerged createValueUnderPath plusValue nonNull pushPath)

theorem ignoresLast_append (st : List Value) (v : Value) : Value.ignoresLast (st ++ [v]) = v.ignoresFallbacks := by
  induction st with
  | nil => rw [List.nil_append, Value.ignoresLast]
  | cons x st ih =>
    cases st with
    | nil => rw [List.cons_append, List.nil_append, Value.ignoresLast, Value.ignoresLast]; simp
    | cons y st =>
      rw [List.cons_append, List.cons_append, Value.ignoresLast]
      · exact ih
      · simp

theorem Hides.ignores {v : Value} (h : Hides v) : v.ignoresFallbacks = true := by
  cases h with
  | scalar => rfl
  | list h => rw [Value.ignoresFallbacks]; exact h
  | obj => rfl

theorem Hides.with {v : Value} (h : Hides v) (old : Value) : Value.withFallback v old = .ok v := by
  cases h with
  | scalar => rw [Value.withFallback]
  | list h => rw [Value.withFallback, if_pos (Hides.ignores (.list h))]
  | obj => exact Value.withFallback_sealed _ _ _

theorem given_eq (v : Value) : given v = v.unmergedValues := by
  cases v <;> rfl

theorem given_other {v : Value} (h : v.isUnmergeable = false) : given v = [v] := by
  cases v <;> simp_all [given, Value.isUnmergeable]

theorem Open.facts {v : Value} (h : Open v) : v.isObject = false ∧ v.resolved = false ∧
    ∀ old, Value.withFallback v old
      = if old.isUnmergeable then Value.mergedWithUnmergeable v old else Value.mergedWithNonObject v old := by
  cases h with
  | ref => exact ⟨rfl, rfl, fun old => by rw [Value.withFallback]⟩
  | concat => exact ⟨rfl, rfl, fun old => by rw [Value.withFallback]⟩
  | @list vs h =>
    refine ⟨rfl, h, fun old => ?_⟩
    rw [Value.withFallback, if_neg]
    rw [Value.ignoresFallbacks, h]
    simp

theorem sole_any {st : List Value} (h : ∀ v ∈ st, Sole v) : st.any Value.isDelayed = false := by
  rw [List.any_eq_false]
  intro v hv
  have := h v hv
  cases v <;> simp_all [Sole, Value.isDelayed]

theorem findKey_new {fs : Fields} {k : Str} (h : ∀ f ∈ fs, f.1 ≠ k) : findKey fs k = none := by
  induction fs with
  | nil => rfl
  | cons f fs ih =>
    obtain ⟨k', w⟩ := f
    rw [findKey, if_neg (h _ (.head _))]
    exact ih fun g hg => h g (.tail _ hg)

theorem findKey_old {fs gs : Fields} {k : Str} {v : Value} (h : ∀ f ∈ fs, f.1 ≠ k) :
    findKey (fs ++ (k, v) :: gs) k = some v := by
  induction fs with
  | nil => simp [findKey]
  | cons f fs ih =>
    obtain ⟨k', w⟩ := f
    rw [List.cons_append, findKey, if_neg (h _ (.head _))]
    exact ih fun g hg => h g (.tail _ hg)

theorem putKey_new {fs : Fields} {k : Str} {v : Value} (h : ∀ f ∈ fs, f.1 ≠ k) : putKey k v fs = fs ++ [(k, v)] := by
  induction fs with
  | nil => rfl
  | cons f fs ih =>
    obtain ⟨k', w⟩ := f
    rw [putKey, if_neg (h _ (.head _)), ih fun g hg => h g (.tail _ hg)]
    rfl

theorem putKey_old {fs gs : Fields} {k : Str} {v w : Value} (h : ∀ f ∈ fs, f.1 ≠ k) :
    putKey k w (fs ++ (k, v) :: gs) = fs ++ (k, w) :: gs := by
  induction fs with
  | nil => simp [putKey]
  | cons f fs ih =>
    obtain ⟨k', x⟩ := f
    rw [List.cons_append, putKey, if_neg (h _ (.head _)), ih fun g hg => h g (.tail _ hg)]
    rfl

mutual
theorem lay_eq : {v old w : Value} → Lay v old w → Value.withFallback v old = .ok w
  | _, _, _, .hide h => Hides.with h _
  | _, old, _, .hideAll (st := st) (v := v) h => by
    rw [Value.withFallback, if_pos (by rw [ignoresLast_append, Hides.ignores h])]
  | _, old, _, .hideAllO (st := st) (v := v) h => by
    rw [Value.withFallback, if_pos (by rw [ignoresLast_append, Hides.ignores h])]
  | v, old, _, .wait h => by
    obtain ⟨h1, h2, h3⟩ := Open.facts h
    rw [h3]
    cases hu : old.isUnmergeable with
    | true =>
      rw [if_pos rfl, Value.mergedWithUnmergeable, Value.constructDelayedMerge, h1, if_neg (by simp), Value.mkDm,
        given_eq]
      rfl
    | false =>
      rw [if_neg (by simp), Value.mergedWithNonObject, h2, if_neg (by simp), Value.constructDelayedMerge, h1,
        if_neg (by simp), Value.mkDm, given_other hu]
      rfl
  | _, old, _, .waitO (fs := fs) (r := r) hu hs => by
    have hu : old.isUnmergeable = true := by cases old <;> simp_all [Unsure, Value.isUnmergeable]
    rw [Value.withFallback.eq_def]
    simp only [hu, if_true, Bool.false_eq_true, if_false]
    rw [Value.mergedWithUnmergeable, Value.constructDelayedMerge, if_pos (show (Value.obj fs r false).isObject = true from rfl),
      Value.mkDmo]
    rw [given_eq] at hs
    simp only [Value.isObject, if_true, List.any_cons, Value.isDelayed, sole_any hs, Bool.or_self, Bool.false_eq_true,
      if_false, given_eq]
  | _, _, _, .merge (fs := fs) (gs := gs) (hs := hs) h he => by
    rw [Value.withFallback_obj, layF_eq h]
    simp only [Res.ok_bind]
    rw [he]
    simp only [Value.extraFields, any_keys]
  | _, old, _, .close (fs := fs) h => by
    have hu : old.isUnmergeable = false := by cases old <;> simp_all [NotObj, Value.isUnmergeable]
    have ho : ∀ gs r i, old ≠ .obj gs r i := by rintro gs r i rfl; exact h
    rw [Value.withFallback.eq_def]
    simp only [hu, Bool.false_eq_true, if_false]
    cases old <;> first
      | exact absurd rfl (ho _ _ _)
      | rfl
  | _, old, _, .above (fs := fs) h => by
    have hu : old.isUnmergeable = false := by cases old <;> simp_all [NotObj, Value.isUnmergeable]
    rw [Value.withFallback.eq_def]
    simp only [hu, Bool.false_eq_true, if_false]
    cases old <;> simp [NotObj] at h <;> rfl
theorem layF_eq : {fs gs hs : Fields} → LayF fs gs hs → Value.mergeFields fs gs = .ok hs
  | _, _, _, .nil => by rw [Value.mergeFields]
  | _, gs, _, .new (k := k) hk h => by
    rw [Value.mergeFields, findKey_new hk, layF_eq h]
    rfl
  | _, _, _, .old (k := k) hk hl h => by
    rw [Value.mergeFields, findKey_old hk, layF_eq h]
    simp only [lay_eq hl, Res.ok_bind]
end

theorem nested_eq (p : Path) (v : Value) : nested p v = Value.nest p v ∧ (nested p v).resolved = v.resolved := by
  induction p with
  | nil => exact ⟨rfl, rfl⟩
  | cons k p ih =>
    refine ⟨?_, rfl⟩
    rw [nested, Value.nest, ← ih.1, Value.newObj]
    simp [Value.resolvedFields, ih.2]

theorem assigns_eq {fs gs : Fields} {p : Path} {v : Value} (h : Assigns fs p v gs) : putField false fs p v = .ok gs := by
  cases h with
  | new hk =>
    rw [ConfigParser.putField_conf, putMerged, findKey_new hk, ← (nested_eq _ _).1, putKey_new hk]
  | old hk hl =>
    rw [ConfigParser.putField_conf, putMerged, findKey_old hk, ← (nested_eq _ _).1]
    simp only [lay_eq hl, Res.ok_bind, putKey_old hk]

theorem piece_not_concat {v : Value} (h : Piece v) : v.isConcat = false := by
  cases v <;> simp_all [Piece, Value.isConcat]

theorem joins_pieces {env : Env} {vs ws : List Value} (h : Joins env vs ws) :
    (∀ v ∈ vs.tail, v.isConcat = false) ∧ (2 ≤ vs.length → ∀ v ∈ vs, v.isConcat = false) := by
  induction h with
  | one => simp
  | text _ _ _ ih =>
    have := ih.1
    simp at this
    simp [Value.isConcat]
    exact this
  | lists _ ih =>
    have := ih.1
    simp at this
    simp [Value.isConcat]
    exact this
  | objects _ _ ih =>
    have := ih.1
    simp at this
    simp [Value.isConcat]
    exact this
  | apart ha hb _ _ ih =>
    have := ih.1
    simp at this
    simp [piece_not_concat ha, piece_not_concat hb]
    exact this

theorem flatten_id {vs : List Value} (h : ∀ v ∈ vs, v.isConcat = false) : Value.flattenPieces vs = vs := by
  induction vs with
  | nil => rfl
  | cons v vs ih =>
    have hv := h v (.head _)
    rw [Value.flattenPieces.eq_def]
    cases v <;> simp_all [Value.isConcat]

theorem join_apart {env : Env} {a b : Value} (ha : Piece a) (hb : Piece b) (h : IsRef a ∨ IsRef b) :
    Value.join env a b = .ok none := by
  rcases h with h | h
  · cases a <;> simp [IsRef] at h
    cases b <;> simp [Piece] at hb <;>
      simp [Value.join, Value.isObject, Value.isList, Value.isConcat, Value.isUnmergeable]
  · cases b <;> simp [IsRef] at h
    cases a <;> simp [Piece] at ha <;>
      simp [Value.join, Value.isObject, Value.isList, Value.isConcat, Value.isUnmergeable, Value.isIgnoredWhitespace]

theorem joins_loop {env : Env} {vs ws : List Value} (h : Joins env vs ws) (v : Value) (us done : List Value)
    (hv : vs = v :: us) : Value.joinLoop env done v us = .ok (done ++ ws) := by
  induction h generalizing v us done with
  | one => cases hv; rw [Value.joinLoop]
  | @text s s' vs ws h1 h2 _ ih =>
    cases hv
    have : Value.join env (.scalar s) (.scalar s')
        = .ok (some (.scalar (.str (s.transformToString env ++ s'.transformToString env) true))) := by
      simp [Value.join, Value.isObject, Value.isList, Value.isConcat, Value.isUnmergeable, Value.toText, h1, h2]
    rw [Value.joinLoop, this]
    exact ih _ _ _ rfl
  | @lists a b vs ws _ ih =>
    cases hv
    have : Value.join env (.list a) (.list b) = .ok (some (.list (a ++ b))) := by
      simp [Value.join, Value.isObject, Value.isList, Value.appendLists]
    rw [Value.joinLoop, this]
    exact ih _ _ _ rfl
  | @objects fs gs r i r' i' w vs ws hl _ ih =>
    cases hv
    have : Value.join env (.obj fs r i) (.obj gs r' i') = .ok (some w) := by
      simp [Value.join, Value.isObject, Value.isList, lay_eq hl]
    rw [Value.joinLoop, this]
    exact ih _ _ _ rfl
  | apart ha hb hr _ ih =>
    cases hv
    rw [Value.joinLoop, join_apart ha hb hr]
    simp only [Res.ok_bind]
    rw [ih _ _ _ rfl]
    simp

theorem joins_all {env : Env} {vs ws : List Value} (h : Joins env vs ws) : ∀ v ∈ ws, Piece v := by
  induction h with
  | one hv => simpa using hv
  | text _ _ _ ih => exact ih
  | lists _ ih => exact ih
  | objects _ _ ih => exact ih
  | apart ha _ _ _ ih => simpa using ⟨ha, ih⟩

theorem joins_ref {env : Env} {vs ws : List Value} (h : Joins env vs ws) :
    (∀ v us, vs = v :: us → IsRef v → v ∈ ws) ∧ (2 ≤ ws.length → ∃ v ∈ ws, IsRef v) := by
  induction h with
  | one => refine ⟨by simp, by simp⟩
  | text _ _ _ ih => exact ⟨(by rintro v us ⟨⟩ h; cases h), ih.2⟩
  | lists _ ih => exact ⟨(by rintro v us ⟨⟩ h; cases h), ih.2⟩
  | objects _ _ ih => exact ⟨(by rintro v us ⟨⟩ h; cases h), ih.2⟩
  | @apart a b vs ws ha hb hr _ ih =>
    refine ⟨by rintro v us ⟨⟩ _; simp, fun _ => ?_⟩
    rcases hr with hr | hr
    · exact ⟨a, by simp, hr⟩
    · exact ⟨b, by simp [ih.1 b vs rfl hr], hr⟩

theorem joins_concatenate {env : Env} {vs ws : List Value} (h : Joins env vs ws) (h2 : 2 ≤ vs.length) :
    Value.concatenate env vs = .ok (some (match ws with | [v] => v | ws => .concat ws)) := by
  have hc : Value.consolidate env vs = .ok ws := by
    rw [Value.consolidate, if_neg (by omega), flatten_id ((joins_pieces h).2 h2)]
    match vs, h2 with
    | v :: us, _ =>
      simp only
      rw [joins_loop h v us [] rfl]
      rfl
  rw [Value.concatenate, hc]
  simp only [Res.ok_bind]
  have hne : ws ≠ [] := by
    clear hc h2
    induction h with
    | one => simp
    | text _ _ _ ih => exact ih
    | lists _ ih => exact ih
    | objects _ _ ih => exact ih
    | apart => simp
  match ws, hne with
  | [v], _ => rfl
  | a :: b :: ws, _ =>
    have hm : Value.mkConcat (a :: b :: ws) = .ok (.concat (a :: b :: ws)) := by
      rw [Value.mkConcat, if_neg (by simp), if_neg, if_pos]
      · obtain ⟨v, hv, hr⟩ := (joins_ref h).2 (by simp)
        rw [List.any_eq_true]
        exact ⟨v, hv, by cases v <;> simp_all [IsRef, Value.isUnmergeable]⟩
      · rw [List.any_eq_true]
        rintro ⟨v, hv, hc⟩
        rw [piece_not_concat (joins_all h v hv)] at hc
        cases hc
    simp only [hm, Res.ok_bind]

theorem joins_length {env : Env} {vs ws : List Value} (h : Joins env vs ws) : ws.length ≤ vs.length := by
  induction h with
  | one => simp
  | text _ _ _ ih => simp at ih ⊢; omega
  | lists _ ih => simp at ih ⊢; omega
  | objects _ _ ih => simp at ih ⊢; omega
  | apart _ _ _ _ ih => simp at ih ⊢; omega

theorem plusValue_eq (env : Env) (p : Path) (v : Value) (m : Nat) :
    plusValue env p v m = .ok (.concat [.ref m p true 0, .list [v]], m + 1) := rfl

theorem meansL_length {env : Env} {ss : List Syn} {vs : List Value} {n m : Nat} (h : MeansL env ss n vs m) :
    vs.length = ss.length := by
  induction ss generalizing vs n with
  | nil => cases h; rfl
  | cons s ss ih =>
    cases h with
    | cons _ h => simp [ih h]

mutual
theorem means_run {env : Env} : {s : Syn} → {n m : Nat} → {v : Value} → Means env s n v m →
    ∀ arr outer, runV env arr outer s n = .ok (v, m)
  | _, _, _, _, .scalar => fun _ _ => rfl
  | _, _, _, _, .ref => fun _ _ => rfl
  | _, _, _, _, .list h => fun arr outer => by
    rw [runV, meansL_run h]
    rfl
  | _, _, _, _, .obj h => fun arr outer => by
    rw [runV, meansM_run h arr outer (by simp)]
    rfl
  | _, _, _, _, .whole h2 h hj => fun arr outer => by
    rw [runV, meansL_run h]
    simp only [Res.ok_bind, joins_concatenate hj (by rw [meansL_length h]; exact h2), nonNull]
  | _, _, _, _, .pieces (ws := ws) h hj h2 => fun arr outer => by
    rw [runV, meansL_run h]
    simp only [Res.ok_bind, joins_concatenate hj (Nat.le_trans h2 (joins_length hj)), nonNull]
    match ws, h2 with
    | a :: b :: ws, _ => rfl
theorem meansL_run {env : Env} : {ss : List Syn} → {n m : Nat} → {vs : List Value} → MeansL env ss n vs m →
    ∀ arr outer, runL env arr outer ss n = .ok (vs, m)
  | _, _, _, _, .nil => fun _ _ => rfl
  | _, _, _, _, .cons h1 h2 => fun arr outer => by
    rw [runL, means_run h1]
    simp only [Res.ok_bind, meansL_run h2]
theorem meansM_run {env : Env} : {top : Bool} → {ms : List (Path × Bool × Syn)} → {fs gs : Fields} → {n m : Nat} →
    MeansM env top ms fs n gs m → ∀ arr outer, (top = true → arr = 0 ∧ outer = none) →
    runM env arr outer ms fs n = .ok (gs, m)
  | _, _, _, _, _, _, .nil => fun _ _ _ => rfl
  | _, _, _, _, _, _, .set h1 ha h2 => fun arr outer ht => by
    rw [runM, means_run h1]
    simp only [Res.ok_bind, assigns_eq ha]
    exact meansM_run h2 arr outer ht
  | _, _, _, _, _, _, .add h1 ha h2 => fun arr outer ht => by
    obtain ⟨rfl, rfl⟩ := ht rfl
    rw [runM, if_neg (by omega), means_run h1]
    simp only [Res.ok_bind, plusValue_eq, pushPath, assigns_eq ha]
    exact meansM_run h2 0 none ht
end

theorem doc_run {env : Env} {s : Syn} {n m : Nat} {v : Value} (h : DocMeans env s n v m) :
    runV env 0 none s n = .ok (v, m) := by
  cases h with
  | obj h =>
    rw [runV, meansM_run h 0 none (fun _ => ⟨rfl, rfl⟩)]
    rfl
  | list h =>
    rw [runV, meansL_run h]
    rfl

end SubstRun
end Hocon
