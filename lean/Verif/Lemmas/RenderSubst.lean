import Verif.Lemmas.RenderHocon
import Verif.Lemmas.SubstRun
import Verif.Spec.Unresolved

/-!
# Unresolved values are rendered as texts that stand for them
-/

set_option autoImplicit false

namespace Hocon
namespace Spec

/-! ### `Like` -/

mutual
theorem Like.resolved {env : Env} : {v w : Value} → Like env v w → w.resolved = v.resolved
  | _, _, .scalar _ => rfl
  | _, _, .list h => by rw [Value.resolved, Value.resolved]; exact LikeL.resolved h
  | _, _, .obj _ _ => rfl
  | _, _, .ref => rfl
  | _, _, .concat _ => rfl
  | _, _, .dm _ => rfl
  | _, _, .dmo _ => rfl
theorem LikeL.resolved {env : Env} : {vs ws : List Value} → LikeL env vs ws → Value.resolvedAll ws = Value.resolvedAll vs
  | _, _, .nil => rfl
  | _, _, .cons h hs => by rw [Value.resolvedAll, Value.resolvedAll, Like.resolved h, LikeL.resolved hs]
end

theorem LikeF.resolved {env : Env} {fs gs : Fields} (h : LikeF env fs gs) :
    Value.resolvedFields gs = Value.resolvedFields fs := by
  induction fs generalizing gs with
  | nil => cases h; rfl
  | cons f fs ih =>
    cases h with
    | cons h hs =>
      have := ih hs
      simp only [Value.resolvedFields] at this
      simp only [Value.resolvedFields, List.all_cons, this, Like.resolved h]

theorem resolvedFields_perm {fs gs : Fields} (h : fs.Perm gs) : Value.resolvedFields gs = Value.resolvedFields fs := by
  rw [Bool.eq_iff_iff]
  simp only [Value.resolvedFields, List.all_eq_true]
  exact ⟨fun H f hf => H f (h.mem_iff.1 hf), fun H f hf => H f (h.mem_iff.2 hf)⟩

theorem LikeF.append {env : Env} {fs gs fs' gs' : Fields} (h : LikeF env fs gs) (h' : LikeF env fs' gs') :
    LikeF env (fs ++ fs') (gs ++ gs') := by
  induction fs generalizing gs with
  | nil => cases h; exact h'
  | cons f fs ih =>
    cases h with
    | cons h hs => exact .cons h (ih hs)

theorem Like.open {env : Env} {v w : Value} (h : Like env v w) (ho : Open v) : Open w := by
  cases ho with
  | ref => cases h; exact .ref
  | concat => cases h; exact .concat
  | list hr =>
    have := h.resolved
    cases h
    exact .list (by rw [this, hr])

theorem Like.sole {env : Env} {v w : Value} (h : Like env v w) (hs : Sole v) : Sole w := by
  cases h <;> simp_all [Sole]

theorem Like.unsure {env : Env} {v w : Value} (h : Like env v w) (hs : Unsure v) : Unsure w := by
  cases h <;> simp_all [Unsure]

theorem Like.notObj {env : Env} {v w : Value} (h : Like env v w) (hs : NotObj v) : NotObj w := by
  cases h <;> simp_all [NotObj]

theorem Like.piece {env : Env} {v w : Value} (h : Like env v w) (hs : Piece v) : Piece w := by
  cases h <;> simp_all [Piece]

theorem Like.isRef {env : Env} {v w : Value} (h : Like env v w) (hs : IsRef v) : IsRef w := by
  cases h <;> simp_all [IsRef]

theorem LikeL.mem {env : Env} {vs ws : List Value} (h : LikeL env vs ws) {w : Value} (hw : w ∈ ws) :
    ∃ v ∈ vs, Like env v w := by
  induction vs generalizing ws with
  | nil => cases h; cases hw
  | cons v vs ih =>
    cases h with
    | cons h hs =>
      rcases List.mem_cons.1 hw with rfl | hw
      · exact ⟨v, by simp, h⟩
      · obtain ⟨u, hu, h'⟩ := ih hs hw
        exact ⟨u, by simp [hu], h'⟩

theorem Layers.unsure {u : Value} (h : Layers u) : Unsure u := by cases h <;> simp [Unsure]

theorem given_sole {v : Value} (h : Sole v) : given v = [v] := by
  cases v <;> first | rfl | simp [Sole] at h

theorem Textual.sole {env : Env} {v : Value} (h : Textual env v) : Sole v := by
  cases v <;> simp_all [Sole, Textual]

theorem TextualL.mem {env : Env} {vs : List Value} (h : TextualL env vs) : ∀ v ∈ vs, Textual env v := by
  induction vs with
  | nil => simp
  | cons v vs ih =>
    rw [TextualL] at h
    intro w hw
    rcases List.mem_cons.1 hw with rfl | hw
    · exact h.1
    · exact ih h.2 w hw

end Spec

namespace Render

open Spec

/-! ### Texts and meanings of several members -/

theorem members_append {env : Env} {N : Str → Scalar → Prop} {ms ms' : List (Path × Bool × Syn)} {t s u : Str}
    (h : SText env N (.members ms) t) (hs : HSep s) (h' : SText env N (.members ms') u) :
    SText env N (.members (ms ++ ms')) (t ++ s ++ u) := by
  generalize e : SPart.members ms = k at h
  induction h generalizing ms with
  | last hm => cases e; exact .memberCons hm hs h'
  | memberCons hm hs1 _ _ ih =>
    cases e
    have := SText.memberCons hm hs1 (ih rfl)
    simpa using this
  | _ => cases e

theorem meansM_append {env : Env} {top : Bool} : {ms ms' : List (Path × Bool × Syn)} → {fs gs hs : Fields} →
    {n m l : Nat} → MeansM env top ms fs n gs m → MeansM env top ms' gs m hs l →
    MeansM env top (ms ++ ms') fs n hs l
  | [], _, _, _, _, _, _, _, .nil, h' => h'
  | _ :: _, _, _, _, _, _, _, _, .set h1 h2 h3, h' => .set h1 h2 (meansM_append h3 h')
  | _ :: _, _, _, _, _, _, _, _, .add h1 h2 h3, h' => .add h1 h2 (meansM_append h3 h')

/-! ### Scalars, keys, substitutions -/

theorem scalar_atom {env : Env} {o : Options} {s : Scalar} (h : Writable env s) :
    ∃ s' x, HAtom env (Numeral env) s' x (scalar env o s) ∧ SameScalar env s s' := by
  have json : ∀ o : Options, o.json = true →
      ∃ s' x, HAtom env (Numeral env) s' x (scalar env o s) ∧ SameScalar env s s' := by
    intro o ho
    obtain ⟨s', h1, h2⟩ := scalar_json ho h
    generalize scalar env o s = t at h1
    cases h1 with
    | null => exact ⟨_, _, .null, h2⟩
    | true_ => exact ⟨_, _, .true_, h2⟩
    | false_ => exact ⟨_, _, .false_, h2⟩
    | num h => exact ⟨_, _, .num h, h2⟩
    | str h => exact ⟨_, _, .str h, h2⟩
  cases ho : o.json
  · cases s with
    | str s q =>
      rw [scalar, ho]
      simp only [Bool.false_eq_true, if_false]
      rcases bare_spec s with ⟨⟨c, r, e⟩, h1, h2, h3, h4⟩ | h4
      · rw [h4]
        have hc : ∀ x ∈ s, WordChar x ∧ x ≠ '.' ∧ x ≠ '/' := fun x hx => bare_char (List.all_eq_true.1 h1 x hx)
        refine ⟨_, _, .word ⟨by simp [e], fun x hx => (hc x hx).1, ?_, ?_, h2⟩, .str s q false⟩
        · intro hi
          exact (hc '/' (hi.subset (by simp))).2.2 rfl
        · intro hl
          exact (hc '/' (List.mem_of_getLast? hl)).2.2 rfl
      · rw [h4]
        exact ⟨_, _, .str (plainStr_chars h), .str s q true⟩
    | _ => exact json ⟨o.formatted, true⟩ rfl
  · exact json o ho

theorem key_quoted {env : Env} {k : Str} (h : PlainStr k) : HKey env [k] (renderJsonString k) := by
  refine ⟨.quoted (plainStr_chars h), ⟨?_, ?_, ?_, ?_⟩, ?_⟩
  · intro x hx
    obtain rfl : '"' = x := by simpa [renderJsonString] using hx
    exact ⟨by unfold JDigit; decide, by decide⟩
  · rintro ⟨_, h⟩; simp [renderJsonString] at h
  · rintro ⟨_, h⟩; simp [renderJsonString] at h
  · rintro ⟨_, h⟩; simp [renderJsonString] at h
  · intro h; simp [renderJsonString] at h

theorem path_char {c : Char} (h : (isAlnum c || c == '-' || c == '_') = true) : WordChar c ∧ c ≠ '.' ∧ c ≠ '/' := by
  by_cases hc : c = '_'
  · subst hc; exact ⟨by unfold WordChar; decide, by decide, by decide⟩
  · refine bare_char ?_
    simpa [isAlnum, hc] using h

theorem path_elem {k : Str} (h : ¬ (hasFunkyChars k || k.isEmpty) = true) :
    k ≠ [] ∧ ∀ c ∈ k, WordChar c ∧ c ≠ '.' ∧ c ≠ '/' := by
  simp only [Bool.or_eq_true, not_or, Bool.not_eq_true] at h
  refine ⟨by rintro rfl; simp at h, fun c hc => path_char ?_⟩
  have := h.1
  rw [hasFunkyChars, List.any_eq_false] at this
  have := this c hc
  simpa only [Bool.not_eq_true', Bool.not_eq_false] using this

theorem segs_renderPath {env : Env} : {p : Path} → p ≠ [] → (∀ k ∈ p, PlainStr k) → HSegs env p (PathParser.renderPath p)
  | [], h, _ => absurd rfl h
  | [k], _, h => by
    rw [PathParser.renderPath]
    split
    · exact .quoted (plainStr_chars (h k (by simp)))
    · rename_i hk
      exact .bare (path_elem hk).1 (path_elem hk).2
  | k :: k' :: p, _, h => by
    rw [PathParser.renderPath]
    · have ih := segs_renderPath (env := env) (p := k' :: p) (by simp) (fun x hx => h x (by simp [hx]))
      split
      · have := HSegs.quotedCons (plainStr_chars (h k (by simp))) ih
        simpa [renderJsonString] using this
      · rename_i hk
        exact .bareCons (path_elem hk).1 (path_elem hk).2 ih
    · simp

theorem prefix_stop {w k u : Str} {c : Char} (hc : c ∉ w) (h : w <+: k ++ c :: u) : w <+: k := by
  rcases List.prefix_or_prefix_of_prefix h (List.prefix_append k (c :: u)) with h1 | ⟨r, rfl⟩
  · exact h1
  · cases r with
    | nil => simp
    | cons d r =>
      rw [List.prefix_append_right_inj] at h
      obtain ⟨_, h⟩ := h
      simp only [List.cons_append, List.cons.injEq] at h
      exact absurd (by simp [h.1]) hc

theorem start_quoted (t : Str) : WordStart ('"' :: t) := by
  refine ⟨?_, ?_, ?_, ?_⟩
  · intro x hx
    obtain rfl : '"' = x := by simpa using hx
    exact ⟨by unfold JDigit; decide, by decide⟩
  · rintro ⟨_, h⟩; simp at h
  · rintro ⟨_, h⟩; simp at h
  · rintro ⟨_, h⟩; simp at h

theorem start_renderPath {p : Path} (h : PathText p) : WordStart (PathParser.renderPath p) := by
  obtain ⟨hne, _, hs⟩ := h
  match p, hne with
  | [k], _ =>
    rw [PathParser.renderPath]
    split
    · exact start_quoted _
    · exact hs k rfl
  | k :: k' :: p, _ =>
    rw [PathParser.renderPath]
    · split
      · exact start_quoted _
      · rename_i hk
        have hk' := (path_elem hk).1
        obtain ⟨h1, h2, h3, h4⟩ := hs k rfl
        refine ⟨?_, fun h => h2 (prefix_stop (by decide) h), fun h => h3 (prefix_stop (by decide) h),
          fun h => h4 (prefix_stop (by decide) h)⟩
        intro c hc
        cases k with
        | nil => exact absurd rfl hk'
        | cons d k => exact h1 c (by simpa using hc)
    · simp

theorem subst_text {env : Env} {p : Path} {opt : Bool} (h : PathText p) : HSubst env p opt (refText p opt) := by
  rw [refText]
  cases opt
  · exact .required (segs_renderPath h.ne h.plain) (start_renderPath h)
  · exact .optional (segs_renderPath h.ne h.plain) (start_renderPath h)

/-! ### Values -/

/-- What is known of the text of a value. -/
structure ValText (env : Env) (o : Options) (v : Value) (ind : Nat) (s : Syn) : Prop where
  text : SText env (Numeral env) (.value s) (render env o v ind false)
  means : ∀ n, ∃ v' m, Means env s n v' m ∧ Like env v v' ∧ ∀ fs r i, v' = .obj fs r i → i = false
  piece : Piece v → s.isConcat = false
  ref : IsRef v → s.isRef = true
  obj : isObject v = true → ∃ ms t, s = .obj ms ∧ render env o v ind false = '{' :: t

/-- A value whose text stands for it. -/
def Good (env : Env) (o : Options) (v : Value) : Prop := ∀ ind, ∃ s, ValText env o v ind s

theorem elems_text {env : Env} {o : Options} : ∀ (vs : List Value), (∀ v ∈ vs, Good env o v) → vs ≠ [] →
    ∀ ind, ∃ body ss, renderElems env o vs ind false
      = indent o (ind + 1) ++ body ++ ',' :: (if o.formatted then ch "\n" else []) ∧
      SText env (Numeral env) (.elems ss) body ∧ ∀ n, ∃ vs' m, MeansL env ss n vs' m ∧ LikeL env vs vs'
  | [], _, hne, _ => absurd rfl hne
  | [v], h, _, ind => by
    obtain ⟨s, h1⟩ := h v (by simp) (ind + 1)
    refine ⟨_, [s], ?_, .elem h1.text, fun n => ?_⟩
    · rw [renderElems, renderElems, List.append_nil]
    · obtain ⟨v', m, h2, h3, _⟩ := h1.means n
      exact ⟨[v'], m, .cons h2 .nil, .cons h3 .nil⟩
  | v :: v2 :: vs, h, _, ind => by
    obtain ⟨s, h1⟩ := h v (by simp) (ind + 1)
    obtain ⟨body, ss, h5, h6, h7⟩ := elems_text (v2 :: vs) (fun w hw => h w (by simp [hw])) (by simp) ind
    refine ⟨_, s :: ss, ?_, .elemCons h1.text
      (.comma (g1 := []) .nil (hgap_opt_nl o (hgap_indent o (ind + 1)))) h6, fun n => ?_⟩
    · rw [renderElems, h5]
      simp
    · obtain ⟨v', m, h2, h3, _⟩ := h1.means n
      obtain ⟨vs', l, h8, h9⟩ := h7 m
      exact ⟨v' :: vs', l, .cons h2 h8, .cons h3 h9⟩

theorem list_good {env : Env} {o : Options} {vs : List Value} (h : ∀ v ∈ vs, Good env o v) : Good env o (.list vs) := by
  intro ind
  cases vs with
  | nil =>
    refine ⟨.list [], ⟨?_, fun n => ⟨_, _, .list .nil, .list .nil, by simp⟩, fun _ => rfl, by simp [IsRef], by simp [isObject]⟩⟩
    rw [render]; exact .emptyArr (g := []) .nil
  | cons v vs =>
    obtain ⟨body, ss, h1, h2, h3⟩ := elems_text (v :: vs) h (by simp) ind
    refine ⟨.list ss, ⟨?_, fun n => ?_, fun _ => rfl, by simp [IsRef], by simp [isObject]⟩⟩
    · rw [render, closeList, h1]
      have hg := hgap_opt_nl o (hgap_indent o (ind + 1))
      cases hf : o.formatted
      · simp only [Bool.false_eq_true, if_false]
        rw [chop_append _ _ 1 rfl]
        simp only [hf, Bool.false_eq_true, if_false] at hg
        have := SText.arr hg h2 (.gap .nil)
        simpa using this
      · simp only [if_true]
        rw [show indent o (ind + 1) ++ body ++ ',' :: ch "\n" = (indent o (ind + 1) ++ body ++ ch ",") ++ ch "\n" by simp,
          chop_append _ _ 1 rfl, chop_append _ _ 1 rfl]
        simp only [hf, if_true] at hg
        have := SText.arr hg h2 (.gap (.newline (hgap_indent o ind)))
        simpa using this
    · obtain ⟨vs', m, h4, h5⟩ := h3 n
      exact ⟨_, _, .list h4, .list h5, by simp⟩

theorem pieces_text {env : Env} {o : Options} : ∀ (vs : List Value), (∀ v ∈ vs, Good env o v) → (∀ v ∈ vs, Piece v) →
    Alternate vs → vs ≠ [] → ∀ ind, ∃ s ss, ss.length + 1 = vs.length ∧
      (∀ v, vs.head? = some v → IsRef v → s.isRef = true) ∧
      SText env (Numeral env) (.pieces (s :: ss)) (renderPieces env o vs ind false) ∧
      ∀ n, ∃ vs' m, MeansL env (s :: ss) n vs' m ∧ LikeL env vs vs'
  | [], _, _, _, hne, _ => absurd rfl hne
  | [v], h, hp, _, _, ind => by
    obtain ⟨s, h1⟩ := h v (by simp) ind
    refine ⟨s, [], rfl, ?_, ?_, fun n => ?_⟩
    · rintro w hw; cases hw; exact h1.ref
    · rw [renderPieces, renderPieces, List.append_nil]
      exact .piece h1.text (h1.piece (hp v (by simp)))
    · obtain ⟨v', m, h2, h3, _⟩ := h1.means n
      exact ⟨[v'], m, .cons h2 .nil, .cons h3 .nil⟩
  | v :: v2 :: vs, h, hp, ha, _, ind => by
    obtain ⟨s, h1⟩ := h v (by simp) ind
    rw [Alternate] at ha
    obtain ⟨s2, ss, h4, h5, h6, h7⟩ := pieces_text (v2 :: vs) (fun w hw => h w (by simp [hw]))
      (fun w hw => hp w (by simp [hw])) ha.2 (by simp) ind
    refine ⟨s, s2 :: ss, by simp [← h4], ?_, ?_, fun n => ?_⟩
    · rintro w hw; cases hw; exact h1.ref
    · rw [renderPieces]
      refine .touch h1.text (h1.piece (hp v (by simp))) h6 ?_
      rcases ha.1 with hr | hr
      · exact Or.inr (Or.inr (Or.inl (h1.ref hr)))
      · exact Or.inr (Or.inr (Or.inr (h5 v2 rfl hr)))
    · obtain ⟨v', m, h2, h3, _⟩ := h1.means n
      obtain ⟨vs', l, h8, h9⟩ := h7 m
      exact ⟨v' :: vs', l, .cons h2 h8, .cons h3 h9⟩

theorem alternate_joins {env : Env} : {vs ws : List Value} → (∀ v ∈ vs, Piece v) → Alternate vs → vs ≠ [] →
    LikeL env vs ws → Joins env ws ws
  | [_], _, hp, _, _, .cons h .nil => .one (h.piece (hp _ (by simp)))
  | _ :: _ :: _, _, hp, ha, _, .cons h (.cons h' hs) => by
    rw [Alternate] at ha
    refine .apart (h.piece (hp _ (by simp))) (h'.piece (hp _ (by simp))) ?_
      (alternate_joins (fun v hv => hp v (by simp only [List.mem_cons] at hv ⊢; tauto)) ha.2 (by simp) (.cons h' hs))
    rcases ha.1 with hr | hr
    · exact Or.inl (h.isRef hr)
    · exact Or.inr (h'.isRef hr)

theorem likeL_length {env : Env} : {vs ws : List Value} → LikeL env vs ws → ws.length = vs.length
  | _, _, .nil => rfl
  | _, _, .cons _ hs => by simp [likeL_length hs]

theorem concat_good {env : Env} {o : Options} {vs : List Value} (h : ∀ v ∈ vs, Good env o v) (h2 : 2 ≤ vs.length)
    (hp : ∀ v ∈ vs, Piece v) (ha : Alternate vs) : Good env o (.concat vs) := by
  intro ind
  have hne : vs ≠ [] := by rintro rfl; simp at h2
  obtain ⟨s, ss, h3, _, h4, h5⟩ := pieces_text vs h hp ha hne ind
  refine ⟨.concat (s :: ss), ⟨?_, fun n => ?_, by simp [Piece], by simp [IsRef], by simp [isObject]⟩⟩
  · rw [render]
    exact .concat h4 (by simp; omega)
  · obtain ⟨vs', m, h6, h7⟩ := h5 n
    exact ⟨_, _, .pieces h6 (alternate_joins hp ha hne h7) (by rw [likeL_length h7]; exact h2), .concat h7, by simp⟩

/-! ### Members -/

/-- What is known of the text of one setting, which may have several values. -/
structure FieldText (env : Env) (k : Str) (v : Value) (ms : List (Path × Bool × Syn)) (t : Str) : Prop where
  text : SText env (Numeral env) (.members ms) t
  means : ∀ top fs n, (∀ f ∈ fs, f.1 ≠ k) → ∃ v' m, MeansM env top ms fs n (fs ++ [(k, v')]) m ∧ Like env v v'

/-- A rendered entry: the text of one setting, with blanks and newlines around it. -/
def IsField (env : Env) (e : Str × Str) (f : Str × Value) : Prop :=
  e.1 = f.1 ∧ ∃ g t g' ms, e.2 = g ++ t ++ g' ∧ HGap g ∧ HGap g' ∧ FieldText env f.1 f.2 ms t

theorem member_text {env : Env} {o : Options} {k : Str} (hk : k ≠ [] ∧ PlainStr k) {v : Value} {ind : Nat} {s : Syn}
    (h : ValText env o v ind s) :
    SText env (Numeral env) (.member ([k], false, s)) (keyPrefix o k v ++ render env o v ind false) := by
  rw [keyPrefix, if_neg (by simpa using hk.1)]
  cases ho : o.json
  · simp only [Bool.false_eq_true, if_false]
    cases hv : isObject v
    · simp only [Bool.false_eq_true, if_false]
      have := SText.field (g1 := []) (c := '=') (g2 := []) (key_hocon (env := env) hk.2) .nil (Or.inr rfl) .nil h.text
      simpa using this
    · obtain ⟨ms, t, rfl, e⟩ := h.obj hv
      have ht := h.text
      rw [e] at ht ⊢
      simp only [if_true]
      refine .sect (key_hocon (env := env) hk.2) ?_ ht
      split
      · exact .blank (Or.inl rfl) .nil
      · exact .nil
  · simp only [if_true]
    cases o.formatted
    · have := SText.field (g1 := []) (c := ':') (g2 := []) (key_quoted (env := env) hk.2) .nil (Or.inl rfl) .nil h.text
      simpa using this
    · have := SText.field (g1 := ch " ") (c := ':') (g2 := ch " ") (key_quoted (env := env) hk.2)
        (.blank (Or.inl rfl) .nil) (Or.inl rfl) (.blank (Or.inl rfl) .nil) h.text
      simpa using this

theorem stack_member {env : Env} {o : Options} {k : Str} (hk : k ≠ [] ∧ PlainStr k) {v : Value} {ind : Nat} {s : Syn}
    (h : ValText env o v ind s) :
    SText env (Numeral env) (.member ([k], false, s)) (stackKey o k ++ render env o v ind false) := by
  rw [stackKey, if_neg (by simpa using hk.1)]
  cases o.formatted
  · have := SText.field (g1 := []) (c := ':') (g2 := []) (key_quoted (env := env) hk.2) .nil (Or.inl rfl) .nil h.text
    simpa using this
  · have := SText.field (g1 := ch " ") (c := ':') (g2 := ch " ") (key_quoted (env := env) hk.2)
      (.blank (Or.inl rfl) .nil) (Or.inl rfl) (.blank (Or.inl rfl) .nil) h.text
    simpa using this

/-- Giving the newest value to a setting. -/
theorem layers_lay {env : Env} {v old v' old' : Value} {c : List Value → Value}
    (hL : Layers (c (v :: given old))) (hc : c = .dm ∨ c = .dmo) (hd : Layers old ∨ Sole old)
    (hs : ∀ x ∈ given old, Sole x) (hv : Like env v v') (ho : Like env old old')
    (hi : ∀ fs r i, v' = .obj fs r i → i = false) :
    ∃ w', Lay v' old' w' ∧ Like env (c (v :: given old)) w' := by
  have hg : LikeL env (given old) (given old') := by
    cases ho with
    | dm h => exact h
    | dmo h => exact h
    | scalar h => exact .cons (.scalar h) .nil
    | list h => exact .cons (.list h) .nil
    | obj h h' => exact .cons (.obj h h') .nil
    | ref => exact .cons .ref .nil
    | concat h => exact .cons (.concat h) .nil
  have hs' : ∀ x ∈ given old', Sole x := by
    intro x hx
    obtain ⟨y, hy, hl⟩ := LikeL.mem hg hx
    exact hl.sole (hs y hy)
  rcases hc with rfl | rfl
  · have hop : Open v := by
      generalize e : Value.dm (v :: given old) = d at hL
      cases hL with
      | wait h => simp only [Value.dm.injEq, List.cons.injEq] at e; exact e.1 ▸ h
      | waitMore _ h => simp only [Value.dm.injEq, List.cons.injEq] at e; exact e.1 ▸ h
      | _ => cases e
    exact ⟨_, .wait (hv.open hop), .dm (.cons hv hg)⟩
  · -- an object over something
    have key : ∃ fs r, v = .obj fs r false ∧ (Unsure old ∨ r = false ∧ NotObj old) := by
      generalize e : Value.dmo (v :: given old) = d at hL
      cases hL with
      | @over fs r x hu =>
        simp only [Value.dmo.injEq, List.cons.injEq] at e
        refine ⟨fs, r, e.1, ?_⟩
        rcases hd with hd | hd
        · exact Or.inl hd.unsure
        · rw [given_sole hd] at e
          simp only [List.cons.injEq, and_true] at e
          exact Or.inl (e.2 ▸ hu)
      | @above fs x hu =>
        simp only [Value.dmo.injEq, List.cons.injEq] at e
        refine ⟨fs, false, e.1, ?_⟩
        rcases hd with hd | hd
        · exact Or.inl hd.unsure
        · rw [given_sole hd] at e
          simp only [List.cons.injEq, and_true] at e
          exact Or.inr ⟨rfl, e.2 ▸ hu⟩
      | @overMore fs r u hu =>
        simp only [Value.dmo.injEq, List.cons.injEq] at e
        refine ⟨fs, r, e.1, ?_⟩
        rcases hd with hd | hd
        · exact Or.inl hd.unsure
        · exfalso
          rw [given_sole hd] at e
          have h2 : 2 ≤ (given u).length := by
            cases hu with
            | wait => simp [given]
            | over => simp [given]
            | above => simp [given]
            | waitMore h => cases h <;> simp [given]
            | overMore h => cases h <;> simp [given]
          rw [← e.2] at h2
          simp at h2
      | wait => cases e
      | waitMore => cases e
    obtain ⟨fs, r, rfl, hk⟩ := key
    cases hv with
    | @obj _ gs hs _ _ j hp hf =>
      obtain rfl := hi _ _ _ rfl
      rcases hk with hk | ⟨rfl, hk⟩
      · exact ⟨_, .waitO (ho.unsure hk) hs', .dmo (.cons (.obj hp hf) hg)⟩
      · have hso : Sole old' := by
          have := ho.notObj hk
          cases old' <;> first | trivial | simp [NotObj] at this
        refine ⟨_, .above (ho.notObj hk), ?_⟩
        rw [given_sole hso] at hg
        exact .dmo (.cons (.obj hp hf) hg)

/-- The text of the values of a setting, the oldest first. -/
structure StackText (env : Env) (o : Options) (k : Str) (ind : Nat) (v : Value) (t : Str)
    (ms : List (Path × Bool × Syn)) : Prop where
  eq : renderStack env o (given v) ind false k = indent o ind ++ t ++ ',' :: (if o.formatted then ch "\n" else [])
  field : FieldText env k v ms t

theorem stack_single {env : Env} {o : Options} {k : Str} (hk : k ≠ [] ∧ PlainStr k) {v : Value} {ind : Nat}
    (hg : Good env o v) (hs : Sole v) : ∃ t ms, StackText env o k ind v t ms := by
  obtain ⟨s, h⟩ := hg ind
  refine ⟨_, _, ⟨?_, .last (stack_member hk h), ?_⟩⟩
  · rw [given_sole hs, renderStack, renderStack]
    simp
  · intro top fs n hf
    obtain ⟨v', m, h1, h2, _⟩ := h.means n
    exact ⟨v', m, .set h1 (.new hf) .nil, h2⟩

theorem stack_cons {env : Env} {o : Options} {k : Str} (hk : k ≠ [] ∧ PlainStr k) {v old : Value} {ind : Nat}
    {t : Str} {ms : List (Path × Bool × Syn)} {c : List Value → Value}
    (hL : Layers (c (v :: given old))) (hc : c = .dm ∨ c = .dmo) (hd : Layers old ∨ Sole old)
    (hs : ∀ x ∈ given old, Sole x) (hg : Good env o v) (h : StackText env o k ind old t ms) :
    ∃ t' ms', StackText env o k ind (c (v :: given old)) t' ms' := by
  obtain ⟨s, h1⟩ := hg ind
  have hgap : HGap ((if o.formatted then ch "\n" else []) ++ indent o ind) := hgap_opt_nl o (hgap_indent o ind)
  refine ⟨t ++ ',' :: ((if o.formatted then ch "\n" else []) ++ indent o ind) ++ (stackKey o k ++ render env o v ind false),
    ms ++ [([k], false, s)], ⟨?_, ?_, ?_⟩⟩
  · have : given (c (v :: given old)) = v :: given old := by rcases hc with rfl | rfl <;> rfl
    rw [this, renderStack, h.eq]
    simp
  · exact members_append h.field.text (.comma (g1 := []) .nil hgap) (.last (stack_member hk h1))
  · intro top fs n hf
    obtain ⟨old', m, h2, h3⟩ := h.field.means top fs n hf
    obtain ⟨v', l, h4, h5, h6⟩ := h1.means m
    obtain ⟨w', h7, h8⟩ := layers_lay hL hc hd hs h5 h3 h6
    exact ⟨w', l, meansM_append h2 (.set h4 (.old (gs := []) hf h7) .nil), h8⟩

theorem layers_text {env : Env} {o : Options} {k : Str} (hk : k ≠ [] ∧ PlainStr k) {ind : Nat} {u : Value}
    (h : Layers u) (hg : ∀ v ∈ given u, Good env o v ∧ Sole v) : ∃ t ms, StackText env o k ind u t ms := by
  induction h with
  | @wait v old hv =>
    have ho := hg old (by simp [given])
    obtain ⟨t, ms, h⟩ := stack_single hk (ind := ind) ho.1 ho.2
    have := stack_cons (c := .dm) hk (v := v) (by rw [given_sole ho.2]; exact .wait hv) (Or.inl rfl) (Or.inr ho.2)
      (by rw [given_sole ho.2]; simpa using ho.2) (hg v (by simp [given])).1 h
    rwa [given_sole ho.2] at this
  | @over fs r old hv =>
    have ho := hg old (by simp [given])
    obtain ⟨t, ms, h⟩ := stack_single hk (ind := ind) ho.1 ho.2
    have := stack_cons (c := .dmo) hk (v := .obj fs r false) (by rw [given_sole ho.2]; exact .over hv) (Or.inr rfl) (Or.inr ho.2)
      (by rw [given_sole ho.2]; simpa using ho.2) (hg _ (by simp [given])).1 h
    rwa [given_sole ho.2] at this
  | @above fs old hv =>
    have ho := hg old (by simp [given])
    obtain ⟨t, ms, h⟩ := stack_single hk (ind := ind) ho.1 ho.2
    have := stack_cons (c := .dmo) hk (v := .obj fs false false) (by rw [given_sole ho.2]; exact .above hv) (Or.inr rfl)
      (Or.inr ho.2) (by rw [given_sole ho.2]; simpa using ho.2) (hg _ (by simp [given])).1 h
    rwa [given_sole ho.2] at this
  | @waitMore v u hu hv ih =>
    obtain ⟨t, ms, h⟩ := ih fun x hx => hg x (List.mem_cons_of_mem _ hx)
    exact stack_cons (c := .dm) hk (.waitMore hu hv) (Or.inl rfl) (Or.inl hu) (fun x hx => (hg x (List.mem_cons_of_mem _ hx)).2)
      (hg v (by simp [given])).1 h
  | @overMore fs r u hu ih =>
    obtain ⟨t, ms, h⟩ := ih fun x hx => hg x (List.mem_cons_of_mem _ hx)
    exact stack_cons (c := .dmo) hk (.overMore hu) (Or.inr rfl) (Or.inl hu) (fun x hx => (hg x (List.mem_cons_of_mem _ hx)).2)
      (hg _ (by simp [given])).1 h

theorem layers_field {env : Env} {o : Options} {k : Str} (hk : k ≠ [] ∧ PlainStr k) {ind : Nat} {st : List Value}
    {c : List Value → Value} (hc : c = .dm ∨ c = .dmo)
    (h : Layers (c st)) (hg : ∀ v ∈ st, Good env o v ∧ Sole v) :
    IsField env (k, closeStack o (renderStack env o st ind false k)) (k, c st) := by
  have e : given (c st) = st := by rcases hc with rfl | rfl <;> rfl
  obtain ⟨t, ms, h1⟩ := layers_text hk (ind := ind) h (by rw [e]; exact hg)
  refine ⟨rfl, indent o ind, t, if o.formatted then ch "\n" else [], ms, ?_, hgap_indent o ind, ?_, h1.field⟩
  · have h2 := h1.eq
    rw [e] at h2
    simp only [closeStack, h2]
    cases o.formatted
    · simp only [Bool.false_eq_true, if_false, List.append_nil]
      exact chop_append _ _ 1 rfl
    · simp only [if_true]
      rw [show indent o ind ++ t ++ ',' :: ch "\n" = (indent o ind ++ t ++ ch ",") ++ ch "\n" by simp,
        chop_append _ _ 1 rfl, chop_append _ _ 1 rfl]
  · split
    · exact .newline .nil
    · exact .nil

/-! ### Objects -/

/-- What is known of the members of an object. -/
structure BodyText (env : Env) (fs : Fields) (ms : List (Path × Bool × Syn)) (t : Str) : Prop where
  text : SText env (Numeral env) (.members ms) t
  means : ∀ top gs n, (∀ f ∈ fs, ∀ g ∈ gs, g.1 ≠ f.1) →
    ∃ fs' m, MeansM env top ms gs n (gs ++ fs') m ∧ LikeF env fs fs'

theorem hgap_append {g g' : Str} (h : HGap g) (h' : HGap g') : HGap (g ++ g') := by
  induction h with
  | nil => exact h'
  | blank hb _ ih => exact .blank hb ih
  | newline _ ih => exact .newline ih
  | hash hb _ ih => rw [List.append_assoc, List.cons_append]; exact .hash hb ih
  | slashes hb _ ih => rw [List.append_assoc, List.cons_append]; exact .slashes hb ih

theorem hsep_around {o : Options} {g g' : Str} (h : HGap g) (h' : HGap g') : HSep (g ++ entrySep o ++ g') := by
  rw [entrySep]
  split
  · split
    · have := HSep.comma h (.newline h')
      simpa using this
    · exact .newline (hgap_append (hgap_append h (.newline .nil)) h') (by simp)
  · have := HSep.comma h h'
    simpa using this

theorem entries_text {env : Env} {o : Options} (ind : Nat) {es : List (Str × Str)}
    {fs : Fields} (h : All2 (IsField env) es fs) (hn : (fs.map Prod.fst).Nodup) (hne : es ≠ []) :
    ∃ g body g' ms, entriesText o ind es = g ++ body ++ g' ++ entrySep o ∧ HGap g ∧ HGap g' ∧ BodyText env fs ms body := by
  induction h with
  | nil => exact absurd rfl hne
  | @cons e f es fs hef hs ih =>
    obtain ⟨k, t⟩ := e
    obtain ⟨k', v⟩ := f
    obtain ⟨rfl, g, t', g', ms, e, hg, hg', hf⟩ := hef
    simp only at e hf hn ⊢
    have hi := hgap_append (hgap_indent o ind) hg
    simp only [List.map_cons, List.nodup_cons] at hn
    cases hs with
    | nil =>
      refine ⟨indent o ind ++ g, t', g', ms, ?_, hi, hg', hf.text, ?_⟩
      · rw [entriesText, entriesText, List.append_nil, e, entrySep]
        simp
      · intro top gs n hgs
        obtain ⟨v', m, h1, h2⟩ := hf.means top gs n fun x hx => hgs (k, v) (by simp) x hx
        exact ⟨[(k, v')], m, h1, .cons h2 .nil⟩
    | @cons e2 f2 es fs hab hs =>
      obtain ⟨g2, body, g3, ms2, h1, h2, h3, h4⟩ := ih hn.2 (by simp)
      refine ⟨indent o ind ++ g, t' ++ (g' ++ entrySep o ++ g2) ++ body, g3, ms ++ ms2, ?_, hi, h3,
        members_append hf.text (hsep_around hg' h2) h4.text, ?_⟩
      · rw [entriesText, h1, e]
        simp [entrySep]
      · intro top gs n hgs
        obtain ⟨v', m, h5, h6⟩ := hf.means top gs n fun x hx => hgs (k, v) (by simp) x hx
        obtain ⟨fs', l, h7, h8⟩ := h4.means top (gs ++ [(k, v')]) m (by
          intro f hf' x hx
          rcases List.mem_append.1 hx with hx | hx
          · exact hgs f (by simp [hf']) x hx
          · simp only [List.mem_singleton] at hx
            subst hx
            intro e
            exact hn.1 (by rw [show k = f.1 from e]; exact List.mem_map_of_mem hf'))
        refine ⟨(k, v') :: fs', l, ?_, .cons h6 h8⟩
        have := meansM_append h5 h7
        simpa using this

theorem objectEntries_text {env : Env} {o : Options} (f : Str × Value) (fs : Fields)
    (hn : ((f :: fs).map Prod.fst).Nodup) (ind : Nat)
    (h : All2 (IsField env) (renderFields env o (f :: fs) ind) (f :: fs)) :
    ∃ g body g' ms gs, entriesText o ind (sort (renderFields env o (f :: fs) ind)) = (g ++ body ++ g') ++ entrySep o ∧
      HGap g ∧ HGap g' ∧ (f :: fs).Perm gs ∧ BodyText env gs ms body := by
  obtain ⟨gs, h3, h4⟩ := all2_sort h
  have hne : sort (renderFields env o (f :: fs) ind) ≠ [] := by
    intro he
    have := (sort_perm (renderFields env o (f :: fs) ind)).length_eq
    rw [he, all2_length h] at this
    simp at this
  have hng : (gs.map Prod.fst).Nodup := by
    rw [(h4.map Prod.fst).nodup_iff]; exact hn
  obtain ⟨g, body, g', ms, h5, h6, h7, h8⟩ := entries_text ind h3 hng hne
  exact ⟨g, body, g', ms, gs, h5, h6, h7, h4.symm, h8⟩

/-- A field whose text stands for it. -/
def GoodF (env : Env) (o : Options) (f : Str × Value) : Prop :=
  (f.1 ≠ [] ∧ PlainStr f.1) ∧
    match f.2 with
    | .dm st => Layers (.dm st) ∧ ∀ v ∈ st, Good env o v ∧ Sole v
    | .dmo st => Layers (.dmo st) ∧ ∀ v ∈ st, Good env o v ∧ Sole v
    | v => Good env o v

theorem renderFields_text {env : Env} {o : Options} (ind : Nat) : ∀ (fs : Fields), (∀ f ∈ fs, GoodF env o f) →
    All2 (IsField env) (renderFields env o fs ind) fs
  | [], _ => by rw [renderFields]; exact .nil
  | (k, v) :: fs, h => by
    have ih := renderFields_text ind fs fun f hf => h f (by simp [hf])
    obtain ⟨hk, hv⟩ := h (k, v) (by simp)
    have single : Good env o v →
        IsField env (k, keyPrefix o k v ++ render env o v ind false) (k, v) := by
      intro hg
      obtain ⟨s, h1⟩ := hg ind
      refine ⟨rfl, [], _, [], _, by rw [List.nil_append, List.append_nil], .nil, .nil, .last (member_text hk h1), ?_⟩
      intro top fs n hf
      obtain ⟨v', m, h2, h3, _⟩ := h1.means n
      exact ⟨v', m, .set h2 (.new hf) .nil, h3⟩
    cases v with
    | dm st => rw [renderFields]; exact .cons (layers_field hk (Or.inl rfl) hv.1 hv.2) ih
    | dmo st => rw [renderFields]; exact .cons (layers_field hk (Or.inr rfl) hv.1 hv.2) ih
    | _ => rw [renderFields] <;> first | exact .cons (single hv) ih | simp

theorem obj_good {env : Env} {o : Options} {fs : Fields} {r i : Bool} (hn : (fs.map Prod.fst).Nodup)
    (hr : r = Value.resolvedFields fs) (h : ∀ f ∈ fs, GoodF env o f) : Good env o (.obj fs r i) := by
  intro ind
  cases fs with
  | nil =>
    refine ⟨.obj [], ⟨?_, fun n => ⟨_, _, .obj .nil, ?_, ?_⟩, fun _ => rfl, by simp [IsRef],
      fun _ => ⟨[], _, rfl, by rw [render]; rfl⟩⟩⟩
    · rw [render]; exact .emptyObj (g := []) .nil
    · subst hr; exact .obj (.refl _) .nil
    · intro fs r i e; cases e; rfl
  | cons f fs =>
    obtain ⟨g, body, g', ms, gs, h1, h2, h3, h4, h5⟩ := objectEntries_text f fs hn (ind + 1) (renderFields_text (ind + 1) (f :: fs) h)
    have e : render env o (.obj (f :: fs) r i) ind false =
        '{' :: ((if o.formatted then ch "\n" else []) ++ g) ++ body ++ (g' ++ if o.formatted then '\n' :: indent o ind else []) ++ ['}'] := by
      rw [render, objectText]
      simp only [Bool.not_false, Bool.or_true, if_true]
      rw [h1, chop_append _ _ _ (entrySep_length o), show rootNewline o false = [] from rfl]
      simp
    refine ⟨.obj ms, ⟨?_, fun n => ?_, fun _ => rfl, by simp [IsRef], fun _ => ⟨ms, _, rfl, by rw [e]; rfl⟩⟩⟩
    · rw [e]
      refine .obj (hgap_opt_nl o h2) h5.text (.gap (hgap_append h3 ?_))
      split
      · exact .newline (hgap_indent o ind)
      · exact .nil
    · obtain ⟨fs', m, h6, h7⟩ := h5.means false [] n (by simp)
      simp only [List.nil_append] at h6
      refine ⟨_, _, .obj h6, ?_, ?_⟩
      · rw [LikeF.resolved h7, resolvedFields_perm h4, ← hr]
        exact .obj h4 h7
      · intro fs r i e; cases e; rfl

mutual
theorem textual_good {env : Env} {o : Options} : ∀ (v : Value), Textual env v → Good env o v
  | .scalar s, h => by
    intro ind
    rw [Textual] at h
    obtain ⟨s', x, h1, h2⟩ := scalar_atom (o := o) h
    exact ⟨.scalar s', ⟨by rw [render]; exact .atom h1, fun n => ⟨_, _, .scalar, .scalar h2, by simp⟩, fun _ => rfl,
      by simp [IsRef], by simp [isObject]⟩⟩
  | .list vs, h => by
    rw [Textual] at h
    exact list_good (textualL_good vs h)
  | .obj fs r i, h => by
    rw [Textual] at h
    exact obj_good h.1 h.2.1 (textualF_good fs h.2.2)
  | .ref id p opt pre, h => by
    intro ind
    rw [Textual] at h
    obtain ⟨rfl, hp⟩ := h
    exact ⟨.ref p opt, ⟨by rw [render]; exact .subst (subst_text hp), fun n => ⟨_, _, .ref, .ref, by simp⟩, fun _ => rfl,
      fun _ => rfl, by simp [isObject]⟩⟩
  | .concat ps, h => by
    rw [Textual] at h
    exact concat_good (textualL_good ps h.2.2.2) h.1 h.2.1 h.2.2.1
  | .dm _, h => by simp [Textual] at h
  | .dmo _, h => by simp [Textual] at h
termination_by structural v => v
theorem textualL_good {env : Env} {o : Options} : ∀ (vs : List Value), TextualL env vs → ∀ v ∈ vs, Good env o v
  | [], _, _, hv => by cases hv
  | v :: vs, h, w, hw => by
    rw [TextualL] at h
    have hv := textual_good (o := o) v h.1
    rcases List.mem_cons.1 hw with rfl | hw
    · exact hv
    · exact textualL_good vs h.2 w hw
termination_by structural vs => vs
theorem textualF_good {env : Env} {o : Options} : ∀ (fs : List (Str × Value)), TextualF env fs → ∀ f ∈ fs, GoodF env o f
  | [], _, _, hv => by cases hv
  | (k, .dm st) :: fs, h, f, hf => by
    rw [TextualF] at h
    rcases List.mem_cons.1 hf with rfl | hf
    · exact ⟨h.1, h.2.1.1, fun v hv => ⟨textualL_good st h.2.1.2 v hv, (TextualL.mem h.2.1.2 v hv).sole⟩⟩
    · exact textualF_good fs h.2.2 f hf
  | (k, .dmo st) :: fs, h, f, hf => by
    rw [TextualF] at h
    rcases List.mem_cons.1 hf with rfl | hf
    · exact ⟨h.1, h.2.1.1, fun v hv => ⟨textualL_good st h.2.1.2 v hv, (TextualL.mem h.2.1.2 v hv).sole⟩⟩
    · exact textualF_good fs h.2.2 f hf
  | (k, .scalar s) :: fs, h, f, hf => by
    rw [TextualF] at h
    · rcases List.mem_cons.1 hf with rfl | hf
      · exact ⟨h.1, textual_good _ h.2.1⟩
      · exact textualF_good fs h.2.2 f hf
    all_goals simp
  | (k, .list s) :: fs, h, f, hf => by
    rw [TextualF] at h
    · rcases List.mem_cons.1 hf with rfl | hf
      · exact ⟨h.1, textual_good _ h.2.1⟩
      · exact textualF_good fs h.2.2 f hf
    all_goals simp
  | (k, .obj gs r i) :: fs, h, f, hf => by
    rw [TextualF] at h
    · rcases List.mem_cons.1 hf with rfl | hf
      · exact ⟨h.1, textual_good _ h.2.1⟩
      · exact textualF_good fs h.2.2 f hf
    all_goals simp
  | (k, .ref id p opt pre) :: fs, h, f, hf => by
    rw [TextualF] at h
    · rcases List.mem_cons.1 hf with rfl | hf
      · exact ⟨h.1, textual_good _ h.2.1⟩
      · exact textualF_good fs h.2.2 f hf
    all_goals simp
  | (k, .concat ps) :: fs, h, f, hf => by
    rw [TextualF] at h
    · rcases List.mem_cons.1 hf with rfl | hf
      · exact ⟨h.1, textual_good _ h.2.1⟩
      · exact textualF_good fs h.2.2 f hf
    all_goals simp
termination_by structural fs => fs
end

/-- The text of an object at the root. -/
theorem renderRoot_text {env : Env} {o : Options} (fs : Fields) (r i : Bool) (h : Textual env (.obj fs r i)) (n : Nat) :
    ∃ s v' m, SDoc env (Numeral env) s (renderValue env o (.obj fs r i)) ∧ DocMeans env s n v' m ∧
      Like env (.obj fs r i) v' := by
  have hl : HLast (rootNewline o true) := by
    rw [rootNewline]
    split
    · exact .gap (.newline .nil)
    · exact .gap .nil
  rw [Textual] at h
  obtain ⟨hn, hr, hf⟩ := h
  cases fs with
  | nil =>
    refine ⟨.obj [], _, _, ?_, .obj .nil, by subst hr; exact .obj (.refl _) .nil⟩
    rw [renderValue, render]
    exact .obj (g := []) .nil (.emptyObj (g := []) .nil) hl
  | cons f fs =>
    cases ho : o.json
    · obtain ⟨g, body, g', ms, gs, h1, h2, h3, h4, h5⟩ :=
        objectEntries_text f fs hn 0 (renderFields_text (o := o) 0 (f :: fs) (textualF_good _ hf))
      obtain ⟨fs', m, h6, h7⟩ := h5.means true [] n (by simp)
      simp only [List.nil_append] at h6
      refine ⟨.obj ms, _, m, ?_, .obj h6, ?_⟩
      · rw [renderValue, render, objectText]
        simp only [ho, Bool.false_or, Bool.not_true, Bool.false_eq_true, if_false]
        rw [h1, chop_append _ _ _ (entrySep_length o)]
        have hl' : HLast (g' ++ rootNewline o true) := by
          rw [rootNewline]
          split
          · exact .gap (hgap_append h3 (.newline .nil))
          · exact .gap (hgap_append h3 .nil)
        have := SDoc.open_ h2 h5.text hl'
        simpa using this
      · rw [LikeF.resolved h7, resolvedFields_perm h4, ← hr]
        exact .obj h4 h7
    · obtain ⟨g, body, g', ms, gs, h1, h2, h3, h4, h5⟩ :=
        objectEntries_text f fs hn 1 (renderFields_text (o := o) 1 (f :: fs) (textualF_good _ hf))
      obtain ⟨fs', m, h6, h7⟩ := h5.means true [] n (by simp)
      simp only [List.nil_append] at h6
      refine ⟨.obj ms, _, m, ?_, .obj h6, ?_⟩
      · rw [renderValue, render, objectText]
        simp only [ho, Bool.true_or, if_true, Nat.zero_add]
        rw [h1, chop_append _ _ _ (entrySep_length o)]
        have := SText.obj (hgap_opt_nl o h2) h5.text (.gap (hgap_append h3
          (show HGap (if o.formatted then '\n' :: indent o 0 else []) by
            split
            · exact .newline (hgap_indent o 0)
            · exact .nil)))
        have := SDoc.obj (g := []) .nil this hl
        simpa using this
      · rw [LikeF.resolved h7, resolvedFields_perm h4, ← hr]
        exact .obj h4 h7

end Render
end Hocon
