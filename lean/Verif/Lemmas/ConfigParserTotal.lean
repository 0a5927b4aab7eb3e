import Verif.Lemmas.ConfigParserLemmas
import Verif.Lemmas.DocParserTotal
import Verif.Lemmas.DocReplace

/-!
# Totality of the config parser

The functions of the config parser run out of fuel only when the includer does, and are undefined
only for trees the document parser never builds (or when the includer is).
-/

set_option autoImplicit false

namespace Hocon

theorem Res.Sat.ne_fuel {α : Type} {bad : Prop} {P : α → Prop} {x : Res α} (h : x.Sat bad P) :
    x ≠ .fuel := by
  rintro rfl; exact h

theorem Res.Sat.of_ne {α : Type} {x : Res α} (h : x ≠ .fuel) {bad : Prop} (hb : bad)
    {P : α → Prop} (hp : ∀ a, P a) : x.Sat bad P := by
  cases x with
  | ok a => exact hp a
  | err e => trivial
  | ub => exact hb
  | fuel => exact h rfl

namespace Value

theorem constructDelayedMerge_sat (bad : Prop) (v : Value) (st : List Value) :
    (constructDelayedMerge v st).Sat bad
      (fun w => w.isConcat = false ∧ (v.isObject = true → w.isObject = true)) := by
  unfold constructDelayedMerge mkDm mkDmo
  split
  · split
    · trivial
    · split
      · split
        · trivial
        · exact ⟨rfl, fun _ => rfl⟩
      · trivial
  · rename_i h
    split
    · trivial
    · exact ⟨rfl, fun h' => absurd h' h⟩

theorem mergedWithNonObject_sat (bad : Prop) (v fb : Value) (h : v.isConcat = false ∨ v.resolved = false) :
    (mergedWithNonObject v fb).Sat bad
      (fun w => w.isConcat = false ∧ (v.isObject = true → w.isObject = true)) := by
  unfold mergedWithNonObject
  split
  · rename_i hr
    have hc : v.isConcat = false := by
      rcases h with h | h
      · exact h
      · rw [hr] at h; cases h
    unfold withFallbacksIgnored
    split
    · exact ⟨rfl, fun _ => rfl⟩
    · split
      · exact ⟨hc, id⟩
      · trivial
  · exact constructDelayedMerge_sat bad v _

mutual
theorem withFallback_sat (bad : Prop) : (a b : Value) → (withFallback a b).Sat bad
    (fun w => w.isConcat = false ∧ (a.isObject = true → w.isObject = true))
  | .scalar s, b => by rw [withFallback.eq_def]; exact ⟨rfl, id⟩
  | .list vs, b => by
    rw [withFallback.eq_def]
    simp only
    split
    · exact ⟨rfl, id⟩
    · split
      · exact constructDelayedMerge_sat bad _ _
      · exact mergedWithNonObject_sat bad _ _ (.inl rfl)
  | .obj fs r i, b => by
    rw [withFallback.eq_def]
    simp only
    split
    · exact ⟨rfl, id⟩
    · split
      · exact constructDelayedMerge_sat bad _ _
      · split
        · refine (mergeFields_sat bad fs _).bind ?_
          intro m _ _
          exact ⟨rfl, fun _ => rfl⟩
        · exact mergedWithNonObject_sat bad _ _ (.inl rfl)
  | .ref n p o k, b => by
    rw [withFallback.eq_def]
    simp only
    split
    · exact constructDelayedMerge_sat bad _ _
    · exact mergedWithNonObject_sat bad _ _ (.inl rfl)
  | .concat ps, b => by
    rw [withFallback.eq_def]
    simp only
    split
    · exact constructDelayedMerge_sat bad _ _
    · exact mergedWithNonObject_sat bad _ _ (.inr rfl)
  | .dm st, b => by
    rw [withFallback.eq_def]
    simp only
    split
    · exact ⟨rfl, id⟩
    · split
      · exact constructDelayedMerge_sat bad _ _
      · exact mergedWithNonObject_sat bad _ _ (.inl rfl)
  | .dmo st, b => by
    rw [withFallback.eq_def]
    simp only
    split
    · exact ⟨rfl, id⟩
    · split
      · exact constructDelayedMerge_sat bad _ _
      · split
        · trivial
        · exact mergedWithNonObject_sat bad _ _ (.inl rfl)
theorem mergeFields_sat (bad : Prop) : (fs gs : Fields) →
    (mergeFields fs gs).Sat bad (fun _ => True)
  | [], gs => by rw [mergeFields.eq_def]; trivial
  | (k, v) :: fs, gs => by
    rw [mergeFields.eq_def]
    simp only
    refine Res.Sat.bind (P := fun _ => True) ?_ fun _ _ _ =>
      (mergeFields_sat bad fs gs).bind fun _ _ _ => trivial
    split
    · trivial
    · exact (withFallback_sat bad v _).mono fun _ _ _ => trivial
end

/-- Joining pieces that are no concatenations. -/
theorem join_sat (bad : Prop) (env : Env) (a b : Value) : (join env a b).Sat bad
    (fun o => ∀ w, o = some w → (a.isConcat = false → w.isConcat = false)) := by
  unfold join
  repeat' split
  all_goals try trivial
  · refine (withFallback_sat bad b a).bind ?_
    rintro w _ hw w' ⟨⟩ _
    exact hw.1
  · rintro w ⟨⟩ h
    cases a with
    | list => cases b <;> rfl
    | _ => exact h
  · rintro w ⟨⟩ h; exact h
  · rintro w ⟨⟩
  · rintro w ⟨⟩ _; rfl

theorem joinLoop_sat (bad : Prop) (env : Env) (done : List Value) (a : Value) (vs : List Value)
    (hd : ∀ v ∈ done, v.isConcat = false) (ha : a.isConcat = false)
    (hv : ∀ v ∈ vs, v.isConcat = false) :
    (joinLoop env done a vs).Sat bad (fun r => r ≠ [] ∧ ∀ v ∈ r, v.isConcat = false) := by
  induction vs generalizing done a with
  | nil =>
    rw [joinLoop]
    refine ⟨by simp, fun v hv => ?_⟩
    rcases List.mem_append.1 hv with h | h
    · exact hd v h
    · rw [List.mem_singleton.1 h]; exact ha
  | cons v vs ih =>
    rw [joinLoop]
    refine (join_sat bad env a v).bind fun o _ ho => ?_
    cases o with
    | none =>
      refine ih _ _ (fun w hw => ?_) (hv v (List.mem_cons_self ..))
        (fun w hw => hv w (List.mem_cons_of_mem _ hw))
      rcases List.mem_append.1 hw with h | h
      · exact hd w h
      · rw [List.mem_singleton.1 h]; exact ha
    | some j =>
      exact ih _ _ hd (ho j rfl ha) (fun w hw => hv w (List.mem_cons_of_mem _ hw))

/-- A concatenation has pieces, none of which is a concatenation. -/
def FlatConcat (v : Value) : Prop := ∀ ps, v = .concat ps → ps ≠ [] ∧ ∀ p ∈ ps, p.isConcat = false

theorem FlatConcat.of_not {v : Value} (h : v.isConcat = false) : FlatConcat v := by
  rintro ps rfl
  cases h

theorem flattenPieces_spec {ps : List Value} (h : ∀ v ∈ ps, FlatConcat v) :
    (ps ≠ [] → flattenPieces ps ≠ []) ∧ ∀ v ∈ flattenPieces ps, v.isConcat = false := by
  induction ps with
  | nil => exact ⟨id, by simp [flattenPieces]⟩
  | cons v vs ih =>
    obtain ⟨_, ih⟩ := ih fun w hw => h w (List.mem_cons_of_mem _ hw)
    have hv := h v (List.mem_cons_self ..)
    cases v with
    | concat ps =>
      obtain ⟨h1, h2⟩ := hv ps rfl
      refine ⟨fun _ => by simp [flattenPieces, h1], fun w hw => ?_⟩
      rw [flattenPieces] at hw
      rcases List.mem_append.1 hw with hw | hw
      · exact h2 w hw
      · exact ih w hw
    | _ =>
      refine ⟨fun _ => by simp [flattenPieces], fun w hw => ?_⟩
      rw [flattenPieces.eq_def] at hw
      simp only at hw
      rcases List.mem_cons.1 hw with rfl | hw
      · rfl
      · exact ih w hw

theorem mkConcat_sat (bad : Prop) (ps : List Value) : (mkConcat ps).Sat bad FlatConcat := by
  unfold mkConcat
  split
  · trivial
  · rename_i h
    split
    · trivial
    · rename_i h2
      split
      · rintro qs ⟨⟩
        refine ⟨by rintro rfl; simp at h, fun p hp => ?_⟩
        simp only [List.any_eq_true, not_exists, not_and, Bool.not_eq_true] at h2
        exact h2 p hp
      · trivial

theorem concatenate_sat (bad : Prop) (env : Env) (ps : List Value) (h : ∀ v ∈ ps, FlatConcat v) :
    (concatenate env ps).Sat bad
      (fun o => (ps ≠ [] → o ≠ none) ∧ ∀ v, o = some v → FlatConcat v) := by
  unfold concatenate
  have hc : (consolidate env ps).Sat bad (fun r => (ps ≠ [] → r ≠ []) ∧ ∀ v ∈ r, FlatConcat v) := by
    unfold consolidate
    split
    · exact ⟨id, h⟩
    · obtain ⟨h1, h2⟩ := flattenPieces_spec h
      split
      · rename_i hf
        exact ⟨fun hn => absurd hf (h1 hn), fun v hv => by simp at hv⟩
      · rename_i v vs hf
        rw [hf] at h2
        exact (joinLoop_sat bad env [] v vs (by simp) (h2 v (List.mem_cons_self ..))
          (fun w hw => h2 w (List.mem_cons_of_mem _ hw))).mono
          fun _ _ h => ⟨fun _ => h.1, fun v hv => .of_not (h.2 v hv)⟩
  refine hc.bind fun c _ hc => ?_
  split
  · exact ⟨fun hn => absurd rfl (hc.1 hn), by rintro v ⟨⟩⟩
  · exact ⟨fun _ => by simp, by rintro v ⟨⟩; exact hc.2 _ (by simp)⟩
  · refine (mkConcat_sat bad _).bind fun v _ hv => ?_
    exact ⟨fun _ => by simp, by rintro v ⟨⟩; exact hv⟩

end Value

namespace ConfigParser
open Value PathParser DocParser

theorem parsePathExpression_sat (bad : Prop) (env : Env) (toks : List Tok) :
    (parsePathExpression env true toks).Sat bad (fun _ => True) := by
  have hp : ∀ ts es, (plainLoop env true es ts).Sat bad (fun _ => True) := by
    intro ts
    induction ts with
    | nil => intro es; trivial
    | cons t ts ih =>
      intro es
      rw [plainLoop.eq_def]
      simp only
      split <;> first | exact ih _ | trivial
  unfold parsePathExpression
  split
  · trivial
  · refine (hp _ _).bind fun es _ _ => ?_
    unfold finish
    split
    · trivial
    · trivial

theorem getValue_sat (bad : Prop) (env : Env) (t : Tok) (n : Nat) :
    (getValue env t n).Sat bad (fun x => x.1.isConcat = false) := by
  unfold getValue
  split
  · exact rfl
  · exact rfl
  · exact (parsePathExpression_sat bad env _).bind fun p _ _ => rfl
  · trivial

theorem includeName_sat (bad : Prop) (env : Env) (cs : List Node) (n : Nat) :
    (includeName env cs n).Sat bad (fun _ => True) := by
  induction cs with
  | nil => trivial
  | cons c cs ih =>
    rw [includeName.eq_def]
    split
    · trivial
    · exact (getValue_sat bad env _ _).bind fun x _ _ => trivial
    · rename_i heq
      cases heq
      exact ih

theorem createValueUnderPath_sat (bad : Prop) (p : Path) (v : Value) (h : p ≠ []) :
    (createValueUnderPath p v).Sat bad (fun _ => True) := by
  induction p with
  | nil => exact absurd rfl h
  | cons k p ih =>
    cases p with
    | nil => rw [createValueUnderPath]; trivial
    | cons k' p =>
      rw [createValueUnderPath]
      · exact (ih (by simp)).bind fun _ _ _ => trivial
      · simp

theorem putMerged_sat (bad : Prop) (fs : Fields) (k : Str) (v : Value) :
    (putMerged fs k v).Sat bad (fun _ => True) := by
  unfold putMerged
  split
  · trivial
  · exact (withFallback_sat bad _ _).bind fun _ _ _ => trivial

theorem putField_sat (bad : Prop) (json : Bool) (fs : Fields) (p : Path) (v : Value)
    (h : bad ∨ p ≠ []) : (putField json fs p v).Sat bad (fun _ => True) := by
  unfold putField
  split
  · rcases h with h | h
    · exact h
    · exact absurd rfl h
  · split
    · trivial
    · exact putMerged_sat bad _ _ _
  · rename_i hne
    split
    · trivial
    · exact (createValueUnderPath_sat bad _ _ hne).bind fun _ _ _ => putMerged_sat bad _ _ _

theorem putAll_sat (bad : Prop) (fs gs : Fields) : (putAll fs gs).Sat bad (fun _ => True) := by
  induction gs generalizing fs with
  | nil => trivial
  | cons g gs ih =>
    obtain ⟨k, v⟩ := g
    rw [putAll]
    exact (putMerged_sat bad _ _ _).bind fun _ _ _ => ih _

/-- The result of including `cs`: undefined only if `bad`, and then an object. -/
def IncSat (bad : Prop) (env : Env) (inc : Includer) (kind : IncludeKind) (cs : List Node) : Prop :=
  ∀ n, (callIncluder env inc kind cs n).Sat bad (fun x => bad ∨ x.1.isObject = true)

theorem parseInclude_sat (bad : Prop) (env : Env) (inc : Includer) (arr : Nat) (kind : IncludeKind)
    (cs : List Node) (fs : Fields) (n : Nat) (h : IncSat bad env inc kind cs) :
    (parseInclude env inc arr kind cs fs n).Sat bad (fun _ => True) := by
  unfold parseInclude
  refine (h n).bind ?_
  rintro ⟨o, n'⟩ _ ho
  simp only at ho ⊢
  refine Res.Sat.bind (P := fun _ => True) ?_ fun _ _ _ => trivial
  unfold putIncluded
  split
  · trivial
  · split
    · exact putAll_sat bad _ _
    · trivial
    · rename_i h1 h2
      rcases ho with h | h
      · exact h
      · exfalso
        cases o <;> simp_all [isObject]

mutual
/-- The trees for which the config parser is defined: fields have a non-empty path, concatenations
have a value, and including what they include is defined. -/
def Sound (bad : Prop) (Q : IncludeKind → List Node → Prop) : Node → Prop
  | .field cs => (bad ∨ ∃ k ks ts, Node.fieldPath cs = .ok (k :: ks, ts)) ∧ SoundL bad Q cs
  | .concat cs => (bad ∨ ∃ c ∈ cs, c.isValue = true) ∧ SoundL bad Q cs
  | .object cs => SoundL bad Q cs
  | .array cs => SoundL bad Q cs
  | .incl cs kind => Q kind cs
  | _ => True
def SoundL (bad : Prop) (Q : IncludeKind → List Node → Prop) : List Node → Prop
  | [] => True
  | c :: cs => Sound bad Q c ∧ SoundL bad Q cs
end

theorem fieldPath_sat (bad : Prop) (cs : List Node)
    (h : bad ∨ ∃ k ks ts, Node.fieldPath cs = .ok (k :: ks, ts)) :
    (Node.fieldPath cs).Sat bad (fun x => bad ∨ x.1 ≠ []) := by
  rcases h with h | ⟨k, ks, ts, h⟩
  · exact .of_ne (DocEdit.fieldPath_ne_fuel cs) h fun _ => .inl h
  · rw [h]; exact .inr (by simp)

theorem plusValue_sat (bad : Prop) (env : Env) (p : Path) (v : Value) (n : Nat) :
    (plusValue env p v n).Sat bad (fun _ => True) := by
  unfold plusValue
  refine (concatenate_sat bad env _ ?_).bind fun o _ ho => ?_
  · intro w hw
    simp only [List.mem_cons, List.not_mem_nil, or_false] at hw
    rcases hw with rfl | rfl <;> exact .of_not rfl
  · cases o with
    | none => exact absurd rfl (ho.1 (by simp))
    | some c => trivial

mutual
theorem parseValue_sat (bad : Prop) (env : Env) (inc : Includer) (json : Bool) (arr : Nat)
    (outer : Option Path) : (v : Node) → (n : Nat) → Sound bad (IncSat bad env inc) v →
    (parseValue env inc json arr outer v n).Sat bad (fun x => FlatConcat x.1)
  | .simple t, n, _ => by
    rw [parseValue]
    exact (getValue_sat bad env t n).mono fun _ _ h => .of_not h
  | .object cs, n, h => by
    rw [parseValue]
    exact (parseFields_sat bad env inc json arr outer cs [] n h).bind fun _ _ _ => .of_not rfl
  | .array cs, n, h => by
    rw [parseValue]
    exact (parseElems_sat bad env inc json _ outer cs n h).bind fun _ _ _ => .of_not rfl
  | .concat cs, n, h => by
    rw [parseValue]
    rw [Sound] at h
    split
    · trivial
    · refine (parseElems_sat bad env inc json _ outer cs n h.2).bind ?_
      rintro ⟨vs, m⟩ _ hv
      simp only
      refine (concatenate_sat bad env vs hv.1).bind fun o _ ho => ?_
      refine Res.Sat.bind (P := FlatConcat) ?_ fun w _ hw => hw
      cases o with
      | some w => exact ho.2 w rfl
      | none =>
        rcases h.1 with hb | hb
        · exact hb
        · exact absurd rfl (ho.1 (hv.2 hb))
  | .single _, _, _ => by rw [parseValue.eq_def]; trivial
  | .comment _, _, _ => by rw [parseValue.eq_def]; trivial
  | .path .., _, _ => by rw [parseValue.eq_def]; trivial
  | .field _, _, _ => by rw [parseValue.eq_def]; trivial
  | .incl .., _, _ => by rw [parseValue.eq_def]; trivial
theorem parseElems_sat (bad : Prop) (env : Env) (inc : Includer) (json : Bool) (arr : Nat)
    (outer : Option Path) : (cs : List Node) → (n : Nat) → SoundL bad (IncSat bad env inc) cs →
    (parseElems env inc json arr outer cs n).Sat bad
      (fun x => (∀ v ∈ x.1, FlatConcat v) ∧ ((∃ c ∈ cs, c.isValue = true) → x.1 ≠ []))
  | [], n, _ => by rw [parseElems]; exact ⟨by simp, by simp⟩
  | c :: cs, n, h => by
    rw [parseElems]
    rw [SoundL] at h
    split
    · refine (parseValue_sat bad env inc json arr outer c n h.1).bind ?_
      rintro ⟨v, n1⟩ _ hv
      simp only
      refine (parseElems_sat bad env inc json arr outer cs n1 h.2).bind ?_
      rintro ⟨vs, n2⟩ _ hvs
      refine ⟨fun w hw => ?_, fun _ => by simp⟩
      rcases List.mem_cons.1 hw with rfl | hw
      · exact hv
      · exact hvs.1 w hw
    · rename_i hc
      refine (parseElems_sat bad env inc json arr outer cs n h.2).mono fun x _ hx => ⟨hx.1, ?_⟩
      rintro ⟨d, hd, hd2⟩
      rcases List.mem_cons.1 hd with rfl | hd
      · exact absurd hd2 hc
      · exact hx.2 ⟨d, hd, hd2⟩
theorem parseFieldValue_sat (bad : Prop) (env : Env) (inc : Includer) (json : Bool) (arr : Nat)
    (outer : Option Path) : (cs : List Node) → (n : Nat) → SoundL bad (IncSat bad env inc) cs →
    (parseFieldValue env inc json arr outer cs n).Sat bad (fun _ => True)
  | [], n, _ => by rw [parseFieldValue]; trivial
  | c :: cs, n, h => by
    rw [parseFieldValue]
    rw [SoundL] at h
    split
    · exact (parseValue_sat bad env inc json arr outer c n h.1).mono fun _ _ _ => trivial
    · exact parseFieldValue_sat bad env inc json arr outer cs n h.2
theorem parseFields_sat (bad : Prop) (env : Env) (inc : Includer) (json : Bool) (arr : Nat)
    (outer : Option Path) : (cs : List Node) → (fs : Fields) → (n : Nat) →
    SoundL bad (IncSat bad env inc) cs →
    (parseFields env inc json arr outer cs fs n).Sat bad (fun _ => True)
  | [], fs, n, _ => by rw [parseFields]; trivial
  | .incl ics kind :: rest, fs, n, h => by
    rw [SoundL, Sound] at h
    rw [parseFields]
    split
    · exact parseFields_sat bad env inc json arr outer rest fs n h.2
    · exact (parseInclude_sat bad env inc arr _ _ fs n h.1).bind
        fun x _ _ => parseFields_sat bad env inc json arr outer rest _ _ h.2
  | .field cs :: rest, fs, n, h => by
    rw [SoundL, Sound] at h
    rw [parseFields]
    refine (fieldPath_sat bad cs h.1.1).bind ?_
    rintro ⟨p, ts⟩ _ hp
    simp only
    split
    · split
      · trivial
      · refine (parseFieldValue_sat bad env inc json _ _ cs n h.1.2).bind ?_
        rintro ⟨v, n1⟩ _ _
        refine (plusValue_sat bad env _ _ _).bind ?_
        rintro ⟨v, n2⟩ _ _
        refine (putField_sat bad json _ _ _ hp).bind fun fs' _ _ => ?_
        exact parseFields_sat bad env inc json arr outer rest _ _ h.2
    · refine (parseFieldValue_sat bad env inc json _ _ cs n h.1.2).bind ?_
      rintro ⟨v, n1⟩ _ _
      refine (putField_sat bad json _ _ _ hp).bind fun fs' _ _ => ?_
      exact parseFields_sat bad env inc json arr outer rest _ _ h.2
  | .simple _ :: rest, fs, n, h => by
    rw [SoundL] at h
    rw [parseFields.eq_def]
    exact parseFields_sat bad env inc json arr outer rest fs n h.2
  | .object _ :: rest, fs, n, h => by
    rw [SoundL] at h
    rw [parseFields.eq_def]
    exact parseFields_sat bad env inc json arr outer rest fs n h.2
  | .array _ :: rest, fs, n, h => by
    rw [SoundL] at h
    rw [parseFields.eq_def]
    exact parseFields_sat bad env inc json arr outer rest fs n h.2
  | .concat _ :: rest, fs, n, h => by
    rw [SoundL] at h
    rw [parseFields.eq_def]
    exact parseFields_sat bad env inc json arr outer rest fs n h.2
  | .single _ :: rest, fs, n, h => by
    rw [SoundL] at h
    rw [parseFields.eq_def]
    exact parseFields_sat bad env inc json arr outer rest fs n h.2
  | .comment _ :: rest, fs, n, h => by
    rw [SoundL] at h
    rw [parseFields.eq_def]
    exact parseFields_sat bad env inc json arr outer rest fs n h.2
  | .path .. :: rest, fs, n, h => by
    rw [SoundL] at h
    rw [parseFields.eq_def]
    exact parseFields_sat bad env inc json arr outer rest fs n h.2
end

theorem parseRoot_sat (bad : Prop) (env : Env) (inc : Includer) (json : Bool) (cs : List Node)
    (r : Option Value) (n : Nat) (h : SoundL bad (IncSat bad env inc) cs) :
    (parseRoot env inc json cs r n).Sat bad
      (fun x => (r ≠ none ∨ ∃ c ∈ cs, c.isComplex = true) → x.1 ≠ none) := by
  induction cs generalizing r n with
  | nil => rw [parseRoot]; simp [Res.Sat]
  | cons c cs ih =>
    rw [parseRoot.eq_def]
    simp only
    rw [SoundL] at h
    split
    · refine (parseValue_sat bad env inc json 0 none c n h.1).bind ?_
      rintro ⟨v, n1⟩ _ _
      exact (ih (some v) n1 h.2).mono fun x _ hx _ => hx (.inl (by simp))
    · rename_i hc
      split
      · intro _; simp
      · refine (ih r n h.2).mono fun x _ hx hh => hx ?_
        rcases hh with hh | ⟨d, hd, hd2⟩
        · exact .inl hh
        · rcases List.mem_cons.1 hd with rfl | hd
          · exact absurd hd2 hc
          · exact .inr ⟨d, hd, hd2⟩

end ConfigParser
end Hocon
