import Verif.Lemmas.RenderSubst
import Verif.Lemmas.RenderParsed

/-!
# What is read from a text with substitutions can be rendered
-/

set_option autoImplicit false

namespace Hocon
namespace Render

open Spec

mutual
/-- `Textual` except for the strings; settings with several values are allowed. -/
def Sound (env : Env) : Value → Prop
  | .scalar s => Ready env (.scalar s)
  | .list vs => (∀ v ∈ vs, Sole v) ∧ SoundL env vs
  | .obj fs r _ => (fs.map Prod.fst).Nodup ∧ r = Value.resolvedFields fs ∧ SoundF env fs
  | .ref _ _ _ pre => pre = 0
  | .concat ps => 2 ≤ ps.length ∧ (∀ v ∈ ps, Piece v) ∧ Alternate ps ∧ SoundL env ps
  | .dm st => Layers (.dm st) ∧ (∀ v ∈ st, Sole v) ∧ SoundL env st
  | .dmo st => Layers (.dmo st) ∧ (∀ v ∈ st, Sole v) ∧ SoundL env st
/-- `Sound` for all elements. -/
def SoundL (env : Env) : List Value → Prop
  | [] => True
  | v :: vs => Sound env v ∧ SoundL env vs
/-- `Sound` for all fields. -/
def SoundF (env : Env) : List (Str × Value) → Prop
  | [] => True
  | (_, v) :: fs => Sound env v ∧ SoundF env fs
end

theorem soundL_iff {env : Env} {vs : List Value} : SoundL env vs ↔ ∀ v ∈ vs, Sound env v := by
  induction vs with
  | nil => simp [SoundL]
  | cons v vs ih => simp [SoundL, ih]

theorem soundF_iff {env : Env} {fs : List (Str × Value)} : SoundF env fs ↔ ∀ f ∈ fs, Sound env f.2 := by
  induction fs with
  | nil => simp [SoundF]
  | cons f fs ih => obtain ⟨k, v⟩ := f; simp [SoundF, ih]

/-! ### With plain strings it is `Textual` -/

mutual
theorem sound_textual {env : Env} : ∀ (v : Value), Sole v → Sound env v → Spelt v → Textual env v
  | .scalar s, _, h, hp => by
    rw [Sound] at h
    rw [Textual]
    cases s with
    | str s q => exact hp
    | _ => exact h
  | .list vs, _, h, hp => by
    rw [Sound] at h; rw [Spelt] at hp; rw [Textual]
    exact soundL_textual vs h.1 h.2 hp
  | .obj fs r i, _, h, hp => by
    rw [Sound] at h; rw [Spelt] at hp; rw [Textual]
    exact ⟨h.1, h.2.1, soundF_textual fs h.2.2 hp⟩
  | .ref .., _, h, hp => by
    rw [Sound] at h; rw [Spelt] at hp; rw [Textual]
    exact ⟨h, hp⟩
  | .concat ps, _, h, hp => by
    rw [Sound] at h; rw [Spelt] at hp; rw [Textual]
    refine ⟨h.1, h.2.1, h.2.2.1, soundL_textual ps (fun v hv => ?_) h.2.2.2 hp⟩
    have := h.2.1 v hv
    cases v <;> simp_all [Piece, Sole]
  | .dm _, hs, _, _ => by simp [Sole] at hs
  | .dmo _, hs, _, _ => by simp [Sole] at hs
termination_by structural v => v
theorem soundL_textual {env : Env} : ∀ (vs : List Value), (∀ v ∈ vs, Sole v) → SoundL env vs → SpeltL vs → TextualL env vs
  | [], _, _, _ => by rw [TextualL]; trivial
  | v :: vs, hs, h, hp => by
    rw [SoundL] at h; rw [SpeltL] at hp; rw [TextualL]
    exact ⟨sound_textual v (hs v (by simp)) h.1 hp.1, soundL_textual vs (fun w hw => hs w (by simp [hw])) h.2 hp.2⟩
termination_by structural vs => vs
theorem soundF_textual {env : Env} : ∀ (fs : List (Str × Value)), SoundF env fs → SpeltF fs → TextualF env fs
  | [], _, _ => by rw [TextualF]; trivial
  | (k, .dm st) :: fs, h, hp => by
    rw [SoundF, Sound] at h; rw [SpeltF, Spelt] at hp; rw [TextualF]
    exact ⟨hp.1, ⟨h.1.1, soundL_textual st h.1.2.1 h.1.2.2 hp.2.1⟩, soundF_textual fs h.2 hp.2.2⟩
  | (k, .dmo st) :: fs, h, hp => by
    rw [SoundF, Sound] at h; rw [SpeltF, Spelt] at hp; rw [TextualF]
    exact ⟨hp.1, ⟨h.1.1, soundL_textual st h.1.2.1 h.1.2.2 hp.2.1⟩, soundF_textual fs h.2 hp.2.2⟩
  | (k, .scalar s) :: fs, h, hp => by
    rw [SoundF] at h; rw [SpeltF] at hp; rw [TextualF]
    · exact ⟨hp.1, sound_textual _ trivial h.1 hp.2.1, soundF_textual fs h.2 hp.2.2⟩
    all_goals simp
  | (k, .list vs) :: fs, h, hp => by
    rw [SoundF] at h; rw [SpeltF] at hp; rw [TextualF]
    · exact ⟨hp.1, sound_textual _ trivial h.1 hp.2.1, soundF_textual fs h.2 hp.2.2⟩
    all_goals simp
  | (k, .obj gs r i) :: fs, h, hp => by
    rw [SoundF] at h; rw [SpeltF] at hp; rw [TextualF]
    · exact ⟨hp.1, sound_textual _ trivial h.1 hp.2.1, soundF_textual fs h.2 hp.2.2⟩
    all_goals simp
  | (k, .ref id p opt pre) :: fs, h, hp => by
    rw [SoundF] at h; rw [SpeltF] at hp; rw [TextualF]
    · exact ⟨hp.1, sound_textual _ trivial h.1 hp.2.1, soundF_textual fs h.2 hp.2.2⟩
    all_goals simp
  | (k, .concat ps) :: fs, h, hp => by
    rw [SoundF] at h; rw [SpeltF] at hp; rw [TextualF]
    · exact ⟨hp.1, sound_textual _ trivial h.1 hp.2.1, soundF_textual fs h.2 hp.2.2⟩
    all_goals simp
termination_by structural fs => fs
end

/-! ### Meanings are sound -/

theorem given_sound {env : Env} {v : Value} (h : Sound env v) :
    (Sole v ∨ Layers v) ∧ (∀ w ∈ given v, Sole w) ∧ SoundL env (given v) := by
  cases v with
  | dm st => rw [Sound] at h; exact ⟨Or.inr h.1, h.2⟩
  | dmo st => rw [Sound] at h; exact ⟨Or.inr h.1, h.2⟩
  | _ => exact ⟨Or.inl trivial, by simp [given, Sole], by simp [given, SoundL, h]⟩

theorem layF_keys {fs gs hs : Fields} (h : LayF fs gs hs) : hs.map Prod.fst = fs.map Prod.fst := by
  induction fs generalizing hs with
  | nil => cases h; rfl
  | cons f fs ih =>
    cases h with
    | new _ h => simp [ih h]
    | old _ _ h => simp [ih h]

theorem open_sole {v : Value} (h : Open v) : Sole v := by cases h <;> trivial

mutual
theorem lay_sound {env : Env} : {v old w : Value} → Lay v old w → Sound env v → Sound env old → Sound env w
  | _, _, _, .hide _, hv, _ => hv
  | _, _, _, .hideAll _, hv, _ => hv
  | _, _, _, .hideAllO _, hv, _ => hv
  | _, old, _, .wait ho, hv, hold => by
    obtain ⟨h1, h2, h3⟩ := given_sound hold
    rw [Sound, SoundL]
    refine ⟨?_, ?_, hv, h3⟩
    · rcases h1 with h1 | h1
      · rw [given_sole h1]; exact .wait ho
      · exact .waitMore h1 ho
    · intro w hw
      rcases List.mem_cons.1 hw with rfl | hw
      · exact open_sole ho
      · exact h2 w hw
  | _, old, _, .waitO hu _, hv, hold => by
    obtain ⟨h1, h2, h3⟩ := given_sound hold
    rw [Sound, SoundL]
    refine ⟨?_, ?_, hv, h3⟩
    · rcases h1 with h1 | h1
      · rw [given_sole h1]; exact .over hu
      · exact .overMore h1
    · intro w hw
      rcases List.mem_cons.1 hw with rfl | hw
      · trivial
      · exact h2 w hw
  | .obj fs r _, .obj gs r' j, _, .merge (hs := hs) hl he, hv, hold => by
    rw [Sound] at hv hold ⊢
    refine ⟨?_, rfl, ?_⟩
    · subst he
      rw [List.map_append, layF_keys hl]
      refine List.nodup_append.2 ⟨hv.1, (List.filter_sublist.map _).nodup hold.1, ?_⟩
      rintro k hk k' hk' rfl
      obtain ⟨g, hg, rfl⟩ := List.mem_map.1 hk'
      obtain ⟨f, hf, hfe⟩ := List.mem_map.1 hk
      have := (List.mem_filter.1 hg).2
      simp only [Bool.not_eq_true', List.any_eq_false, beq_iff_eq] at this
      exact this f hf hfe
    · have := layF_sound hl hv.2.2 hold.2.2
      rw [soundF_iff] at this ⊢
      intro f hf
      rcases List.mem_append.1 hf with hf | hf
      · exact this f hf
      · subst he
        exact soundF_iff.1 hold.2.2 f (List.mem_filter.1 hf).1
  | _, _, _, .close _, hv, _ => by rw [Sound] at hv ⊢; exact hv
  | _, old, _, .above hn, hv, hold => by
    rw [Sound, SoundL, SoundL, SoundL]
    refine ⟨.above hn, ?_, hv, hold, trivial⟩
    intro w hw
    simp only [List.mem_cons, List.not_mem_nil, or_false] at hw
    rcases hw with rfl | rfl
    · trivial
    · cases w <;> first | trivial | simp [NotObj] at hn
theorem layF_sound {env : Env} : {fs gs hs : Fields} → LayF fs gs hs → SoundF env fs → SoundF env gs → SoundF env hs
  | _, _, _, .nil, _, _ => by rw [SoundF]; trivial
  | _, _, _, .new _ h, hf, hg => by
    rw [SoundF] at hf ⊢
    exact ⟨hf.1, layF_sound h hf.2 hg⟩
  | _, _, _, .old (old := old) (k := k) (gs1 := gs1) (gs2 := gs2) _ hl h, hf, hg => by
    rw [SoundF] at hf ⊢
    exact ⟨lay_sound hl hf.1 (soundF_iff.1 hg (k, old) (by simp)), layF_sound h hf.2 hg⟩
end

theorem nested_sound {env : Env} {v : Value} (h : Sound env v) (p : Path) : Sound env (nested p v) := by
  induction p with
  | nil => exact h
  | cons k p ih =>
    rw [nested, Sound, SoundF, SoundF]
    refine ⟨by simp, ?_, ih, trivial⟩
    simp [Value.resolvedFields, (SubstRun.nested_eq p v).2]

theorem assigns_sound {env : Env} {fs gs : Fields} {p : Path} {v : Value} (h : Assigns fs p v gs)
    (hf : (fs.map Prod.fst).Nodup ∧ SoundF env fs) (hv : Sound env v) : (gs.map Prod.fst).Nodup ∧ SoundF env gs := by
  cases h with
  | @new _ k p _ hn =>
    refine ⟨?_, ?_⟩
    · rw [List.map_append, List.nodup_append]
      refine ⟨hf.1, by simp, ?_⟩
      rintro a ha b hb rfl
      obtain ⟨f, hf', rfl⟩ := List.mem_map.1 ha
      simp only [List.map_cons, List.map_nil, List.mem_singleton] at hb
      exact hn f hf' hb
    · rw [soundF_iff]
      intro f hf'
      rcases List.mem_append.1 hf' with hf' | hf'
      · exact soundF_iff.1 hf.2 f hf'
      · obtain rfl := List.mem_singleton.1 hf'
        exact nested_sound hv p
  | @old fs gs k p _ old w hn hl =>
    refine ⟨by simpa using hf.1, ?_⟩
    have hold := soundF_iff.1 hf.2 (k, old) (by simp)
    rw [soundF_iff]
    intro f hf'
    rcases List.mem_append.1 hf' with hf' | hf'
    · exact soundF_iff.1 hf.2 f (by simp [hf'])
    · rcases List.mem_cons.1 hf' with rfl | hf'
      · exact lay_sound hl (nested_sound hv p) hold
      · exact soundF_iff.1 hf.2 f (by simp [hf'])

theorem joins_head {env : Env} {vs ws : List Value} (h : Joins env vs ws) {v : Value} {us : List Value} (e : vs = v :: us)
    (hr : IsRef v) : ∃ us', ws = v :: us' := by
  cases h with
  | one => cases e; exact ⟨_, rfl⟩
  | text => cases e; simp [IsRef] at hr
  | lists => cases e; simp [IsRef] at hr
  | objects => cases e; simp [IsRef] at hr
  | apart => cases e; exact ⟨_, rfl⟩

theorem joins_sound {env : Env} {vs ws : List Value} (h : Joins env vs ws) (hv : SoundL env vs) :
    SoundL env ws ∧ Alternate ws := by
  induction h with
  | one => exact ⟨hv, by simp [Alternate]⟩
  | text _ _ _ ih =>
    rw [SoundL, SoundL] at hv
    exact ih (by rw [SoundL]; exact ⟨by simp [Sound, Ready], hv.2.2⟩)
  | lists _ ih =>
    rw [SoundL, SoundL, Sound, Sound] at hv
    refine ih ?_
    rw [SoundL, Sound]
    refine ⟨⟨?_, ?_⟩, hv.2.2⟩
    · intro v hm
      rcases List.mem_append.1 hm with hm | hm
      · exact hv.1.1 v hm
      · exact hv.2.1.1 v hm
    · rw [soundL_iff]
      intro v hm
      rcases List.mem_append.1 hm with hm | hm
      · exact soundL_iff.1 hv.1.2 v hm
      · exact soundL_iff.1 hv.2.1.2 v hm
  | objects hl _ ih =>
    rw [SoundL, SoundL] at hv
    exact ih (by rw [SoundL]; exact ⟨lay_sound hl hv.2.1 hv.1, hv.2.2⟩)
  | @apart a b vs ws ha hb hr hj ih =>
    rw [SoundL] at hv
    obtain ⟨h1, h2⟩ := ih hv.2
    refine ⟨by rw [SoundL]; exact ⟨hv.1, h1⟩, ?_⟩
    cases ws with
    | nil => simp [Alternate]
    | cons c ws =>
      rw [Alternate]
      refine ⟨?_, h2⟩
      rcases hr with hr | hr
      · exact Or.inl hr
      · obtain ⟨us, e⟩ := joins_head hj rfl hr
        cases e
        exact Or.inr hr

mutual
/-- Every number in the syntax can be written. -/
def SynReady (env : Env) : Syn → Prop
  | .scalar s => Ready env (.scalar s)
  | .ref .. => True
  | .list vs => SynReadyL env vs
  | .obj ms => SynReadyM env ms
  | .concat ps => SynReadyL env ps
/-- `SynReady` for all elements. -/
def SynReadyL (env : Env) : List Syn → Prop
  | [] => True
  | s :: ss => SynReady env s ∧ SynReadyL env ss
/-- `SynReady` for all members. -/
def SynReadyM (env : Env) : List (Path × Bool × Syn) → Prop
  | [] => True
  | (_, _, s) :: ms => SynReady env s ∧ SynReadyM env ms
end

theorem piece_sole {v : Value} (h : Piece v) : Sole v := by
  cases v <;> first | trivial | simp [Piece] at h

mutual
theorem means_sound {env : Env} : {s : Syn} → {n m : Nat} → {v : Value} → Means env s n v m → SynReady env s →
    Sole v ∧ Sound env v
  | _, _, _, _, .scalar, h => by rw [SynReady] at h; exact ⟨trivial, by rw [Sound]; exact h⟩
  | _, _, _, _, .ref, _ => ⟨trivial, by rw [Sound]⟩
  | _, _, _, _, .list hl, h => by
    rw [SynReady] at h
    have := meansL_sound hl h
    exact ⟨trivial, by rw [Sound]; exact this⟩
  | _, _, _, _, .obj hm, h => by
    rw [SynReady] at h
    have := meansM_sound hm h ⟨.nil, by rw [SoundF]; trivial⟩
    exact ⟨trivial, by rw [Sound]; exact ⟨this.1, rfl, this.2⟩⟩
  | _, _, _, _, .whole _ hl hj, h => by
    rw [SynReady] at h
    have h1 := meansL_sound hl h
    have h2 := joins_sound hj h1.2
    rw [SoundL] at h2
    exact ⟨piece_sole (SubstRun.joins_all hj _ (by simp)), h2.1.1⟩
  | _, _, _, _, .pieces hl hj h2, h => by
    rw [SynReady] at h
    have h1 := meansL_sound hl h
    have h3 := joins_sound hj h1.2
    exact ⟨trivial, by rw [Sound]; exact ⟨h2, SubstRun.joins_all hj, h3.2, h3.1⟩⟩
termination_by structural _ _ _ _ h => h
theorem meansL_sound {env : Env} : {ss : List Syn} → {n m : Nat} → {vs : List Value} → MeansL env ss n vs m → SynReadyL env ss →
    (∀ v ∈ vs, Sole v) ∧ SoundL env vs
  | _, _, _, _, .nil, _ => ⟨by simp, by rw [SoundL]; trivial⟩
  | _, _, _, _, .cons h hs, hr => by
    rw [SynReadyL] at hr
    have h1 := means_sound h hr.1
    have h2 := meansL_sound hs hr.2
    rw [SoundL]
    refine ⟨?_, h1.2, h2.2⟩
    intro v hv
    rcases List.mem_cons.1 hv with rfl | hv
    · exact h1.1
    · exact h2.1 v hv
termination_by structural _ _ _ _ h => h
theorem meansM_sound {env : Env} : {top : Bool} → {ms : List (Path × Bool × Syn)} → {fs gs : Fields} → {n m : Nat} →
    MeansM env top ms fs n gs m → SynReadyM env ms → (fs.map Prod.fst).Nodup ∧ SoundF env fs →
    (gs.map Prod.fst).Nodup ∧ SoundF env gs
  | _, _, _, _, _, _, .nil, _, hf => hf
  | _, _, _, _, _, _, .set hm ha hms, hr, hf => by
    rw [SynReadyM] at hr
    exact meansM_sound hms hr.2 (assigns_sound ha hf (means_sound hm hr.1).2)
  | _, _, _, _, _, _, .add hm ha hms, hr, hf => by
    rw [SynReadyM] at hr
    have h1 := means_sound hm hr.1
    refine meansM_sound hms hr.2 (assigns_sound ha hf ?_)
    simp only [Sound, SoundL, List.length_cons, List.length_nil]
    refine ⟨by omega, by simp [Piece], by simp [Alternate, IsRef], trivial, ⟨by simpa using h1.1, h1.2, trivial⟩, trivial⟩
termination_by structural _ _ _ _ _ _ h => h
end

/-- `SynReady` for parts. -/
def SynPart (env : Env) : SPart → Prop
  | .value s => SynReady env s
  | .elems ss => SynReadyL env ss
  | .member m => SynReady env m.2.2
  | .members ms => SynReadyM env ms
  | .pieces ss => SynReadyL env ss

theorem stext_ready {env : Env} (hnan : NoNaN env) {k : SPart} {t : Str} (h : SText env (Numeral env) k t) :
    SynPart env k := by
  induction h with
  | atom h => rw [SynPart, SynReady]; exact atom_ready hnan h
  | subst => simp [SynPart, SynReady]
  | concat _ _ ih => rw [SynPart, SynReady]; exact ih
  | emptyArr => simp [SynPart, SynReady, SynReadyL]
  | arr _ _ _ ih => rw [SynPart, SynReady]; exact ih
  | emptyObj => simp [SynPart, SynReady, SynReadyM]
  | obj _ _ _ ih => rw [SynPart, SynReady]; exact ih
  | elem _ ih => rw [SynPart, SynReadyL, SynReadyL]; exact ⟨ih, trivial⟩
  | elemCons _ _ _ ih ih2 => rw [SynPart, SynReadyL]; exact ⟨ih, ih2⟩
  | field _ _ _ _ _ ih => exact ih
  | plus _ _ _ _ ih => exact ih
  | sect _ _ _ ih => exact ih
  | @last _ m _ ih => obtain ⟨p, b, s⟩ := m; rw [SynPart, SynReadyM, SynReadyM]; exact ⟨ih, trivial⟩
  | @memberCons _ _ _ m _ _ _ _ ih ih2 => obtain ⟨p, b, s⟩ := m; rw [SynPart, SynReadyM]; exact ⟨ih, ih2⟩
  | piece _ _ ih => rw [SynPart, SynReadyL, SynReadyL]; exact ⟨ih, trivial⟩
  | touch _ _ _ _ ih ih2 => rw [SynPart, SynReadyL]; exact ⟨ih, ih2⟩
  | apart _ _ _ _ _ _ ih ih2 => rw [SynPart, SynReadyL]; exact ⟨ih, ih2⟩
  | blank _ _ _ _ _ _ ih ih2 =>
    rw [SynPart, SynReadyL, SynReadyL, SynReady]
    exact ⟨ih, by simp [Ready], ih2⟩

theorem sdoc_sound {env : Env} (hnan : NoNaN env) {s : Syn} {t : Str} {v : Value} {n m : Nat}
    (h : SDoc env (Numeral env) s t) (hm : DocMeans env s n v m) : Sole v ∧ Sound env v := by
  have hr : SynReady env s := by
    cases h with
    | list _ h => exact stext_ready hnan h
    | obj _ h => exact stext_ready hnan h
    | empty => simp [SynReady, SynReadyM]
    | open_ _ h => rw [SynReady]; exact stext_ready hnan h
    | openComma _ h => rw [SynReady]; exact stext_ready hnan h
  cases hm with
  | obj hm =>
    rw [SynReady] at hr
    have := meansM_sound hm hr ⟨.nil, by rw [SoundF]; trivial⟩
    exact ⟨trivial, by rw [Sound]; exact ⟨this.1, rfl, this.2⟩⟩
  | list hl =>
    rw [SynReady] at hr
    have := meansL_sound hl hr
    exact ⟨trivial, by rw [Sound]; exact this⟩

end Render
end Hocon
