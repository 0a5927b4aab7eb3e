import Verif.ProgOptions
import Verif.Spec.Options
import Verif.Props.EntryProps
import Verif.Props.GetterProps
import Verif.Props.ResolveProps
import Verif.Props.SettingProps
import Verif.Props.EqualProps

/-!
# Program options: C82
-/

set_option autoImplicit false

namespace Hocon
namespace ProgOptionsProps
open Spec Value ProgOptions
open PathParser (renderPath)

theorem toText_of {env : Env} {v : Value} {t : Str} (h : textOf env v = some t) :
    v.toText env = t ∧ v.valueType ≠ .ok .list ∧ v.valueType ≠ .ok .object ∧ ∃ s, v = .scalar s := by
  cases v with
  | scalar s =>
    cases s with
    | bool b => cases b <;> simp_all [textOf, toText, Scalar.transformToString, valueType, scalarType]
    | _ => simp_all [textOf, toText, Scalar.transformToString, valueType, scalarType, written]
  | _ => simp [textOf] at h

theorem elemText_of {env : Env} {v : Value} {t : Str} (h : elemText env v = some t) :
    v.toText env = t ∧ ∃ s, v = .scalar s := by
  unfold elemText at h
  split at h
  · simp_all [toText, Scalar.transformToString]
  · exact ⟨(toText_of h).1, (toText_of h).2.2.2⟩

theorem elemText_scalar (env : Env) (s : Scalar) : ∃ t, elemText env (.scalar s) = some t := by
  cases s with
  | bool b => cases b <;> simp [elemText, textOf]
  | _ => simp [elemText, textOf]

theorem type_scalar (s : Scalar) : scalarType s ≠ .list ∧ scalarType s ≠ .object := by
  cases s <;> simp [scalarType]

theorem elemTexts_ok (env : Env) {vs : List Value} {ts : List Str}
    (h : ElemTexts env vs ts) : elemTexts env vs = .ok ts := by
  induction h with
  | nil => rfl
  | @cons v t vs ts hv _ ih =>
    obtain ⟨rfl, s, rfl⟩ := elemText_of hv
    rw [elemTexts, ih]
    have := type_scalar s
    simp [valueType, this, Res.bind]

theorem elemTexts_iff (env : Env) (vs : List Value) (h : ∀ v ∈ vs, v.Plain) :
    (∃ ts, ElemTexts env vs ts) ∨
      ((∃ v ∈ vs, v.isObject = true ∨ ∃ ws, v = .list ws) ∧ elemTexts env vs = .err .foreign) := by
  induction vs with
  | nil => exact .inl ⟨[], .nil⟩
  | cons v vs ih =>
    have ih := ih fun w hw => h w (List.mem_cons_of_mem _ hw)
    cases v with
    | scalar s =>
      obtain ⟨t, ht⟩ := elemText_scalar env s
      rcases ih with ⟨ts, hts⟩ | ⟨⟨w, hw, hw'⟩, he⟩
      · exact .inl ⟨t :: ts, .cons ht hts⟩
      · refine .inr ⟨⟨w, List.mem_cons_of_mem _ hw, hw'⟩, ?_⟩
        have := type_scalar s
        rw [elemTexts, he]
        simp [valueType, this, Res.bind]
    | list ws =>
      exact .inr ⟨⟨_, by simp, .inr ⟨ws, rfl⟩⟩, by simp [elemTexts, valueType, Res.bind]⟩
    | obj fs r i =>
      exact .inr ⟨⟨.obj fs r i, by simp, .inl rfl⟩, by simp [elemTexts, valueType, Res.bind]⟩
    | _ => simpa [resolved] using (h _ List.mem_cons_self).res

/-- A value that is given to the program, and one that is refused. -/
theorem entryTexts_cases (env : Env) (v : Value) (hv : v.Plain) (hl : Leaf v) :
    (∃ ts, OptionTexts env v ts ∧ entryTexts env v = .ok ts) ∨
      ((∀ ts, ¬ OptionTexts env v ts) ∧ entryTexts env v = .err .foreign) := by
  cases v with
  | scalar s =>
    obtain ⟨t, ht⟩ := elemText_scalar env s
    have ht' : textOf env (.scalar s) = some t := by
      cases s with
      | null => exact absurd rfl hl.2
      | _ => exact ht
    refine .inl ⟨[t], .scalar ht', ?_⟩
    have := type_scalar s
    simp [entryTexts, (toText_of ht').1, valueType, this, Res.bind]
  | list vs =>
    have hp : ∀ w ∈ vs, w.Plain := Plain.list hv
    rcases elemTexts_iff env vs hp with ⟨ts, h⟩ | ⟨⟨w, hw, hw'⟩, he⟩
    · exact .inl ⟨ts, .list h, by simp [entryTexts, valueType, Res.bind, elemTexts_ok env h]⟩
    · refine .inr ⟨?_, by simp [entryTexts, valueType, Res.bind, he]⟩
      intro ts ht
      cases ht with
      | scalar h => simp [textOf] at h
      | list h =>
        have : ∃ t, elemText env w = some t := by
          clear hv hl hp hw' he
          induction h with
          | nil => cases hw
          | @cons v t vs ts hvt _ ih =>
            rcases List.mem_cons.1 hw with rfl | hw
            · exact ⟨t, hvt⟩
            · exact ih hw
        obtain ⟨t, ht⟩ := this
        obtain ⟨_, s, rfl⟩ := elemText_of ht
        rcases hw' with h | ⟨ws, h⟩ <;> simp [isObject] at h
  | obj fs r i => exact absurd hl.1 (by simp [isObject])
  | _ => simpa [resolved] using hv.res

theorem optionTexts_unique {env : Env} {v : Value} {ts us : List Str} (h : OptionTexts env v ts)
    (h' : OptionTexts env v us) : ts = us := by
  cases h with
  | scalar h =>
    cases h' with
    | scalar h' => rw [h] at h'; cases h'; rfl
    | list h' => simp [textOf] at h
  | @list vs ts h =>
    cases h' with
    | scalar h' => simp [textOf] at h'
    | list h' =>
      have := elemTexts_ok env h
      rw [elemTexts_ok env h'] at this
      cases this
      rfl

theorem entryOptions_ok (env : Env) (reg : Str → Bool) (allow : Bool) (es : List (Str × Value))
    (h : ∀ e ∈ es, e.2.Plain ∧ Leaf e.2) (hg : ∀ e ∈ es, (allow = true → reg e.1 = true) → ∃ ts, OptionTexts env e.2 ts) :
    ∃ L, entryOptions env reg allow es = .ok L ∧ ∀ k ts, (k, ts) ∈ L ↔
      ts ≠ [] ∧ ∃ w, (k, w) ∈ es ∧ (allow = true → reg k = true) ∧ OptionTexts env w ts := by
  induction es with
  | nil => exact ⟨[], rfl, by simp⟩
  | cons e es ih =>
    obtain ⟨L, h1, h2⟩ := ih (fun e he => h e (List.mem_cons_of_mem _ he))
      (fun e he => hg e (List.mem_cons_of_mem _ he))
    obtain ⟨k, v⟩ := e
    by_cases hr : allow = true → reg k = true
    · have hc : (allow && !reg k) = false := by
        cases allow <;> simp_all
      obtain ⟨us, hu⟩ := hg (k, v) (by simp) hr
      have ht : entryTexts env v = .ok us := by
        rcases entryTexts_cases env v (h (k, v) (by simp)).1 (h (k, v) (by simp)).2 with ⟨ts, h3, h4⟩ | ⟨h3, _⟩
        · rw [h4, optionTexts_unique h3 hu]
        · exact absurd hu (h3 us)
      refine ⟨(if us.isEmpty then [] else [(k, us)]) ++ L, ?_, ?_⟩
      · rw [entryOptions, entryOption, hc, h1]
        simp [ht, Res.bind]
      · intro k' ts
        rw [List.mem_append, h2]
        constructor
        · rintro (hm | ⟨hne, w, hw, hr', ho⟩)
          · split at hm
            · simp at hm
            · rename_i hne
              simp only [List.mem_singleton, Prod.mk.injEq] at hm
              obtain ⟨rfl, rfl⟩ := hm
              exact ⟨by simpa using hne, v, by simp, hr, hu⟩
          · exact ⟨hne, w, List.mem_cons_of_mem _ hw, hr', ho⟩
        · rintro ⟨hne, w, hw, hr', ho⟩
          rcases List.mem_cons.1 hw with h | h
          · cases h
            have := optionTexts_unique ho hu
            subst this
            exact .inl (by simp [hne])
          · exact .inr ⟨hne, w, h, hr', ho⟩
    · have hc : (allow && !reg k) = true := by
        cases allow <;> simp_all
      refine ⟨L, ?_, ?_⟩
      · rw [entryOptions, entryOption, hc, h1]
        simp [Res.bind]
      · intro k' ts
        rw [h2]
        constructor
        · rintro ⟨hne, w, hw, hr', ho⟩
          exact ⟨hne, w, List.mem_cons_of_mem _ hw, hr', ho⟩
        · rintro ⟨hne, w, hw, hr', ho⟩
          rcases List.mem_cons.1 hw with h | h
          · cases h
            exact absurd hr' hr
          · exact ⟨hne, w, h, hr', ho⟩

theorem entryOptions_err (env : Env) (reg : Str → Bool) (allow : Bool) (es : List (Str × Value))
    (h : ∀ e ∈ es, e.2.Plain ∧ Leaf e.2) {k : Str} {v : Value} (hm : (k, v) ∈ es)
    (hr : allow = true → reg k = true) (hv : ∀ ts, ¬ OptionTexts env v ts) :
    entryOptions env reg allow es = .err .foreign := by
  induction es with
  | nil => cases hm
  | cons e es ih =>
    obtain ⟨k', v'⟩ := e
    have hcase := entryTexts_cases env v' (h (k', v') (by simp)).1 (h (k', v') (by simp)).2
    rcases List.mem_cons.1 hm with he | hm
    · cases he
      have hc : (allow && !reg k) = false := by
        cases allow <;> simp_all
      rcases hcase with ⟨ts, h3, _⟩ | ⟨_, h4⟩
      · exact absurd h3 (hv ts)
      · rw [entryOptions, entryOption, hc]
        simp [h4, Res.bind]
    · have ih := ih (fun e he => h e (List.mem_cons_of_mem _ he)) hm
      rw [entryOptions, ih, entryOption]
      rcases hcase with ⟨ts, _, h4⟩ | ⟨_, h4⟩ <;> simp only [h4] <;> split <;> simp [Res.bind]

theorem leaf_of_wanted {root w : Value} {reg : Str → Bool} {allow : Bool} {write : Path → Str} {p : Path}
    (h : Wanted root reg allow write p w) (hw : w.Plain) : Leaf w := by
  refine ⟨?_, h.null⟩
  rcases hw.cases with h1 | ⟨fs, i, rfl, _⟩
  · exact h1.1
  · exact absurd rfl (h.object fs true i)

theorem wanted_of_leaf {root w : Value} {reg : Str → Bool} {allow : Bool} {write : Path → Str} {p : Path}
    (hp : p ≠ []) (ha : at? root p = some w) (hl : Leaf w) (hr : allow = true → reg (write p) = true) :
    Wanted root reg allow write p w :=
  ⟨hp, ha, fun fs r i h => by subst h; exact absurd hl.1 (by simp [isObject]), hl.2, hr⟩

/-- **C82.** The options of a resolved config, if every wanted setting is a scalar or a list of scalars:
there is one option for each wanted setting that has a value (all but empty lists). Its key is the path
as `entry_set` writes it, its values are the texts of the setting, and nothing else is in the list. -/
theorem C82_options (env : Env) (reg : Str → Bool) (allow : Bool) (v : Value) (hv : v.Plain)
    (ho : v.isObject = true)
    (hg : ∀ p w, Wanted v reg allow renderPath p w → ∃ ts, OptionTexts env w ts) :
    ∃ L, parseHocon env reg allow v = .ok L ∧ ∀ k ts, (k, ts) ∈ L ↔
      ts ≠ [] ∧ ∃ p w, Wanted v reg allow renderPath p w ∧ k = renderPath p ∧ OptionTexts env w ts := by
  obtain ⟨E, h1, h2⟩ := C30_entry_set v hv ho
  have hE : ∀ e ∈ E, e.2.Plain ∧ Leaf e.2 := by
    rintro ⟨s, w⟩ he
    obtain ⟨p, _, _, ha, hl⟩ := (h2 s w).1 he
    exact ⟨hv.at ha, hl⟩
  obtain ⟨L, h3, h4⟩ := entryOptions_ok env reg allow E hE (by
    rintro ⟨s, w⟩ he hr
    obtain ⟨p, hp, rfl, ha, hl⟩ := (h2 s w).1 he
    exact hg p w (wanted_of_leaf hp ha hl hr))
  refine ⟨L, by rw [parseHocon, h1]; exact h3, fun k ts => ?_⟩
  rw [h4]
  refine and_congr_right fun _ => ⟨?_, ?_⟩
  · rintro ⟨w, hw, hr, hx⟩
    obtain ⟨p, hp, rfl, ha, hl⟩ := (h2 k w).1 hw
    exact ⟨p, w, wanted_of_leaf hp ha hl hr, rfl, hx⟩
  · rintro ⟨p, w, hw, rfl, hx⟩
    exact ⟨w, (h2 _ w).2 ⟨p, hw.path, rfl, hw.there, leaf_of_wanted hw (hv.at hw.there)⟩, hw.registered, hx⟩

/-- **C82.** If a wanted setting is neither a scalar nor a list of scalars, that is, a list with a list or
an object in it, no options are returned: an exception of Boost is thrown. Settings that are not wanted
do not matter. -/
theorem C82_refused (env : Env) (reg : Str → Bool) (allow : Bool) (v : Value) (hv : v.Plain)
    (ho : v.isObject = true) (p : Path) (w : Value) (hw : Wanted v reg allow renderPath p w)
    (hx : ∀ ts, ¬ OptionTexts env w ts) : parseHocon env reg allow v = .err .foreign := by
  obtain ⟨E, h1, h2⟩ := C30_entry_set v hv ho
  rw [parseHocon, h1]
  refine entryOptions_err env reg allow E ?_
    ((h2 _ w).2 ⟨p, hw.path, rfl, hw.there, leaf_of_wanted hw (hv.at hw.there)⟩) hw.registered hx
  rintro ⟨s, w⟩ he
  obtain ⟨p, _, _, ha, hl⟩ := (h2 s w).1 he
  exact ⟨hv.at ha, hl⟩

/-- **C82.** No key is given twice with different values. -/
theorem C82_unique (env : Env) (reg : Str → Bool) (allow : Bool) (v : Value) (hv : v.Plain)
    (ho : v.isObject = true) (L : List Opt) (h : parseHocon env reg allow v = .ok L) (k : Str)
    (ts us : List Str) (ht : (k, ts) ∈ L) (hu : (k, us) ∈ L) : ts = us := by
  by_cases hg : ∀ p w, Wanted v reg allow renderPath p w → ∃ ts, OptionTexts env w ts
  · obtain ⟨L', h1, h2⟩ := C82_options env reg allow v hv ho hg
    rw [h] at h1
    cases h1
    obtain ⟨_, p, w, hw, hk, hx⟩ := (h2 k ts).1 ht
    obtain ⟨_, p', w', hw', hk', hx'⟩ := (h2 k us).1 hu
    have := C30_distinct p p' hw.path hw'.path (hk ▸ hk')
    subst this
    have := hw.there.symm.trans hw'.there
    cases this
    exact optionTexts_unique hx hx'
  · simp only [not_forall] at hg
    obtain ⟨p, w, hw, hn⟩ := hg
    rw [C82_refused env reg allow v hv ho p w hw (fun ts hts => hn ⟨ts, hts⟩)] at h
    cases h

/-- **C82.** An option with a scalar value agrees with `get_string`, if the key is read back as the path
it was written from (C01 says when): its only value is what `get_string(key)` returns. -/
theorem C82_get_string (env : Env) (reg : Str → Bool) (allow : Bool) (v : Value) (hv : v.Plain)
    (ho : v.isObject = true) (L : List Opt) (h : parseHocon env reg allow v = .ok L) (p : Path) (s : Scalar)
    (hw : Wanted v reg allow renderPath p (.scalar s))
    (hrt : PathParser.newPath env (renderPath p) = .ok p) :
    ∃ t, getString env v (renderPath p) = .ok t ∧ (renderPath p, [t]) ∈ L := by
  by_cases hg : ∀ p w, Wanted v reg allow renderPath p w → ∃ ts, OptionTexts env w ts
  · obtain ⟨L', h1, h2⟩ := C82_options env reg allow v hv ho hg
    rw [h] at h1
    cases h1
    obtain ⟨ts, hts⟩ := hg p _ hw
    cases hts with
    | @scalar _ t ht =>
      exact ⟨t, ((C32_get_string env v _ p hv ho hrt).1 t).2 ⟨_, hw.there, ht⟩,
        (h2 _ _).2 ⟨by simp, p, _, hw, rfl, .scalar ht⟩⟩
  · simp only [not_forall] at hg
    obtain ⟨p, w, hw, hn⟩ := hg
    rw [C82_refused env reg allow v hv ho p w hw (fun ts hts => hn ⟨ts, hts⟩)] at h
    cases h

/-- **C82 (texts).** `parse_string` of this header on any text that can be parsed and resolved: it returns
the options of the resolved config as above or throws the exception of Boost; it never does anything
else. -/
theorem C82_parse_string (env : Env) (fs : Files.FS) (m k n : Nat) (ro : Resolve.Options)
    (reg : Str → Bool) (allow : Bool) (text : Str) (v r : Value)
    (hp : Files.parseString env fs
      (fun x => (Resolve.configResolve env m x ro).bind fun o => ConfigParser.nonNull o) k text
        (ParseOptions.new (ι := Unit)) = .ok v)
    (hr : Resolve.configResolve env n v Resolve.Options.default = .ok (some r)) :
    r.Plain ∧ r.isObject = true ∧
      ProgOptions.parseString env fs
        (fun x => (Resolve.configResolve env m x ro).bind fun o => ConfigParser.nonNull o) k n reg allow text
        = parseHocon env reg allow r ∧
      ((∃ L, parseHocon env reg allow r = .ok L) ∨ parseHocon env reg allow r = .err .foreign) := by
  have hwf := Resolve.parseString_wf env fs m k text _ ro v hp
  have hpl := Resolve.resolved_plain env n v v r true hwf hwf hr
  have hob := (Resolve.C25_no_substitution_left_partial env n v v r true hwf hwf hr).2.2
  refine ⟨hpl, hob, ?_, ?_⟩
  · rw [ProgOptions.parseString, hp]
    simp [Res.bind, resolvedOptions, hr]
  · by_cases hg : ∀ p w, Wanted r reg allow renderPath p w → ∃ ts, OptionTexts env w ts
    · obtain ⟨L, h1, _⟩ := C82_options env reg allow r hpl hob hg
      exact .inl ⟨L, h1⟩
    · simp only [not_forall] at hg
      obtain ⟨p, w, hw, hn⟩ := hg
      exact .inr (C82_refused env reg allow r hpl hob p w hw (fun ts hts => hn ⟨ts, hts⟩))

/-- **C82 (files).** The same for `parse_file`: the options are those of the resolved config of the files
found for the name. -/
theorem C82_parse_file (env : Env) (fs : Files.FS) (m k n : Nat) (ro : Resolve.Options)
    (reg : Str → Bool) (allow : Bool) (name : Str) (v r : Value)
    (hp : Files.parseFileAnySyntax env fs
      (fun x => (Resolve.configResolve env m x ro).bind fun o => ConfigParser.nonNull o) k name
        (ParseOptions.defaults (ι := Unit)) = .ok v)
    (hr : Resolve.configResolve env n v Resolve.Options.default = .ok (some r)) :
    r.Plain ∧ r.isObject = true ∧
      ProgOptions.parseFile env fs
        (fun x => (Resolve.configResolve env m x ro).bind fun o => ConfigParser.nonNull o) k n reg allow name
        = parseHocon env reg allow r ∧
      ((∃ L, parseHocon env reg allow r = .ok L) ∨ parseHocon env reg allow r = .err .foreign) := by
  have hwf := Resolve.parseFile_wf env fs m k name _ ro v hp
  have hpl := Resolve.resolved_plain env n v v r true hwf hwf hr
  have hob := (Resolve.C25_no_substitution_left_partial env n v v r true hwf hwf hr).2.2
  refine ⟨hpl, hob, ?_, ?_⟩
  · rw [ProgOptions.parseFile, hp]
    simp [Res.bind, resolvedOptions, hr]
  · by_cases hg : ∀ p w, Wanted r reg allow renderPath p w → ∃ ts, OptionTexts env w ts
    · obtain ⟨L, h1, _⟩ := C82_options env reg allow r hpl hob hg
      exact .inl ⟨L, h1⟩
    · simp only [not_forall] at hg
      obtain ⟨p, w, hw, hn⟩ := hg
      exact .inr (C82_refused env reg allow r hpl hob p w hw (fun ts hts => hn ⟨ts, hts⟩))

/-- **C82 (documents).** A HOCON document without substitutions gives the value `w`, which is neither an
object nor null, to the path `q`; the path is a registered option or all are wanted. Then `parse_string`
has the option of that path with the texts of `w`, unless it throws because of another setting that
cannot be an option. -/
theorem C82_written (env : Env) (hx : HexOk env) (fs : Files.FS) (res : Value → Res Value) (k m : Nat)
    (reg : Str → Bool) (allow : Bool) (t body : Str) (as : List (Path × Value))
    (hd : HDoc env (Numeral env) (assigned as) t) (hb : HText env (Numeral env) (.members as) body)
    (q : Path) (w : Value) (hs : Sets as q w) (hn : w ≠ .scalar .null)
    (hr : allow = true → reg (renderPath q) = true) (ts : List Str) (ht : OptionTexts env w ts) (hne : ts ≠ []) :
    (∃ L, ProgOptions.parseString env fs res k (m + 1) reg allow t = .ok L ∧ (renderPath q, ts) ∈ L) ∨
      ProgOptions.parseString env fs res k (m + 1) reg allow t = .err .foreign := by
  have has : ∀ a ∈ as, a.1 ≠ [] ∧ a.2.Plain := HoconAccept.htext_plain hx hb
  have hp := HoconParse.assigned_plain as has
  have ho : (assigned as).isObject = true := rfl
  have ha := Settings.sets_at hs
  have hq : q ≠ [] := by
    obtain h | h := hs
    · exact h
    · simp_all
  have hob : ∀ fs r i, w ≠ .obj fs r i := by
    rintro fs r i rfl
    cases ht with
    | scalar h => simp [textOf] at h
  have e : ProgOptions.parseString env fs res k (m + 1) reg allow t = parseHocon env reg allow (assigned as) := by
    rw [ProgOptions.parseString, Files.parseString, Files.parseableParseString]
    have h1 := HoconProps.C62_hocon_accepted env hx (Files.includer (Files.loadFile env fs res k) res []) _ t 0 hd
    have h2 := (Resolve.C24_resolved_noop env m _ (assigned as) Resolve.Options.default ho hp.2).2
    simp only [Files.fixupSyntax, ParseOptions.new, h1, Res.ok_bind, Files.forceObject, ho, if_true]
    simp [Res.bind, resolvedOptions, h2]
  rw [e]
  by_cases hg : ∀ p w, Wanted (assigned as) reg allow renderPath p w → ∃ ts, OptionTexts env w ts
  · obtain ⟨L, h1, h2⟩ := C82_options env reg allow _ hp ho hg
    exact .inl ⟨L, h1, (h2 _ _).2 ⟨hne, q, w, ⟨hq, ha, hob, hn, hr⟩, rfl, ht⟩⟩
  · simp only [not_forall] at hg
    obtain ⟨p, w, hw, hn⟩ := hg
    exact .inr (C82_refused env reg allow _ hp ho p w hw (fun ts hts => hn ⟨ts, hts⟩))

/-! Examples: the config of the project's tests with a number and a nested list added. -/

/-- `{foo: {bar: 5, l: [x, null], e: []}, z: null, deep: [[1]]}`. -/
def exOptions : Value :=
  newObj [(ch "foo", newObj [(ch "bar", .scalar (.int 5 (ch "05"))),
      (ch "l", .list [.scalar (.str (ch "x") false), .scalar .null]), (ch "e", .list [])]),
    (ch "z", .scalar .null), (ch "deep", .list [.list [.scalar (.int 1 (ch "1"))]])]

/-- Only registered options: the nested list does not matter, nor does the null; null within a list
becomes the word. -/
example (env : Env) : parseHocon env (fun k => k != ch "deep") true exOptions =
    .ok [(ch "foo.bar", [ch "05"]), (ch "foo.l", [ch "x", ch "null"])] := by
  rfl

/-- All options: refused. -/
example (env : Env) : parseHocon env (fun k => k != ch "deep") false exOptions = .err .foreign := by
  rfl

theorem exOptions_plain : exOptions.Plain := by
  refine ⟨?_, rfl⟩
  simp [exOptions, newObj, Wf, WfF, WfL, keysOf, resolvedFields, resolved, resolvedAll]

example (env : Env) : Wanted exOptions (fun k => k != ch "deep") true renderPath [ch "foo", ch "bar"]
    (.scalar (.int 5 (ch "05"))) ∧ OptionTexts env (.scalar (.int 5 (ch "05"))) [ch "05"] :=
  ⟨⟨by simp, rfl, by simp, by simp, fun _ => by decide⟩, .scalar rfl⟩

end ProgOptionsProps
end Hocon
