import Verif.Lemmas.SettingLemmas
import Verif.Props.GetterProps
import Verif.Props.ResolveProps

/-!
# What is written is what the getters return (C64)

From the characters of a document to the results of the getters: parse, resolve, ask with the text of
the key. `Spec.Sets` and `Spec.Quiet` (Verif/Spec/Settings.lean) say which setting a document makes.
-/

set_option autoImplicit false

namespace Hocon
namespace Settings

open Spec ConfigParser Value Resolve
open PathParser (Syntax)

theorem sets_at {as : List (Path × Value)} {q : Path} {v : Value} (h : Sets as q v) : at? (assigned as) q = some v := by
  obtain ⟨_, h2, h3⟩ := sets_look h
  rw [look] at h3
  cases e : at? (assigned as) q with
  | none => simp [e] at h3
  | some w =>
    simp only [e, Option.map_some, Option.some.injEq] at h3
    cases w <;> cases v <;> simp_all [seen]

/-- **C64.** A document is parsed and resolved, whatever the includer, the environment and the options.
If its fields give the value `v`, which is not an object, to the path `q`, then asking with the text of
the key `q` (in any spelling with or without quotes) finds `v`: `get_value` returns it, `get_int`,
`get_long`, `get_string`, `get_bool` and `get_list` return what was written. -/
theorem C64_written_is_read (env : Env) (hx : HexOk env) (inc : Includer) (t body : Str) (as : List (Path × Value))
    (hd : HDoc env (Numeral env) (assigned as) t) (hb : HText env (Numeral env) (.members as) body)
    (q : Path) (v : Value) (hs : Sets as q v) (kt : Str) (hk : HKey env q kt) (n m : Nat) (o : Options) :
    ∃ c r, parseText env inc .conf t n = .ok (c, n) ∧ configResolve env (m + 1) c o = .ok (some r) ∧
      (v ≠ .scalar .null → getValue env r kt = .ok v ∧ hasPath env r kt = .ok true) ∧
      (∀ x, v = .scalar x → textOf env v ≠ none → ∃ s, textOf env v = some s ∧ getString env r kt = .ok s) ∧
      (∀ i, IsInt v i → getLong env r kt = .ok i ∧ (InI32 i → getInt env r kt = .ok i) ∧
        (¬ InI32 i → getInt env r kt = .err .config)) ∧
      (∀ b, IsBool v b → getBool env r kt = .ok b) ∧
      (∀ vs, v = .list vs → getList env r kt = .ok vs) ∧
      (v = .scalar .null → hasPath env r kt = .ok false ∧ hasPathOrNull env r kt = .ok true ∧
        getIsNull env r kt = .ok true) := by
  have has : ∀ a ∈ as, a.1 ≠ [] ∧ a.2.Plain :=
    HoconAccept.htext_plain hx hb
  have hp := HoconParse.assigned_plain as has
  have ho : (assigned as).isObject = true := rfl
  have hn := KeyPath.newPath_key hx hk.segs hk.start
  have ha := sets_at hs
  refine ⟨_, _, HoconProps.C62_hocon_accepted env hx inc _ t n hd,
    (C24_resolved_noop env m _ (assigned as) o ho hp.2).2, ?_, ?_, ?_, ?_, ?_, ?_⟩
  · intro hv
    refine ⟨(C29_get_value env _ v kt q hp ho hn).2 ⟨ha, hv⟩, ?_⟩
    obtain ⟨b, h1, h2⟩ := C29_has_path env _ kt q hp ho hn
    rw [h1, h2.2 ⟨v, ha, hv⟩]
  · intro x _ hx
    cases e : textOf env v with
    | none => exact absurd e hx
    | some s => exact ⟨s, rfl, ((C32_get_string env _ kt q hp ho hn).1 s).2 ⟨v, ha, e⟩⟩
  · intro i hi
    exact ⟨C31_get_long_partial env _ v kt q hp ho hn ha i hi, C31_get_int_partial env _ v kt q hp ho hn ha i hi⟩
  · intro b hb
    exact ((C32_get_bool env _ kt q hp ho hn).1 b).2 ⟨v, ha, hb⟩
  · rintro vs rfl
    exact ((C32_get_list env _ kt q hp ho hn).1 vs).2 ha
  · rintro rfl
    obtain ⟨b, h1, h2⟩ := C29_has_path env _ kt q hp ho hn
    obtain ⟨b', h3, h4⟩ := C29_has_path_or_null env _ kt q hp ho hn
    refine ⟨?_, ?_, (C29_get_is_null env _ kt q true hp ho hn).2 ⟨_, ha, by simp⟩⟩
    · rw [h1]
      cases b with
      | false => rfl
      | true =>
        obtain ⟨w, h5, h6⟩ := h2.1 rfl
        rw [ha] at h5
        cases h5
        exact absurd rfl h6
    · rw [h3, h4.2 ⟨_, ha⟩]

/-- **C64 (nothing else).** If the fields say nothing about the path `q`, there is nothing there. -/
theorem C64_unwritten_is_absent (env : Env) (hx : HexOk env) (inc : Includer) (t body : Str) (as : List (Path × Value))
    (hd : HDoc env (Numeral env) (assigned as) t) (hb : HText env (Numeral env) (.members as) body)
    (q : Path) (hs : Quiet as q) (kt : Str) (hk : HKey env q kt) (n m : Nat) (o : Options) :
    ∃ c r, parseText env inc .conf t n = .ok (c, n) ∧ configResolve env (m + 1) c o = .ok (some r) ∧
      hasPathOrNull env r kt = .ok false ∧ ∀ w, getValue env r kt ≠ .ok w := by
  have has : ∀ a ∈ as, a.1 ≠ [] ∧ a.2.Plain :=
    HoconAccept.htext_plain hx hb
  have hp := HoconParse.assigned_plain as has
  have ho : (assigned as).isObject = true := rfl
  have hn := KeyPath.newPath_key hx hk.segs hk.start
  have hq : q ≠ [] := by have := hk.segs; cases this <;> simp
  have ha : at? (assigned as) q = none := by
    have := quiet_none hs hq
    rw [look] at this
    simpa using this
  refine ⟨_, _, HoconProps.C62_hocon_accepted env hx inc _ t n hd,
    (C24_resolved_noop env m _ (assigned as) o ho hp.2).2, ?_, ?_⟩
  · obtain ⟨b, h3, h4⟩ := C29_has_path_or_null env _ kt q hp ho hn
    rw [h3]
    cases b with
    | false => rfl
    | true =>
      obtain ⟨w, h5⟩ := h4.1 rfl
      rw [ha] at h5
      cases h5
  · intro w hw
    have := ((C29_get_value env _ w kt q hp ho hn).1 hw).1
    rw [ha] at this
    cases this

theorem prefix_dot {w a b : Str} (hw : '.' ∉ w) (h : w <+: a ++ '.' :: b) : w <+: a := by
  induction a generalizing w with
  | nil =>
    cases w with
    | nil => exact List.nil_prefix
    | cons c w =>
      obtain ⟨rfl, _⟩ := List.cons_prefix_cons.1 h
      simp at hw
  | cons d a ih =>
    cases w with
    | nil => exact List.nil_prefix
    | cons c w =>
      rw [List.cons_append] at h
      obtain ⟨rfl, h'⟩ := List.cons_prefix_cons.1 h
      simp at hw
      exact List.cons_prefix_cons.2 ⟨rfl, ih hw.2 h'⟩

/-- **C64 (keys).** The text of a key in a document, given to a getter, means the same path; joining the
text of a key and the text of a key within its section by a period gives the path through both. -/
theorem C64_keys (env : Env) (hx : HexOk env) (p q : Path) (kt ku : Str) (hp : HKey env p kt) (hq : HKey env q ku) :
    PathParser.newPath env kt = .ok p ∧ PathParser.newPath env (kt ++ '.' :: ku) = .ok (p ++ q) := by
  refine ⟨KeyPath.newPath_key hx hp.segs hp.start, ?_⟩
  refine KeyPath.newPath_key hx (KeyPath.segs_append hp.segs hq.segs) ?_
  have hne := (KeyPath.segs_ends hp.segs).1
  obtain ⟨h1, h2, h3, h4⟩ := hp.start
  refine ⟨?_, fun h => h2 (prefix_dot (by decide) h), fun h => h3 (prefix_dot (by decide) h),
    fun h => h4 (prefix_dot (by decide) h)⟩
  cases kt with
  | nil => exact absurd rfl hne
  | cons c kt => exact h1

/-! The document `s { n = 5, on : yes }`, newline, `s.l = [x]`. -/

def exSettings : List (Path × Value) :=
  [([ch "s"], assigned [([ch "n"], .scalar (.int 5 (ch "5"))), ([ch "on"], .scalar (.str (ch "yes") false))]),
    ([ch "s", ch "l"], .list [.scalar (.str (ch "x") false)])]

theorem exKey (p : Path) (t : Str) (h : (p, t) ∈ [([ch "s"], ch "s"), ([ch "n"], ch "n"), ([ch "on"], ch "on")]) :
    HKey Tokenizer.exEnv p t := by
  simp at h
  rcases h with ⟨rfl, rfl⟩ | ⟨rfl, rfl⟩ | ⟨rfl, rfl⟩ <;>
  exact ⟨.bare (by decide) (by unfold WordChar; decide), ⟨by unfold JDigit; decide, by decide, by decide, by decide⟩, by decide⟩

theorem exSettings_text : HText Tokenizer.exEnv (Numeral Tokenizer.exEnv) (.members exSettings)
    (ch "s {n = 5,on : yes}\ns.l = [x]") := by
  have word : ∀ t, (t = ch "yes" ∨ t = ch "x") → Word t := by
    rintro t (rfl | rfl) <;>
    exact ⟨by decide, by unfold WordChar; decide, by decide, by decide, by unfold JDigit; decide, by decide, by decide, by decide⟩
  have sp : HGap (ch " ") := .blank (Or.inl rfl) .nil
  refine .memberCons (t := ch "s {n = 5,on : yes}") (s := ch "\n") (u := ch "s.l = [x]") ?_
    (.newline (.newline .nil) (by decide)) (.last ?_)
  · refine .sect (kt := ch "s") (g := ch " ") (t := ch "n = 5,on : yes}") (exKey _ _ (by simp)) sp ?_
    refine .obj (g := []) (t := ch "n = 5,on : yes") (e := []) .nil ?_ (.gap .nil)
    refine .memberCons (t := ch "n = 5") (s := ch ",") (u := ch "on : yes") ?_ (.comma (g1 := []) (g2 := []) .nil .nil) (.last ?_)
    · refine .field (kt := ch "n") (g1 := ch " ") (c := '=') (g2 := ch " ") (t := ch "5") (exKey _ _ (by simp)) sp
        (by decide) sp (.atom (.num ?_))
      exact .int (sg := []) (ds := ch "5") (i := 5) (Or.inl rfl) (by decide) (by unfold JDigit; decide) (by decide) (by decide)
        (by decide)
    · exact .field (kt := ch "on") (g1 := ch " ") (c := ':') (g2 := ch " ") (t := ch "yes") (exKey _ _ (by simp)) sp
        (by decide) sp (.atom (.word (word _ (by simp))))
  · refine .field (kt := ch "s.l") (g1 := ch " ") (c := '=') (g2 := ch " ") (t := ch "[x]")
      ⟨.bareCons (t := ch "s") (u := ch "l") (by decide) (by unfold WordChar; decide)
        (.bare (by decide) (by unfold WordChar; decide)), ⟨by unfold JDigit; decide, by decide, by decide, by decide⟩, by decide⟩
      sp (by decide) sp ?_
    exact .arr (g := []) (t := ch "x") (e := []) .nil (.elem (.atom (.word (word _ (by simp))))) (.gap .nil)

theorem exSettings_doc : HDoc Tokenizer.exEnv (Numeral Tokenizer.exEnv) (assigned exSettings)
    (ch "s {n = 5,on : yes}\ns.l = [x]") := by
  simpa using HDoc.open_ (g := []) (l := []) .nil exSettings_text (.gap .nil)

/-- The number within the section, the word, and a path that is not there. -/
example : Sets exSettings [ch "s", ch "n"] (.scalar (.int 5 (ch "5"))) :=
  .inside (before := []) (p := [ch "s"]) (q := [ch "n"]) (by decide)
    (.here (before := []) (by decide) (by simp) (.apart (by unfold Apart; decide) .nil)) (.apart (by unfold Apart; decide) .nil)
example : Sets exSettings [ch "s", ch "on"] (.scalar (.str (ch "yes") false)) :=
  .inside (before := []) (p := [ch "s"]) (q := [ch "on"]) (by decide)
    (.here (before := [_]) (by decide) (by simp) .nil) (.apart (by unfold Apart; decide) .nil)
example : Quiet exSettings [ch "s", ch "x"] :=
  .inside (p := [ch "s"]) (r := [ch "x"]) (by decide)
    (.apart (by unfold Apart; decide) (.apart (by unfold Apart; decide) .nil)) (.apart (by unfold Apart; decide) .nil)
example : HKey Tokenizer.exEnv [ch "s", ch "n"] (ch "s.n") :=
  ⟨.bareCons (t := ch "s") (u := ch "n") (by decide) (by unfold WordChar; decide)
    (.bare (by decide) (by unfold WordChar; decide)), ⟨by unfold JDigit; decide, by decide, by decide, by decide⟩, by decide⟩

end Settings
end Hocon
