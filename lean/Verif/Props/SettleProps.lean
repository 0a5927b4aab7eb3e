import Verif.Lemmas.SettleRun
import Verif.Lemmas.ResolveMono
import Verif.Spec.Settings
import Verif.ConfigParser
import Verif.Lemmas.SimpleCheck

/-!
# Properties: configurations with repeated settings (C65, C66)
-/

set_option autoImplicit false

namespace Hocon
open Spec Value Resolve Settle

variable {env : Env} {b : Bool}

/-- **C65**, main theorem: if the semantics of `Spec.Ev` gives a configuration the value `R`, then
`resolve()` returns `R` (it throws nothing and it comes to an end). The configuration may contain
settings with several values, values built on older values of the same setting, objects put over
substitutions, optional substitutions and substitutions of environment variables. -/
theorem C65_resolves_partial {fs : Fields} {r i : Bool} {R : Value} (hw : (Value.obj fs r i).Wf)
    (h : Ev env (envExt env b) (.obj fs r i) [] (some []) (.obj fs r i) (some R)) :
    ∃ N, ∀ n, N ≤ n → configResolve env n (.obj fs r i) ⟨b, false⟩ = .ok (some R) := by
  obtain ⟨N, hg⟩ := Ev.goes h hw rfl hw (by rintro q ⟨⟩; rfl)
  refine ⟨N, fun n hn => ?_⟩
  obtain ⟨c', e, -⟩ := hg n hn ⟨⟨b, false⟩, [], []⟩ ⟨some (.obj fs r i), []⟩
    ⟨rfl, rfl, by simp, rfl⟩ (by rintro q ⟨⟩; rfl)
  have hR : asObject R = some R := by
    cases h with
    | clean => rfl
    | obj => rfl
  simp only [configResolve, configResolveWith, resolveTop, e, Res.bind, Option.bind, hR]

/-- **C65**: the semantics gives at most one value, so there is nothing else `resolve()` could
return. -/
theorem C65_unique {fs : Fields} {r i : Bool} {R R' : Value} (hw : (Value.obj fs r i).Wf)
    (h : Ev env (envExt env b) (.obj fs r i) [] (some []) (.obj fs r i) (some R))
    (h' : Ev env (envExt env b) (.obj fs r i) [] (some []) (.obj fs r i) (some R')) : R = R' := by
  obtain ⟨N, hg⟩ := C65_resolves_partial hw h
  obtain ⟨N', hg'⟩ := C65_resolves_partial hw h'
  have := (hg (max N N') (by omega)).symm.trans (hg' (max N N') (by omega))
  simpa using this

/-- Helper of `C65_each_setting`: one field. -/
private theorem evF_find {ext : Path → Option Str} {root : Value} {m : List Nat} {p : Path} {k : Str} {x : Value} :
    {fs : Fields} → {os : List (Str × Option Value)} → EvF env ext root m (some p) fs os →
    (keysOf fs).Nodup → findKey fs k = some x →
    ∃ o, Ev env ext root m (some (p ++ [k])) x o ∧ findKey (present os) k = o
  | [], _, _, _, hf => by simp [findKey] at hf
  | (k', v) :: fs, _, h, hn, hf => by
    cases h with
    | @cons _ _ _ _ _ o _ os h1 h2 =>
    simp only [keysOf, List.map_cons, List.nodup_cons] at hn
    rw [findKey] at hf
    have skip : k' ≠ k → findKey (present ((k', o) :: os)) k = findKey (present os) k := by
      intro hk
      cases o with
      | none => rfl
      | some w => exact (if_neg hk)
    split at hf
    · rename_i hk
      cases hf
      subst hk
      refine ⟨o, h1, ?_⟩
      cases o with
      | some w => exact if_pos rfl
      | none =>
        show findKey (present os) k' = none
        have hs : (keysOf (present os)).Sublist (keysOf fs) := EvF.keys h2 ▸ present_keys os
        have : k' ∉ keysOf (present os) := fun hm => hn.1 (hs.subset hm)
        cases hc : findKey (present os) k' with
        | none => rfl
        | some w => exact absurd (List.mem_map.2 ⟨_, findKey_mem hc, rfl⟩) this
    · rename_i hk
      obtain ⟨o', i1, i2⟩ := evF_find h2 hn.2 hf
      exact ⟨o', i1, (skip hk).trans i2⟩

private theorem ev_at {ext : Path → Option Str} {root : Value} {m : List Nat} : {q p : Path} → {v R u : Value} →
    v.Wf → Ev env ext root m (some p) v (some R) → at? v q = some u →
    ∃ o, Ev env ext root m (some (p ++ q)) u o ∧ at? R q = o
  | [], p, v, R, u, _, h, ha => by
    cases ha
    exact ⟨some R, by rw [List.append_nil]; exact h, rfl⟩
  | k :: q, p, v, R, u, hw, h, ha => by
    obtain ⟨fs, r, i, x, rfl, hf, ha'⟩ := at?_cons_some ha
    have hn := closed_wf.nodup _ _ _ hw
    have hx := closed_wf.findKey (closed_wf.fields _ _ _ hw) hf
    cases h with
    | clean hc =>
      have hcx : Clean x := CleanF.iff.1 hc.2 _ (findKey_mem hf)
      obtain ⟨o, i1, i2⟩ := ev_at (p := p ++ [k]) hx
        (Ev.clean (env := env) (ext := ext) (root := root) (m := m) (pos := some (p ++ [k])) hcx) ha'
      refine ⟨o, by simpa using i1, ?_⟩
      rw [at?_obj, hf]; exact i2
    | obj h =>
      obtain ⟨o, i1, i2⟩ := evF_find h hn hf
      rw [at?_obj, i2]
      cases o with
      | some w =>
        obtain ⟨o, j1, j2⟩ := ev_at hx i1 ha'
        exact ⟨o, by simpa using j1, j2⟩
      | none =>
        refine ⟨none, ?_, rfl⟩
        cases q with
        | nil => cases ha'; simpa using i1
        | cons k' q =>
          obtain ⟨_, _, _, _, rfl, _⟩ := at?_cons_some ha'
          cases i1

/-- **C65**, setting by setting: what the resolved configuration has at a path is what the value at
this path stands for (nothing, if it vanishes). -/
theorem C65_each_setting {fs : Fields} {r i : Bool} {R v : Value} {q : Path} (hw : (Value.obj fs r i).Wf)
    (h : Ev env (envExt env b) (.obj fs r i) [] (some []) (.obj fs r i) (some R))
    (hv : at? (.obj fs r i) q = some v) :
    ∃ o, Ev env (envExt env b) (.obj fs r i) [] (some q) v o ∧ at? R q = o :=
  ev_at hw h hv

/-! ## Common idioms -/

private theorem put_at {v w x : Value} {q : Path} {o : Option Value} (h : Put v q o w) (ho : o = some x) :
    at? w q = some x := by
  induction h with
  | set hk => cases ho; rw [at?_obj, findKey_skip fun f hf => (hk f hf).1]; rfl
  | remove => cases ho
  | deeper hk _ ih => rw [at?_obj, findKey_skip fun f hf => (hk f hf).1]; exact ih ho

private theorem findKey_append_ne {fs gs : Fields} {k k' : Str} {v : Value} (h : k' ≠ k) :
    findKey (fs ++ (k', v) :: gs) k = findKey (fs ++ gs) k := by
  induction fs with
  | nil => exact if_neg h
  | cons f fs ih =>
    obtain ⟨k2, w⟩ := f
    rw [List.cons_append, List.cons_append, findKey, findKey, ih]

private theorem put_apart {v w u : Value} {p q : Path} {o : Option Value} (h : Put v q o w) : Apart p q →
    at? v p = some u → at? w p = some u := by
  induction h generalizing p with
  | @set fs gs r i k v x hk =>
    intro hap ha
    cases p with
    | nil => exact absurd (List.nil_prefix) hap.1
    | cons k2 p =>
      have hne : k ≠ k2 := by
        rintro rfl
        exact hap.2 (by simp)
      rw [at?_obj, findKey_append_ne hne] at ha ⊢
      exact ha
  | @remove fs gs r i k v hk =>
    intro hap ha
    cases p with
    | nil => exact absurd (List.nil_prefix) hap.1
    | cons k2 p =>
      have hne : k ≠ k2 := by
        rintro rfl
        exact hap.2 (by simp)
      rw [at?_obj, findKey_append_ne hne] at ha
      rw [at?_obj]
      exact ha
  | @deeper fs gs r i k k' q o v w hk hp ih =>
    intro hap ha
    cases p with
    | nil => exact absurd (List.nil_prefix) hap.1
    | cons k2 p =>
      by_cases hne : k = k2
      · subst hne
        have hs := fun x => findKey_skip (gs := gs) (v := x) fun f hf => (hk f hf).1
        rw [at?_obj, hs] at ha ⊢
        exact ih ⟨fun hpre => hap.1 (by simpa using hpre), fun hpre => hap.2 (by simpa using hpre)⟩ ha
      · rw [at?_obj, findKey_append_ne hne] at ha ⊢
        exact ha

private theorem dead_not_at {v u : Value} {p : Path} (h : Dead v p) : at? v p ≠ some u := by
  induction h with
  | missing hf => rw [at?_obj, hf]; simp
  | deeper hf _ ih => rw [at?_obj, hf]; exact ih
  | scalar => simp [at?, child, fieldsOf]
  | list => simp [at?, child, fieldsOf]

/-- Evaluation gives a value no new paths. -/
private theorem ev_dead {ext : Path → Option Str} {root : Value} {m : List Nat} {v : Value} {p : Path}
    (hd : Dead v p) : ∀ {pos : Path} {R : Value}, v.Wf → Ev env ext root m (some pos) v (some R) → at? R p = none := by
  induction hd with
  | scalar => intro pos R _ h; cases h; rfl
  | list => intro pos R _ h; cases h <;> rfl
  | @missing fs r i k p hf =>
    intro pos R _ h
    cases h with
    | clean => rw [at?_obj, hf]; rfl
    | obj h =>
      have hs := EvF.keys h ▸ present_keys _
      rw [at?_obj, findKey_none.2 fun hm => findKey_none.1 hf (hs.subset hm)]
      rfl
  | @deeper fs r i k k' p v hf _ ih =>
    intro pos R hw h
    have hx := closed_wf.findKey (closed_wf.fields _ _ _ hw) hf
    cases h with
    | clean hc =>
      have hcx : Clean v := CleanF.iff.1 hc.2 _ (findKey_mem hf)
      rw [at?_obj, hf]
      exact ih (pos := pos ++ [k]) hx (.clean hcx)
    | obj h =>
      obtain ⟨o, i1, i2⟩ := evF_find h (closed_wf.nodup _ _ _ hw) hf
      rw [at?_obj, i2]
      cases o with
      | none => rfl
      | some w => exact ih hx i1

/-- At one place the semantics gives one value, whatever substitutions are being determined. -/
private theorem ev_same {root v : Value} {m m' : List Nat} {p : Path} {o o' : Option Value} (hw : root.Wf)
    (hobj : root.isObject = true) (ha : at? root p = some v)
    (h : Ev env (envExt env b) root m (some p) v o) (h' : Ev env (envExt env b) root m' (some p) v o') :
    o = o' := by
  have hv := at?_wf hw ha
  have hp : ∀ q, some p = some q → at? root q = some v := by rintro q ⟨⟩; exact ha
  obtain ⟨N, hg⟩ := Ev.goes h hw hobj hv hp
  obtain ⟨N', hg'⟩ := Ev.goes h' hw hobj hv hp
  obtain ⟨_, e, -⟩ := hg (max N N') (by omega) ⟨⟨b, false⟩, [], []⟩ ⟨some root, chain root p []⟩
    ⟨rfl, rfl, by simp, rfl⟩ (by rintro q ⟨⟩; rfl)
  obtain ⟨_, e', -⟩ := hg' (max N N') (by omega) ⟨⟨b, false⟩, [], []⟩ ⟨some root, chain root p []⟩
    ⟨rfl, rfl, by simp, rfl⟩ (by rintro q ⟨⟩; rfl)
  have := e.symm.trans e'
  simp only [Res.ok.injEq, Prod.mk.injEq] at this
  exact this.2

/-- **C26 (with repeated settings, partial).** In the value of a configuration the field that was exactly
`${p}` or `${?p}` has the contents of the field at `p`, which is missing only if the substitution was
optional; or there is nothing at `p` and the field is the environment variable. Settings may have been
given several times here, and the field at `p` may be one of them. (`hu`: no other value begins with the
very same substitution.) For configurations to which `Spec.Ev` gives a value. -/
theorem C26_merged_partial {fs : Fields} {r i : Bool} {R : Value} {p q : Path} {id : Nat} {opt : Bool}
    (hw : (Value.obj fs r i).Wf)
    (h : Ev env (envExt env b) (.obj fs r i) [] (some []) (.obj fs r i) (some R))
    (hq : at? (.obj fs r i) q = some (.ref id p opt 0))
    (hu : ∀ v, at? (.obj fs r i) p = some v → Begins id v → p = q) :
    (at? R q = at? R p ∧ (opt = false → (at? R p).isSome = true)) ∨
    (at? R p = none ∧ ∃ s, envExt env b p = some s ∧ at? R q = some (.scalar (.str s true))) := by
  obtain ⟨o, h1, h2⟩ := C65_each_setting hw h hq
  have there : ∀ {v o' m}, at? (.obj fs r i) p = some v →
      Ev env (envExt env b) (.obj fs r i) m (some p) v o' → at? R p = o' := by
    intro v o' m hv h'
    obtain ⟨o2, h3, h4⟩ := C65_each_setting hw h hv
    rw [h4]
    exact ev_same hw rfl hv h3 h'
  cases h1 with
  | clean hc => exact hc.elim
  | ref _ _ ha he => exact .inl ⟨by rw [h2, there ha he], fun _ => by rw [there ha he]; rfl⟩
  | refGone _ _ ha he => exact .inl ⟨by rw [h2, there ha he], by simp⟩
  | refExt _ hd he => exact .inr ⟨ev_dead hd hw h, _, he, h2⟩
  | refAbsent _ hd he => exact .inl ⟨by rw [h2, ev_dead hd hw h], by simp⟩
  | refSelf _ _ ha hb => exact .inl ⟨by rw [hu _ ha hb], by simp⟩

/-- A substitution of a clean value. -/
private theorem ev_ref_clean {ext : Path → Option Str} {root u : Value} {m : List Nat} {pos : Option Path} {id : Nat}
    {p : Path} {opt : Bool} {o : Option Value} (h : Ev env ext root m pos (.ref id p opt 0) o)
    (ha : at? root p = some u) (hc : Clean u) : o = some u := by
  cases h with
  | clean hc' => exact hc'.elim
  | ref _ _ h1 h2 => rw [ha] at h1; cases h1; exact Ev.clean_eq h2 hc
  | refGone _ _ h1 h2 => rw [ha] at h1; cases h1; cases Ev.clean_eq h2 hc
  | refExt _ hd _ => exact absurd ha (dead_not_at hd)
  | refAbsent _ hd _ => exact absurd ha (dead_not_at hd)
  | refSelf _ _ h1 hb =>
    rw [ha] at h1
    cases h1
    cases hb with
    | ref => exact hc.elim
    | concat => exact hc.elim

/-- A substitution of a value that stands for `w`. -/
private theorem ev_ref_of {ext : Path → Option Str} {root u w : Value} {m : List Nat} {pos : Option Path}
    {id : Nat} {p : Path} {opt : Bool} {o : Option Value} (h : Ev env ext root m pos (.ref id p opt 0) o)
    (ha : at? root p = some u) (hu : ∀ m o, Ev env ext root m (some p) u o → o = some w)
    (hb : ¬ Begins id u) : o = some w := by
  cases h with
  | clean hc' => exact hc'.elim
  | ref _ _ h1 h2 => rw [ha] at h1; cases h1; exact hu _ _ h2
  | refGone _ _ h1 h2 => rw [ha] at h1; cases h1; cases hu _ _ h2
  | refExt _ hd _ => exact absurd ha (dead_not_at hd)
  | refAbsent _ hd _ => exact absurd ha (dead_not_at hd)
  | refSelf _ _ h1 hb' => rw [ha] at h1; cases h1; exact absurd hb' hb

private theorem concatenate_lists (vs ws : List Value) :
    Value.concatenate env [.list vs, .list ws] = .ok (some (.list (vs ++ ws))) := rfl

private theorem overO_list (xs : List Value) (o : Option Value) :
    overO (some (.list xs)) o = some (.list xs) := by
  cases o with
  | none => rfl
  | some w => simp [overO, over]

/-- A list built on an older list. -/
private theorem ev_append {ext : Path → Option Str} {root : Value} {m : List Nat} {q : Path} {n : Nat}
    {opt : Bool} {vs ws : List Value} {o : Option Value}
    (h : Ev env ext root m (some q) (.dm [.concat [.ref n q opt 0, .list ws], .list vs]) o)
    (hcv : CleanL vs) (hcw : CleanL ws) : o = some (.list (vs ++ ws)) := by
  cases h with
  | clean hc => exact hc.elim
  | several _ h1 =>
    cases h1 with
    | other hh => exact hh.elim
    | waiting _ ho hp h1 _ =>
      cases ho
      cases h1 with
      | clean hc => exact hc.elim
      | concat hl hcat =>
        cases hl with
        | cons e1 hl =>
          cases hl with
          | cons e2 hl =>
            cases hl
            rw [ev_ref_clean e1 (put_at hp rfl) hcv, Ev.clean_eq e2 hcw] at hcat
            rw [show [some (Value.list vs), some (Value.list ws)].filterMap id =
              [Value.list vs, Value.list ws] from rfl, concatenate_lists] at hcat
            cases hcat
            exact overO_list _ _

/-- **C65**, `path = [..]` followed by `path = ${path} [..]` (or `path += x`): the lists are appended.
This holds at every path of every configuration that has a value. -/
theorem C65_append {fs : Fields} {r i : Bool} {R : Value} {q : Path} {n : Nat} {opt : Bool}
    {vs ws : List Value} (hw : (Value.obj fs r i).Wf)
    (h : Ev env (envExt env b) (.obj fs r i) [] (some []) (.obj fs r i) (some R))
    (hv : at? (.obj fs r i) q = some (.dm [.concat [.ref n q opt 0, .list ws], .list vs]))
    (hcv : CleanL vs) (hcw : CleanL ws) : at? R q = some (.list (vs ++ ws)) := by
  obtain ⟨o, h1, h2⟩ := C65_each_setting hw h hv
  rw [h2]
  exact ev_append h1 hcv hcw

/-- **C65**, `path += x` where nothing older is there: a list with this element. -/
theorem C65_first_append {fs : Fields} {r i : Bool} {R : Value} {q : Path} {n : Nat} {ws : List Value}
    (hw : (Value.obj fs r i).Wf)
    (h : Ev env (envExt env b) (.obj fs r i) [] (some []) (.obj fs r i) (some R))
    (hv : at? (.obj fs r i) q = some (.concat [.ref n q true 0, .list ws])) (hcw : CleanL ws) :
    at? R q = some (.list ws) := by
  obtain ⟨o, h1, h2⟩ := C65_each_setting hw h hv
  rw [h2]
  cases h1 with
  | clean hc => exact hc.elim
  | concat hl hcat =>
    cases hl with
    | cons e1 hl =>
      cases hl with
      | cons e2 hl =>
        cases hl
        rw [Ev.clean_eq e2 hcw] at hcat
        have none_of : ∀ {x}, x = none → Value.concatenate env ([x, some (Value.list ws)].filterMap id) = .ok o →
            o = some (.list ws) := by
          rintro x rfl hc
          cases hc
          rfl
        cases e1 with
        | clean hc => exact hc.elim
        | ref _ _ ha e =>
          rw [hv] at ha
          cases ha
          cases e with
          | clean hc => exact hc.elim
          | concat hl _ =>
            cases hl with
            | cons e1 _ =>
              exfalso
              cases e1 with
              | clean hc => exact hc.elim
              | ref hm => exact hm (by simp)
              | refGone hm => exact hm (by simp)
              | refExt hm => exact hm (by simp)
              | refAbsent hm => exact hm (by simp)
              | refSelf hm => exact hm (by simp)
        | refGone => exact none_of rfl hcat
        | refExt _ hd => exact absurd hv (dead_not_at hd)
        | refAbsent => exact none_of rfl hcat
        | refSelf => exact none_of rfl hcat

/-- **C65**, `a = ${base}` followed by `a { .. }`: the fields of the object are put over those of the
value at `base`. -/
theorem C65_override {fs gs : Fields} {r i r' i' : Bool} {R B : Value} {p q : Path} {id : Nat} {opt : Bool}
    (hw : (Value.obj fs r i).Wf)
    (h : Ev env (envExt env b) (.obj fs r i) [] (some []) (.obj fs r i) (some R))
    (hv : at? (.obj fs r i) q = some (.dmo [.obj gs r' i', .ref id p opt 0])) (hc : Clean (.obj gs r' i'))
    (hp : at? (.obj fs r i) p = some B) (hB : Clean B) (hap : Apart p q) :
    at? R q = some (over (.obj gs r' i') B) := by
  obtain ⟨o, h1, h2⟩ := C65_each_setting hw h hv
  rw [h2]
  cases h1 with
  | clean hc => exact hc.elim
  | severalO _ h1 =>
    cases h1 with
    | waiting hh => exact hh.elim
    | other _ e1 h1 =>
      cases h1 with
      | other hh => exact hh.elim
      | waiting _ ho hput e2 h1 =>
        cases h1
        rw [Ev.clean_eq e1 hc, ev_ref_clean e2 (put_apart hput hap hp) hB]
        rfl

/-! ## Chains of appended values -/

/-- **C66**, the part that holds: a list to which values are appended twice. -/
theorem C66_two_appends_partial {fs : Fields} {r i : Bool} {R : Value} {q : Path} {n n' : Nat}
    {opt opt' : Bool} {us vs ws : List Value} (hw : (Value.obj fs r i).Wf)
    (h : Ev env (envExt env b) (.obj fs r i) [] (some []) (.obj fs r i) (some R))
    (hv : at? (.obj fs r i) q = some (.dm [.concat [.ref n q opt 0, .list ws],
      .concat [.ref n' q opt' 0, .list vs], .list us]))
    (hcu : CleanL us) (hcv : CleanL vs) (hcw : CleanL ws) : at? R q = some (.list (us ++ vs ++ ws)) := by
  obtain ⟨o, h1, h2⟩ := C65_each_setting hw h hv
  rw [h2]
  cases h1 with
  | clean hc => exact hc.elim
  | several _ h1 =>
    cases h1 with
    | other hh => exact hh.elim
    | waiting _ ho hp h1 _ =>
      have ho' : (Res.ok (some (.dm [.concat [.ref n' q opt' 0, .list vs], .list us])) : Res (Option Value)) =
          .ok _ := ho
      cases ho'
      cases h1 with
      | clean hc => exact hc.elim
      | concat hl hcat =>
        cases hl with
        | cons e1 hl =>
          cases hl with
          | cons e2 hl =>
            cases hl
            have hat := put_at hp rfl
            have e3 := ev_ref_of e1 hat (fun _ _ e => ev_append e hcu hcv) (by intro hb; cases hb)
            rw [e3, Ev.clean_eq e2 hcw] at hcat
            rw [show [some (Value.list (us ++ vs)), some (Value.list ws)].filterMap id =
              [Value.list (us ++ vs), Value.list ws] from rfl, concatenate_lists] at hcat
            cases hcat
            exact overO_list _ _

/-- What a document stands for after parsing and `resolve()` (with at most `n` nested calls). -/
def settled (n : Nat) (s : Str) : Res (Option Value) :=
  (ConfigParser.parseText Tokenizer.exEnv ConfigParser.noInc .conf s 0).bind fun v =>
    configResolve Tokenizer.exEnv n v.1 ⟨false, false⟩

theorem settled_le {n : Nat} {s : Str} {r : Res (Option Value)} (hr : r ≠ .fuel)
    (h : settled 40 s = r) (hn : 40 ≤ n) : settled n s = r := by
  unfold settled at h ⊢
  cases hp : ConfigParser.parseText Tokenizer.exEnv ConfigParser.noInc .conf s 0 with
  | ok v =>
    rw [hp] at h
    have h : configResolve Tokenizer.exEnv 40 v.1 ⟨false, false⟩ = r := h
    rcases configResolveWith_le Tokenizer.exEnv hn v.1 v.1 ⟨false, false⟩ with h' | h'
    · exact absurd (h.symm.trans h') hr
    · exact h'.symm.trans h
  | _ => rw [hp] at h; exact h

/-- **C66** does not hold: appending a third time makes `resolve()` throw a `bug_or_broken_exception`,
however deep it may recurse. (`with_fallback` puts a delayed merge into a delayed merge; the
constructor that should refuse this checks the vector it has moved from,
config_delayed_merge.cc 25.) -/
theorem C66_third_append_violated (n : Nat) (hn : 40 ≤ n) :
    settled n (ch "a=[p]\na+=q\na+=r") =
      .ok (some (.obj [(ch "a", .list [.scalar (.str (ch "p") false), .scalar (.str (ch "q") false),
        .scalar (.str (ch "r") false)])] true false)) ∧
    settled n (ch "a=[p]\na+=q\na+=r\na+=s") = .err .bug :=
  ⟨settled_le (by simp) (by decide +kernel) hn, settled_le (by simp) (by decide +kernel) hn⟩

/-! ## The hypotheses are met -/

/-- A string. -/
def exStr (x : Str) : Value := .scalar (.str x false)

/-- `[p]` and then `${a} [q]` -/
def exSt : List Value :=
  [.concat [.ref 0 [ch "a"] false 0, .list [exStr (ch "q")]], .list [exStr (ch "p")]]

/-- `[p, q]` -/
def exPq : Value := .list [exStr (ch "p"), exStr (ch "q")]

/-- `a = [p]`, `a = ${a} [q]`, `b { c = ${a} }`, `d = ${?none}`, `e = ${b}`, `e { f = r }` -/
def exSettings : Fields :=
  [(ch "a", .dm exSt),
   (ch "b", .obj [(ch "c", .ref 1 [ch "a"] false 0)] false false),
   (ch "d", .ref 2 [ch "none"] true 0),
   (ch "e", .dmo [.obj [(ch "f", exStr (ch "r"))] true false, .ref 3 [ch "b"] false 0])]

/-- What they stand for. -/
def exSettled : Fields :=
  [(ch "a", exPq), (ch "b", .obj [(ch "c", exPq)] true false),
   (ch "e", .obj [(ch "f", exStr (ch "r")), (ch "c", exPq)] true false)]

/-- These are the values the parser makes of a document. -/
example : ConfigParser.parseText Tokenizer.exEnv ConfigParser.noInc .conf
    (ch "a=[p]\na=${a}[q]\nb{c=${a}}\nd=${?none}\ne=${b}\ne{f=r}") 0 = .ok (.obj exSettings false false, 4) := by
  decide +kernel

/-- The semantics applies to it. -/
theorem exSettings_ev : Ev env (envExt env false) (.obj exSettings false false) [] (some []) (.obj exSettings false false)
    (some (.obj exSettled true false)) := by
  have ha : ∀ (fs : Fields) (m : List Nat), 0 ∉ m →
      Ev env (envExt env false) (.obj ((ch "a", .dm exSt) :: fs) false false) m (some [ch "a"]) (.dm exSt)
        (some exPq) := by
    intro fs m hm
    have h1 : Ev env (envExt env false) (.obj ((ch "a", .list [exStr (ch "p")]) :: fs)
        (resolvedFields ((ch "a", .list [exStr (ch "p")]) :: fs)) false) m none
        (.concat [.ref 0 [ch "a"] false 0, .list [exStr (ch "q")]]) (some exPq) :=
      .concat (os := [some (.list [exStr (ch "p")]), some (.list [exStr (ch "q")])])
        (.cons (.ref hm (by simp) rfl (.clean ⟨trivial, trivial⟩)) (.cons (.clean ⟨trivial, trivial⟩) .nil)) rfl
    have h2 : EvS env (envExt env false) (.obj ((ch "a", .dm exSt) :: fs) false false) m [ch "a"] exSt
        (overO (some exPq) (overO (some (.list [exStr (ch "p")])) none)) :=
      .waiting trivial rfl (.set (fs := []) (by simp)) h1
        (.other trivial (.clean ⟨trivial, trivial⟩) .nil)
    exact .several (by simp) h2
  have hb : ∀ (fs : Fields) (m : List Nat) (pos : Option Path), 0 ∉ m → 1 ∉ m →
      Ev env (envExt env false) (.obj ((ch "a", .dm exSt) :: fs) false false) m pos
        (.obj [(ch "c", .ref 1 [ch "a"] false 0)] false false) (some (.obj [(ch "c", exPq)] true false)) := by
    intro fs m pos hm hm'
    exact .obj (os := [(ch "c", some exPq)])
      (.cons (.ref hm' (by simp) rfl (ha fs (1 :: m) (by simpa using hm))) .nil)
  have he : EvS env (envExt env false) (.obj exSettings false false) [] [ch "e"]
      [.obj [(ch "f", exStr (ch "r"))] true false, .ref 3 [ch "b"] false 0]
      (overO (some (.obj [(ch "f", exStr (ch "r"))] true false))
        (overO (some (.obj [(ch "c", exPq)] true false)) none)) :=
    .other trivial (.clean ⟨rfl, trivial, trivial⟩) (.waiting trivial rfl
      (.remove (fs := exSettings.take 3) (gs := []) (by
        intro f hf
        simp only [exSettings, List.take_succ_cons, List.take_zero, List.mem_cons, List.not_mem_nil,
          or_false] at hf
        rcases hf with rfl | rfl | rfl <;> exact ⟨by decide, by simp⟩))
      (.ref (by simp) (by simp) rfl (hb _ _ _ (by simp) (by simp))) .nil)
  exact .obj (os := [(ch "a", some _), (ch "b", some _), (ch "d", none), (ch "e", some _)])
    (.cons (ha _ _ (by simp)) (.cons (hb _ _ _ (by simp) (by simp)) (.cons
      (.refAbsent (by simp) (.missing rfl) rfl) (.cons (.severalO (by simp) he) .nil))))

example : at? (.obj exSettled true false) [ch "b", ch "c"] = at? (.obj exSettled true false) [ch "a"] :=
  ((C26_merged_partial (env := Tokenizer.exEnv) (b := false) (wfB_wf (.obj exSettings false false) (by decide))
    exSettings_ev (q := [ch "b", ch "c"]) (id := 1) (opt := false) (by rfl)
    (by rintro v ⟨⟩ hb; cases hb)).resolve_right (by decide)).1

/-- The hypotheses of `C65_first_append`: `a += q`. -/
example : Ev env (envExt env false)
    (.obj [(ch "a", .concat [.ref 0 [ch "a"] true 0, .list [exStr (ch "q")]])] false false) [] (some [])
    (.obj [(ch "a", .concat [.ref 0 [ch "a"] true 0, .list [exStr (ch "q")]])] false false)
    (some (.obj [(ch "a", .list [exStr (ch "q")])] true false)) :=
  .obj (os := [(ch "a", some (.list [exStr (ch "q")]))])
    (.cons (.concat (os := [none, some (.list [exStr (ch "q")])])
      (.cons (.refSelf (by simp) (by simp) rfl (.concat .ref))
        (.cons (.clean ⟨trivial, trivial⟩) .nil)) rfl) .nil)

/-- The hypotheses of `C65_override`: `b { x = p }`, `a = ${b}`, `a { y = q }`. -/
example : Ev env (envExt env false)
    (.obj [(ch "b", .obj [(ch "x", exStr (ch "p"))] true false),
      (ch "a", .dmo [.obj [(ch "y", exStr (ch "q"))] true false, .ref 0 [ch "b"] false 0])] false false) [] (some [])
    (.obj [(ch "b", .obj [(ch "x", exStr (ch "p"))] true false),
      (ch "a", .dmo [.obj [(ch "y", exStr (ch "q"))] true false, .ref 0 [ch "b"] false 0])] false false)
    (some (.obj [(ch "b", .obj [(ch "x", exStr (ch "p"))] true false),
      (ch "a", .obj [(ch "y", exStr (ch "q")), (ch "x", exStr (ch "p"))] true false)] true false)) := by
  have hb : Clean (.obj [(ch "x", exStr (ch "p"))] true false) := ⟨rfl, trivial, trivial⟩
  have he : EvS env (envExt env false) (.obj [(ch "b", .obj [(ch "x", exStr (ch "p"))] true false),
      (ch "a", .dmo [.obj [(ch "y", exStr (ch "q"))] true false, .ref 0 [ch "b"] false 0])] false false) [] [ch "a"]
      [.obj [(ch "y", exStr (ch "q"))] true false, .ref 0 [ch "b"] false 0]
      (overO (some (.obj [(ch "y", exStr (ch "q"))] true false))
        (overO (some (.obj [(ch "x", exStr (ch "p"))] true false)) none)) :=
    .other trivial (.clean ⟨rfl, trivial, trivial⟩) (.waiting trivial rfl
      (.remove (fs := [(ch "b", _)]) (gs := []) (by
        intro f hf
        simp only [List.mem_cons, List.not_mem_nil, or_false] at hf
        rcases hf with rfl
        exact ⟨by decide, by simp⟩))
      (.ref (by simp) (by simp) rfl (.clean hb)) .nil)
  exact .obj (os := [(ch "b", some _), (ch "a", some _)])
    (.cons (.clean hb) (.cons (.severalO (by simp) he) .nil))

/-- The hypotheses of `C66_two_appends_partial`: `a = [p]`, `a += q`, `a += r`. -/
example :
    let s1 := [Value.concat [.ref 0 [ch "a"] true 0, .list [exStr (ch "q")]], .list [exStr (ch "p")]]
    let s2 := Value.concat [.ref 1 [ch "a"] true 0, .list [exStr (ch "r")]] :: s1
    Ev env (envExt env false) (.obj [(ch "a", .dm s2)] false false) [] (some [])
      (.obj [(ch "a", .dm s2)] false false)
      (some (.obj [(ch "a", .list [exStr (ch "p"), exStr (ch "q"), exStr (ch "r")])] true false)) := by
  intro s1 s2
  have hp : Clean (.list [exStr (ch "p")]) := ⟨trivial, trivial⟩
  have hq : Clean (.list [exStr (ch "q")]) := ⟨trivial, trivial⟩
  have hr : Clean (.list [exStr (ch "r")]) := ⟨trivial, trivial⟩
  have h1 : ∀ (w : Value) (m : List Nat), 0 ∉ m →
      EvS env (envExt env false) (.obj [(ch "a", w)] false false) m [ch "a"] s1
      (overO (some (.list [exStr (ch "p"), exStr (ch "q")])) (overO (some (.list [exStr (ch "p")])) none)) :=
    fun w m hm => .waiting trivial rfl (.set (fs := []) (by simp))
      (.concat (os := [some (.list [exStr (ch "p")]), some (.list [exStr (ch "q")])])
        (.cons (.ref hm (by simp) rfl (.clean hp)) (.cons (.clean hq) .nil)) rfl)
      (.other trivial (.clean hp) .nil)
  have h2 : EvS env (envExt env false) (.obj [(ch "a", .dm s2)] false false) [] [ch "a"] s2
      (overO (some (.list [exStr (ch "p"), exStr (ch "q"), exStr (ch "r")])) _) :=
    .waiting trivial (old := some (.dm s1)) rfl (.set (fs := []) (by simp))
      (.concat (os := [some (.list [exStr (ch "p"), exStr (ch "q")]), some (.list [exStr (ch "r")])])
        (.cons (.ref (by simp) (by simp) rfl (.several (by simp) (h1 _ [1] (by simp)))) (.cons (.clean hr) .nil)) rfl)
      (h1 _ _ (by simp))
  exact .obj (os := [(ch "a", some _)]) (.cons (.several (by simp) h2) .nil)

end Hocon
