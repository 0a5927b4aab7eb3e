import Verif.Spec.Settle
import Verif.Lemmas.ResolveSound
import Verif.Lemmas.SubstLookup
import Verif.Lemmas.HoconParse

/-!
# Helper lemmas: the resolver computes what `Spec.Ev` describes
-/

set_option autoImplicit false

namespace Hocon
namespace Settle
open Spec Value Resolve

variable {env : Env} {ext : Path → Option Str}

/-! ## Values without substitutions -/

theorem kept_same (fs : Fields) : present (fs.map fun f => (f.1, some f.2)) = fs := by
  induction fs with
  | nil => rfl
  | cons f fs ih =>
    simp only [present, List.map_cons, List.filterMap_cons, Option.map_some] at ih ⊢
    rw [ih]

mutual
theorem Ev.clean_eq {root v : Value} {m : List Nat} {pos : Option Path} {o : Option Value}
    (h : Ev env ext root m pos v o) : Clean v → o = some v :=
  match h with
  | .clean _ => fun _ => rfl
  | .list h _ => fun hc => by
    rw [EvL.clean_eq h hc]; simp
  | .obj h => fun hc => by
    obtain ⟨rfl, hc⟩ := hc
    rw [EvF.clean_eq h hc, kept_same]
  | .ref _ _ _ _ => fun hc => hc.elim
  | .refGone _ _ _ _ => fun hc => hc.elim
  | .refExt _ _ _ => fun hc => hc.elim
  | .refAbsent _ _ _ => fun hc => hc.elim
  | .refSelf _ _ _ _ => fun hc => hc.elim
  | .concat _ _ => fun hc => hc.elim
  | .several _ _ => fun hc => hc.elim
  | .severalO _ _ => fun hc => hc.elim
theorem EvL.clean_eq {root : Value} {vs : List Value} {m : List Nat} {os : List (Option Value)}
    (h : EvL env ext root m vs os) : CleanL vs → os = vs.map some :=
  match h with
  | .nil => fun _ => rfl
  | .cons h1 h2 => fun hc => by
    rw [Ev.clean_eq h1 hc.1, EvL.clean_eq h2 hc.2]; rfl
theorem EvF.clean_eq {root : Value} {fs : Fields} {m : List Nat} {pos : Option Path}
    {os : List (Str × Option Value)}
    (h : EvF env ext root m pos fs os) : CleanF fs → os = fs.map fun f => (f.1, some f.2) :=
  match h with
  | .nil => fun _ => rfl
  | .cons h1 h2 => fun hc => by
    rw [Ev.clean_eq h1 hc.1, EvF.clean_eq h2 hc.2]; rfl
end

/-! ## The older values -/

theorem older_eq (vs : List Value) : older vs = makeReplacement vs := by
  cases vs with
  | nil => rfl
  | cons v vs =>
    show older.go v vs = (mergeAll v vs).bind _
    induction vs generalizing v with
    | nil => rfl
    | cons w ws ih =>
      rw [older.go, mergeAll]
      cases withFallback v w with
      | ok m => exact ih m
      | _ => rfl

/-! ## Replacing a value -/

theorem findKey_skip {fs gs : Fields} {k : Str} {v : Value} (h : ∀ f ∈ fs, f.1 ≠ k) :
    findKey (fs ++ (k, v) :: gs) k = some v := by
  induction fs with
  | nil => simp [findKey]
  | cons f fs ih =>
    obtain ⟨k', w⟩ := f
    rw [List.cons_append, findKey, if_neg (h (k', w) (by simp))]
    exact ih fun f hf => h f (by simp [hf])

theorem replaceInFields_skip {fs gs : Fields} {k : Str} {v : Value} {o : Option Value}
    (h : ∀ f ∈ fs, f.2 ≠ v) :
    replaceInFields v o (fs ++ (k, v) :: gs) = some (fs ++ (match o with
      | some r => (k, r) :: gs
      | none => gs)) := by
  induction fs with
  | nil => cases o <;> simp [replaceInFields]
  | cons f fs ih =>
    obtain ⟨k', w⟩ := f
    rw [List.cons_append, replaceInFields.eq_def]
    simp only
    rw [if_neg (h (k', w) (by simp)), ih fun f hf => h f (by simp [hf])]
    rfl

/-- The objects on the way to a path, the innermost first. -/
def chain : Value → Path → List Value → List Value
  | _, [], acc => acc
  | v, k :: p, acc =>
    match child v k with
    | some w => chain w p (v :: acc)
    | none => acc

theorem chain_obj {fs : Fields} {r i : Bool} {k : Str} {p : Path} {acc : List Value} {w : Value}
    (h : findKey fs k = some w) :
    chain (.obj fs r i) (k :: p) acc = chain w p (.obj fs r i :: acc) := by
  rw [chain, child_eq_findKey, h]

theorem chain_snoc : {v u : Value} → {q : Path} → {k : Str} → {acc : List Value} →
    at? v q = some u → (child u k).isSome = true → chain v (q ++ [k]) acc = u :: chain v q acc
  | v, u, [], k, acc, h, hk => by
    cases h
    obtain ⟨w, hw⟩ := Option.isSome_iff_exists.1 hk
    simp [chain, hw]
  | v, u, k' :: q, k, acc, h, hk => by
    obtain ⟨fs, r, i, x, rfl, hf, h⟩ := at?_cons_some h
    rw [List.cons_append, chain_obj hf, chain_obj hf]
    exact chain_snoc h hk

theorem at?_snoc {v u w : Value} {k : Str} : {q : Path} → at? v q = some u → child u k = some w →
    at? v (q ++ [k]) = some w
  | [], h, hk => by cases h; simp [at?, hk]
  | k' :: q, h, hk => by
    obtain ⟨fs, r, i, x, rfl, hf, h⟩ := at?_cons_some h
    rw [List.cons_append, at?_obj, hf]
    exact at?_snoc (q := q) h hk

theorem put_replace {v w D : Value} {q : Path} {o : Option Value} (h : Put v q o w) :
    at? v q = some D → ∀ acc, ∃ parent rest pre, chain v q acc = parent :: rest ∧
      ((replaceChild parent D o).bind fun np => replacePath (parent :: rest) (asContainer np)) =
        (replacePath (v :: acc) (some w)).bind fun t => .ok (pre ++ t) := by
  induction h with
  | @set fs gs r i k v x hk =>
    intro h acc
    have hf := findKey_skip (gs := gs) (v := v) fun f hf => (hk f hf).1
    rw [at?_obj, hf] at h
    cases h
    refine ⟨.obj (fs ++ (k, D) :: gs) r i, acc, [], ?_, ?_⟩
    · rw [chain_obj hf]; rfl
    · simp only [replaceChild]
      rw [replaceInFields_skip fun f hf => (hk f hf).2]
      simp only [Res.bind, asContainer, isContainer, if_true, List.nil_append]
      cases replacePath _ _ <;> rfl
  | @remove fs gs r i k v hk =>
    intro h acc
    have hf := findKey_skip (gs := gs) (v := v) fun f hf => (hk f hf).1
    rw [at?_obj, hf] at h
    cases h
    refine ⟨.obj (fs ++ (k, D) :: gs) r i, acc, [], ?_, ?_⟩
    · rw [chain_obj hf]; rfl
    · simp only [replaceChild]
      rw [replaceInFields_skip fun f hf => (hk f hf).2]
      simp only [Res.bind, asContainer, isContainer, if_true, List.nil_append]
      cases replacePath _ _ <;> rfl
  | @deeper fs gs r i k k' p o v w hk hp ih =>
    intro h acc
    have hf := findKey_skip (gs := gs) (v := v) fun f hf => (hk f hf).1
    rw [at?_obj, hf] at h
    obtain ⟨parent, rest, pre, h1, h2⟩ := ih h (.obj (fs ++ (k, v) :: gs) r i :: acc)
    refine ⟨parent, rest, pre ++ [w], by rw [chain_obj hf, h1], ?_⟩
    rw [h2, replacePath]
    have hw : asContainer (some w) = some w := by cases hp <;> rfl
    rw [hw]
    simp only [replaceChild]
    rw [replaceInFields_skip fun f hf => (hk f hf).2]
    simp only [Res.bind]
    cases replacePath _ _ <;> simp

theorem put_source {root root' D : Value} {q : Path} {o : Option Value} {s : Source}
    (h : Put root q o root') (hD : at? root q = some D) (hs : s.path = chain root q []) :
    s.replaceWithin D o = .ok ⟨some root', []⟩ := by
  obtain ⟨parent, rest, pre, h1, h2⟩ := put_replace h hD []
  have hc : asContainer (some root') = some root' := by cases h <;> rfl
  have ho : root'.isObject = true := by cases h <;> rfl
  have h3 : replacePath [root] (some root') = .ok [root'] := by simp [replacePath, hc]
  rw [h3] at h2
  have h4 : rootOfPath (pre ++ [root']) = some root' := by
    simp [rootOfPath, asObject, ho]
  unfold Source.replaceWithin
  rw [hs, h1]
  show (replaceChild parent D o).bind (fun np =>
      (replacePath (parent :: rest) (asContainer np)).bind fun p =>
        Res.ok (⟨rootOfPath p, []⟩ : Source)) = _
  have : (replaceChild parent D o).bind (fun np =>
      (replacePath (parent :: rest) (asContainer np)).bind fun p => Res.ok (⟨rootOfPath p, []⟩ : Source)) =
      ((replaceChild parent D o).bind fun np => replacePath (parent :: rest) (asContainer np)).bind
        fun p => .ok ⟨rootOfPath p, []⟩ := by
    cases replaceChild parent D o <;> rfl
  rw [this, h2]
  show Res.ok (⟨rootOfPath (pre ++ [root']), []⟩ : Source) = _
  rw [h4]

theorem put_wf {v w : Value} {q : Path} {o : Option Value} (h : Put v q o w) :
    v.Wf → (∀ x, o = some x → x.Wf) → w.Wf := by
  induction h with
  | @set fs gs r i k v x hk =>
    intro hv hx
    have hn := closed_wf.nodup _ _ _ hv
    have hfs := closed_wf.fields _ _ _ hv
    refine closed_wf.obj _ _ (by simpa [keysOf] using hn) fun f hf => ?_
    simp only [List.mem_append, List.mem_cons] at hf
    rcases hf with hf | rfl | hf
    · exact hfs f (by simp [hf])
    · exact hx _ rfl
    · exact hfs f (by simp [hf])
  | @remove fs gs r i k v hk =>
    intro hv hx
    have hn := closed_wf.nodup _ _ _ hv
    have hfs := closed_wf.fields _ _ _ hv
    refine closed_wf.obj _ _ (hn.sublist (by simp [keysOf])) fun f hf => ?_
    simp only [List.mem_append] at hf
    rcases hf with hf | hf
    · exact hfs f (by simp [hf])
    · exact hfs f (by simp [hf])
  | @deeper fs gs r i k k' p o v w hk hp ih =>
    intro hv hx
    have hn := closed_wf.nodup _ _ _ hv
    have hfs := closed_wf.fields _ _ _ hv
    refine closed_wf.obj _ _ (by simpa [keysOf] using hn) fun f hf => ?_
    simp only [List.mem_append, List.mem_cons] at hf
    rcases hf with hf | rfl | hf
    · exact hfs f (by simp [hf])
    · exact ih (hfs (k, v) (by simp)) hx
    · exact hfs f (by simp [hf])

theorem at?_wf : {v u : Value} → {q : Path} → v.Wf → at? v q = some u → u.Wf
  | v, u, [], hv, h => by cases h; exact hv
  | v, u, k :: q, hv, h => by
    obtain ⟨fs, r, i, x, rfl, hf, h⟩ := at?_cons_some h
    exact at?_wf (closed_wf.findKey (closed_wf.fields _ _ _ hv) hf) h

/-! ## Everything stands for plain values -/

theorem overO_plain {o o' : Option Value} (h : ∀ r, o = some r → r.Plain) (h' : ∀ r, o' = some r → r.Plain) :
    ∀ r, overO o o' = some r → r.Plain := by
  intro r hr
  cases o with
  | none => exact h' r hr
  | some v =>
    cases o' with
    | none => exact h r hr
    | some w =>
      simp only [overO, Option.some.injEq] at hr
      rw [← hr, HoconParse.over_eq]
      exact Plain.merge (h v rfl) (h' w rfl)

theorem present_keys (os : List (Str × Option Value)) :
    (keysOf (present os)).Sublist (os.map Prod.fst) := by
  induction os with
  | nil => exact .slnil
  | cons f os ih =>
    obtain ⟨k, o⟩ := f
    cases o with
    | none => simpa [present, keysOf] using ih.cons k
    | some v => simpa [present, keysOf] using ih.cons_cons k

theorem EvF.keys {root : Value} {fs : Fields} {m : List Nat} {pos : Option Path}
    {os : List (Str × Option Value)}
    (h : EvF env ext root m pos fs os) : os.map Prod.fst = keysOf fs :=
  match h with
  | .nil => rfl
  | .cons _ h2 => by simp [keysOf, EvF.keys h2]

theorem EvL.length {root : Value} {vs : List Value} {m : List Nat} {os : List (Option Value)}
    (h : EvL env ext root m vs os) : os.length = vs.length :=
  match h with
  | .nil => rfl
  | .cons _ h2 => by simp [EvL.length h2]

mutual
theorem Ev.plain {root v : Value} {m : List Nat} {pos : Option Path} {o : Option Value}
    (h : Ev env ext root m pos v o) : root.Wf → v.Wf → ∀ r, o = some r → r.Plain :=
  match h with
  | .clean hc => fun _ hv r hr => by
    cases hr
    exact ⟨hv, Clean.resolved _ hc⟩
  | .list h _ => fun hroot hv r hr => by
    cases hr
    simp only [Wf] at hv
    have := EvL.plain h hroot hv
    refine ⟨?_, ?_⟩
    · simp only [Wf, WfL.iff]; exact fun w hw => (this w (by simpa using hw)).wf
    · simp only [Value.resolved, resolvedAll_iff]; exact fun w hw => (this w (by simpa using hw)).res
  | .obj h => fun hroot hv r hr => by
    cases hr
    simp only [Wf] at hv
    refine plain_obj.2 ⟨rfl, ?_, fun f hf => ?_⟩
    · exact hv.2.1.sublist (EvF.keys h ▸ present_keys _)
    · simp only [present, List.mem_filterMap, Option.map_eq_some_iff] at hf
      obtain ⟨g, hg, w, hw, rfl⟩ := hf
      exact EvF.plain h hroot hv.2.2 g hg w hw
  | .ref _ _ h1 h2 => fun hroot _ => Ev.plain h2 hroot (at?_wf hroot h1)
  | .refGone _ _ _ _ => fun _ _ r hr => by cases hr
  | .refExt _ _ _ => fun _ _ r hr => by cases hr; exact ⟨by simp [Wf], rfl⟩
  | .refAbsent _ _ _ => fun _ _ r hr => by cases hr
  | .refSelf _ _ _ _ => fun _ _ r hr => by cases hr
  | .concat h hc => fun hroot hv r hr => by
    subst hr
    simp only [Wf] at hv
    refine ConfigParser.concatenate_plain _ _ _ (fun w hw => ?_) hc
    exact EvL.plain h hroot hv w (by simpa using hw)
  | .several _ h => fun hroot hv => EvS.plain h hroot (by simpa only [Wf] using hv)
  | .severalO _ h => fun hroot hv => EvS.plain h hroot (by simpa only [Wf] using hv)
termination_by structural h
theorem EvL.plain {root : Value} {vs : List Value} {m : List Nat} {os : List (Option Value)}
    (h : EvL env ext root m vs os) : root.Wf → WfL vs → ∀ w, some w ∈ os → w.Plain :=
  match h with
  | .nil => fun _ _ w hw => by simp at hw
  | .cons h1 h2 => fun hroot hv w hw => by
    rcases List.mem_cons.1 hw with hw | hw
    · exact Ev.plain h1 hroot hv.1 w hw.symm
    · exact EvL.plain h2 hroot hv.2 w hw
termination_by structural h
theorem EvF.plain {root : Value} {fs : Fields} {m : List Nat} {pos : Option Path}
    {os : List (Str × Option Value)}
    (h : EvF env ext root m pos fs os) : root.Wf → WfF fs → ∀ g ∈ os, ∀ w, g.2 = some w → w.Plain :=
  match h with
  | .nil => fun _ _ g hg => by simp at hg
  | .cons h1 h2 => fun hroot hv g hg => by
    rcases List.mem_cons.1 hg with rfl | hg
    · exact Ev.plain h1 hroot hv.1
    · exact EvF.plain h2 hroot hv.2 g hg
termination_by structural h
theorem EvS.plain {root : Value} {st : List Value} {m : List Nat} {q : Path} {o : Option Value}
    (h : EvS env ext root m q st o) : root.Wf → WfL st → ∀ r, o = some r → r.Plain :=
  match h with
  | .nil => fun _ _ r hr => by cases hr
  | .waiting _ ho hp h1 h2 => fun hroot hv =>
    overO_plain (Ev.plain h1 (put_wf hp hroot (by
      rw [older_eq] at ho
      exact closed_wf.makeReplacement (WfL.iff.1 hv.2) ho)) hv.1) (EvS.plain h2 hroot hv.2)
  | .other _ h1 h2 => fun hroot hv => overO_plain (Ev.plain h1 hroot hv.1) (EvS.plain h2 hroot hv.2)
termination_by structural h
end

/-! ## Lookups -/

theorem resolveFields_quiet {rec : Resolver} {orig : Path} {s : Source} {c : Ctx} {k : Str} {p : Path}
    (hc : c.restr = k :: p) (ho : c.restrict orig = c) : (fs : Fields) →
    (∀ f ∈ fs, f.1 = k → p ≠ [] → rec (c.restrict p) s f.2 = .ok (c.restrict p, some f.2)) →
    resolveFields rec orig s c fs = .ok (c, fs.map fun f => (f.1, some f.2))
  | [], _ => rfl
  | (k', v) :: fs, h => by
    have ih := resolveFields_quiet hc ho fs (fun f hf => h f (by simp [hf]))
    have h1 : resolveChild rec orig c s k' v = .ok (c, some v) := by
      unfold resolveChild
      rw [hc]
      simp only
      split
      · rename_i hk
        split
        · rfl
        · rename_i hp
          rw [h (k', v) (by simp) hk (by simpa using hp)]
          show Res.ok ((c.restrict p).restrict orig, some v) = _
          rw [show (c.restrict p).restrict orig = c.restrict orig from rfl, ho]
      · rfl
    simp only [resolveFields, h1]
    show (resolveFields rec orig s c fs).bind _ = _
    rw [ih]; rfl

/-- A restricted resolution changes nothing if the path leads through objects. -/
theorem resolveN_quiet {n : Nat} : {c : Ctx} → {s : Source} → {v : Value} → v.Wf → c.restr ≠ [] →
    c.restr.length < n → ((∃ u, at? v c.restr = some u) ∨ Dead v c.restr) →
    resolveN env n c s v = .ok (c, some v) := by
  induction n with
  | zero => intro c s v _ _ h; simp at h
  | succ n ih =>
    intro c s v hv hne hn h
    have hchk : ∀ w, checkResult c (c, some w) = .ok (c, some w) := fun w =>
      checkResult_ok (r := (c, some _)) (by rintro w ⟨⟩; exact .inr hne)
    have hobj : ∀ {fs : Fields} {r i : Bool} {k : Str} {p : Path}, (Value.obj fs r i).Wf → c.restr = k :: p →
        (∀ x, findKey fs k = some x → p ≠ [] → (∃ u, at? x p = some u) ∨ Dead x p) →
        resolveN env (n + 1) c s (.obj fs r i) = .ok (c, some (.obj fs r i)) := by
      intro fs r i k p hv hr hx
      rw [resolveN_succ rfl]
      simp only [resolveSubstitutions, resolveObject]
      split
      · exact hchk _
      · rw [resolveFields_quiet (rec := resolveN env n) (orig := c.restr) (s := s.push (.obj fs r i))
          (c := c) hr rfl fs (by
            intro f hf hk hp
            subst hk
            refine ih (closed_wf.fields _ _ _ hv f hf) hp ?_
              (hx f.2 (findKey_of_mem (closed_wf.nodup _ _ _ hv) hf) hp)
            rw [hr] at hn
            simp only [List.length_cons] at hn
            show p.length < n
            omega)]
        show (Res.ok (c, some (modifiedObject fs r i (fs.map fun f => (f.1, some f.2))))).bind _ = _
        rw [modifiedObject, if_pos rfl]
        exact hchk _
    generalize hp : c.restr = p at h hne
    cases p with
    | nil => exact absurd rfl hne
    | cons k p =>
      rcases h with ⟨u, h⟩ | h
      · obtain ⟨fs, r, i, x, rfl, hf, h⟩ := at?_cons_some h
        exact hobj hv hp fun y hy _ => by rw [hf] at hy; cases hy; exact .inl ⟨u, h⟩
      · cases h with
        | missing hf => exact hobj hv hp fun x hx => by rw [hf] at hx; cases hx
        | deeper hf h => exact hobj hv hp fun x hx _ => by rw [hf] at hx; cases hx; exact .inr h
        | scalar => rw [resolveN_succ rfl]; exact hchk (.scalar _)
        | list =>
          rw [resolveN_succ rfl]
          simp only [resolveSubstitutions, resolveList]
          split
          · exact hchk _
          · rw [if_pos (by rw [hp]; rfl)]; exact hchk _

theorem findPeek_at : {v u : Value} → {p : Path} → (acc : List Value) → p ≠ [] → at? v p = some u →
    findPeek v p acc = .ok (some u, chain v p acc)
  | v, u, [], _, h, _ => absurd rfl h
  | v, u, [k], acc, _, h => by
    obtain ⟨fs, r, i, x, rfl, hf, h⟩ := at?_cons_some h
    cases h
    rw [findPeek_obj, chain_obj hf, hf]
    rfl
  | v, u, k :: k' :: p, acc, _, h => by
    obtain ⟨fs, r, i, x, rfl, hf, h⟩ := at?_cons_some h
    have hx : x.isObject = true := by
      obtain ⟨_, _, _, _, rfl, _⟩ := at?_cons_some h
      rfl
    rw [findPeek_obj, chain_obj hf, hf]
    simp only [List.isEmpty_cons, Bool.false_eq_true, if_false, hx, if_true]
    exact findPeek_at _ (by simp) h

theorem findPeek_dead {v : Value} {p : Path} (h : Dead v p) : v.isObject = true → ∀ acc,
    ∃ ps, findPeek v p acc = .ok (none, ps) := by
  induction h with
  | @missing fs r i k p hf =>
    intro _ acc
    rw [findPeek_obj, hf]
    cases p <;> exact ⟨_, rfl⟩
  | @deeper fs r i k k' p v hf h ih =>
    intro _ acc
    rw [findPeek_obj, hf]
    simp only [List.isEmpty_cons, Bool.false_eq_true, if_false]
    split
    · rename_i hv; exact ih hv _
    · exact ⟨_, rfl⟩
  | scalar => intro h; simp [isObject] at h
  | list => intro h; simp [isObject] at h

theorem chain_last : {v u : Value} → {k : Str} → {p : Path} → {acc : List Value} →
    at? v (k :: p) = some u → ∃ pre, chain v (k :: p) acc = pre ++ v :: acc
  | v, u, k, [], acc, h => by
    obtain ⟨fs, r, i, x, rfl, hf, h⟩ := at?_cons_some h
    exact ⟨[], by rw [chain_obj hf]; rfl⟩
  | v, u, k, k' :: p, acc, h => by
    obtain ⟨fs, r, i, x, rfl, hf, h⟩ := at?_cons_some h
    obtain ⟨pre, hpre⟩ := chain_last (acc := Value.obj fs r i :: acc) h
    exact ⟨pre ++ [x], by rw [chain_obj hf, hpre]; simp⟩

theorem push_chain {root : Value} {fs : Fields} {r i : Bool} {q : Path} {k : Str} {s : Source}
    (hs : s.root = some root) (hp : s.path = chain root q []) (ha : at? root q = some (.obj fs r i))
    (hk : (findKey fs k).isSome = true) : (s.push (.obj fs r i)).path = chain root (q ++ [k]) [] := by
  rw [chain_snoc ha (by rw [child_eq_findKey]; exact hk)]
  unfold Source.push
  cases q with
  | nil =>
    cases ha
    rw [hp, hs]
    simp [chain, asObject, isObject]
  | cons k' q =>
    obtain ⟨pre, hpre⟩ := chain_last (acc := []) ha
    rw [hp, hpre]
    simp

/-! ## The resolver -/

/-- The context after a successful resolution. -/
structure After (b : Bool) (c c' : Ctx) : Prop where
  opts : c'.opts = ⟨b, false⟩
  restr : c'.restr = []
  marks : ∀ x ∈ c'.marks, x ∈ c.marks

/-- The context and the source before it. -/
structure Before (b : Bool) (root : Value) (m : List Nat) (c : Ctx) (s : Source) : Prop where
  opts : c.opts = ⟨b, false⟩
  restr : c.restr = []
  marks : ∀ x ∈ c.marks, x ∈ m
  root : s.root = some root

theorem After.before {b : Bool} {root : Value} {m : List Nat} {c c' : Ctx} {s s' : Source} (h : After b c c')
    (h' : Before b root m c s) (hs : s'.root = some root) : Before b root m c' s' :=
  ⟨h.opts, h.restr, fun x hx => h'.marks x (h.marks x hx), hs⟩

theorem After.trans {b : Bool} {c c' c'' : Ctx} (h : After b c c') (h' : After b c' c'') : After b c c'' :=
  ⟨h'.opts, h'.restr, fun x hx => h.marks x (h'.marks x hx)⟩

theorem Before.refl {b : Bool} {root : Value} {m : List Nat} {c : Ctx} {s : Source} (h : Before b root m c s) :
    After b c c := ⟨h.opts, h.restr, fun _ h => h⟩

/-- With enough fuel the resolver returns `o` for `v`. -/
def Goes (env : Env) (b : Bool) (root : Value) (m : List Nat) (pos : Option Path) (v : Value)
    (o : Option Value) : Prop :=
  ∃ N, ∀ n, N ≤ n → ∀ c s, Before b root m c s → (∀ q, pos = some q → s.path = chain root q []) →
    ∃ c', resolveN env n c s v = .ok (c', o) ∧ After b c c'

/-- One more call: the value is not a marked reference, and what it stands for is resolved. -/
theorem Goes.step {b : Bool} {root v : Value} {m : List Nat} {pos : Option Path} {o : Option Value} (N : Nat)
    (hp : ∀ r, o = some r → r.resolved = true)
    (h : ∀ n, N ≤ n → ∀ c s, Before b root m c s → (∀ q, pos = some q → s.path = chain root q []) →
      isMarked c v = false ∧
      ∃ c', resolveSubstitutions env (resolveN env n) c s v = .ok (c', o) ∧ After b c c') :
    Goes env b root m pos v o := by
  refine ⟨N + 1, fun n hn c s hb hq => ?_⟩
  cases n with
  | zero => omega
  | succ n =>
    obtain ⟨hm, c', h1, h2⟩ := h n (by omega) c s hb hq
    refine ⟨c', ?_, h2⟩
    rw [resolveN_succ hm, h1]
    exact checkResult_ok (r := (c', o)) fun v hv => .inl (hp v hv)

theorem goes_clean {b : Bool} {root v : Value} {m : List Nat} {pos : Option Path} (h : Clean v) :
    Goes env b root m pos v (some v) := by
  refine ⟨1, fun n hn c s hb _ => ⟨c, ?_, hb.refl⟩⟩
  rcases resolveN_clean (env := env) (n := n) (c := c) (s := s) h with h' | h'
  · cases n with
    | zero => omega
    | succ n =>
      cases v with
      | scalar x => rw [resolveN_succ rfl] at h'; cases h'
      | list vs =>
        rw [resolveN_succ rfl] at h'
        simp only [resolveSubstitutions, resolveList] at h'
        rw [if_pos (Clean.resolved _ h)] at h'
        simp only [Res.bind, checkResult] at h'
        split at h' <;> cases h'
      | obj fs r i =>
        rw [resolveN_succ rfl] at h'
        simp only [resolveSubstitutions, resolveObject] at h'
        rw [if_pos h.1] at h'
        simp only [Res.bind, checkResult] at h'
        split at h' <;> cases h'
      | _ => exact h.elim
  · exact h'

/-- Several elements, one after the other. -/
def GoesL (env : Env) (b : Bool) (root : Value) (m : List Nat) (vs : List Value)
    (os : List (Option Value)) : Prop :=
  ∃ N, ∀ n, N ≤ n → ∀ c s, Before b root m c s →
    (∃ c', resolveElems (resolveN env n) s c vs = .ok (c', os) ∧ After b c c') ∧
    ∃ c', resolvePieces (resolveN env n) s c vs = .ok (c', os.filterMap id) ∧ After b c c'

theorem goesL_nil {b : Bool} {root : Value} {m : List Nat} : GoesL env b root m [] [] :=
  ⟨0, fun _ _ c _ hb => ⟨⟨c, rfl, hb.refl⟩, ⟨c, rfl, hb.refl⟩⟩⟩

theorem goesL_cons {b : Bool} {root v : Value} {m : List Nat} {o : Option Value} {vs : List Value}
    {os : List (Option Value)} (h1 : Goes env b root m none v o) (h2 : GoesL env b root m vs os) :
    GoesL env b root m (v :: vs) (o :: os) := by
  obtain ⟨N1, h1⟩ := h1
  obtain ⟨N2, h2⟩ := h2
  refine ⟨max N1 N2, fun n hn c s hb => ⟨?_, ?_⟩⟩
  · obtain ⟨c1, e1, a1⟩ := h1 n (by omega) c s hb (by simp)
    obtain ⟨⟨c2, e2, a2⟩, -⟩ := h2 n (by omega) c1 s (a1.before hb hb.root)
    refine ⟨c2, ?_, a1.trans a2⟩
    simp only [resolveElems, e1]
    show (resolveElems _ s c1 vs).bind _ = _
    rw [e2]; rfl
  · have hc : c.restrict [] = c := by
      cases c; have := hb.restr; simp only at this; subst this; rfl
    obtain ⟨c1, e1, a1⟩ := h1 n (by omega) c s hb (by simp)
    have hc1 : c1.restrict c.restr = c1 := by
      rw [hb.restr]
      cases c1; have := a1.restr; simp only at this; subst this; rfl
    obtain ⟨-, ⟨c2, e2, a2⟩⟩ := h2 n (by omega) c1 s (a1.before hb hb.root)
    refine ⟨c2, ?_, a1.trans a2⟩
    simp only [resolvePieces, hc, e1]
    show (resolvePieces _ s (c1.restrict c.restr) vs).bind _ = _
    rw [hc1, e2]
    cases o <;> rfl

/-- The fields of an object. -/
def GoesF (env : Env) (b : Bool) (root : Value) (m : List Nat) (pos : Option Path) (fs : Fields)
    (os : List (Str × Option Value)) : Prop :=
  ∃ N, ∀ n, N ≤ n → ∀ c s, Before b root m c s →
    (∀ q, pos = some q → ∀ f ∈ fs, s.path = chain root (q ++ [f.1]) []) →
    ∃ c', resolveFields (resolveN env n) [] s c fs = .ok (c', os) ∧ After b c c'

theorem goesF_cons {b : Bool} {root v : Value} {m : List Nat} {pos : Option Path} {k : Str}
    {o : Option Value} {fs : Fields} {os : List (Str × Option Value)}
    (h1 : Goes env b root m (pos.map (· ++ [k])) v o) (h2 : GoesF env b root m pos fs os) :
    GoesF env b root m pos ((k, v) :: fs) ((k, o) :: os) := by
  obtain ⟨N1, h1⟩ := h1
  obtain ⟨N2, h2⟩ := h2
  refine ⟨max N1 N2, fun n hn c s hb hq => ?_⟩
  have hc : c.restrict [] = c := by
    cases c; have := hb.restr; simp only at this; subst this; rfl
  obtain ⟨c1, e1, a1⟩ := h1 n (by omega) c s hb (by
    intro q hq'
    obtain ⟨q', rfl, rfl⟩ := Option.map_eq_some_iff.1 hq'
    exact hq q' rfl (k, v) (by simp))
  have hc1 : c1.restrict [] = c1 := by
    cases c1; have := a1.restr; simp only at this; subst this; rfl
  obtain ⟨c2, e2, a2⟩ := h2 n (by omega) c1 s (a1.before hb hb.root)
    (fun q hq' f hf => hq q hq' f (by simp [hf]))
  refine ⟨c2, ?_, a1.trans a2⟩
  simp only [resolveFields, resolveChild, hb.restr, hc, e1, Res.bind, hc1, e2]

/-! ## Lists -/

/-- The loop over the elements once something has been kept. -/
theorem changedElems_init : (l : List (Value × Option Value)) → (before changed : List Value) →
    changed ≠ [] → changedElems before true changed l = (true, changed ++ (l.map Prod.snd).filterMap id)
  | [], _, _, _ => by simp [changedElems]
  | (old, new) :: rest, before, changed, h => by
    have he : changed.isEmpty = false := by simpa using h
    rw [changedElems, he]
    simp only [Bool.false_and, Bool.false_eq_true, if_false, if_true]
    rw [changedElems_init rest _ _ (by simp [h])]
    cases new <;> simp

/-- The loop as long as nothing has changed. -/
theorem changedElems_start : (l : List (Value × Option Value)) → (before : List Value) → before ≠ [] →
    (∃ x, changedElems before false [] l = (false, x) ∧
      before ++ l.map Prod.fst = before ++ (l.map Prod.snd).filterMap id) ∨
    changedElems before false [] l = (true, before ++ (l.map Prod.snd).filterMap id)
  | [], before, _ => .inl ⟨[], by simp [changedElems]⟩
  | (old, new) :: rest, before, h => by
    rw [changedElems]
    by_cases hn : new = some old
    · subst hn
      simp only [List.isEmpty_nil, bne_self_eq_false, Bool.and_false, Bool.false_eq_true, if_false]
      rcases changedElems_start rest (before ++ [old]) (by simp) with ⟨x, h1, h2⟩ | h1
      · left
        refine ⟨x, h1, ?_⟩
        simpa using h2
      · right
        rw [h1]; simp
    · right
      have : (new != some old) = true := by simpa using hn
      simp only [List.isEmpty_nil, this, Bool.and_self, if_true]
      rw [changedElems_init rest _ _ (by simp [h])]
      cases new <;> simp

theorem modifiedList_steady {vs : List Value} {os : List (Option Value)} (hl : os.length = vs.length)
    (hst : Steady vs os) (hr : ∀ w, some w ∈ os → w.resolved = true) :
    modifiedList false vs os = .ok (.list (os.filterMap id)) := by
  have key : (∃ x, changedElems [] false [] (vs.zip os) = (false, x) ∧ vs = os.filterMap id) ∨
      changedElems [] false [] (vs.zip os) = (true, os.filterMap id) := by
    cases vs with
    | nil =>
      cases os with
      | nil => exact .inl ⟨[], rfl, rfl⟩
      | cons o os => simp at hl
    | cons v vs =>
      cases os with
      | nil => simp at hl
      | cons o os =>
        have hl' : os.length = vs.length := by simpa using hl
        have hz1 : (vs.zip os).map Prod.fst = vs := List.map_fst_zip (by omega)
        have hz2 : (vs.zip os).map Prod.snd = os := List.map_snd_zip (by omega)
        rw [List.zip_cons_cons, changedElems]
        cases o with
        | some w =>
          by_cases hw : w = v
          · subst hw
            simp only [List.isEmpty_nil, bne_self_eq_false, Bool.and_false, Bool.false_eq_true, if_false]
            rcases changedElems_start (vs.zip os) ([] ++ [w]) (by simp) with ⟨x, h1, h2⟩ | h1
            · left
              rw [hz1, hz2] at h2
              refine ⟨x, h1, by simpa using h2⟩
            · right
              rw [hz2] at h1
              rw [h1]; simp
          · right
            have : ((some w : Option Value) != some v) = true := by simpa using hw
            simp only [List.isEmpty_nil, this, Bool.and_self, if_true]
            rw [changedElems_init _ _ _ (by simp), hz2]
            simp
        | none =>
          right
          have : ((none : Option Value) != some v) = true := by simp
          simp only [List.isEmpty_nil, this, Bool.and_self, if_true]
          cases vs with
          | nil =>
            cases os with
            | nil => rfl
            | cons o os => simp at hl'
          | cons v2 vs =>
            cases os with
            | nil => simp at hl'
            | cons o2 os =>
              have h2 : o2 = some v2 := hst
              subst h2
              have hl2 : os.length = vs.length := by simpa using hl'
              have hz2 : (vs.zip os).map Prod.snd = os := List.map_snd_zip (by omega)
              rw [List.zip_cons_cons, changedElems]
              simp only [Option.toList_none, List.append_nil, List.isEmpty_nil, bne_self_eq_false,
                Bool.and_false, Bool.false_eq_true, if_false, if_true]
              rw [changedElems_init _ _ _ (by simp), hz2]
              simp
  unfold modifiedList
  rcases key with ⟨x, h1, h2⟩ | h1
  · rw [h1, h2]
  · rw [h1]
    have : (Value.list (os.filterMap id)).resolved = true := by
      simp only [Value.resolved, resolvedAll_iff]
      exact fun w hw => hr w (by simpa using hw)
    simp only [this, Bool.or_true, if_true]

theorem kept_eq : (os : List (Str × Option Value)) → keptFields os = present os
  | [] => rfl
  | (k, none) :: os => by
    rw [keptFields, kept_eq os]; rfl
  | (k, some v) :: os => by
    rw [keptFields, kept_eq os]; rfl

/-! ## References -/

theorem at?_isObject {v u : Value} {p : Path} (hp : p ≠ []) (h : at? v p = some u) : v.isObject = true := by
  cases p with
  | nil => exact absurd rfl hp
  | cons k p =>
    obtain ⟨_, _, _, _, rfl, _⟩ := at?_cons_some h
    rfl

theorem isMarked_ref {c : Ctx} {id : Nat} {p : Path} {opt : Bool} {pre : Nat} {m : List Nat}
    (h : ∀ x ∈ c.marks, x ∈ m) (hid : id ∉ m) : isMarked c (.ref id p opt pre) = false := by
  have : id ∉ c.marks := fun h' => hid (h _ h')
  simpa [isMarked] using this

theorem unmark_after {b : Bool} {c c' : Ctx} {id : Nat} (h : After b (c.mark id) c') :
    After b c (c'.unmark id) := by
  refine ⟨h.opts, h.restr, fun x hx => ?_⟩
  simp only [Ctx.unmark, List.mem_filter, bne_iff_ne, ne_eq] at hx
  have := h.marks x hx.1
  simp only [Ctx.mark, List.mem_append, List.mem_singleton] at this
  tauto

theorem lookup_at {root v : Value} {n : Nat} {c : Ctx} {id : Nat} {s : Source} {p : Path} (hroot : root.Wf)
    (hs : s.root = some root) (hp : p ≠ []) (ha : at? root p = some v) (hn : p.length < n) :
    lookupSubst env (resolveN env n) s.root (c.mark id) p 0 =
      .ok (c.mark id, some v, chain root p []) := by
  have hq : resolveN env n ((c.mark id).restrict p) ⟨some root, []⟩ root =
      .ok ((c.mark id).restrict p, some root) :=
    resolveN_quiet hroot hp hn (.inl ⟨v, ha⟩)
  unfold lookupSubst findInObject
  rw [hs]
  simp only [hq, Res.bind, at?_isObject hp ha, if_true, findPeek_at [] hp ha, Option.isNone_some,
    Bool.false_eq_true, if_false]
  rfl

theorem goes_ref {b : Bool} {root v : Value} {m : List Nat} {pos : Option Path} {id : Nat} {p : Path}
    {opt : Bool} {o : Option Value} (hroot : root.Wf) (hid : id ∉ m) (hp : p ≠ []) (ha : at? root p = some v)
    (hop : o = none → opt = true) (hpl : ∀ r, o = some r → r.resolved = true)
    (h : Goes env b root (id :: m) (some p) v o) : Goes env b root m pos (.ref id p opt 0) o := by
  obtain ⟨N, h⟩ := h
  refine .step (max N (p.length + 1)) hpl fun n hn c s hb _ => ?_
  refine ⟨isMarked_ref hb.marks hid, ?_⟩
  have hidc : id ∉ c.marks := fun h' => hid (hb.marks _ h')
  have hl := lookup_at (env := env) (n := n) (c := c) (id := id) (s := s) hroot hb.root hp ha (by omega)
  have hlast : (chain root p []).getLast?.bind asObject = some root := by
    cases p with
    | nil => exact absurd rfl hp
    | cons k p =>
      obtain ⟨pre, hpre⟩ := chain_last (acc := []) ha
      rw [hpre]
      simp [asObject, at?_isObject hp ha]
  obtain ⟨c', e, a⟩ := h n (by omega) (c.mark id) ⟨some root, chain root p []⟩
    ⟨hb.opts, hb.restr, fun x hx => by
      simp only [Ctx.mark, List.mem_append, List.mem_singleton] at hx
      rcases hx with hx | rfl
      · exact List.mem_cons_of_mem _ (hb.marks x hx)
      · simp, rfl⟩ (by rintro q ⟨⟩; rfl)
  refine ⟨c'.unmark id, ?_, unmark_after a⟩
  simp only [resolveSubstitutions, resolveRef, if_neg hidc, tryRef, hl, resolveFound, hlast, e, catchCycle,
    Res.bind]
  cases o with
  | some w => rfl
  | none => rw [hop rfl]; rfl

theorem goes_dead {b : Bool} {root : Value} {m : List Nat} {pos : Option Path} {id : Nat} {p : Path}
    {opt : Bool} {o : Option Str} (hroot : root.Wf) (hobj : root.isObject = true) (hid : id ∉ m)
    (hd : Dead root p) (hop : o = none → opt = true) (he : envExt env b p = o) :
    Goes env b root m pos (.ref id p opt 0) (o.map fun s => .scalar (.str s true)) := by
  have hp : p ≠ [] := by rintro rfl; cases hd
  refine .step (p.length + 1) ?_ fun n hn c s hb _ => ?_
  · rintro r hr
    obtain ⟨t, -, rfl⟩ := Option.map_eq_some_iff.1 hr
    rfl
  refine ⟨isMarked_ref hb.marks hid, ?_⟩
  have hidc : id ∉ c.marks := fun h' => hid (hb.marks _ h')
  have hq : resolveN env n ((c.mark id).restrict p) ⟨some root, []⟩ root =
      .ok ((c.mark id).restrict p, some root) :=
    resolveN_quiet hroot hp (show p.length < n by omega) (.inr hd)
  obtain ⟨ps, hps⟩ := findPeek_dead hd hobj []
  have hl : ∃ c' qs, lookupSubst env (resolveN env n) s.root (c.mark id) p 0 =
      .ok (c', o.map fun s => .scalar (.str s true), qs) ∧ After b (c.mark id) c' := by
    have hfind : findInObject (resolveN env n) s.root (c.mark id) p = .ok (c.mark id, none, ps) := by
      unfold findInObject
      rw [hb.root]
      simp only [hq, Res.bind, hobj, if_true, hps]
      rfl
    unfold lookupSubst
    rw [hfind]
    simp only [Res.bind, Option.isNone_none, if_true, Nat.lt_irrefl, gt_iff_lt, if_false, PathM.subPath]
    unfold lookupEnv
    simp only [Option.isNone_none, Bool.true_and, show (c.mark id).opts.useEnv = b from by
      rw [show (c.mark id).opts = c.opts from rfl, hb.opts]]
    cases b with
    | false =>
      have : o = none := by rw [← he]; unfold envExt; split <;> rfl
      subst this
      exact ⟨c.mark id, ps, rfl, hb.opts, hb.restr, fun _ h => h⟩
    | true =>
      refine ⟨(c.mark id).movedFrom, [], ?_, hb.opts, rfl, fun x hx => by simp [Ctx.movedFrom] at hx⟩
      simp only [if_true]
      match p, hp with
      | [k], _ =>
        rw [← he]
        rfl
      | _ :: _ :: _, _ =>
        rw [← he]
        rfl
  obtain ⟨c', qs, hl, a⟩ := hl
  refine ⟨c'.unmark id, ?_, unmark_after a⟩
  simp only [resolveSubstitutions, resolveRef, if_neg hidc, tryRef, hl, resolveFound]
  cases o with
  | none => rw [hop rfl]; rfl
  | some t =>
    have : resolveN env n c' ⟨qs.getLast?.bind asObject, qs⟩ (.scalar (.str t true)) =
        .ok (c', some (.scalar (.str t true))) := by
      cases n with
      | zero => omega
      | succ n => rw [resolveN_succ rfl]; rfl
    simp only [Option.map_some, this, catchCycle, Res.bind]
    rfl

/-- Resolving a value that begins with a marked reference is not possible. -/
theorem resolveN_begins {id : Nat} {v : Value} (h : Begins id v) : ∃ N, ∀ n, N ≤ n → ∀ c s, id ∈ c.marks →
    resolveN env n c s v = .err .notPossible := by
  induction h with
  | ref =>
    refine ⟨1, fun n hn c s hm => ?_⟩
    cases n with
    | zero => omega
    | succ n =>
      rw [resolveN, if_pos (by simpa [isMarked] using hm)]
  | concat h ih =>
    obtain ⟨N, ih⟩ := ih
    refine ⟨N + 1, fun n hn c s hm => ?_⟩
    cases n with
    | zero => omega
    | succ n =>
      rw [resolveN_succ rfl]
      simp only [resolveSubstitutions, resolveConcat, resolvePieces]
      rw [ih n (by omega) (c.restrict []) s hm]
      rfl

theorem goes_self {b : Bool} {root v : Value} {m : List Nat} {pos : Option Path} {id : Nat} {p : Path}
    (hroot : root.Wf) (hid : id ∉ m) (hp : p ≠ []) (ha : at? root p = some v) (hbg : Begins id v) :
    Goes env b root m pos (.ref id p true 0) none := by
  obtain ⟨N, h⟩ := resolveN_begins (env := env) hbg
  refine .step (max N (p.length + 1)) (by simp) fun n hn c s hb _ => ?_
  refine ⟨isMarked_ref hb.marks hid, ?_⟩
  have hidc : id ∉ c.marks := fun h' => hid (hb.marks _ h')
  have hl := lookup_at (env := env) (n := n) (c := c) (id := id) (s := s) hroot hb.root hp ha (by omega)
  have e := h n (by omega) (c.mark id) ⟨(chain root p []).getLast?.bind asObject, chain root p []⟩
    (by simp [Ctx.mark])
  refine ⟨(c.mark id).unmark id, ?_, unmark_after ⟨hb.opts, hb.restr, fun _ h => h⟩⟩
  simp only [resolveSubstitutions, resolveRef, if_neg hidc, tryRef, hl, resolveFound, e, catchCycle,
    Res.bind, if_true]
  rfl

/-! ## Settings with several values -/

theorem mergeEnd_eq {m o : Option Value} (hm : ∀ r, m = some r → r.Plain) (ho : ∀ r, o = some r → r.Plain) :
    mergeEnd m o = .ok (overO m o) := by
  cases o with
  | none => cases m <;> rfl
  | some w =>
    cases m with
    | none => rfl
    | some v =>
      simp only [mergeEnd, overO, (withFallback_plain v w (hm v rfl) (ho w rfl)).1, HoconParse.over_eq]
      rfl

theorem overO_assoc {a b c : Option Value} (hb : ∀ r, b = some r → r.Plain) (hc : ∀ r, c = some r → r.Plain) :
    overO (overO a b) c = overO a (overO b c) := by
  cases a with
  | none => rfl
  | some x =>
    cases b with
    | none => cases c <;> rfl
    | some y =>
      cases c with
      | none => rfl
      | some z =>
        simp only [overO, HoconParse.over_eq]
        rw [pmerge_assoc x y z (hb y rfl) (hc z rfl)]

/-- The values of a setting. -/
def GoesS (env : Env) (b : Bool) (root : Value) (m : List Nat) (q : Path) (st : List Value)
    (o : Option Value) : Prop :=
  ∀ D, at? root q = some D → ∃ N, ∀ n, N ≤ n → ∀ c s, Before b root m c s → s.path = chain root q [] →
    ∀ merged, (∀ r, merged = some r → r.Plain) →
    ∃ c', resolveStack (resolveN env n) D s c merged st = .ok (c', overO merged o) ∧ After b c c'

theorem goesS_cons {b : Bool} {root v : Value} {m : List Nat} {q : Path} {vs : List Value}
    {o o' : Option Value} (root' : Value)
    (hsrc : ∀ D s, at? root q = some D → s.root = some root → s.path = chain root q [] →
      ∃ s', sourceForEnd D s v vs = .ok s' ∧ s'.root = some root')
    (h1 : Goes env b root' m none v o) (h2 : GoesS env b root m q vs o')
    (p1 : ∀ r, o = some r → r.Plain) (p2 : ∀ r, o' = some r → r.Plain) :
    GoesS env b root m q (v :: vs) (overO o o') := by
  intro D hD
  obtain ⟨N1, h1⟩ := h1
  obtain ⟨N2, h2⟩ := h2 D hD
  refine ⟨max N1 N2, fun n hn c s hb hq merged hm => ?_⟩
  obtain ⟨s', e0, hs'⟩ := hsrc D s hD hb.root hq
  obtain ⟨c1, e1, a1⟩ := h1 n (by omega) c s' ⟨hb.opts, hb.restr, hb.marks, hs'⟩ (by simp)
  obtain ⟨c2, e2, a2⟩ := h2 n (by omega) c1 s (a1.before hb hb.root) hq (overO merged o) (overO_plain hm p1)
  refine ⟨c2, ?_, a1.trans a2⟩
  simp only [resolveStack, e0, Res.bind, e1, mergeEnd_eq hm p1, e2, overO_assoc p1 p2]

/-! ## All together -/

mutual
theorem Ev.goes {b : Bool} {root v : Value} {m : List Nat} {pos : Option Path} {o : Option Value}
    (h : Ev env (envExt env b) root m pos v o) : root.Wf → root.isObject = true → v.Wf →
    (∀ q, pos = some q → at? root q = some v) → Goes env b root m pos v o :=
  match h with
  | .clean hc => fun _ _ _ _ => goes_clean hc
  | .list (vs := vs) (os := os) h hst => fun hroot hobj hv _ => by
    by_cases hc : (Value.list vs).resolved = true
    · have hcl := clean_of_plain _ hv hc
      have := Ev.clean_eq (.list (pos := pos) h hst) hcl
      rw [this]
      exact goes_clean hcl
    · have hv' : WfL vs := by simpa only [Wf] using hv
      obtain ⟨N, hg⟩ := EvL.goes h hroot hobj hv'
      have hpl := EvL.plain h hroot hv'
      refine .step N (fun r hr => (Ev.plain (.list (pos := pos) h hst) hroot hv r hr).res)
        fun n hn c s hb _ => ⟨rfl, ?_⟩
      obtain ⟨⟨c', e, a⟩, -⟩ := hg n hn c (s.push (.list vs)) ⟨hb.opts, hb.restr, hb.marks,
        (push_root _ _).trans hb.root⟩
      refine ⟨c', ?_, a⟩
      simp only [resolveSubstitutions, resolveList, if_neg hc, hb.restr, List.isEmpty_nil, Bool.not_true,
        Bool.false_eq_true, if_false, e, Res.bind, hb.opts]
      rw [modifiedList_steady (EvL.length h) hst fun w hw => (hpl w hw).res]
  | .obj (fs := fs) (r := r) (i := i) (os := os) h => fun hroot hobj hv ha => by
    by_cases hc : r = true
    · have hcl : Clean (.obj fs r i) := clean_of_plain _ hv (by simpa [Value.resolved] using hc)
      have := Ev.clean_eq (.obj h) hcl
      rw [this]
      exact goes_clean hcl
    · have hv' : r = resolvedFields fs ∧ (keysOf fs).Nodup ∧ WfF fs := by simpa only [Wf] using hv
      have hin : ∀ f ∈ fs, findKey fs f.1 = some f.2 := fun f hf => findKey_of_mem hv'.2.1 hf
      obtain ⟨N, hg⟩ := EvF.goes h hroot hobj hv'.2.2 (by
        intro q hq f hf
        exact at?_snoc (ha q hq) (by rw [child_eq_findKey]; exact hin f hf))
      have hpl := Ev.plain (.obj (r := r) (i := i) h) hroot hv _ rfl
      refine .step N (fun r hr => by cases hr; exact hpl.res) fun n hn c s hb hq => ⟨rfl, ?_⟩
      obtain ⟨c', e, a⟩ := hg n hn c (s.push (.obj fs r i)) ⟨hb.opts, hb.restr, hb.marks,
        (push_root _ _).trans hb.root⟩ (by
          intro q hq' f hf
          exact push_chain hb.root (hq q hq') (ha q hq') (by rw [hin f hf]; rfl))
      refine ⟨c', ?_, a⟩
      simp only [resolveSubstitutions, resolveObject, if_neg hc, hb.restr, e, Res.bind]
      have hm : modifiedObject fs r i os = .obj (present os) true i := by
        have hres : resolvedFields (present os) = true := by
          have h1 := hpl.wf
          simp only [Wf] at h1
          exact h1.1.symm
        unfold modifiedObject
        split
        · rename_i he
          rw [he, kept_same, hv'.1]
          rw [he, kept_same] at hres
          rw [hres]
        · rw [kept_eq, hres]
      rw [hm]
  | .ref hid hp ha h => fun hroot hobj hv _ =>
    goes_ref hroot hid hp ha (by simp) (fun r hr => (Ev.plain h hroot (at?_wf hroot ha) r hr).res)
      (Ev.goes h hroot hobj (at?_wf hroot ha) (by rintro q ⟨⟩; exact ha))
  | .refGone hid hp ha h => fun hroot hobj hv _ =>
    goes_ref hroot hid hp ha (fun _ => rfl) (by simp)
      (Ev.goes h hroot hobj (at?_wf hroot ha) (by rintro q ⟨⟩; exact ha))
  | .refExt hid hd he => fun hroot hobj _ _ => goes_dead (o := some _) hroot hobj hid hd (by simp) he
  | .refAbsent hid hd he => fun hroot hobj _ _ => goes_dead (o := none) hroot hobj hid hd (fun _ => rfl) he
  | .refSelf hid hp ha hbg => fun hroot hobj _ _ => goes_self hroot hid hp ha hbg
  | .concat (ps := ps) (os := os) (o := o) h hc => fun hroot hobj hv _ => by
    have hv' : WfL ps := by simpa only [Wf] using hv
    obtain ⟨N, hg⟩ := EvL.goes h hroot hobj hv'
    refine .step N (fun r hr => (Ev.plain (.concat (pos := pos) h hc) hroot hv r hr).res)
      fun n hn c s hb _ => ⟨rfl, ?_⟩
    obtain ⟨-, ⟨c', e, a⟩⟩ := hg n hn c s hb
    refine ⟨c', ?_, a⟩
    simp only [resolveSubstitutions, resolveConcat, e, Res.bind]
    have hpl := Ev.plain (.concat (pos := pos) h hc) hroot hv
    rw [Value.concatenate] at hc
    obtain ⟨j, hj, hc⟩ := Resolve.bind_ok hc
    rw [hj]
    simp only
    have : joinedPieces c.opts.allowUnresolved j = .ok o := by
      unfold joinedPieces
      split at hc
      · exact hc
      · exact hc
      · obtain ⟨v, hv, hc⟩ := Resolve.bind_ok hc
        cases hc
        unfold mkConcat at hv
        repeat' split at hv
        all_goals cases hv
        exact absurd (hpl _ rfl).res (by simp [Value.resolved])
    rw [this]
  | .several (q := q) (st := st) hq h => fun hroot hobj hv ha => by
    have hv' : WfL st := by simpa only [Wf] using hv
    obtain ⟨N, hg⟩ := EvS.goes h hroot hobj hv' _ (ha q rfl)
    refine .step N (fun r hr => (EvS.plain h hroot hv' r hr).res) fun n hn c s hb hs => ⟨rfl, ?_⟩
    obtain ⟨c', e, a⟩ := hg n hn c s hb (hs q rfl) none (by simp)
    exact ⟨c', e, a⟩
  | .severalO (q := q) (st := st) hq h => fun hroot hobj hv ha => by
    have hv' : WfL st := by simpa only [Wf] using hv
    obtain ⟨N, hg⟩ := EvS.goes h hroot hobj hv' _ (ha q rfl)
    refine .step N (fun r hr => (EvS.plain h hroot hv' r hr).res) fun n hn c s hb hs => ⟨rfl, ?_⟩
    obtain ⟨c', e, a⟩ := hg n hn c s hb (hs q rfl) none (by simp)
    exact ⟨c', e, a⟩
termination_by structural h
theorem EvL.goes {b : Bool} {root : Value} {vs : List Value} {m : List Nat} {os : List (Option Value)}
    (h : EvL env (envExt env b) root m vs os) : root.Wf → root.isObject = true → WfL vs →
    GoesL env b root m vs os :=
  match h with
  | .nil => fun _ _ _ => goesL_nil
  | .cons h1 h2 => fun hroot hobj hv =>
    goesL_cons (Ev.goes h1 hroot hobj hv.1 (by simp)) (EvL.goes h2 hroot hobj hv.2)
termination_by structural h
theorem EvF.goes {b : Bool} {root : Value} {fs : Fields} {m : List Nat} {pos : Option Path}
    {os : List (Str × Option Value)} (h : EvF env (envExt env b) root m pos fs os) : root.Wf →
    root.isObject = true → WfF fs → (∀ q, pos = some q → ∀ f ∈ fs, at? root (q ++ [f.1]) = some f.2) →
    GoesF env b root m pos fs os :=
  match h with
  | .nil => fun _ _ _ _ => ⟨0, fun _ _ c _ hb _ => ⟨c, rfl, hb.refl⟩⟩
  | .cons (k := k) (v := v) h1 h2 => fun hroot hobj hv ha =>
    goesF_cons (Ev.goes h1 hroot hobj hv.1 (by
      intro q hq
      obtain ⟨q', rfl, rfl⟩ := Option.map_eq_some_iff.1 hq
      exact ha q' rfl (k, v) (by simp)))
      (EvF.goes h2 hroot hobj hv.2 fun q hq f hf => ha q hq f (by simp [hf]))
termination_by structural h
theorem EvS.goes {b : Bool} {root : Value} {st : List Value} {m : List Nat} {q : Path} {o : Option Value}
    (h : EvS env (envExt env b) root m q st o) : root.Wf → root.isObject = true → WfL st →
    GoesS env b root m q st o :=
  match h with
  | .nil => fun _ _ _ D _ => ⟨0, fun _ _ c _ hb _ merged _ => ⟨c, by cases merged <;> rfl, hb.refl⟩⟩
  | .waiting (root' := root') (v := v) (old := old) hw ho hp h1 h2 => fun hroot hobj hv => by
    have hroot' : root'.Wf := put_wf hp hroot (by
      rw [older_eq] at ho
      exact closed_wf.makeReplacement (WfL.iff.1 hv.2) ho)
    refine goesS_cons root' ?_ (Ev.goes h1 hroot' (by cases hp <;> rfl) hv.1 (by simp))
      (EvS.goes h2 hroot hobj hv.2) (Ev.plain h1 hroot' hv.1) (EvS.plain h2 hroot hv.2)
    intro D s hD hs hq
    refine ⟨⟨some root', []⟩, ?_, rfl⟩
    have hd : v.isDelayed = false := by cases v <;> first | rfl | exact hw.elim
    have hu : v.isUnmergeable = true := by cases v <;> first | rfl | exact hw.elim
    rw [older_eq] at ho
    simp only [sourceForEnd, hd, hu, Bool.false_eq_true, if_false, if_true, ho, Res.bind]
    exact put_source hp hD hq
  | .other (v := v) hw h1 h2 => fun hroot hobj hv => by
    refine goesS_cons root ?_ (Ev.goes h1 hroot hobj hv.1 (by simp))
      (EvS.goes h2 hroot hobj hv.2) (Ev.plain h1 hroot hv.1) (EvS.plain h2 hroot hv.2)
    intro D s hD hs hq
    refine ⟨s.push D, ?_, (push_root _ _).trans hs⟩
    have hd : v.isDelayed = false := by cases v <;> first | rfl | exact hw.elim
    have hu : v.isUnmergeable = false := by cases v <;> first | rfl | exact hw.elim
    simp only [sourceForEnd, hd, hu, Bool.false_eq_true, if_false]
termination_by structural h
end

end Settle
end Hocon
