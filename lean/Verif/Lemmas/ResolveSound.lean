import Verif.Lemmas.SubstPart

/-!
# The resolver computes what the semantics says
-/

set_option autoImplicit false
set_option linter.unusedSectionVars false

namespace Hocon
namespace Spec
open Value

theorem Occurs.trans {u v w : Value} (h : Occurs u v) (h' : Occurs v w) : Occurs u w := by
  induction h' with
  | here => exact h
  | list hm _ ih => exact .list hm ih
  | obj hm _ ih => exact .obj hm ih
  | concat hm _ ih => exact .concat hm ih
  | dm hm _ ih => exact .dm hm ih
  | dmo hm _ ih => exact .dmo hm ih

theorem Simple.sub {root u v : Value} (h : Simple root v) (ho : Occurs u v) : Simple root u :=
  fun w hw => h w (hw.trans ho)

theorem Clean.occurs {v : Value} (h : Clean v) {u : Value} (ho : Occurs u v) : Clean u := by
  induction ho with
  | here => exact h
  | list hm _ ih => exact ih (CleanL.iff.1 h _ hm)
  | obj hm _ ih => exact ih (CleanF.iff.1 h.2 _ hm)
  | _ => exact h.elim

theorem Clean.simple {root v : Value} (h : Clean v) : Simple root v := by
  intro u hu
  have := h.occurs hu
  refine ⟨fun st => ⟨?_, ?_⟩, ?_⟩
  · rintro rfl; exact this
  · rintro rfl; exact this
  · rintro id p opt pre rfl; exact this.elim

theorem Simple.field {root : Value} {fs : Fields} {r i : Bool} (h : Simple root (.obj fs r i)) {k : Str}
    {v : Value} (hm : (k, v) ∈ fs) : Simple root v := h.sub (.obj hm .here)

theorem Simple.elem {root : Value} {vs : List Value} (h : Simple root (.list vs))
    {v : Value} (hm : v ∈ vs) : Simple root v := h.sub (.list hm .here)

theorem Simple.piece {root : Value} {vs : List Value} (h : Simple root (.concat vs))
    {v : Value} (hm : v ∈ vs) : Simple root v := h.sub (.concat hm .here)

theorem Simple.mkObj {root : Value} {fs : Fields} {r i : Bool} (h : ∀ f ∈ fs, Simple root f.2) :
    Simple root (.obj fs r i) := by
  intro u hu
  cases hu with
  | here => exact ⟨fun st => ⟨by simp, by simp⟩, by simp⟩
  | obj hm ho => exact h _ hm u ho

variable {env : Env} {root : Value} {ext : Path → Option Str}

section
variable (hroot : root.Wf) (hs : Simple root root)
include hroot hs

theorem At.simple {v w : Value} {p : Path} (hv : v.Wf) (hsv : Simple root v)
    (h : At env root ext v p w) : Simple root w :=
  match h with
  | .nil => hsv
  | .obj hf h => At.simple (closed_wf.findKey (closed_wf.fields _ _ _ hv) hf)
      (hsv.field (findKey_mem hf)) h
  | .ref h1 h2 => At.simple (At.wf hroot hroot h1) (At.simple hroot hs h1) h2
  | .concat h1 h2 =>
    At.simple (Den.plain hroot hv h1).wf
      (clean_of_plain _ (Den.plain hroot hv h1).wf (Den.plain hroot hv h1).res).simple h2
termination_by structural h

mutual
theorem Part.simple {v w : Value} (hsv : Simple root v) (h : Part env root ext v w) :
    Simple root w :=
  match h with
  | .refl _ => hsv
  | .den _ hc => hc.simple
  | .obj h => .mkObj (PartF.simple (fun f hf => hsv.field (k := f.1) hf) h)
  | .ref h1 h2 _ => Part.simple (At.simple hroot hs hroot hs h1) h2
termination_by structural h
theorem PartF.simple {fs gs : Fields} (hf : ∀ f ∈ fs, Simple root f.2) (h : PartF env root ext fs gs) :
    ∀ f ∈ gs, Simple root f.2 :=
  match h with
  | .nil => by simp
  | .keep (k := k) (v := v) h1 h2 =>
    have i1 := Part.simple (hf (k, v) (by simp)) h1
    have i2 := PartF.simple (fun f h => hf f (by simp [h])) h2
    fun f hf => by
      rcases List.mem_cons.1 hf with rfl | hf
      · exact i1
      · exact i2 f hf
  | .drop _ h2 => PartF.simple (fun f h => hf f (by simp [h])) h2
termination_by structural h
end

end

/-! ## Calm paths -/

theorem Calm.stays {v : Value} {p : Path} (h : Calm v p) : Stays env root ext v := by
  intro hn
  cases h <;> cases hn

theorem Calm.head {v : Value} {p : Path} (h : Calm v p) : Head v := by
  cases h <;> trivial

theorem Calm.part {v w : Value} {p : Path} (h : Calm v p) (hv : v.Wf) (hp : Part env root ext v w) :
    Calm w p := by
  have key : ∀ {v : Value} {p : Path}, Calm v p → v.Wf → ∀ {w : Value}, Part env root ext v w →
      ∀ {fs r i}, v = .obj fs r i → ∃ gs r' i', w = .obj gs r' i' ∧ PartF env root ext fs gs := by
    intro v p _ hv w hp fs r i he
    subst he
    cases hp with
    | refl => exact ⟨fs, r, i, rfl, .refl _⟩
    | den hd hc =>
      cases hd with
      | obj hd => exact ⟨_, _, _, rfl, hd.partF hc.2⟩
    | obj h => exact ⟨_, _, _, rfl, h⟩
  induction h generalizing w with
  | @missing fs r i k p hf =>
    obtain ⟨gs, r', i', rfl, hpf⟩ := key (.missing (p := p) hf) hv hp rfl
    refine .missing (findKey_none.2 fun hm => findKey_none.1 hf (hpf.keys.subset hm))
  | @found fs r i k v hf hc =>
    obtain ⟨gs, r', i', rfl, hpf⟩ := key (.found hf hc) hv hp rfl
    cases hg : findKey gs k with
    | none =>
      rcases hpf.find_none (closed_wf.nodup _ _ _ hv) hg with h | ⟨x, h, hn⟩
      · rw [h] at hf; cases hf
      · rw [h] at hf; cases hf
        cases (Den.det hn).1 _ (Clean.den _ hc)
    | some x =>
      obtain ⟨x0, h1, h2⟩ := hpf.find (closed_wf.nodup _ _ _ hv) hg
      rw [hf] at h1; cases h1
      rw [h2.clean hc] at hg
      exact .found hg hc
  | @deeper fs r i k k' p v hf h ih =>
    obtain ⟨gs, r', i', rfl, hpf⟩ := key (.deeper hf h) hv hp rfl
    have hvw : v.Wf := closed_wf.findKey (closed_wf.fields _ _ _ hv) hf
    cases hg : findKey gs k with
    | none =>
      rcases hpf.find_none (closed_wf.nodup _ _ _ hv) hg with h' | ⟨x, h', hn⟩
      · rw [h'] at hf; cases hf
      · rw [h'] at hf; cases hf
        exact absurd hn h.stays
    | some x =>
      obtain ⟨x0, h1, h2⟩ := hpf.find (closed_wf.nodup _ _ _ hv) hg
      rw [hf] at h1; cases h1
      exact .deeper hg (ih hvw h2)
  | scalar =>
    cases hp with
    | refl => exact .scalar
    | den hd hc => cases hd; exact .scalar
  | list =>
    cases hp with
    | refl => exact .list
    | den hd hc => cases hd; exact .list

end Spec

namespace Resolve
open Value Spec

/-! ## Looking up a path in a partially resolved tree -/

/-- The tree is resolved far enough to follow the path. -/
inductive Along : Value → Path → Prop
  | nil {v : Value} : Head v → Along v []
  | scalar {s : Scalar} {p : Path} : Along (.scalar s) p
  | list {vs : List Value} {p : Path} : Along (.list vs) p
  | obj {fs : Fields} {r i : Bool} {k : Str} {p : Path} :
      (∀ x, findKey fs k = some x → p ≠ [] → Along x p) → Along (.obj fs r i) (k :: p)

theorem Along.head {v : Value} {p : Path} (h : Along v p) : Head v := by
  cases h <;> first | assumption | trivial

theorem Along.clean {v : Value} (hc : Clean v) (p : Path) : Along v p := by
  induction p generalizing v with
  | nil => exact .nil hc.head
  | cons k p ih =>
    cases v with
    | scalar => exact .scalar
    | list => exact .list
    | obj fs r i =>
      exact .obj fun x hx _ => ih (CleanF.iff.1 hc.2 _ (findKey_mem hx))
    | _ => exact hc.elim

variable {env : Env} {root : Value} {ext : Path → Option Str}

theorem findPeek_obj {fs : Fields} {r i : Bool} {k : Str} {p : Path} {ps : List Value} :
    findPeek (.obj fs r i) (k :: p) ps =
      if p.isEmpty then .ok (findKey fs k, .obj fs r i :: ps)
      else match findKey fs k with
        | some w => if w.isObject then findPeek w p (.obj fs r i :: ps) else .ok (none, .obj fs r i :: ps)
        | none => .ok (none, .obj fs r i :: ps) := rfl

theorem findPeek_last : (v : Value) → (p : Path) → (ps : List Value) →
    (out : Option Value × List Value) → findPeek v p ps = .ok out → ps.getLast?.getD v = (out.2.getLast?).getD v
      ∧ out.2 ≠ []
  | _, [], _, _, h => by cases h
  | v, k :: next, ps, out, h => by
    simp only [findPeek] at h
    obtain ⟨o, ho, h⟩ := bind_ok h
    have base : ps.getLast?.getD v = ((v :: ps).getLast?).getD v := by
      cases ps with
      | nil => rfl
      | cons a as => simp [List.getLast?_cons]
    split at h
    · cases h; exact ⟨base, by simp⟩
    · cases o with
      | none => cases h; exact ⟨base, by simp⟩
      | some w =>
        simp only at h
        split at h
        · obtain ⟨h1, h2⟩ := findPeek_last w next (v :: ps) out h
          refine ⟨?_, h2⟩
          rw [base]
          obtain ⟨a, as, ha⟩ := List.exists_cons_of_ne_nil h2
          rw [ha] at h1 ⊢
          simp [List.getLast?_cons] at h1 ⊢
          exact h1
        · cases h; exact ⟨base, by simp⟩

theorem findPeek_sound (hroot : root.Wf) : (v v' : Value) → (p : Path) → (ps : List Value) →
    (out : Option Value × List Value) → v.Wf → Part env root ext v v' → Along v' p → v'.isObject = true →
    findPeek v' p ps = .ok out →
    (out.1 = none → Absent env root ext v p) ∧
    (∀ w, out.1 = some w → ∃ w0, At env root ext v p w0 ∧ w0.Wf ∧ Part env root ext w0 w)
  | _, _, [], _, _, _, _, _, _, h => by cases h
  | v, v', k :: p, ps, out, hv, hp, ha, hobj, h => by
    cases v' with
    | obj fs r i =>
      rw [findPeek_obj] at h
      cases ha with
      | obj ha =>
      cases hf : findKey fs k with
      | none =>
        rw [hf] at h
        have hab : Absent env root ext v (k :: p) :=
          Part.absent hroot hv hp trivial (by rintro gs r' i' ⟨⟩; exact hf) p
        have : out.1 = none := by
          split at h <;> (cases h; rfl)
        rw [this]
        exact ⟨fun _ => hab, by simp⟩
      | some x =>
        rw [hf] at h
        obtain ⟨x0, o1, o2, o3, o4⟩ := Part.step hroot hv hp rfl hf
        cases p with
        | nil =>
          cases h
          refine ⟨by simp, ?_⟩
          rintro w ⟨⟩
          exact ⟨x0, o3 _ _ .nil, o2, o1⟩
        | cons k' p =>
          simp only [List.isEmpty_cons, Bool.false_eq_true, if_false] at h
          have hx := ha x hf (by simp)
          split at h
          · rename_i hxo
            obtain ⟨i1, i2⟩ := findPeek_sound hroot x0 x (k' :: p) _ out o2 o1 hx hxo h
            refine ⟨fun hn => o4 _ (i1 hn), fun w hw => ?_⟩
            obtain ⟨w0, a, b, c⟩ := i2 w hw
            exact ⟨w0, o3 _ _ a, b, c⟩
          · rename_i hxo
            cases h
            refine ⟨fun _ => o4 _ (Part.absent hroot o2 o1 hx.head ?_ p), by simp⟩
            rintro gs r' i' rfl
            simp [isObject] at hxo
    | dmo st => exact ha.head.elim
    | _ => simp [isObject] at hobj

/-! ## Values and paths on which nothing happens -/

/-- The environment variables the resolver uses. -/
def envExt (env : Env) (useEnv : Bool) : Path → Option Str
  | [k] => if useEnv then env.getenv k else none
  | _ => none

theorem checkResult_ok {c : Ctx} {r : Ctx × Option Value}
    (h : ∀ v, r.2 = .some v → v.resolved = true ∨ c.restr ≠ []) : checkResult c r = .ok r := by
  unfold checkResult
  cases hr : r.2 with
  | none => rfl
  | some v =>
    simp only
    rcases h v hr with h | h
    · simp [h]
    · cases hc : c.restr with
      | nil => exact absurd hc h
      | cons a b => simp

theorem checkResult_eq {c : Ctx} {r r' : Ctx × Option Value} (h : checkResult c r = .ok r') :
    r = r' ∧ ∀ v, r.2 = some v → v.resolved = true ∨ c.restr ≠ [] ∨ c.opts.allowUnresolved = true := by
  unfold checkResult at h
  cases hr : r.2 with
  | none => rw [hr] at h; cases h; exact ⟨rfl, by simp⟩
  | some v =>
    rw [hr] at h
    simp only at h
    split at h
    · rename_i hc
      cases h
      refine ⟨rfl, ?_⟩
      rintro w ⟨⟩
      simp only [Bool.or_eq_true, Bool.not_eq_true', List.isEmpty_eq_false_iff] at hc
      tauto
    · cases h

theorem resolveN_succ {n : Nat} {c : Ctx} {s : Source} {v : Value} (hm : isMarked c v = false) :
    resolveN env (n + 1) c s v =
      (resolveSubstitutions env (resolveN env n) c s v).bind (checkResult c) := by
  rw [resolveN, hm]; rfl

theorem resolveN_clean {n : Nat} {c : Ctx} {s : Source} {v : Value} (h : Clean v) :
    resolveN env n c s v = .fuel ∨ resolveN env n c s v = .ok (c, some v) := by
  cases n with
  | zero => exact .inl rfl
  | succ n =>
    right
    have hr := Clean.resolved v h
    cases v with
    | scalar x => rw [resolveN_succ rfl]; rfl
    | list vs =>
      rw [resolveN_succ rfl]
      simp only [resolveSubstitutions, resolveList]
      rw [if_pos hr]
      exact checkResult_ok (r := (c, some _)) (by rintro w ⟨⟩; exact .inl hr)
    | obj fs r i =>
      rw [resolveN_succ rfl]
      simp only [resolveSubstitutions, resolveObject]
      rw [if_pos h.1]
      exact checkResult_ok (r := (c, some _)) (by rintro w ⟨⟩; exact .inl hr)
    | _ => exact h.elim

theorem resolveFields_same {rec : Resolver} {orig : Path} {s : Source} {c : Ctx} {k : Str} {p : Path}
    (hc : c.restr = k :: p) (ho : c.restrict orig = c) : (fs : Fields) →
    (∀ f ∈ fs, f.1 = k → p ≠ [] → rec (c.restrict p) s f.2 = .fuel ∨
      rec (c.restrict p) s f.2 = .ok (c.restrict p, some f.2)) →
    resolveFields rec orig s c fs = .fuel ∨
      resolveFields rec orig s c fs = .ok (c, fs.map fun f => (f.1, some f.2))
  | [], _ => .inr rfl
  | (k', v) :: fs, h => by
    have ih := resolveFields_same hc ho fs (fun f hf => h f (by simp [hf]))
    have h1 : resolveChild rec orig c s k' v = .fuel ∨ resolveChild rec orig c s k' v = .ok (c, some v) := by
      unfold resolveChild
      rw [hc]
      simp only
      split
      · rename_i hk
        split
        · exact .inr rfl
        · rename_i hp
          rcases h (k', v) (by simp) hk (by simpa using hp) with h | h
          · rw [h]; exact .inl rfl
          · rw [h]
            right
            show Res.ok ((c.restrict p).restrict orig, some v) = _
            rw [show (c.restrict p).restrict orig = c.restrict orig from rfl, ho]
      · exact .inr rfl
    simp only [resolveFields]
    rcases h1 with h1 | h1
    · rw [h1]; exact .inl rfl
    · rw [h1]
      rcases ih with ih | ih
      · left
        show (resolveFields rec orig s c fs).bind _ = _
        rw [ih]; rfl
      · right
        show (resolveFields rec orig s c fs).bind _ = _
        rw [ih]; rfl

theorem resolveN_calm {n : Nat} : {c : Ctx} → {s : Source} → {v : Value} → v.Wf → Calm v c.restr →
    resolveN env n c s v = .fuel ∨ resolveN env n c s v = .ok (c, some v) := by
  induction n with
  | zero => intros; exact .inl rfl
  | succ n ih =>
    intro c s v hv h
    have hne : c.restr ≠ [] := by intro he; rw [he] at h; cases h
    generalize hp : c.restr = p at h
    have hchk : ∀ w, checkResult c (c, some w) = .ok (c, some w) := fun w =>
      checkResult_ok (r := (c, some _)) (by rintro w ⟨⟩; exact .inr hne)
    have hobj : ∀ {fs : Fields} {r i : Bool} {k : Str} {p : Path}, (Value.obj fs r i).Wf → c.restr = k :: p →
        (∀ x, findKey fs k = some x → p ≠ [] → Calm x p) →
        resolveN env (n + 1) c s (.obj fs r i) = .fuel ∨
          resolveN env (n + 1) c s (.obj fs r i) = .ok (c, some (.obj fs r i)) := by
      intro fs r i k p hv hr hx
      rw [resolveN_succ rfl]
      simp only [resolveSubstitutions, resolveObject]
      split
      · right; exact hchk _
      · have := resolveFields_same (rec := resolveN env n) (orig := c.restr) (s := s.push (.obj fs r i))
          (c := c) hr (by rfl) fs (by
            intro f hf hk hp
            subst hk
            exact ih (closed_wf.fields _ _ _ hv f hf)
              (hx f.2 (findKey_of_mem (closed_wf.nodup _ _ _ hv) hf) hp))
        rcases this with h | h
        · rw [h]; exact .inl rfl
        · rw [h]
          right
          show (Res.ok (c, some (modifiedObject fs r i (fs.map fun f => (f.1, some f.2))))).bind _ = _
          rw [modifiedObject, if_pos rfl]
          exact hchk _
    cases h with
    | missing hf => exact hobj hv hp (fun x hx => by rw [hf] at hx; cases hx)
    | found hf hc => exact hobj hv hp (fun x hx hne => absurd rfl hne)
    | deeper hf h => exact hobj hv hp (fun x hx _ => by rw [hf] at hx; cases hx; exact h)
    | scalar => right; rw [resolveN_succ rfl]; exact hchk (.scalar _)
    | list =>
      right
      rw [resolveN_succ rfl]
      simp only [resolveSubstitutions, resolveList]
      split
      · exact hchk _
      · rw [if_pos (by rw [hp]; rfl)]; exact hchk _

/-! ## Soundness -/

/-- What a normal return of the resolver means. -/
structure Post (env : Env) (root : Value) (ext : Path → Option Str) (c : Ctx) (v : Value) (c' : Ctx)
    (o : Option Value) : Prop where
  opts : c'.opts = c.opts
  restr : c.restr = [] → c'.restr = []
  gone : o = none → Den env root ext v none
  some : ∀ w, o = some w → Part env root ext v w ∧ Along w c.restr ∧
    (c.restr = [] → Den env root ext v (some w) ∧ Clean w)

/-- A resolver that is sound for sources that are partially resolved versions of `root`. -/
def SoundR (env : Env) (root : Value) (b : Bool) (rec : Resolver) : Prop :=
  ∀ c s v c' o root', s.root = .some root' → root'.Wf → Part env root (envExt env b) root root' →
    v.Wf → Simple root v → c.opts = ⟨b, false⟩ → rec c s v = .ok (c', o) →
    Post env root (envExt env b) c v c' o

theorem Post.same {ext : Path → Option Str} {c : Ctx} {v : Value} (ha : Along v c.restr)
    (hc : c.restr = [] → Clean v) : Post env root ext c v c (Option.some v) := by
  refine ⟨rfl, id, by simp, ?_⟩
  rintro w ⟨⟩
  exact ⟨.refl v, ha, fun h => ⟨Clean.den _ (hc h), hc h⟩⟩

theorem Post.clean {ext : Path → Option Str} {c : Ctx} {v : Value} (hc : Clean v) :
    Post env root ext c v c (Option.some v) := .same (.clean hc _) fun _ => hc

section
variable {b : Bool} {rec : Resolver} (hrec : SoundR env root b rec) (hw : KeepsP Wf rec)
  {s : Source} {root' : Value} (hsr : s.root = .some root') (hrw : root'.Wf)
  (hpr : Part env root (envExt env b) root root')
include hrec hw hsr hrw hpr

theorem resolveElems_sound : (c : Ctx) → (vs : List Value) → (r : Ctx × List (Option Value)) →
    WfL vs → (∀ v ∈ vs, Simple root v) → c.opts = ⟨b, false⟩ → c.restr = [] →
    resolveElems rec s c vs = .ok r →
    DenL env root (envExt env b) vs (r.2.filterMap id) ∧ r.1.opts = c.opts ∧ r.1.restr = [] ∧
    (∀ w ∈ r.2.filterMap id, Clean w) ∧ r.2.length = vs.length ∧
    ∀ x ∈ vs.zip r.2, x.2 = none → x.1.resolved = false
  | c, [], r, _, _, _, hr, h => by cases h; exact ⟨.nil, rfl, hr, by simp, rfl, by simp⟩
  | c, v :: vs, r, hwf, hs, ho, hr, h => by
    simp only [resolveElems] at h
    obtain ⟨⟨c', o⟩, hx, h⟩ := bind_ok h
    obtain ⟨rest, hrest, h⟩ := bind_ok h
    cases h
    have p := hrec c s v c' o root' hsr hrw hpr hwf.1 (hs v (by simp)) ho hx
    obtain ⟨i1, i2, i3, i4, i5, i6⟩ := resolveElems_sound c' vs rest hwf.2 (fun v h => hs v (by simp [h]))
      (p.opts.trans ho) (p.restr hr) hrest
    cases o with
    | none =>
      refine ⟨.drop (p.gone rfl) i1, i2.trans p.opts, i3, i4, by simp [i5], ?_⟩
      intro x hx hn
      rcases List.mem_cons.1 hx with rfl | hx
      · cases hv : v.resolved with
        | false => rfl
        | true =>
          cases (Den.det (p.gone rfl)).1 _ (Clean.den v (clean_of_plain v hwf.1 hv))
      · exact i6 x hx hn
    | some w =>
      obtain ⟨q1, q2, q3⟩ := p.some w rfl
      refine ⟨.keep (q3 hr).1 i1, i2.trans p.opts, i3, ?_, by simp [i5], ?_⟩
      · intro x hx
        simp only [List.filterMap_cons, id_eq, List.mem_cons] at hx
        rcases hx with rfl | hx
        · exact (q3 hr).2
        · exact i4 x hx
      · intro x hx hn
        rcases List.mem_cons.1 hx with rfl | hx
        · cases hn
        · exact i6 x hx hn

omit hrec hw hsr hrw hpr in
/-- If the loop of `modify_may_throw` ends with resolved elements only, they are the new ones. -/
theorem changedElems_spec : (l : List (Value × Option Value)) → (before : List Value) → (init : Bool) →
    (changed kept : List Value) →
    (∀ x ∈ l, x.2 = none → x.1.resolved = false) →
    (init = false → changed = [] ∧ before = kept) →
    (init = true → (changed = kept ∧ (changed = [] → ∃ x ∈ before, x.resolved = false)) ∨
      ∃ x ∈ changed, x.resolved = false) →
    ((changedElems before init changed l).1 = false → before ++ l.map Prod.fst = kept ++ (l.map Prod.snd).filterMap id) ∧
    ((changedElems before init changed l).1 = true →
      (∀ x ∈ (changedElems before init changed l).2, x.resolved = true) →
      (changedElems before init changed l).2 = kept ++ (l.map Prod.snd).filterMap id)
  | [], before, init, changed, kept, _, h0, h1 => by
    simp only [changedElems, List.map_nil, List.append_nil, List.filterMap_nil]
    refine ⟨fun h => (h0 h).2, fun h hall => ?_⟩
    rcases h1 h with h | ⟨x, hx, hr⟩
    · exact h.1
    · rw [hall x hx] at hr; cases hr
  | (old, new) :: rest, before, init, changed, kept, hd, h0, h1 => by
    have hd' : ∀ x ∈ rest, x.2 = none → x.1.resolved = false := fun x h => hd x (by simp [h])
    have hkept : kept ++ (((old, new) :: rest).map Prod.snd).filterMap id =
        (kept ++ new.toList) ++ (rest.map Prod.snd).filterMap id := by
      cases new <;> simp
    have hbef : before ++ ((old, new) :: rest).map Prod.fst = (before ++ [old]) ++ rest.map Prod.fst := by
      simp
    rw [hkept, hbef]
    simp only [changedElems]
    split
    · rename_i hc
      simp only [Bool.and_eq_true, List.isEmpty_iff, bne_iff_ne, ne_eq] at hc
      have := changedElems_spec rest (before ++ [old]) true (before ++ new.toList) (kept ++ new.toList) hd'
        (by simp) (by
          intro _
          cases init with
          | false =>
            left
            rw [(h0 rfl).2]
            refine ⟨rfl, fun he => ⟨old, by simp, hd (old, new) (by simp) ?_⟩⟩
            cases new with
            | none => rfl
            | some x => simp at he
          | true =>
            rcases h1 rfl with h | ⟨x, hx, hr⟩
            · obtain ⟨x, hx, hr⟩ := h.2 hc.1
              exact .inr ⟨x, by simp [hx], hr⟩
            · rw [hc.1] at hx; simp at hx)
      exact this
    · rename_i hc
      split
      · rename_i hi
        subst hi
        refine changedElems_spec rest (before ++ [old]) true (changed ++ new.toList) (kept ++ new.toList) hd'
          (by simp) (fun _ => ?_)
        rcases h1 rfl with h | ⟨x, hx, hr⟩
        · left
          refine ⟨by rw [h.1], fun he => ?_⟩
          obtain ⟨he1, he2⟩ := List.append_eq_nil_iff.1 he
          obtain ⟨x, hx, hr⟩ := h.2 he1
          exact ⟨x, by simp [hx], hr⟩
        · exact .inr ⟨x, by simp [hx], hr⟩
      · rename_i hi
        simp only [Bool.not_eq_true] at hi
        subst hi
        have he := (h0 rfl).1
        have hn : new = some old := by
          simp only [he, List.isEmpty_nil, Bool.true_and, bne_iff_ne, ne_eq, not_not] at hc
          exact hc
        subst hn
        refine changedElems_spec rest (before ++ [old]) false changed (kept ++ [old]) hd'
          (fun _ => ⟨he, by rw [(h0 rfl).2]⟩) (by simp)

theorem resolveList_sound {c c' : Ctx} {vs : List Value} {o : Option Value} (hv : (Value.list vs).Wf)
    (hsv : Simple root (.list vs)) (ho : c.opts = ⟨b, false⟩)
    (hps : (s.push (.list vs)).root = .some root')
    (h : resolveList rec c s vs = .ok (c', o)) : Post env root (envExt env b) c (.list vs) c' o := by
  unfold resolveList at h
  split at h
  · rename_i hr
    cases h
    exact .clean (clean_of_plain _ hv hr)
  · split at h
    · rename_i hr
      cases h
      exact .same .list fun he => by rw [he] at hr; simp at hr
    · rename_i hr
      have hr : c.restr = [] := by simpa using hr
      obtain ⟨x, hx, h⟩ := bind_ok h
      obtain ⟨y, hy, h⟩ := bind_ok h
      cases h
      simp only [Wf] at hv
      obtain ⟨i1, i2, i3, i4, i5, i6⟩ := resolveElems_sound hrec hw hps hrw hpr c vs x hv
        (fun v hm => hsv.elem hm) ho hr hx
      have key := changedElems_spec (vs.zip x.2) [] false [] [] i6 (fun _ => ⟨rfl, rfl⟩) (by simp)
      rw [List.map_fst_zip (by omega), List.map_snd_zip (by omega), List.nil_append, List.nil_append] at key
      have hy' : y = .list (x.2.filterMap id) := by
        unfold modifiedList at hy
        split at hy
        · rename_i ws hw'
          rw [hw'] at key
          cases hy
          rw [key.1 rfl]
        · rename_i ws hw'
          rw [hw'] at key
          rw [ho] at hy
          split at hy
          · rename_i hres
            cases hy
            simp only [Bool.false_or, Value.resolved] at hres
            exact congrArg Value.list (key.2 rfl (resolvedAll_iff.1 hres))
          · cases hy
      subst hy'
      refine ⟨i2, fun _ => i3, by simp, ?_⟩
      rintro w ⟨⟩
      have hcl : Clean (.list (x.2.filterMap id)) := CleanL.iff.2 i4
      exact ⟨.den (.list i1) hcl, .clean hcl _, fun _ => ⟨.list i1, hcl⟩⟩

theorem resolvePieces_sound : (c : Ctx) → (ps : List Value) → (r : Ctx × List Value) →
    WfL ps → (∀ v ∈ ps, Simple root v) → c.opts = ⟨b, false⟩ →
    resolvePieces rec s c ps = .ok r →
    DenL env root (envExt env b) ps r.2 ∧ r.1.opts = c.opts ∧ r.1.restr = c.restr ∧
    ∀ w ∈ r.2, Clean w
  | c, [], r, _, _, _, h => by cases h; exact ⟨.nil, rfl, rfl, by simp⟩
  | c, v :: vs, r, hwf, hs, ho, h => by
    simp only [resolvePieces] at h
    obtain ⟨⟨c', o⟩, hx, h⟩ := bind_ok h
    obtain ⟨rest, hrest, h⟩ := bind_ok h
    cases h
    have p := hrec (c.restrict []) s v c' o root' hsr hrw hpr hwf.1 (hs v (by simp)) ho hx
    obtain ⟨i1, i2, i3, i4⟩ := resolvePieces_sound (c'.restrict c.restr) vs rest hwf.2
      (fun v h => hs v (by simp [h])) (p.opts.trans ho) hrest
    cases o with
    | none => exact ⟨.drop (p.gone rfl) i1, i2.trans p.opts, i3, i4⟩
    | some w =>
      obtain ⟨q1, q2, q3⟩ := p.some w rfl
      refine ⟨.keep (q3 rfl).1 i1, i2.trans p.opts, i3, ?_⟩
      intro x hx
      rcases List.mem_cons.1 hx with rfl | hx
      · exact (q3 rfl).2
      · exact i4 x hx

theorem resolveConcat_sound (hroot : root.Wf) {c c' : Ctx} {ps : List Value} {o : Option Value}
    (hv : (Value.concat ps).Wf) (hsv : Simple root (.concat ps)) (ho : c.opts = ⟨b, false⟩)
    (h : resolveConcat env rec c s ps = .ok (c', o)) :
    Post env root (envExt env b) c (.concat ps) c' o := by
  unfold resolveConcat at h
  obtain ⟨x, hx, h⟩ := bind_ok h
  obtain ⟨j, hj, h⟩ := bind_ok h
  obtain ⟨y, hy, h⟩ := bind_ok h
  cases h
  have hv' := hv
  simp only [Wf] at hv
  obtain ⟨i1, i2, i3, i4⟩ := resolvePieces_sound hrec hw hsr hrw hpr c ps x hv
    (fun v hm => hsv.piece hm) ho hx
  have hcat : Value.concatenate env x.2 = .ok o := by
    rw [Value.concatenate, hj]
    unfold joinedPieces at hy
    rw [ho] at hy
    split at hy
    · cases hy; rfl
    · cases hy; rfl
    · simp at hy
  have hden : Den env root (envExt env b) (.concat ps) o := .concat i1 hcat
  refine ⟨i2, fun h => i3.trans h, fun h => h ▸ hden, ?_⟩
  rintro w rfl
  have hp := Den.plain hroot hv' hden
  have hcl := clean_of_plain w hp.wf hp.res
  exact ⟨.den hden hcl, .clean hcl _, fun _ => ⟨hden, hcl⟩⟩

end

theorem push_root (s : Source) (v : Value) : (s.push v).root = s.root := by
  unfold Source.push
  split
  · split <;> rfl
  · rfl

section
variable {b : Bool} {rec : Resolver} (hrec : SoundR env root b rec) (hw : KeepsP Wf rec)
  {s : Source} {root' : Value} (hsr : s.root = .some root') (hrw : root'.Wf)
  (hpr : Part env root (envExt env b) root root')
include hrec hw hsr hrw hpr

/-- What has become of one field. -/
def FieldPost (env : Env) (root : Value) (ext : Path → Option Str) (orig : Path) (k : Str) (v : Value)
    (o : Option Value) : Prop :=
  (o = none → Den env root ext v none) ∧
  ∀ w, o = some w → Part env root ext v w ∧
    (orig = [] → Den env root ext v (some w) ∧ Clean w) ∧
    ∀ k' p, orig = k' :: p → k = k' → p ≠ [] → Along w p

theorem resolveChild_sound {orig : Path} {c : Ctx} {k : Str} {v : Value} {r : Ctx × Option Value}
    (hv : v.Wf) (hs : Simple root v) (ho : c.opts = ⟨b, false⟩) (hr : c.restr = orig)
    (h : resolveChild rec orig c s k v = .ok r) :
    FieldPost env root (envExt env b) orig k v r.2 ∧ r.1.opts = c.opts ∧ r.1.restr = orig := by
  unfold resolveChild at h
  rw [hr] at h
  cases orig with
  | nil =>
    obtain ⟨⟨c', o⟩, hx, h⟩ := bind_ok h
    cases h
    have p := hrec (c.restrict []) s v c' o root' hsr hrw hpr hv hs ho hx
    refine ⟨⟨p.gone, fun w hw => ?_⟩, p.opts, rfl⟩
    obtain ⟨q1, q2, q3⟩ := p.some w hw
    exact ⟨q1, fun _ => q3 rfl, by simp⟩
  | cons key remainder =>
    simp only at h
    have same : remainder = [] ∨ k ≠ key →
        FieldPost env root (envExt env b) (key :: remainder) k v (some v) := by
      intro hor
      refine ⟨by simp, ?_⟩
      rintro w ⟨⟩
      refine ⟨.refl _, by simp, ?_⟩
      rintro k' p ⟨⟩ hk hp
      tauto
    split at h
    · split at h
      · rename_i hrem
        cases h
        exact ⟨same (.inl (by simpa using hrem)), rfl, hr⟩
      · obtain ⟨⟨c', o⟩, hx, h⟩ := bind_ok h
        cases h
        have p := hrec (c.restrict remainder) s v c' o root' hsr hrw hpr hv hs ho hx
        refine ⟨⟨p.gone, fun w hw => ?_⟩, p.opts, rfl⟩
        obtain ⟨q1, q2, q3⟩ := p.some w hw
        refine ⟨q1, by simp, ?_⟩
        rintro k' p ⟨⟩ hk hp
        exact q2
    · rename_i hk
      cases h
      exact ⟨same (.inr hk), rfl, hr⟩

theorem resolveFields_sound {orig : Path} : (c : Ctx) → (fs : Fields) →
    (r : Ctx × List (Str × Option Value)) →
    WfF fs → (∀ f ∈ fs, Simple root f.2) → c.opts = ⟨b, false⟩ → c.restr = orig →
    resolveFields rec orig s c fs = .ok r →
    PartF env root (envExt env b) fs (keptFields r.2) ∧ r.1.opts = c.opts ∧ r.1.restr = orig ∧
    (orig = [] → DenF env root (envExt env b) fs (keptFields r.2) ∧ CleanF (keptFields r.2)) ∧
    ∀ k p, orig = k :: p → ∀ f ∈ keptFields r.2, f.1 = k → p ≠ [] → Along f.2 p
  | c, [], r, _, _, _, hr, h => by
    cases h
    exact ⟨.nil, rfl, hr, fun _ => ⟨.nil, trivial⟩, by simp [keptFields]⟩
  | c, (k, v) :: fs, r, hwf, hs, ho, hr, h => by
    simp only [resolveFields] at h
    obtain ⟨⟨c', o⟩, hx, h⟩ := bind_ok h
    obtain ⟨rest, hrest, h⟩ := bind_ok h
    cases h
    obtain ⟨p1, p2, p3⟩ := resolveChild_sound hrec hw hsr hrw hpr hwf.1 (hs (k, v) (by simp)) ho hr hx
    obtain ⟨i1, i2, i3, i4, i5⟩ := resolveFields_sound c' fs rest hwf.2 (fun f h => hs f (by simp [h]))
      (p2.trans ho) p3 hrest
    cases o with
    | none =>
      exact ⟨.drop (p1.1 rfl) i1, i2.trans p2, i3, fun h => ⟨.drop (p1.1 rfl) (i4 h).1, (i4 h).2⟩, i5⟩
    | some w =>
      obtain ⟨q1, q2, q3⟩ := p1.2 w rfl
      refine ⟨.keep q1 i1, i2.trans p2, i3, fun h => ⟨.keep (q2 h).1 (i4 h).1, (q2 h).2, (i4 h).2⟩, ?_⟩
      intro k' p he f hf hk hp
      rcases List.mem_cons.1 hf with rfl | hf
      · exact q3 k' p he hk hp
      · exact i5 k' p he f hf hk hp

omit hrec hw hsr hrw hpr in
theorem keptFields_same (fs : Fields) : keptFields (fs.map fun f => (f.1, some f.2)) = fs := by
  induction fs with
  | nil => rfl
  | cons f fs ih => simp [keptFields, ih]

theorem resolveObject_sound {c c' : Ctx} {fs : Fields} {r i : Bool} {o : Option Value}
    (hv : (Value.obj fs r i).Wf) (hsv : Simple root (.obj fs r i)) (ho : c.opts = ⟨b, false⟩)
    (h : resolveObject rec c s fs r i = .ok (c', o)) :
    Post env root (envExt env b) c (.obj fs r i) c' o := by
  unfold resolveObject at h
  split at h
  · rename_i hr
    cases h
    exact .clean (clean_of_plain _ hv (by simpa [Value.resolved] using hr))
  · obtain ⟨x, hx, h⟩ := bind_ok h
    cases h
    have hv' := hv
    simp only [Wf] at hv
    obtain ⟨i1, i2, i3, i4, i5⟩ := resolveFields_sound hrec hw ((push_root _ _).trans hsr) hrw hpr c fs x
      hv.2.2 (fun f hf => hsv.field (k := f.1) hf) ho rfl hx
    have hm : modifiedObject fs r i x.2 = .obj (keptFields x.2) (resolvedFields (keptFields x.2)) i := by
      unfold modifiedObject
      split
      · rename_i he
        rw [he, keptFields_same, hv.1]
      · rfl
    rw [hm]
    refine ⟨i2, fun h => i3.trans h, by simp, ?_⟩
    rintro w ⟨⟩
    refine ⟨.obj i1, ?_, fun h => ?_⟩
    · cases hp : c.restr with
      | nil => exact .nil trivial
      | cons k p => exact .obj fun y hy hne => i5 k p hp _ (findKey_mem hy) rfl hne
    · obtain ⟨d, hc⟩ := i4 h
      have := hc.resolved
      rw [this]
      exact ⟨.obj d, rfl, hc⟩

end

/-! ## References -/

theorem findPeek_calm {v : Value} {p : Path} (h : Calm v p) (ho : v.isObject = true) :
    ∀ ps, ∃ out, findPeek v p ps = .ok out ∧ ∀ w, out.1 = some w → Clean w := by
  induction h with
  | @missing fs r i k p hf =>
    intro ps
    rw [findPeek_obj, hf]
    cases p with
    | nil => exact ⟨_, rfl, by simp⟩
    | cons a as => exact ⟨_, rfl, by simp⟩
  | @found fs r i k v hf hc =>
    intro ps
    rw [findPeek_obj, hf]
    refine ⟨_, rfl, ?_⟩
    rintro w ⟨⟩
    exact hc
  | @deeper fs r i k k' p v hf h ih =>
    intro ps
    rw [findPeek_obj, hf]
    simp only [List.isEmpty_cons, Bool.false_eq_true, if_false]
    split
    · rename_i hvo; exact ih hvo _
    · exact ⟨_, rfl, by simp⟩
  | scalar => simp [isObject] at ho
  | list => simp [isObject] at ho

/-- Nothing happens on values without substitutions. -/
def CleanR (rec : Resolver) : Prop :=
  ∀ c s v, Clean v → rec c s v = .fuel ∨ rec c s v = .ok (c, some v)

/-- Nothing happens along calm paths. -/
def CalmR (rec : Resolver) : Prop :=
  ∀ c s v, v.Wf → Calm v c.restr → rec c s v = .fuel ∨ rec c s v = .ok (c, some v)

section
variable {b : Bool} {rec : Resolver} (hroot : root.Wf) (hsroot : Simple root root)
  (hrec : SoundR env root b rec) (hw : KeepsP Wf rec) (hcl : CleanR rec) (hcm : CalmR rec)
  {s : Source} {root' : Value} (hsr : s.root = .some root') (hrw : root'.Wf)
  (hpr : Part env root (envExt env b) root root')
include hroot hsroot hrec hw hcl hcm hsr hrw hpr

/-- What a lookup can return. -/
structure Looked (env : Env) (root : Value) (b : Bool) (c : Ctx) (p : Path)
    (l : Ctx × Option Value × List Value) : Prop where
  opts : l.1.opts = c.opts
  restr : c.restr = [] → l.1.restr = []
  gone : l.2.1 = none → Absent env root (envExt env b) root p ∧ envExt env b p = none
  found : ∀ w, l.2.1 = some w →
    (∃ t, Absent env root (envExt env b) root p ∧ envExt env b p = some t ∧ w = .scalar (.str t true)) ∨
    ∃ w0 v2, At env root (envExt env b) root p w0 ∧ w0.Wf ∧ Part env root (envExt env b) w0 w ∧ w.Wf ∧
      l.1.restr = c.restr ∧ l.2.2.getLast?.bind asObject = some v2 ∧ v2.Wf ∧
      Part env root (envExt env b) root v2

theorem findInObject_sound {c : Ctx} {p : Path} {l : Ctx × Option Value × List Value}
    (ho : c.opts = ⟨b, false⟩) (h : findInObject rec s.root c p = .ok l) :
    l.1.opts = c.opts ∧ l.1.restr = c.restr ∧
    (l.2.1 = none → Absent env root (envExt env b) root p) ∧
    ∀ w, l.2.1 = some w → ∃ w0 v2, At env root (envExt env b) root p w0 ∧ w0.Wf ∧
      Part env root (envExt env b) w0 w ∧ w.Wf ∧
      l.2.2.getLast?.bind asObject = some v2 ∧ v2.Wf ∧ Part env root (envExt env b) root v2 := by
  unfold findInObject at h
  rw [hsr] at h
  simp only at h
  obtain ⟨⟨c2, o2⟩, hx, h⟩ := bind_ok h
  have post := hrec (c.restrict p) ⟨some root', []⟩ root' c2 o2 root' rfl hrw hpr hrw
    (Part.simple hroot hsroot hsroot hpr) ho hx
  cases o2 with
  | none => cases h
  | some v2 =>
    simp only at h
    split at h
    · rename_i hobj
      obtain ⟨f, hf, h⟩ := bind_ok h
      cases h
      obtain ⟨q1, q2, q3⟩ := post.some v2 rfl
      have hp2 := hpr.trans q1
      have hv2 : v2.Wf := hw (c.restrict p) ⟨some root', []⟩ root' c2 (some v2)
        ⟨by rintro r ⟨⟩; exact hrw, by simp⟩ hrw hx v2 rfl
      obtain ⟨r1, r2⟩ := findPeek_sound hroot root v2 p [] f hroot hp2 q2 hobj hf
      refine ⟨post.opts, rfl, r1, fun w hw' => ?_⟩
      obtain ⟨w0, a1, a2, a3⟩ := r2 w hw'
      have hlast := findPeek_last v2 p [] f hf
      have : f.2.getLast? = some v2 := by
        obtain ⟨a, as, ha⟩ := List.exists_cons_of_ne_nil hlast.2
        have h1 := hlast.1
        rw [ha, List.getLast?_cons] at h1 ⊢
        simpa using h1.symm
      refine ⟨w0, v2, a1, a2, a3, (closed_wf.findPeek v2 p [] f hv2 (by simp) hf).1 w hw', ?_, hv2, hp2⟩
      simp [this, asObject, hobj]
    · cases h

theorem lookupSubst_sound {c : Ctx} {p : Path} {l : Ctx × Option Value × List Value}
    (ho : c.opts = ⟨b, false⟩) (h : lookupSubst env rec s.root c p 0 = .ok l) :
    Looked env root b c p l := by
  unfold lookupSubst at h
  obtain ⟨r, hr, h⟩ := bind_ok h
  obtain ⟨i1, i2, i3, i4⟩ := findInObject_sound hroot hsroot hrec hw hcl hcm hsr hrw hpr ho hr
  cases hv : r.2.1 with
  | some w =>
    rw [hv] at h
    simp only [Option.isNone_some, Bool.false_eq_true, if_false] at h
    cases h
    refine ⟨i1, fun h => i2.trans h, by simp [hv], fun w' hw' => .inr ?_⟩
    obtain ⟨w0, v2, a1, a2, a3, a4, a5, a6, a7⟩ := i4 w' hw'
    exact ⟨w0, v2, a1, a2, a3, a4, i2, a5, a6, a7⟩
  | none =>
    rw [hv] at h
    simp only [Option.isNone_none, if_true, Nat.lt_irrefl, gt_iff_lt, if_false, PathM.subPath] at h
    unfold lookupEnv at h
    rw [hv, ho] at h
    simp only [Option.isNone_none, Bool.true_and] at h
    cases b with
    | false =>
      simp only [Bool.false_eq_true, if_false] at h
      cases h
      refine ⟨i1, fun h => i2.trans h, fun _ => ⟨i3 hv, ?_⟩, by simp [hv]⟩
      unfold envExt
      split <;> rfl
    | true =>
      simp only [if_true] at h
      obtain ⟨x, hx, h⟩ := bind_ok h
      cases h
      refine ⟨rfl, fun _ => rfl, fun hn => ⟨i3 hv, ?_⟩, fun w hw' => .inl ?_⟩
      · unfold findEnv at hx
        split at hx
        · cases hx
        · rename_i k
          cases hx
          simpa [envExt] using hn
        · rfl
      · unfold findEnv at hx
        split at hx
        · cases hx
        · rename_i k
          cases hx
          simp only [Option.map_eq_some_iff] at hw'
          obtain ⟨t, ht, rfl⟩ := hw'
          exact ⟨t, i3 hv, by simpa [envExt] using ht, rfl⟩
        · cases hx; cases hw'

/-- With a calm path the `try` block throws nothing it catches. -/
theorem tryRef_calm {c c' : Ctx} {p : Path} {o : Option Value} (hc : Calm root p)
    (h : tryRef env rec c s p true 0 = .ok (c', o)) :
    ∃ l, lookupSubst env rec s.root c p 0 = .ok l ∧
      ((l.2.1 = none ∧ c' = l.1 ∧ o = none) ∨ ∃ w, l.2.1 = some w ∧ Clean w ∧ c' = l.1 ∧ o = some w) := by
  have hne : p ≠ [] := by rintro rfl; cases hc
  have hc' : Calm root' p := hc.part hroot hpr
  have hl : lookupSubst env rec s.root c p 0 = .fuel ∨
      (∃ e, e ≠ Err.notPossible ∧ lookupSubst env rec s.root c p 0 = .err e) ∨ ∃ l, lookupSubst env rec s.root c p 0 = .ok l ∧
      ∀ w, l.2.1 = some w → Clean w := by
    have hf : findInObject rec s.root c p = .fuel ∨ (∃ e, e ≠ Err.notPossible ∧ findInObject rec s.root c p = .err e) ∨
        ∃ l, findInObject rec s.root c p = .ok l ∧
        ∀ w, l.2.1 = some w → Clean w := by
      unfold findInObject
      rw [hsr]
      simp only
      rcases hcm (c.restrict p) ⟨some root', []⟩ root' hrw hc' with h | h
      · rw [h]; exact .inl rfl
      · rw [h]
        right
        show (∃ e, e ≠ Err.notPossible ∧ (if root'.isObject = true then _ else _) = _) ∨
          ∃ l, (if root'.isObject = true then _ else _) = _ ∧ _
        split
        · rename_i hobj
          right
          obtain ⟨out, h1, h2⟩ := findPeek_calm hc' hobj []
          rw [h1]
          exact ⟨_, rfl, h2⟩
        · exact .inl ⟨_, by decide, rfl⟩
    unfold lookupSubst
    rcases hf with hf | ⟨e, he, hf⟩ | ⟨l, hf, hcln⟩
    · rw [hf]; exact .inl rfl
    · rw [hf]; exact .inr (.inl ⟨e, he, rfl⟩)
    · rw [hf]
      right; right
      show ∃ l', (if l.2.1.isNone = true then _ else _) = _ ∧ _
      split
      · rename_i hn
        simp only [Nat.lt_irrefl, gt_iff_lt, if_false, PathM.subPath]
        unfold lookupEnv
        split
        · unfold findEnv
          split
          · exact absurd rfl hne
          · refine ⟨_, rfl, ?_⟩
            intro w hw
            simp only [Option.map_eq_some_iff] at hw
            obtain ⟨t, -, rfl⟩ := hw
            trivial
          · exact ⟨_, rfl, by simp⟩
        · exact ⟨_, rfl, hcln⟩
      · exact ⟨_, rfl, hcln⟩
  unfold tryRef at h
  rcases hl with hl | ⟨e, he, hl⟩ | ⟨l, hl, hw'⟩
  · rw [hl] at h; cases h
  · rw [hl] at h
    simp only at h
    unfold catchCycle at h
    split at h
    · rename_i he'; cases he'; exact absurd rfl he
    · cases h
  · rw [hl] at h
    refine ⟨l, hl, ?_⟩
    simp only [resolveFound] at h
    cases hv : l.2.1 with
    | none => rw [hv] at h; cases h; exact .inl ⟨rfl, rfl, rfl⟩
    | some w =>
      rw [hv] at h
      simp only at h
      rcases hcl l.1 ⟨l.2.2.getLast?.bind asObject, l.2.2⟩ w (hw' w hv) with h' | h'
      · rw [h'] at h; cases h
      · rw [h'] at h
        cases h
        exact .inr ⟨w, rfl, hw' w hv, rfl, rfl⟩

theorem tryRef_required {c c' : Ctx} {p : Path} {o : Option Value}
    (h : tryRef env rec c s p false 0 = .ok (c', o)) :
    ∃ l, lookupSubst env rec s.root c p 0 = .ok l ∧
      ((l.2.1 = none ∧ c' = l.1 ∧ o = none) ∨ ∃ w, l.2.1 = some w ∧
        rec l.1 ⟨l.2.2.getLast?.bind asObject, l.2.2⟩ w = .ok (c', o)) := by
  unfold tryRef at h
  split at h
  · rename_i l hl
    refine ⟨l, hl, ?_⟩
    unfold resolveFound at h
    split at h
    · rename_i hn; cases h; exact .inl ⟨hn, rfl, rfl⟩
    · rename_i w hw'
      right
      refine ⟨w, hw', ?_⟩
      unfold catchCycle at h
      split at h
      · simp at h
      · exact h
  · unfold catchCycle at h
    split at h
    · simp at h
    · cases h
  · cases h
  · cases h

theorem resolveRef_sound {c c' : Ctx} {id : Nat} {p : Path} {opt : Bool} {o : Option Value}
    (hsv : Simple root (.ref id p opt 0)) (ho : c.opts = ⟨b, false⟩)
    (h : resolveRef env rec c s id p opt 0 = .ok (c', o)) :
    Post env root (envExt env b) c (.ref id p opt 0) c' o := by
  unfold resolveRef at h
  split at h
  · cases h
  obtain ⟨⟨c1, o1⟩, hx, h⟩ := bind_ok h
  have ho' : (c.mark id).opts = ⟨b, false⟩ := ho
  cases opt with
  | true =>
    have hcalm := ((hsv _ .here).2 _ _ _ _ rfl).2.2 rfl
    obtain ⟨l, hl, hcase⟩ := tryRef_calm hroot hsroot hrec hw hcl hcm hsr hrw hpr hcalm hx
    have hlk := lookupSubst_sound hroot hsroot hrec hw hcl hcm hsr hrw hpr ho' hl
    rcases hcase with ⟨hn, rfl, rfl⟩ | ⟨w, hw', hcw, rfl, rfl⟩
    · simp only [finishRef, if_true] at h
      cases h
      obtain ⟨a1, a2⟩ := hlk.gone hn
      exact ⟨hlk.opts, hlk.restr, fun _ => .refAbsent a1 a2, by simp⟩
    · simp only [finishRef] at h
      cases h
      refine ⟨hlk.opts, hlk.restr, by simp, ?_⟩
      rintro w ⟨⟩
      have hden : Den env root (envExt env b) (.ref id p true 0) (some w) := by
        rcases hlk.found w hw' with ⟨t, h1, h2, rfl⟩ | ⟨w0, v2, h1, h2, h3, _⟩
        · exact .refExt h1 h2
        · exact .ref h1 (h3.den_trans (Clean.den _ hcw))
      exact ⟨.den hden hcw, .clean hcw _, fun _ => ⟨hden, hcw⟩⟩
  | false =>
    obtain ⟨l, hl, hcase⟩ := tryRef_required hroot hsroot hrec hw hcl hcm hsr hrw hpr hx
    have hlk := lookupSubst_sound hroot hsroot hrec hw hcl hcm hsr hrw hpr ho' hl
    rcases hcase with ⟨hn, rfl, rfl⟩ | ⟨w, hw', hrw'⟩
    · simp only [finishRef, Bool.false_eq_true, if_false, hlk.opts, ho'] at h
      cases h
    · rcases hlk.found w hw' with ⟨t, h1, h2, rfl⟩ | ⟨w0, v2, h1, h2, h3, h4, h5, h6, h7, h8⟩
      · rcases hcl l.1 ⟨l.2.2.getLast?.bind asObject, l.2.2⟩ (.scalar (.str t true)) trivial with h' | h'
        · rw [h'] at hrw'; cases hrw'
        · rw [h'] at hrw'
          cases hrw'
          simp only [finishRef] at h
          cases h
          have hden : Den env root (envExt env b) (.ref id p false 0) (some (.scalar (.str t true))) :=
            .refExt h1 h2
          refine ⟨hlk.opts, hlk.restr, by simp, ?_⟩
          rintro w ⟨⟩
          exact ⟨.den hden trivial, .scalar, fun _ => ⟨hden, trivial⟩⟩
      · have hsw : Simple root w := Part.simple hroot hsroot (At.simple hroot hsroot hroot hsroot h1) h3
        have post := hrec l.1 ⟨l.2.2.getLast?.bind asObject, l.2.2⟩ w c1 o1 v2 h6 h7 h8 h4 hsw
          (hlk.opts.trans ho') hrw'
        have h5' : l.1.restr = c.restr := h5
        cases o1 with
        | none =>
          simp only [finishRef, Bool.false_eq_true, if_false, post.opts, hlk.opts, ho'] at h
          cases h
        | some w' =>
          simp only [finishRef] at h
          cases h
          obtain ⟨q1, q2, q3⟩ := post.some w' rfl
          rw [h5'] at q2 q3
          refine ⟨post.opts.trans hlk.opts, fun h => post.restr (h5'.trans h), by simp, ?_⟩
          rintro w'' ⟨⟩
          exact ⟨.ref h1 (h3.trans q1) q2.head, q2, fun h =>
            ⟨.ref h1 (h3.den_trans (q3 h).1), (q3 h).2⟩⟩

end

theorem resolveN_sound (hroot : root.Wf) (hsroot : Simple root root) {b : Bool} (n : Nat) :
    SoundR env root b (resolveN env n) := by
  induction n with
  | zero => intro c s v c' o root' _ _ _ _ _ _ h; cases h
  | succ n ih =>
    intro c s v c' o root' hsr hrw hpr hv hsv ho h
    have hw : KeepsP Wf (resolveN env n) := closed_wf.resolveN n
    rw [resolveN] at h
    split at h
    · cases h
    obtain ⟨x, hx, h⟩ := bind_ok h
    obtain ⟨rfl, -⟩ := checkResult_eq h
    cases v with
    | scalar x => cases hx; exact .clean trivial
    | list vs => exact resolveList_sound ih hw hsr hrw hpr hv hsv ho ((push_root _ _).trans hsr) hx
    | obj fs r i => exact resolveObject_sound ih hw hsr hrw hpr hv hsv ho hx
    | ref id p opt pre =>
      obtain ⟨rfl, -⟩ := (hsv _ .here).2 _ _ _ _ rfl
      exact resolveRef_sound hroot hsroot ih hw (fun _ _ _ h => resolveN_clean h)
        (fun _ _ _ hv h => resolveN_calm hv h) hsr hrw hpr hsv ho hx
    | concat ps => exact resolveConcat_sound ih hw hsr hrw hpr hroot hv hsv ho hx
    | dm st => exact absurd rfl ((hsv _ .here).1 st).1
    | dmo st => exact absurd rfl ((hsv _ .here).1 st).2

/-- **Soundness**: what `config::resolve` returns is what the semantics says. -/
theorem configResolve_sound (hroot : root.Wf) (hsroot : Simple root root) {b : Bool} {n : Nat}
    {r : Value} (h : configResolve env n root ⟨b, false⟩ = .ok (some r)) :
    Den env root (envExt env b) root (some r) ∧ Clean r := by
  unfold configResolve configResolveWith resolveTop at h
  obtain ⟨o1, hx1, h⟩ := bind_ok h
  obtain ⟨⟨c', o⟩, hx, h'⟩ := bind_ok hx1
  cases h'
  have post := resolveN_sound hroot hsroot n ⟨⟨b, false⟩, [], []⟩ ⟨some root, []⟩ root c' o root rfl hroot (.refl _)
    hroot hsroot rfl hx
  cases o with
  | none => cases h
  | some w =>
    have : w = r := by
      simp only [Option.bind_some, asObject] at h
      split at h <;> simp_all
    subst this
    exact (post.some w rfl).2.2 rfl

end Resolve
end Hocon
