import Verif.Lemmas.ResolveOrigins
import Verif.Lemmas.StatusLemmas
import Verif.Spec.SettingsA

/-!
# What a setting gets by substitution
-/

set_option autoImplicit false

namespace Hocon
namespace ResolveA

open Notes Resolve Spec

variable {env : Env}

theorem eraseF_mem {k : Str} {v : AVal} : {fs : AFields} → (k, v) ∈ fs → (k, v.erase) ∈ eraseF fs
  | (k', v') :: fs, h => by
    rcases List.mem_cons.1 h with h | h
    · cases h; simp [eraseF]
    · simp [eraseF, eraseF_mem h]

theorem eraseF_keys : (fs : AFields) → (eraseF fs).map Prod.fst = fs.map Prod.fst
  | [] => rfl
  | (k, v) :: fs => by simp [eraseF, eraseF_keys fs]

/-- The parts of an object. -/
theorem live_child {o : Origin} {fs : AFields} {r i : Bool} {k : Str} {v : AVal}
    (h : Live (AVal.obj o fs r i).erase) (hm : (k, v) ∈ fs) : Live v.erase := by
  rw [live_spec] at h ⊢
  have ho : ∀ u, Occurs u v.erase → Occurs u (AVal.obj o fs r i).erase := fun u hu => by
    simp only [AVal.erase]
    exact .obj (eraseF_mem hm) hu
  exact ⟨fun u hu => h.1 u (ho u hu), fun gs r i hg => h.2 gs r i (ho _ hg)⟩

theorem live_nodup {o : Origin} {fs : AFields} {r i : Bool} (h : Live (AVal.obj o fs r i).erase) :
    (fs.map Prod.fst).Nodup := by
  rw [← eraseF_keys]
  exact (live_spec.1 h).2 _ r i (by simp only [AVal.erase]; exact .here)

theorem findKeyA_mem {k : Str} {v : AVal} : {fs : AFields} → (fs.map Prod.fst).Nodup → (k, v) ∈ fs →
    findKeyA fs k = some v
  | (k', v') :: fs, hn, h => by
    simp only [List.map_cons, List.nodup_cons] at hn
    rcases List.mem_cons.1 h with h | h
    · cases h; simp [findKeyA]
    · have : k' ≠ k := by
        rintro rfl
        exact hn.1 (List.mem_map.2 ⟨_, h, rfl⟩)
      rw [findKeyA, if_neg this, findKeyA_mem hn.2 h]

theorem setAt_object {v w : AVal} {p : Path} (h : SetAt v p w) : v.erase.isObject = true := by
  cases h <;> rfl

theorem setAt_path {v w : AVal} {p : Path} (h : SetAt v p w) : p ≠ [] := by
  cases h <;> simp

/-- The value that is set is found. -/
theorem findPeekA_setAt {v w : AVal} {p : Path} (h : SetAt v p w) : Live v.erase → ∀ ps,
    ∃ qs, findPeekA v p ps = .ok (some w, qs) ∧ qs.getLast? = (v :: ps).getLast? := by
  induction h with
  | @last o fs r i k w hm =>
    intro hl ps
    refine ⟨_, by simp [findPeekA, attemptPeekA, findKeyA_mem (live_nodup hl) hm, Res.bind], rfl⟩
  | @inner o fs r i k v w p hm hs ih =>
    intro hl ps
    obtain ⟨qs, h1, h2⟩ := ih (live_child hl hm) (AVal.obj o fs r i :: ps)
    refine ⟨qs, ?_, ?_⟩
    · simp [findPeekA, attemptPeekA, findKeyA_mem (live_nodup hl) hm, Res.bind, setAt_object hs, setAt_path hs, h1]
    · rw [h2, List.getLast?_cons_cons]

theorem peekPathA_cons {o : Origin} {fs : AFields} {r i : Bool} {k : Str} {v w : AVal} {p : Path}
    (h : findKeyA fs k = some v) (hp : p ≠ []) (ho : v.erase.isObject = true) (hw : peekPathA v p = .ok (some w)) :
    peekPathA (.obj o fs r i) (k :: p) = .ok (some w) := by
  simp [peekPathA, attemptPeekA, h, Res.bind, hp, ho, hw, Value.recatch]

/-! ## Looking up a setting changes nothing -/

theorem checkR_ok {c c' : Ctx} {v : AVal} (h : v.erase.resolved = true ∨ c.restr ≠ []) :
    checkResultA c (c', some v) = .ok (c', some v) := by
  unfold checkResultA
  rcases h with h | h <;> simp [h]

theorem keptFieldsA_same (fs : AFields) : keptFieldsA (fs.map fun f => (f.1, some f.2)) = fs := by
  induction fs with
  | nil => rfl
  | cons f fs ih => simp [keptFieldsA, ih]

theorem modifiedObjectA_same (o : Origin) (fs : AFields) (res ign : Bool) :
    modifiedObjectA o fs res ign (fs.map fun f => (f.1, some f.2)) = .obj o fs res ign := by
  unfold modifiedObjectA
  rw [keptFieldsA_same, if_pos]
  simp

/-- The fields of an object that are looked through along a path. -/
theorem fields_look {ra : AResolver} {k : Str} {rest : Path} {u : AVal} (s : ASource)
    (hra : rest ≠ [] → ∀ c, c.restr = rest → ra c s u = .fuel ∨ ∃ c', ra c s u = .ok (c', some u)) :
    (fs : AFields) → (∀ x, (k, x) ∈ fs → x = u) → (c : Ctx) → c.restr = k :: rest →
    resolveFieldsA ra (k :: rest) s c fs = .fuel ∨
      ∃ c', resolveFieldsA ra (k :: rest) s c fs = .ok (c', fs.map fun f => (f.1, some f.2))
  | [], _, c, _ => Or.inr ⟨c, rfl⟩
  | (k', x) :: fs, hu, c, hc => by
    have ih := fields_look (k := k) s hra fs (fun y hy => hu y (List.mem_cons_of_mem _ hy))
    have hchild : resolveChildA ra (k :: rest) c s k' x = .fuel ∨
        ∃ c', resolveChildA ra (k :: rest) c s k' x = .ok (c', some x) ∧ c'.restr = k :: rest := by
      unfold resolveChildA
      simp only [hc]
      by_cases hk : k' = k
      · subst hk
        have hx := hu x (by simp)
        subst hx
        by_cases hr : rest = []
        · subst hr
          right
          exact ⟨c, by simp, hc⟩
        · rcases hra hr (c.restrict rest) rfl with h | ⟨c', h⟩
          · left
            simp [hr, h, Res.bind]
          · right
            exact ⟨c'.restrict (k' :: rest), by simp [hr, h, Res.bind], rfl⟩
      · right
        exact ⟨c, by simp [hk], hc⟩
    simp only [resolveFieldsA]
    rcases hchild with h | ⟨c', h, hc'⟩
    · left; rw [h]; rfl
    · rcases ih c' hc' with h2 | ⟨c2, h2⟩
      · left; simp [h, Res.bind, h2]
      · right; exact ⟨c2, by simp [h, Res.bind, h2]⟩

theorem look {v w : AVal} {p : Path} (h : SetAt v p w) : Live v.erase → ∀ n c s, c.restr = p →
    resolveNA env n c s v = .fuel ∨ ∃ c', resolveNA env n c s v = .ok (c', some v) := by
  have obj : ∀ (o : Origin) (fs : AFields) (r i : Bool) (k : Str) (rest : Path) (u : AVal),
      Live (AVal.obj o fs r i).erase → (k, u) ∈ fs →
      (rest ≠ [] → ∀ n c s, c.restr = rest → resolveNA env n c s u = .fuel ∨ ∃ c', resolveNA env n c s u = .ok (c', some u)) →
      ∀ n c s, c.restr = k :: rest → resolveNA env n c s (.obj o fs r i) = .fuel ∨
        ∃ c', resolveNA env n c s (.obj o fs r i) = .ok (c', some (.obj o fs r i)) := by
    intro o fs r i k rest u hl hm ih n c s hc
    cases n with
    | zero => left; rfl
    | succ n =>
      have hk : isMarked c (AVal.obj o fs r i).erase = false := rfl
      simp only [resolveNA, hk, Bool.false_eq_true, if_false, resolveSubstitutionsA, resolveObjectA]
      cases r with
      | true =>
        right
        refine ⟨c, ?_⟩
        rw [if_pos rfl]
        exact checkR_ok (c := c) (v := .obj o fs true i) (Or.inr (by rw [hc]; simp))
      | false =>
        simp only [Bool.false_eq_true, if_false, hc]
        rcases fields_look (ra := resolveNA env n) (s.push (.obj o fs false i)) (fun hr c hc => ih hr n c _ hc) fs
          (fun x hx => by
            have h1 := findKeyA_mem (live_nodup hl) hx
            have h2 := findKeyA_mem (live_nodup hl) hm
            rw [h1] at h2
            exact Option.some.inj h2) c hc with h | ⟨c', h⟩
        · left; simp [h, Res.bind]
        · right
          refine ⟨c', ?_⟩
          simp only [h, Res.bind, modifiedObjectA_same]
          exact checkR_ok (Or.inr (by simp [hc]))
  induction h with
  | @last o fs r i k w hm =>
    intro hl n c s hc
    exact obj o fs r i k [] w hl hm (fun h => absurd rfl h) n c s hc
  | @inner o fs r i k v w p hm hs ih =>
    intro hl n c s hc
    exact obj o fs r i k p v hl hm (fun _ => ih (live_child hl hm)) n c s hc

/-- A value without substitutions stays as it is. -/
theorem resolveNA_plain {t : AVal} (hl : Live t.erase) (ht : ¬ HasSubst t.erase) (n : Nat) (c : Ctx) (s : ASource) :
    resolveNA env n c s t = .fuel ∨ resolveNA env n c s t = .ok (c, some t) := by
  have hr : t.erase.resolved = true := ((live_spec.1 hl).1 _ .here).2 ht
  cases n with
  | zero => left; rfl
  | succ n =>
    right
    have key : ∀ x : Res (Ctx × Option AVal), x = .ok (c, some t) → x.bind (checkResultA c) = .ok (c, some t) := by
      rintro x rfl
      exact checkR_ok (Or.inl hr)
    cases t with
    | scalar o x => exact key _ rfl
    | list o vs =>
      simp only [resolveNA]
      rw [if_neg (by simp [AVal.erase, isMarked])]
      exact key _ (by simp only [resolveSubstitutionsA, resolveListA, hr, if_true])
    | obj o fs r i =>
      have hr' : r = true := by simpa [AVal.erase, Value.resolved] using hr
      subst hr'
      simp only [resolveNA]
      rw [if_neg (by simp [AVal.erase, isMarked])]
      exact key _ (by simp only [resolveSubstitutionsA, resolveObjectA, if_true])
    | ref o id p opt pre => simp [AVal.erase, Value.resolved] at hr
    | concat o ps => simp [AVal.erase, Value.resolved] at hr
    | dm o st => simp [AVal.erase, Value.resolved] at hr
    | dmo o st => simp [AVal.erase, Value.resolved] at hr

/-! ## A substitution gives the value it leads to -/

theorem checkResultA_ok {c : Ctx} {r r' : Ctx × Option AVal} (h : checkResultA c r = .ok r') : r' = r := by
  unfold checkResultA at h
  split at h
  · exact (Res.ok.inj h).symm
  · split at h
    · exact (Res.ok.inj h).symm
    · simp at h

/-- Looking up a setting that is an object's. -/
theorem lookup_setAt {root w : AVal} {p : Path} (h : SetAt root p w) (hl : Live root.erase) (n : Nat) (c : Ctx) :
    lookupSubstA env (resolveNA env n) (some root) c p 0 = .fuel ∨ ∃ c' qs,
      lookupSubstA env (resolveNA env n) (some root) c p 0 = .ok (c', some w, qs) ∧ qs.getLast? = some root := by
  obtain ⟨qs, h1, h2⟩ := findPeekA_setAt h hl []
  rcases look (env := env) h hl n (c.restrict p) ⟨some root, []⟩ rfl with h3 | ⟨c', h3⟩
  · left
    simp [lookupSubstA, findInObjectA, h3, Res.bind]
  · right
    exact ⟨c'.restrict c.restr, qs, by simp [lookupSubstA, findInObjectA, h3, Res.bind, setAt_object h, h1],
      by rw [h2]; rfl⟩

theorem ref_leads {root v t : AVal} (h : Leads root v t) (hl : Live root.erase) : ∀ n c s c' o,
    s.root = some root → resolveNA env n c s v = .ok (c', o) → o = some t := by
  have live_at : ∀ {u w : AVal} {p : Path}, SetAt u p w → Live u.erase → Live w.erase := by
    intro u w p h
    induction h with
    | last hm => intro hl; exact live_child hl hm
    | inner hm _ ih => intro hl; exact ih (live_child hl hm)
  have step : ∀ (ox : Origin) (id : Nat) (p : Path) (opt : Bool) (w : AVal), SetAt root p w →
      (∀ n c s, s.root = some root → (∀ c' o, resolveNA env n c s w = .ok (c', o) → o = some t) ∧
        (opt = true → resolveNA env n c s w ≠ .err .notPossible)) →
      ∀ n c s c' o, s.root = some root → resolveNA env n c s (.ref ox id p opt 0) = .ok (c', o) → o = some t := by
    intro ox id p opt w hs hw n c s c' o hsr h
    cases n with
    | zero => simp [resolveNA] at h
    | succ n =>
      simp only [resolveNA] at h
      split at h
      · simp at h
      · obtain ⟨r, h1, h2⟩ := bokA h
        have h2 := checkResultA_ok h2
        subst h2
        simp only [resolveSubstitutionsA, resolveRefA] at h1
        split at h1
        · simp at h1
        · obtain ⟨r, h3, h4⟩ := bokA h1
          unfold tryRefA at h3
          rw [hsr] at h3
          rcases lookup_setAt (env := env) hs hl n (c.mark id) with h5 | ⟨c2, qs, h5, h6⟩
          · rw [h5] at h3; simp at h3
          · rw [h5] at h3
            simp only [resolveFoundA] at h3
            have hroot : (qs.getLast?.bind asObjectA) = some root := by
              rw [h6]; simp [asObjectA, setAt_object hs]
            obtain ⟨k1, k2⟩ := hw n c2 ⟨qs.getLast?.bind asObjectA, qs⟩ hroot
            have : r.2 = some t := by
              unfold catchCycleA at h3
              split at h3
              · rename_i he
                split at h3
                · rename_i ho
                  exact absurd he (k2 ho)
                · simp at h3
              · obtain ⟨rc, ro⟩ := r
                exact k1 rc ro h3
            unfold finishRefA at h4
            rw [this] at h4
            simp only [Res.ok.injEq, Prod.mk.injEq] at h4
            exact h4.2.symm
  induction h with
  | @last ox id p opt t hs ht =>
    refine step ox id p opt t hs ?_
    intro n c s _
    rcases resolveNA_plain (env := env) (live_at hs hl) ht n c s with h | h
    · rw [h]; exact ⟨by simp, by simp⟩
    · rw [h]; exact ⟨by simp, by simp⟩
  | @next ox id p v t hs hv ih =>
    exact step ox id p false v hs fun n c s hsr => ⟨fun c' o h => ih step n c s c' o hsr h, by simp⟩

/-! ## The setting in the resolved configuration -/

theorem push_root (s : ASource) (v : AVal) : (s.push v).root = s.root := by
  unfold ASource.push
  split
  · split <;> rfl
  · rfl

theorem leads_subst {root v t : AVal} (h : Leads root v t) : HasSubst v.erase := by
  cases h with
  | last => exact ⟨_, _, _, _, by simp only [AVal.erase]; exact .here⟩
  | next => exact ⟨_, _, _, _, by simp only [AVal.erase]; exact .here⟩

/-- One field of an object that is resolved. -/
theorem fields_one {ra : AResolver} {k : Str} {x : AVal} {s : ASource} :
    {fs : AFields} → (fs.map Prod.fst).Nodup → (k, x) ∈ fs → {c : Ctx} → c.restr = [] →
    {r : Ctx × List (Str × Option AVal)} → resolveFieldsA ra [] s c fs = .ok r →
    ∃ c1 c2 y, c1.restr = [] ∧ ra c1 s x = .ok (c2, y) ∧ findKeyA (keptFieldsA r.2) k = y
  | (k', x') :: fs, hn, hm, c, hc, r, h => by
    simp only [List.map_cons, List.nodup_cons] at hn
    simp only [resolveFieldsA] at h
    obtain ⟨r1, h1, h⟩ := bokA h
    obtain ⟨r2, h2, h⟩ := bokA h
    simp only [Res.ok.injEq] at h
    subst h
    unfold resolveChildA at h1
    simp only [hc] at h1
    obtain ⟨r3, h3, h1⟩ := bokA h1
    simp only [Res.ok.injEq] at h1
    subst h1
    have hkeys : ∀ (gs : AFields) (c : Ctx) (r : Ctx × List (Str × Option AVal)), k' ∉ gs.map Prod.fst →
        resolveFieldsA ra [] s c gs = .ok r → findKeyA (keptFieldsA r.2) k' = none := by
      intro gs
      induction gs with
      | nil =>
        intro c r _ h
        simp only [resolveFieldsA, Res.ok.injEq] at h
        subst h; rfl
      | cons g gs ih =>
        intro c r hk h
        simp only [List.map_cons, List.mem_cons, not_or] at hk
        simp only [resolveFieldsA] at h
        obtain ⟨q1, g1, h⟩ := bokA h
        obtain ⟨q2, g2, h⟩ := bokA h
        simp only [Res.ok.injEq] at h
        subst h
        obtain ⟨q1c, q1v⟩ := q1
        cases q1v with
        | none => simpa [keptFieldsA] using ih _ _ hk.2 g2
        | some y => simpa [keptFieldsA, findKeyA, Ne.symm hk.1] using ih _ _ hk.2 g2
    rcases List.mem_cons.1 hm with hm | hm
    · cases hm
      refine ⟨c.restrict [], r3.1, r3.2, rfl, h3, ?_⟩
      obtain ⟨r3c, r3v⟩ := r3
      cases r3v with
      | none => simpa [keptFieldsA] using hkeys _ _ _ hn.1 h2
      | some y => simp [keptFieldsA, findKeyA]
    · obtain ⟨c1, c2, y, g1, g2, g3⟩ := fields_one hn.2 hm rfl h2
      refine ⟨c1, c2, y, g1, g2, ?_⟩
      have hne : k' ≠ k := by
        rintro rfl
        exact hn.1 (List.mem_map.2 ⟨_, hm, rfl⟩)
      obtain ⟨r3c, r3v⟩ := r3
      cases r3v with
      | none => simpa [keptFieldsA] using g3
      | some z => simpa [keptFieldsA, findKeyA, hne] using g3

theorem setAt_live {v w : AVal} {p : Path} (h : SetAt v p w) : Live v.erase → Live w.erase := by
  induction h with
  | last hm => intro hl; exact live_child hl hm
  | inner hm _ ih => intro hl; exact ih (live_child hl hm)

theorem setAt_subst {v w : AVal} {p : Path} (h : SetAt v p w) : HasSubst w.erase → HasSubst v.erase := by
  induction h with
  | last hm =>
    rintro ⟨a, b, e, f, ho⟩
    exact ⟨a, b, e, f, by simp only [AVal.erase]; exact .obj (eraseF_mem hm) ho⟩
  | inner hm _ ih =>
    intro hx
    obtain ⟨a, b, e, f, ho⟩ := ih hx
    exact ⟨a, b, e, f, by simp only [AVal.erase]; exact .obj (eraseF_mem hm) ho⟩

/-- An object with a substitution: all its fields are resolved, in the same source or one of the same root. -/
theorem resolve_obj {o : Origin} {fs : AFields} {rs i : Bool} (hl : Live (AVal.obj o fs rs i).erase)
    {n : Nat} {c : Ctx} {s : ASource} {r : Ctx × Option AVal} (hc : c.restr = [])
    (h : resolveNA env n c s (.obj o fs rs i) = .ok r) :
    (rs = true ∧ r.2 = some (.obj o fs rs i)) ∨ ∃ gs b, r.2 = some (.obj o gs b i) ∧
      ∀ k u, (k, u) ∈ fs → ∃ n' c1 s1 c2 y, c1.restr = [] ∧ s1.root = s.root ∧
        resolveNA env n' c1 s1 u = .ok (c2, y) ∧ findKeyA gs k = y := by
  cases n with
  | zero => simp [resolveNA] at h
  | succ n =>
    simp only [resolveNA] at h
    split at h
    · simp at h
    · obtain ⟨r1, h1, h2⟩ := bokA h
      have h2 := checkResultA_ok h2
      subst h2
      cases rs with
      | true =>
        simp only [resolveSubstitutionsA, resolveObjectA, if_true, Res.ok.injEq] at h1
        subst h1
        exact Or.inl ⟨rfl, rfl⟩
      | false =>
        simp only [resolveSubstitutionsA, resolveObjectA, Bool.false_eq_true, if_false, hc] at h1
        obtain ⟨r2, h3, h4⟩ := bokA h1
        simp only [Res.ok.injEq] at h4
        subst h4
        refine Or.inr ⟨_, _, rfl, ?_⟩
        intro k u hm
        obtain ⟨c1, c2, y, g1, g2, g3⟩ := fields_one (live_nodup hl) hm hc h3
        exact ⟨n, c1, _, c2, y, g1, push_root _ _, g2, g3⟩

/-- What is set at a path is resolved, or is left as it is if it contains no substitution. -/
theorem resolve_at {v x : AVal} {q : Path} (h : SetAt v q x) : Live v.erase → ∀ n c s r, c.restr = [] →
    resolveNA env n c s v = .ok r → ∃ w, r.2 = some w ∧ w.erase.isObject = true ∧
      ((peekPathA w q = .ok (some x) ∧ ¬ HasSubst x.erase) ∨ ∃ n' c1 s1 c2 y, c1.restr = [] ∧ s1.root = s.root ∧
        resolveNA env n' c1 s1 x = .ok (c2, y) ∧ peekPathA w q = .ok y) := by
  have hpeek : ∀ {v x : AVal} {q : Path}, SetAt v q x → Live v.erase → peekPathA v q = .ok (some x) := by
    intro v x q h
    induction h with
    | last hm =>
      intro hl
      simp [peekPathA, attemptPeekA, findKeyA_mem (live_nodup hl) hm, Res.bind, Value.recatch]
    | inner hm hs ih =>
      intro hl
      exact peekPathA_cons (findKeyA_mem (live_nodup hl) hm) (setAt_path hs) (setAt_object hs) (ih (live_child hl hm))
  have done : ∀ {o : Origin} {fs : AFields} {i : Bool} {q : Path}, SetAt (.obj o fs true i) q x →
      Live (AVal.obj o fs true i).erase → peekPathA (.obj o fs true i) q = .ok (some x) ∧ ¬ HasSubst x.erase := by
    intro o fs i q h hl
    refine ⟨hpeek h hl, fun hx => ?_⟩
    exact ((live_spec.1 hl).1 _ .here).1 (by simp [AVal.erase, Value.resolved]) (setAt_subst h hx)
  induction h with
  | @last o fs rs i k x hm =>
    intro hl n c s r hc h
    rcases resolve_obj hl hc h with ⟨rfl, g1⟩ | ⟨gs, b, g1, g2⟩
    · exact ⟨_, g1, rfl, Or.inl (done (.last hm) hl)⟩
    · obtain ⟨n', c1, s1, c2, y, k1, k2, k3, k4⟩ := g2 _ _ hm
      exact ⟨_, g1, rfl, Or.inr ⟨n', c1, s1, c2, y, k1, k2, k3, by
        simp [peekPathA, attemptPeekA, k4, Res.bind, Value.recatch]⟩⟩
  | @inner o fs rs i k u x p hm hsu ih =>
    intro hl n c s r hc h
    rcases resolve_obj hl hc h with ⟨rfl, g1⟩ | ⟨gs, b, g1, g2⟩
    · exact ⟨_, g1, rfl, Or.inl (done (.inner hm hsu) hl)⟩
    · obtain ⟨n', c1, s1, c2, y, k1, k2, k3, k4⟩ := g2 _ _ hm
      obtain ⟨w, e1, e2, e3⟩ := ih done (live_child hl hm) n' c1 s1 (c2, y) k1 k3
      simp only at e1
      subst e1
      refine ⟨_, g1, rfl, ?_⟩
      have hcons : ∀ z, peekPathA w p = .ok z → peekPathA (.obj o gs b i) (k :: p) = .ok z := by
        intro z hz
        simp [peekPathA, attemptPeekA, k4, Res.bind, setAt_path hsu, e2, hz, Value.recatch]
      rcases e3 with ⟨e3, e4⟩ | ⟨n2, c3, s3, c4, z, e3, e4, e5, e6⟩
      · exact Or.inl ⟨hcons _ e3, e4⟩
      · exact Or.inr ⟨n2, c3, s3, c4, z, e3, e4.trans k2, e5, hcons _ e6⟩

/-- A list stays a list with its origin. -/
theorem resolve_list {o : Origin} {vs : List AVal} {n : Nat} {c : Ctx} {s : ASource} {r : Ctx × Option AVal}
    (h : resolveNA env n c s (.list o vs) = .ok r) : ∃ ws, r.2 = some (.list o ws) := by
  cases n with
  | zero => simp [resolveNA] at h
  | succ n =>
    simp only [resolveNA] at h
    split at h
    · simp at h
    · obtain ⟨r1, h1, h2⟩ := bokA h
      have h2 := checkResultA_ok h2
      subst h2
      simp only [resolveSubstitutionsA, resolveListA] at h1
      split at h1
      · cases h1; exact ⟨_, rfl⟩
      · split at h1
        · cases h1; exact ⟨_, rfl⟩
        · obtain ⟨r2, h3, h1⟩ := bokA h1
          obtain ⟨v, h4, h1⟩ := bokA h1
          cases h1
          unfold modifiedListA at h4
          split at h4
          · cases h4; exact ⟨_, rfl⟩
          · split at h4
            · cases h4; exact ⟨_, rfl⟩
            · simp at h4

end ResolveA
end Hocon
