import Verif.Lemmas.EditReadHas

/-!
# What is read at the path that was set
-/

set_option autoImplicit false

namespace Hocon
namespace EditRead
open Value ConfigParser
open DocEdit (changeLoop changeNode changeField changeInObject changeNode_field changeNode_other WfNode WfList Flat
  dropSep setField changeField_spec changeLoop_spec length_drop_facts replaceValue_spec Occurs)
open Node (fieldPath fieldValue fieldSeparator replaceValue isValue)

/-! ## A value without substitutions is read alike everywhere -/

mutual
theorem parseValue_free (env : Env) (inc : Includer) (json : Bool) (arr arr' : Nat)
    (outer outer' : Option Path) (c : Node) (n n' m : Nat) (v : Value) (hs : static false c = true)
    (h : parseValue env inc json arr outer c n = .ok (v, m)) : parseValue env inc json arr' outer' c n' = .ok (v, n') := by
  match c with
  | .simple t =>
    rw [parseValue] at h ⊢
    cases t with
    | subst => simp [static] at hs
    | value | unquoted =>
      simp only [ConfigParser.getValue, Res.ok.injEq, Prod.mk.injEq] at h ⊢
      exact ⟨h.1, trivial⟩
    | _ => simp [ConfigParser.getValue] at h
  | .object cs =>
    simp only [parseValue, Res.bind_eq_ok] at h
    obtain ⟨⟨fs, n1⟩, h1, h2⟩ := h
    simp only [Res.ok.injEq, Prod.mk.injEq] at h2
    rw [static] at hs
    rw [parseValue, parseFields_free env inc json arr arr' outer outer' cs [] fs n n' n1 hs h1, ← h2.1]
    rfl
  | .array cs =>
    simp only [parseValue, Res.bind_eq_ok] at h
    obtain ⟨⟨vs, n1⟩, h1, h2⟩ := h
    simp only [Res.ok.injEq, Prod.mk.injEq] at h2
    rw [static] at hs
    rw [parseValue, parseElems_free env inc json (arr + 1) (arr' + 1) outer outer' cs n n' n1 vs hs h1, ← h2.1]
    rfl
  | .concat cs =>
    rw [parseValue] at h ⊢
    split at h
    · cases h
    · rename_i hj
      simp only [Res.bind_eq_ok] at h
      obtain ⟨⟨vs, n1⟩, h1, o, h2, w, h3, h4⟩ := h
      simp only [Res.ok.injEq, Prod.mk.injEq] at h4
      rw [static] at hs
      rw [if_neg hj, parseElems_free env inc json arr arr' outer outer' cs n n' n1 vs hs h1]
      simp only [Res.ok_bind]
      rw [h2]
      simp only [Res.ok_bind]
      rw [h3, ← h4.1]
      rfl
  | .single t => simp [parseValue] at h
  | .comment t => simp [parseValue] at h
  | .path p ts => simp [parseValue] at h
  | .field cs => simp [parseValue] at h
  | .incl cs k => simp [parseValue] at h
theorem parseElems_free (env : Env) (inc : Includer) (json : Bool) (arr arr' : Nat)
    (outer outer' : Option Path) (cs : List Node) (n n' m : Nat) (vs : List Value) (hs : staticL false cs = true)
    (h : parseElems env inc json arr outer cs n = .ok (vs, m)) : parseElems env inc json arr' outer' cs n' = .ok (vs, n') := by
  match cs with
  | [] =>
    simp only [parseElems, Res.ok.injEq, Prod.mk.injEq] at h ⊢
    exact ⟨h.1, trivial⟩
  | c :: cs =>
    simp only [staticL, Bool.and_eq_true] at hs
    rw [parseElems] at h ⊢
    split at h
    · rename_i hc
      simp only [Res.bind_eq_ok] at h
      obtain ⟨⟨v, n1⟩, h1, ⟨ws, n2⟩, h2, h3⟩ := h
      simp only [Res.ok.injEq, Prod.mk.injEq] at h3
      rw [if_pos hc, parseValue_free env inc json arr arr' outer outer' c n n' n1 _ hs.1 h1]
      simp only [Res.ok_bind]
      rw [parseElems_free env inc json arr arr' outer outer' cs n1 n' n2 ws hs.2 h2, ← h3.1]
      rfl
    · rename_i hc
      rw [if_neg hc]
      exact parseElems_free env inc json arr arr' outer outer' cs n n' m vs hs.2 h
theorem parseFieldValue_free (env : Env) (inc : Includer) (json : Bool) (arr arr' : Nat)
    (outer outer' : Option Path) (cs : List Node) (n n' m : Nat) (v : Value) (hs : staticL false cs = true)
    (h : parseFieldValue env inc json arr outer cs n = .ok (v, m)) :
    parseFieldValue env inc json arr' outer' cs n' = .ok (v, n') := by
  match cs with
  | [] => simp [parseFieldValue] at h
  | c :: cs =>
    simp only [staticL, Bool.and_eq_true] at hs
    rw [parseFieldValue] at h ⊢
    split at h
    · rename_i hc
      rw [if_pos hc]
      exact parseValue_free env inc json arr arr' outer outer' c n n' m v hs.1 h
    · rename_i hc
      rw [if_neg hc]
      exact parseFieldValue_free env inc json arr arr' outer outer' cs n n' m v hs.2 h
theorem parseFields_free (env : Env) (inc : Includer) (json : Bool) (arr arr' : Nat)
    (outer outer' : Option Path) (cs : List Node) (fs fs' : Fields) (n n' m : Nat) (hs : staticL false cs = true)
    (h : parseFields env inc json arr outer cs fs n = .ok (fs', m)) :
    parseFields env inc json arr' outer' cs fs n' = .ok (fs', n') := by
  match cs with
  | [] =>
    simp only [parseFields, Res.ok.injEq, Prod.mk.injEq] at h ⊢
    exact ⟨h.1, trivial⟩
  | .incl ds k :: cs => simp [staticL, static] at hs
  | .field ds :: cs =>
    simp only [staticL, static, Bool.and_eq_true, Bool.not_eq_true'] at hs
    simp only [parseFields, Res.bind_eq_ok, hs.1.1, Bool.false_eq_true, if_false] at h ⊢
    obtain ⟨⟨p, ts⟩, h1, ⟨v, n1⟩, h2, gs, h3, h4⟩ := h
    exact ⟨_, h1, _, parseFieldValue_free env inc json arr arr' _ _ ds n n' n1 v hs.1.2 h2, gs, h3,
      parseFields_free env inc json arr arr' outer outer' cs gs fs' n1 n' m hs.2 h4⟩
  | .single t :: cs | .comment t :: cs | .path _ t :: cs | .simple t :: cs | .object t :: cs | .array t :: cs
  | .concat t :: cs =>
    simp only [staticL, Bool.and_eq_true] at hs
    rw [parseFields] at h ⊢
    exact parseFields_free env inc json arr arr' outer outer' cs fs fs' n n' m hs.2 h
    all_goals simp
end

/-- A value without substitutions that is read as `x`. -/
structure Gives (env : Env) (inc : Includer) (w : Node) (x : Value) : Prop where
  fixed : static false w = true
  reads : ∀ arr outer n, parseValue env inc false arr outer w n = .ok (x, n)

theorem Gives.of {env : Env} {inc : Includer} {w : Node} {x : Value} (hs : static false w = true) {n m : Nat}
    (h : parseValue env inc false 0 none w n = .ok (x, m)) : Gives env inc w x :=
  ⟨hs, fun arr outer n' => parseValue_free env inc false 0 arr none outer w n n' m x hs h⟩

theorem Gives.readable {env : Env} {inc : Includer} {w : Node} {x : Value} (h : Gives env inc w x) : Readable env inc w :=
  ⟨h.fixed, fun arr outer n => ⟨x, h.reads arr outer n⟩⟩

theorem Gives.plain {env : Env} {inc : Includer} {w : Node} {x : Value} (h : Gives env inc w x) : x.Plain :=
  parseValue_plain env inc nofalse false 0 none w 0 0 x h.fixed (h.reads 0 none 0)

theorem replaceValue_gives {env : Env} {inc : Includer} {w : Node} {x : Value} (hv : w.isValue = true) (hg : Gives env inc w x) :
    ∀ {cs cs' : List Node}, replaceValue w cs = .ok cs' →
      ∀ arr outer n, parseFieldValue env inc false arr outer cs' n = .ok (x, n)
  | [], _, h => by cases h
  | c :: cs, cs', h => by
    rw [replaceValue] at h
    by_cases hc : c.isValue = true
    · rw [if_pos hc] at h
      cases h
      intro arr outer n
      rw [parseFieldValue, if_pos hv]
      exact hg.reads arr outer n
    · rw [if_neg hc, Res.bind_eq_ok] at h
      obtain ⟨cs1, h1, h⟩ := h
      cases h
      intro arr outer n
      rw [parseFieldValue, if_neg hc]
      exact replaceValue_gives hv hg h1 arr outer n

/-! ## Only the new value at the path -/

/-- At the path there is nothing, or `x`. -/
def Thru (p : Path) (x : Value) (a : Option Value) : Prop := atO a p = none ∨ atO a p = some x

theorem atO_nil (a : Option Value) : atO a [] = a := by cases a <;> rfl

theorem thru_cons {k : Str} {p : Path} {x : Value} {a : Option Value} : Thru (k :: p) x a ↔ Thru p x (sub a k) := by
  unfold Thru; rw [atO_cons]

theorem Thru.over {x : Value} (hx : x.Plain) : ∀ {p : Path} {m a : Option Value}, PlainO a → Thru p x m → Thru p x a →
    Thru p x (over m a)
  | [], m, a, _, h1, h2 => by
    unfold Thru at *
    rw [atO_nil] at *
    rcases h1 with rfl | rfl
    · exact h2
    · rcases h2 with rfl | rfl
      · exact .inr rfl
      · exact .inr (by rw [EditRead.over, pmerge_self x hx])
  | k :: p, m, a, ha, h1, h2 => by
    cases hm : firm m with
    | true => rw [over_firm hm]; exact h1
    | false =>
      rw [thru_cons] at *
      rw [(over_loose hm ha).2 k]
      exact Thru.over hx (ha.sub k) h1 h2

theorem atO_nest_append : ∀ (key rem : Path) (v : Value), atO (some (nest key v)) (key ++ rem) = atO (some v) rem
  | [], _, _ => rfl
  | k :: key, rem, v => by
    rw [List.cons_append, atO_cons, sub_nest, if_pos rfl]
    exact atO_nest_append key rem v

theorem thru_nest_same (p : Path) (x : Value) : Thru p x (some (nest p x)) := by
  have := atO_nest_append p [] x
  rw [List.append_nil, atO_nil] at this
  exact .inr this

theorem thru_nest_above {rem : Path} {x v : Value} (key : Path) (h : Thru rem x (some v)) :
    Thru (key ++ rem) x (some (nest key v)) := by
  unfold Thru
  rw [atO_nest_append]
  exact h

theorem thru_nest_off {p key : Path} {x v : Value} (h1 : ¬ p <+: key) (h2 : ¬ key <+: p) : Thru p x (some (nest key v)) := by
  refine .inl ?_
  by_contra h
  rcases atO_nest h with h | ⟨rem, _, h, _⟩
  · exact h1 h
  · exact h2 ⟨rem, h.symm⟩

theorem put_thru {p : Path} (hp : p ≠ []) {x : Value} (hx : x.Plain) {fs gs : Fields} {key : Path} {v : Value} (hk : key ≠ [])
    (hf : PlainF fs) (hv : v.Plain) (h : Thru p x (some (newObj fs))) (hn : Thru p x (some (nest key v)))
    (hput : putField false fs key v = .ok gs) : PlainF gs ∧ Thru p x (some (newObj gs)) := by
  obtain ⟨gs0, h1, h2, h3⟩ := putField_over hk hf hv
  rw [hput] at h1
  cases h1
  refine ⟨h2, ?_⟩
  match p with
  | [] => exact absurd rfl hp
  | k0 :: p0 =>
    rw [thru_cons, sub_newObj] at h ⊢
    rw [thru_cons] at hn
    rw [h3]
    exact Thru.over hx (fun v hv => hf.find hv) hn h

/-- Reading the children adds nothing at the path but `x`. -/
def Clear (env : Env) (inc : Includer) (p : Path) (x : Value) (r : List Node) : Prop :=
  ∀ arr outer fs gs n m, PlainF fs → Thru p x (some (newObj fs)) →
    parseFields env inc false arr outer r fs n = .ok (gs, m) → Thru p x (some (newObj gs))

theorem Clear.sep {env : Env} {inc : Includer} {p : Path} {x : Value} {r : List Node} (h : Clear env inc p x r) :
    Clear env inc p x (dropSep r) := by
  intro arr outer fs gs n m h1 h2 h3
  rw [parseFields_dropSep] at h3
  exact h arr outer fs gs n m h1 h2 h3

theorem Clear.field {env : Env} {inc : Includer} {p : Path} {x : Value} {r cs : List Node} (h : Clear env inc p x r)
    (hp : p ≠ []) (hx : x.Plain) {key : Path} {ts : List Tok} (hk : key ≠ []) (h1 : fieldPath cs = .ok (key, ts))
    (hs : static false (.field cs) = true)
    (hv : ∀ arr outer n m v, parseFieldValue env inc false arr outer cs n = .ok (v, m) → Thru p x (some (nest key v))) :
    Clear env inc p x (.field cs :: r) := by
  intro arr outer fs gs n m p1 p2 p4
  simp only [static, Bool.and_eq_true, Bool.not_eq_true'] at hs
  rw [parseFields_field _ _ _ _ _ _ _ _ _ hs.1, h1] at p4
  simp only [Res.ok_bind, Res.bind_eq_ok] at p4
  obtain ⟨⟨v, n1⟩, q1, fs1, q2, q3⟩ := p4
  have pv := parseFieldValue_plain env inc nofalse false arr _ cs n n1 v hs.2 q1
  obtain ⟨r1, r2⟩ := put_thru hp hx hk p1 pv p2 (hv _ _ _ _ _ q1) q2
  exact h arr outer fs1 gs n1 m r1 r2 q3

mutual
theorem at_loop (env : Env) (inc : Includer) {p : Path} (hd : p ≠ []) {ov : Option Node} {x : Value} (hx : x.Plain)
    (hf : ∀ w, ov = some w → Flat .conf w) (hr : ∀ w, ov = some w → Gives env inc w x) :
    (ns : List Node) → WfList .conf ns → staticL false ns = true → noJoinL ns = true → ∀ (i : Nat) (prev : Option Node) y,
      changeLoop .conf p ov i prev ns = .ok y → Clear env inc p x y.1
  | [], _, _, _, _, _, _, h => by
    cases h
    intro arr outer fs gs n m _ h1 h2
    cases h2
    exact h1
  | n :: ns, hw, hs, hj, i, prev, y, h => by
    rw [changeLoop, Res.bind_eq_ok] at h
    obtain ⟨⟨r, s, vc⟩, h3, h⟩ := h
    simp only [staticL, noJoinL, Bool.and_eq_true] at hs hj
    have ih := at_loop env inc hd hx hf hr ns hw.2 hs.2 hj.2 _ _ _ h3
    obtain ⟨_, _, _, g1, _, g3, _⟩ := changeLoop_spec hd (fun w hw => (hf w hw).toVOk) ns hw.2 (i + 1) (some n)
    rw [h3] at g1
    cases g1
    refine at_node env inc hd hx ?_ ?_ ih n hw.1 hs.1 hj.1 i prev y h
    · intro v h
      rcases g3 with g | g
      · exact hf v (g ▸ h)
      · rw [g] at h; cases h
    · intro v h
      rcases g3 with g | g
      · exact hr v (g ▸ h)
      · rw [g] at h; cases h
termination_by structural ns => ns
theorem at_node (env : Env) (inc : Includer) {p : Path} (hd : p ≠ []) {vc : Option Node} {x : Value} (hx : x.Plain)
    {r : List Node} {s : Bool} (hf : ∀ w, vc = some w → Flat .conf w) (hr : ∀ w, vc = some w → Gives env inc w x)
    (ih : Clear env inc p x r) :
    (n : Node) → WfNode .conf n → static false n = true → noJoin n = true → ∀ (i : Nat) (prev : Option Node) y,
      changeNode .conf p i prev r s vc n = .ok y → Clear env inc p x y.1
  | .field cs, hn, hs, hj, i, prev, y, h => by
    obtain ⟨⟨k, ks, ts, hkey⟩, ⟨v, hval⟩, hcs⟩ := hn
    rw [noJoin] at hj
    have hs0 := hs
    simp only [static, Bool.and_eq_true, Bool.not_eq_true'] at hs0
    rw [changeNode_field hd hkey] at h
    by_cases e1 : k :: ks = p
    · rw [if_pos e1] at h
      cases vc with
      | none =>
        cases h
        exact ih.sep
      | some w =>
        rw [if_neg (by simp), Res.bind_eq_ok] at h
        obtain ⟨cs', h3, h⟩ := h
        cases h
        simp only [setField, (hf w rfl).indented, Res.ok_bind] at h3
        obtain ⟨a1, a2, _⟩ := replaceValue_read (hf w rfl).isValue (hr w rfl).readable h3 hs0.2
        have a3 := replaceValue_gives (hf w rfl).isValue (hr w rfl) h3
        obtain ⟨cs2, b1, b2, _⟩ := replaceValue_spec (hf w rfl).isValue hval
        rw [h3] at b1
        cases b1
        refine ih.field hd hx (by simp) (b2.trans hkey) (by simp [static, isPlusEquals_eq a2, hs0.1, a1])
          fun arr outer n m v hv => ?_
        rw [a3] at hv
        cases hv
        rw [e1]
        exact thru_nest_same p _
    · rw [if_neg e1] at h
      by_cases e2 : p <+: k :: ks
      · rw [if_pos e2] at h
        cases h
        exact ih.sep
      · rw [if_neg e2] at h
        by_cases e3 : k :: ks <+: p
        · rw [if_pos e3, Res.bind_eq_ok] at h
          obtain ⟨cs', h3, h⟩ := h
          cases h
          obtain ⟨rem, t1, t2, t3⟩ := length_drop_facts (by simp) e3 e1
          rw [t3] at h3
          obtain ⟨cs2, _, b1, b2, _⟩ := changeField_spec t1 (fun w hw => (hf w hw).toVOk) cs hcs v hval
          rw [h3] at b1
          cases b1
          obtain ⟨a1, a2, _⟩ := read_field env inc nofalse t1 hf (fun w hw => (hr w hw).readable) cs hcs hs0.2 _ h3
          have a3 := at_field env inc t1 hx hf hr cs hcs hs0.2 hj _ h3
          refine ih.field hd hx (by simp) (b2.trans hkey) (by simp [static, isPlusEquals_eq a2, hs0.1, a1])
            fun arr outer n m v hv => ?_
          rw [t2]
          exact thru_nest_above (k :: ks) (a3 arr outer n m v hv)
        · rw [if_neg e3] at h
          cases h
          exact ih.field hd hx (by simp) hkey hs fun _ _ _ _ _ _ => thru_nest_off e2 e3
  | .single _, _, hs, _, _, _, _, h | .comment _, _, hs, _, _, _, _, h | .path _ _, _, hs, _, _, _, _, h
  | .simple _, _, hs, _, _, _, _, h | .object _, _, hs, _, _, _, _, h | .array _, _, hs, _, _, _, _, h
  | .concat _, _, hs, _, _, _, _, h => by
    rw [changeNode_other rfl, if_neg (by simp)] at h
    cases h
    intro arr outer fs gs n m p1 p2 p4
    rw [parseFields_skip _ _ _ _ _ _ _ _ _ (by simp) (by simp)] at p4
    exact ih arr outer fs gs n m p1 p2 p4
  | .incl _ _, _, hs, _, _, _, _, h => by simp [static] at hs
termination_by structural n => n
theorem at_field (env : Env) (inc : Includer) {rem : Path} (hd : rem ≠ []) {ov : Option Node} {x : Value} (hx : x.Plain)
    (hf : ∀ w, ov = some w → Flat .conf w) (hr : ∀ w, ov = some w → Gives env inc w x) :
    (cs : List Node) → WfList .conf cs → staticL false cs = true → noJoinL cs = true →
      ∀ cs', changeField .conf rem ov cs = .ok cs' →
      ∀ arr outer n m v, parseFieldValue env inc false arr outer cs' n = .ok (v, m) → Thru rem x (some v)
  | [], _, _, _, _, h => by cases h
  | c :: cs, hw, hs, hj, cs', h => by
    simp only [staticL, noJoinL, Bool.and_eq_true] at hs hj
    rw [changeField] at h
    by_cases hc : c.isValue = true
    · rw [if_pos hc, Res.bind_eq_ok] at h
      obtain ⟨c', h1, h⟩ := h
      cases h
      obtain ⟨_, a2, _⟩ := read_value env inc nofalse hd hf (fun w hw => (hr w hw).readable) c hw.1 hs.1 c' h1
      intro arr outer n m v hv
      rw [parseFieldValue, if_pos (a2.trans hc)] at hv
      exact at_value env inc hd hx hf hr c hw.1 hs.1 hj.1 c' h1 arr outer n m v hv
    · rw [if_neg hc, Res.bind_eq_ok] at h
      obtain ⟨cs1, h1, h⟩ := h
      cases h
      intro arr outer n m v hv
      rw [parseFieldValue, if_neg hc] at hv
      exact at_field env inc hd hx hf hr cs hw.2 hs.2 hj.2 cs1 h1 arr outer n m v hv
termination_by structural cs => cs
theorem at_value (env : Env) (inc : Includer) {rem : Path} (hd : rem ≠ []) {ov : Option Node} {x : Value} (hx : x.Plain)
    (hf : ∀ w, ov = some w → Flat .conf w) (hr : ∀ w, ov = some w → Gives env inc w x) :
    (c : Node) → WfNode .conf c → static false c = true → noJoin c = true → ∀ c', changeInObject .conf rem ov c = .ok c' →
      ∀ arr outer n m v, parseValue env inc false arr outer c' n = .ok (v, m) → Thru rem x (some v)
  | .object ocs, hw, hs, hj, c', h => by
    rw [changeInObject, Res.bind_eq_ok] at h
    obtain ⟨⟨r, s, vc⟩, h1, h⟩ := h
    cases h
    rw [static] at hs
    rw [noJoin] at hj
    have a := at_loop env inc hd hx hf hr ocs hw.2.2 hs hj _ _ _ h1
    intro arr outer n m v hv
    simp only [parseValue, Res.bind_eq_ok] at hv
    obtain ⟨⟨gs, m⟩, h2, h3⟩ := hv
    cases h3
    refine a arr outer [] gs _ _ ⟨by simp [keysOf], by simp⟩ ?_ h2
    match rem with
    | [] => exact absurd rfl hd
    | k :: rem => exact .inl (by rw [atO_cons, sub_newObj]; rfl)
  | .single _, _, hs, hj, _, h | .comment _, _, hs, hj, _, h | .path _ _, _, hs, hj, _, h
  | .simple _, _, hs, hj, _, h | .field _, _, hs, hj, _, h | .array _, _, hs, hj, _, h
  | .concat _, _, hs, hj, _, h | .incl _ _, _, hs, hj, _, h => by
    cases h
    intro arr outer n m v hv
    have ho := read_nonobj env inc (by simp) hj hs hv
    match rem with
    | [] => exact absurd rfl hd
    | k :: rem => exact .inl (by rw [atO_cons, sub_nonobj ho]; rfl)
termination_by structural c => c
end

end EditRead
end Hocon
