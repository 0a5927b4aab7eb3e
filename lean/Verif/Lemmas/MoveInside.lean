import Verif.Lemmas.MoveFields
import Verif.Lemmas.EditReadAt

/-!
# Values that look the same, and changes inside a section
-/

set_option autoImplicit false

namespace Hocon
namespace EditRead
open Value ConfigParser Spec
open Node (fieldPath fieldSeparator)

/-- The same is seen at every path, and the same shows through. -/
def Eqv (a b : Option Value) : Prop := ∀ q, (atO a q).map seen = (atO b q).map seen ∧ firm (atO a q) = firm (atO b q)

theorem Eqv.refl (a : Option Value) : Eqv a a := fun _ => ⟨rfl, rfl⟩

theorem Eqv.symm {a b : Option Value} (h : Eqv a b) : Eqv b a := fun q => ⟨(h q).1.symm, (h q).2.symm⟩

theorem Eqv.sub {a b : Option Value} (h : Eqv a b) (k : Str) : Eqv (sub a k) (sub b k) := fun q => by
  rw [← atO_cons, ← atO_cons]; exact h (k :: q)

theorem Eqv.head {a b : Option Value} (h : Eqv a b) : a.map seen = b.map seen ∧ firm a = firm b := by
  have := h []
  rwa [atO_nil, atO_nil] at this

theorem Eqv.of {a b : Option Value} (h1 : a.map seen = b.map seen) (h2 : firm a = firm b) (h3 : ∀ k, Eqv (EditRead.sub a k) (EditRead.sub b k)) :
    Eqv a b
  | [] => by rw [atO_nil, atO_nil]; exact ⟨h1, h2⟩
  | k :: q => by rw [atO_cons, atO_cons]; exact h3 k q

theorem shown_over {m a : Option Value} (h : firm m = false) (ha : PlainO a) :
    (over m a).map seen = if m.isSome then some .object else a.map seen := by
  match m, a with
  | none, a => rfl
  | some (.scalar _), _ | some (.list _), _ | some (.ref ..), _ | some (.concat _), _
  | some (.dm _), _ | some (.dmo _), _ => cases h
  | some (.obj fs r i), none => rfl
  | some (.obj fs r i), some y =>
    cases h
    rcases (ha y rfl).cases with ⟨h1, _, _⟩ | ⟨gs, j, rfl, hg⟩
    · rw [over, pmerge_over_nonobj fs r h1]; rfl
    · rw [over, pmerge_obj]; rfl

theorem Eqv.over {m m' a b : Option Value} (h1 : Eqv m m') (h2 : Eqv a b) (ha : PlainO a) (hb : PlainO b) :
    Eqv (over m a) (over m' b) := by
  intro q
  induction q generalizing m m' a b with
  | nil =>
    rw [atO_nil, atO_nil]
    obtain ⟨e1, e2⟩ := h1.head
    cases hm : firm m with
    | true => rw [over_firm hm, over_firm (e2 ▸ hm)]; exact ⟨e1, e2⟩
    | false =>
      have hm' : firm m' = false := e2 ▸ hm
      have hs : m.isSome = m'.isSome := by
        cases m <;> cases m' <;> first | rfl | cases e1
      rw [shown_over hm ha, shown_over hm' hb, (over_loose hm ha).1, (over_loose hm' hb).1, hs, h2.head.1]
      exact ⟨rfl, h2.head.2⟩
  | cons k q ih =>
    rw [atO_cons, atO_cons]
    obtain ⟨_, e2⟩ := h1.head
    cases hm : firm m with
    | true => rw [over_firm hm, over_firm (e2 ▸ hm)]; exact h1.sub k q
    | false =>
      rw [(over_loose hm ha).2, (over_loose (e2 ▸ hm) hb).2]
      exact ih (h1.sub k) (h2.sub k) (ha.sub k) (hb.sub k)

theorem Eqv.nest {v v' : Value} (h : Eqv (some v) (some v')) : ∀ (key : Path), Eqv (some (nest key v)) (some (nest key v'))
  | [] => h
  | k :: key => by
    refine Eqv.of rfl rfl fun k' => ?_
    rw [sub_nest, sub_nest]
    split
    · exact Eqv.nest h key
    · exact Eqv.refl _

/-- Objects with fields that look the same. -/
def EqvF (x y : Fields) : Prop := ∀ k, Eqv (findKey x k) (findKey y k)

theorem EqvF.obj {x y : Fields} (h : EqvF x y) : Eqv (some (newObj x)) (some (newObj y)) := Eqv.of rfl rfl h

/-! ## The same children over fields that look the same -/

theorem Layer.eqv {env : Env} {inc : Includer} {arr : Nat} {outer : Option Path} {ns : List Node} {n m : Nat} {gs : Fields}
    (h : Layer env inc arr outer ns n m gs) {fs fs' x : Fields} {k : Nat} (hf : PlainF fs) (hf' : PlainF fs') (he : EqvF fs fs')
    (hx : parseFields env inc false arr outer ns fs n = .ok (x, k)) :
    ∃ x', parseFields env inc false arr outer ns fs' n = .ok (x', k) ∧ EqvF x x' := by
  obtain ⟨y, h1, _, h3⟩ := h.2 fs hf
  obtain ⟨y', g1, _, g3⟩ := h.2 fs' hf'
  rw [hx] at h1
  cases h1
  refine ⟨y', g1, fun key => ?_⟩
  rw [h3, g3]
  exact (Eqv.refl _).over (he key) (fun v hv => hf.find hv) (fun v hv => hf'.find hv)

/-! ## Sections -/

/-- `cs'` is `cs` with `X'` in place of the children `X` of the object itself or of a section of any depth in it. -/
inductive Inside (X X' : List Node) : List Node → List Node → Prop
  | here : Inside X X' X X'
  | deep {cs cs' d1 d2 pre post : List Node} : Inside X X' cs cs' → (∀ c ∈ d1, c.isValue = false) →
      Inside X X' (pre ++ .field (d1 ++ .object cs :: d2) :: post) (pre ++ .field (d1 ++ .object cs' :: d2) :: post)

theorem Inside.symm {X X' cs cs' : List Node} (h : Inside X X' cs cs') : Inside X' X cs' cs := by
  induction h with
  | here => exact .here
  | deep _ hd ih => exact .deep ih hd

theorem fieldPath_object (cs cs' d2 : List Node) : ∀ (d1 : List Node),
    fieldPath (d1 ++ .object cs :: d2) = fieldPath (d1 ++ .object cs' :: d2)
  | [] => by simp [fieldPath]
  | d :: d1 => by
    have ih := fieldPath_object cs cs' d2 d1
    cases d <;> simp [fieldPath, ih]

theorem fieldSeparator_object (cs cs' d2 : List Node) : ∀ (d1 : List Node),
    fieldSeparator (d1 ++ .object cs :: d2) = fieldSeparator (d1 ++ .object cs' :: d2)
  | [] => rfl
  | d :: d1 => by
    rw [List.cons_append, List.cons_append]
    exact fieldSeparator_cons (fieldSeparator_object cs cs' d2 d1)

theorem parseFieldValue_object (env : Env) (inc : Includer) (outer : Option Path) (cs d2 : List Node) (n : Nat) :
    ∀ (d1 : List Node), (∀ c ∈ d1, c.isValue = false) →
    parseFieldValue env inc false 0 outer (d1 ++ .object cs :: d2) n =
      (parseFields env inc false 0 outer cs [] n >>= fun r => .ok (newObj r.1, r.2))
  | [], _ => by rw [List.nil_append, parseFieldValue, if_pos (by rfl), parseValue]
  | d :: d1, h => by
    rw [List.cons_append, parseFieldValue, if_neg (by rw [h d (by simp)]; simp),
      parseFieldValue_object env inc outer cs d2 n d1 fun c hc => h c (by simp [hc])]

/-- What is read from `X` can be read from `X'`, and looks the same. -/
def ReadsAs (env : Env) (inc : Includer) (n : Nat) (X X' : List Node) : Prop :=
  ∀ outer x m, parseFields env inc false 0 outer X [] n = .ok (x, m) →
    ∃ x', parseFields env inc false 0 outer X' [] n = .ok (x', m) ∧ EqvF x x'

theorem ReadsAs.inside {env : Env} {inc : Includer} (hi : Tame inc) {n : Nat} {X X' cs cs' : List Node} (h : ReadsAs env inc n X X')
    (hin : Inside X X' cs cs') (hs : staticL true cs = true) (hs' : staticL true cs' = true) : ReadsAs env inc n cs cs' := by
  have hnil : PlainF [] := ⟨by simp [keysOf], by simp⟩
  have happ : ∀ {a b : List Node}, staticL true (a ++ b) = (staticL true a && staticL true b) := by
    intro a b
    induction a with
    | nil => simp [staticL]
    | cons n a ih => simp [staticL, ih, Bool.and_assoc]
  induction hin with
  | here => exact h
  | @deep cs cs' d1 d2 pre post _ hd ih =>
    simp only [happ, staticL, static, Bool.and_eq_true, Bool.not_eq_true'] at hs hs'
    obtain ⟨sp, ⟨sq, sd1, sc, sd2⟩, so⟩ := hs
    obtain ⟨_, ⟨sq', _, sc', _⟩, _⟩ := hs'
    have ih := ih sc sc'
    intro outer x m hx
    rw [parseFields_append, Res.bind_eq_ok] at hx
    obtain ⟨⟨xa, na⟩, h1, h2⟩ := hx
    obtain ⟨e, _⟩ := layer env inc (b := true) (fun _ => hi) 0 outer pre sp [] xa n na hnil h1
    simp only at h2
    subst e
    have hpa : PlainF xa := parseFields_plain (b := true) env inc (fun _ => hi.plain) false 0 outer pre [] xa _ _ sp hnil h1
    rw [parseFields_field _ _ _ _ _ _ _ _ _ sq] at h2
    simp only [Res.bind_eq_ok] at h2
    obtain ⟨⟨key, ts⟩, p1, ⟨v, n1⟩, p2, fs1, p3, p4⟩ := h2
    simp only at p2 p3 p4
    rw [parseFieldValue_object env inc _ cs d2 na d1 hd, Res.bind_eq_ok] at p2
    obtain ⟨⟨y, k⟩, q1, q2⟩ := p2
    simp only [Res.ok.injEq, Prod.mk.injEq] at q2
    obtain ⟨rfl, rfl⟩ := q2
    obtain ⟨y', r1, r2⟩ := ih _ y k q1
    obtain ⟨e, _⟩ := layer env inc (b := true) (fun _ => hi) 0 _ cs sc [] y na k hnil q1
    subst e
    have hy : PlainF y := parseFields_plain (b := true) env inc (fun _ => hi.plain) false 0 _ cs [] y _ _ sc hnil q1
    have hy' : PlainF y' := parseFields_plain (b := true) env inc (fun _ => hi.plain) false 0 _ cs' [] y' _ _ sc' hnil r1
    have hk : key ≠ [] := by rintro rfl; cases p3
    obtain ⟨g, s1, s2, s3⟩ := putField_over hk hpa (newObj_plain hy)
    rw [p3] at s1
    cases s1
    obtain ⟨g', t1, t2, t3⟩ := putField_over hk hpa (newObj_plain hy')
    have he : EqvF fs1 g' := fun k' => by
      rw [s3, t3]
      exact ((Eqv.nest r2.obj key).sub k').over (Eqv.refl _) (fun v hv => hpa.find hv) (fun v hv => hpa.find hv)
    obtain ⟨_, gs, hl⟩ := layer env inc (b := true) (fun _ => hi) 0 outer post so fs1 x k m s2 p4
    obtain ⟨x', u1, u2⟩ := hl.eqv s2 t2 he p4
    refine ⟨x', ?_, u2⟩
    rw [parseFields_append, h1, Res.ok_bind]
    simp only
    rw [parseFields_field _ _ _ _ _ _ _ _ _ sq', ← fieldPath_object cs cs' d2 d1, p1, Res.ok_bind]
    simp only
    rw [parseFieldValue_object env inc _ cs' d2 _ d1 hd, r1, Res.ok_bind]
    simp only [Res.ok_bind]
    rw [t1, Res.ok_bind]
    exact u1

end EditRead
end Hocon
