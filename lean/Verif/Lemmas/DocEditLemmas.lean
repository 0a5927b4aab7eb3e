import Verif.DocEdit
import Verif.Props.PathProps

/-!
# Lemmas about document editing
-/

set_option autoImplicit false

namespace Hocon
namespace DocEdit
open PathParser (Syntax)
open Node
open PathM (startsWith subPath)

/-! ## Well-formed trees -/

/-- No brace token directly among the nodes. -/
def NoBrace (cs : List Node) : Prop :=
  ∀ n ∈ cs, n.hasTok Tok.isOpenCurly = false ∧ n.hasTok Tok.isCloseCurly = false

/-- The children of an object are enclosed in one pair of braces, or contain no brace. -/
def Braces (cs : List Node) : Prop :=
  (∃ mid, cs = .single .openCurly :: (mid ++ [.single .closeCurly]) ∧ NoBrace mid) ∨ NoBrace cs

/-- Every comma has a field behind it. -/
def NoTrail (cs : List Node) : Prop :=
  ∀ a c b, cs = a ++ c :: b → c.hasTok Tok.isComma = true → ∃ f ∈ b, f.isField = true

mutual
/-- The trees that parsing and editing produce: a field has a non-empty key and a value, braces match,
and in JSON no object has a trailing comma. -/
def WfNode (fl : Syntax) : Node → Prop
  | .field cs => (∃ k ks ts, fieldPath cs = .ok (k :: ks, ts)) ∧ (∃ v, fieldValue cs = .ok v) ∧
      WfList fl cs
  | .object cs => Braces cs ∧ (fl = .json → NoTrail cs) ∧ WfList fl cs
  | .array cs => WfList fl cs
  | .concat cs => (∃ c ∈ cs, c.isValue = true) ∧ WfList fl cs
  | _ => True
def WfList (fl : Syntax) : List Node → Prop
  | [] => True
  | n :: ns => WfNode fl n ∧ WfList fl ns
end

theorem WfList.iff {fl : Syntax} {ns : List Node} : WfList fl ns ↔ ∀ n ∈ ns, WfNode fl n := by
  induction ns with
  | nil => simp [WfList]
  | cons n ns ih => simp [WfList, ih]

theorem WfList.append {fl : Syntax} {a b : List Node} (ha : WfList fl a) (hb : WfList fl b) :
    WfList fl (a ++ b) := by
  rw [WfList.iff] at *
  intro n hn
  rcases List.mem_append.1 hn with h | h
  · exact ha n h
  · exact hb n h

/-! ## Occurrence of a path -/

/-- The path `p` is set somewhere in the children `ns` of an object: by a field whose key is `p` or
extends it, or inside the object value of a field whose key is a proper prefix of `p`. -/
inductive Occurs : List Node → Path → Prop where
  | here {ns cs : List Node} {p key : Path} {ts : List Tok} (hm : Node.field cs ∈ ns)
      (hk : fieldPath cs = .ok (key, ts)) (hp : p <+: key) : Occurs ns p
  | inside {ns cs ocs : List Node} {key rem : Path} {ts : List Tok} (hm : Node.field cs ∈ ns)
      (hk : fieldPath cs = .ok (key, ts)) (hr : rem ≠ [])
      (hv : fieldValue cs = .ok (.object ocs)) (ho : Occurs ocs rem) : Occurs ns (key ++ rem)

theorem Occurs.mono {ns ms : List Node} {p : Path} (h : Occurs ns p)
    (hm : ∀ n ∈ ns, n.isField = true → n ∈ ms) : Occurs ms p := by
  cases h with
  | here h1 hk hp => exact .here (hm _ h1 rfl) hk hp
  | inside h1 hk hr hv ho => exact .inside (hm _ h1 rfl) hk hr hv ho

theorem Occurs.append {a b : List Node} {p : Path} :
    Occurs (a ++ b) p ↔ Occurs a p ∨ Occurs b p := by
  constructor
  · intro h
    cases h with
    | here h1 hk hp =>
      rcases List.mem_append.1 h1 with h | h
      · exact Or.inl (.here h hk hp)
      · exact Or.inr (.here h hk hp)
    | inside h1 hk hr hv ho =>
      rcases List.mem_append.1 h1 with h | h
      · exact Or.inl (.inside h hk hr hv ho)
      · exact Or.inr (.inside h hk hr hv ho)
  · rintro (h | h)
    · exact h.mono fun n hn _ => by simp [hn]
    · exact h.mono fun n hn _ => by simp [hn]

theorem Occurs.cons {n : Node} {b : List Node} {p : Path} :
    Occurs (n :: b) p ↔ Occurs [n] p ∨ Occurs b p := Occurs.append (a := [n])

theorem Occurs.not_field {n : Node} {p : Path} (h : n.isField = false) : ¬ Occurs [n] p := by
  intro ho
  cases ho with
  | here h1 hk hp => simp only [List.mem_singleton] at h1; subst h1; simp [isField] at h
  | inside h1 hk hr hv ho => simp only [List.mem_singleton] at h1; subst h1; simp [isField] at h

theorem Occurs.nil {p : Path} : ¬ Occurs [] p := by
  intro ho
  cases ho with
  | here h1 hk hp => simp at h1
  | inside h1 hk hr hv ho => simp at h1

/-- Occurrence in a single field. -/
theorem Occurs.field {cs : List Node} {p key : Path} {ts : List Tok}
    (hk : fieldPath cs = .ok (key, ts)) :
    Occurs [.field cs] p ↔ p <+: key ∨
      ∃ rem ocs, rem ≠ [] ∧ p = key ++ rem ∧ fieldValue cs = .ok (.object ocs) ∧ Occurs ocs rem := by
  constructor
  · intro h
    cases h with
    | here h1 hk' hp =>
      simp only [List.mem_singleton, Node.field.injEq] at h1
      subst h1
      rw [hk] at hk'
      simp only [Res.ok.injEq, Prod.mk.injEq] at hk'
      exact Or.inl (hk'.1 ▸ hp)
    | inside h1 hk' hr hv ho =>
      simp only [List.mem_singleton, Node.field.injEq] at h1
      subst h1
      rw [hk] at hk'
      simp only [Res.ok.injEq, Prod.mk.injEq] at hk'
      refine Or.inr ⟨_, _, hr, ?_, hv, ho⟩
      rw [hk'.1]
  · rintro (h | ⟨rem, ocs, hr, rfl, hv, ho⟩)
    · exact .here (by simp) hk h
    · exact .inside (by simp) hk hr hv ho

/-! ## `has_value` decides occurrence -/

theorem length_drop_facts {key p : Path} (hk : key ≠ []) (h : key <+: p) (hne : key ≠ p) :
    ∃ rem, rem ≠ [] ∧ p = key ++ rem ∧ subPath (PathM.length key) p = rem := by
  obtain ⟨rem, rfl⟩ := h
  have hr : rem ≠ [] := by rintro rfl; simp at hne
  refine ⟨rem, hr, rfl, ?_⟩
  rw [PathM.C03_length key hk, PathM.C03_subPath]
  · simp
  · have := List.length_pos_iff.2 hr
    simp only [List.length_append]
    omega

mutual
theorem hasValue_spec {fl : Syntax} {p : Path} (hp : p ≠ []) :
    (ns : List Node) → WfList fl ns → ∃ b, hasValue p ns = .ok b ∧ (b = true ↔ Occurs ns p)
  | [], _ => ⟨false, rfl, by simp [Occurs.nil]⟩
  | n :: ns, hw => by
    obtain ⟨b, hb, hiff⟩ := hasValue_spec hp ns hw.2
    obtain ⟨b1, hb1, hiff1⟩ := hasField_spec hp n hw.1
    rw [hasValue, hb1, Res.ok_bind, Occurs.cons, ← hiff1, ← hiff]
    cases b1 with
    | true => exact ⟨true, rfl, by simp⟩
    | false => exact ⟨b, by simpa using hb, by simp⟩
theorem hasField_spec {fl : Syntax} {p : Path} (hp : p ≠ []) :
    (n : Node) → WfNode fl n → ∃ b, hasField p n = .ok b ∧ (b = true ↔ Occurs [n] p)
  | .field cs, hn => by
    obtain ⟨⟨k, ks, ts, hkey⟩, ⟨v, hv⟩, hcs⟩ := hn
    rw [hasField, Occurs.field hkey, hkey]
    simp only [Res.ok_bind]
    by_cases heq : k :: ks = p
    · rw [(PathM.C03_beq _ _).2 heq]
      exact ⟨true, rfl, by simp only [true_iff]; exact Or.inl (by rw [heq]; exact List.prefix_refl _)⟩
    · have hbeq : PathM.beq (k :: ks) p = false := by
        rw [← Bool.not_eq_true, PathM.C03_beq]; exact heq
      rw [hbeq]
      simp only [Bool.false_eq_true, if_false]
      rw [PathM.C03_startsWith _ _ (by simp)]
      by_cases hpre : p <+: k :: ks
      · simp only [hpre, decide_true, Res.ok_bind, if_true]
        exact ⟨true, rfl, by simp⟩
      · simp only [hpre, decide_false, Res.ok_bind, Bool.false_eq_true, if_false]
        rw [PathM.C03_startsWith _ _ hp]
        by_cases hbel : k :: ks <+: p
        · obtain ⟨rem, hr, hpe, hsub⟩ := length_drop_facts (by simp) hbel heq
          simp only [hbel, decide_true, Res.ok_bind, if_true]
          rw [hsub]
          obtain ⟨b2, hb2, hiff2⟩ := hasValueIn_spec hr cs hcs v hv
          refine ⟨b2, hb2, ?_⟩
          rw [hiff2]
          constructor
          · rintro ⟨ocs, h1, h2⟩
            exact Or.inr ⟨rem, ocs, hr, hpe, by rw [hv, h1], h2⟩
          · rintro (h | ⟨rem', ocs, hr', he, hv', ho⟩)
            · exact absurd h (by simp)
            · rw [hpe] at he
              have he := List.append_cancel_left he
              subst he
              rw [hv] at hv'
              simp only [Res.ok.injEq] at hv'
              exact ⟨ocs, hv', ho⟩
        · simp only [hbel, decide_false, Res.ok_bind, Bool.false_eq_true, if_false]
          refine ⟨false, rfl, ?_⟩
          simp only [Bool.false_eq_true, false_iff]
          rintro (h | ⟨rem', ocs, hr', he, hv', ho⟩)
          · exact absurd h (by simp)
          · exact absurd ⟨rem', he.symm⟩ hbel
  | .single _, _ | .comment _, _ | .path _ _, _ | .simple _, _ | .incl _ _, _ | .object _, _
  | .array _, _ | .concat _, _ => 
    ⟨false, rfl, ⟨fun h => by simp at h, fun h => absurd h (Occurs.not_field rfl)⟩⟩
theorem hasValueIn_spec {fl : Syntax} {p : Path} (hp : p ≠ []) :
    (cs : List Node) → WfList fl cs → (v : Node) → fieldValue cs = .ok v →
      ∃ b, hasValueIn p cs = .ok b ∧ (b = true ↔ ∃ ocs, v = .object ocs ∧ Occurs ocs p)
  | [], _, v, hv => by simp [fieldValue] at hv
  | n :: ns, hw, v, hv => by
    rw [hasValueIn]
    by_cases hval : n.isValue = true
    · rw [if_pos hval]
      rw [fieldValue, if_pos hval] at hv
      simp only [Res.ok.injEq] at hv
      subst hv
      exact hasInObject_spec hp n hw.1
    · rw [if_neg hval]
      rw [fieldValue, if_neg hval] at hv
      exact hasValueIn_spec hp ns hw.2 v hv
theorem hasInObject_spec {fl : Syntax} {p : Path} (hp : p ≠ []) :
    (n : Node) → WfNode fl n →
      ∃ b, hasInObject p n = .ok b ∧ (b = true ↔ ∃ ocs, n = .object ocs ∧ Occurs ocs p)
  | .object ocs, hn => by
    obtain ⟨b, hb, hiff⟩ := hasValue_spec hp ocs hn.2.2
    exact ⟨b, hb, by rw [hiff]; simp⟩
  | .single _, _ | .comment _, _ | .path _ _, _ | .simple _, _ | .incl _ _, _ | .field _, _
  | .array _, _ | .concat _, _ => ⟨false, rfl, by simp⟩
end

/-! ## Shape-preserving changes -/

/-- Whitespace or newline. -/
def Neutral (m : Node) : Prop := m.hasTok Tok.isWs = true ∨ m.hasTok Tok.isNewline = true

/-- The lists differ by: values replaced inside fields and complex nodes, whitespace inserted behind
newlines, and fields, whitespace and commas dropped. -/
inductive Sim : List Node → List Node → Prop where
  | nil : Sim [] []
  | keep {n : Node} {ns ns' : List Node} (h : Sim ns ns') : Sim (n :: ns) (n :: ns')
  | field {c c' ns ns' : List Node} (h : Sim ns ns') : Sim (.field c :: ns) (.field c' :: ns')
  | complex {n n' : Node} {ns ns' : List Node} (h1 : n.isComplex = true) (h2 : n'.isComplex = true)
      (h : Sim ns ns') : Sim (n :: ns) (n' :: ns')
  | nl {n m : Node} {ns ns' : List Node} (hn : n.hasTok Tok.isNewline = true) (hm : Neutral m)
      (h : Sim ns ns') : Sim (n :: ns) (n :: m :: ns')
  | dropField {c ns ns' : List Node} (h : Sim ns ns') : Sim (.field c :: ns) ns'
  | dropSep {n : Node} {ns ns' : List Node}
      (hn : n.hasTok Tok.isWs = true ∨ n.hasTok Tok.isComma = true) (h : Sim ns ns') : Sim (n :: ns) ns'

theorem hasTok_iff {p : Tok → Bool} {n : Node} :
    n.hasTok p = true ↔ ∃ t, n.singleToken? = some t ∧ p t = true := by
  unfold hasTok
  split <;> simp_all

theorem hasTok_not {p q : Tok → Bool} {n : Node} (h : n.hasTok p = true)
    (hpq : ∀ t, p t = true → q t = false) : n.hasTok q = false := by
  rw [hasTok_iff] at h
  obtain ⟨t, h1, h2⟩ := h
  simp [hasTok, h1, hpq t h2]

theorem hasTok_complex {p : Tok → Bool} {n : Node} (h : n.isComplex = true) : n.hasTok p = false := by
  cases n <;> simp_all [isComplex, hasTok, singleToken?]

theorem Neutral.noBrace {m : Node} (h : Neutral m) :
    m.hasTok Tok.isOpenCurly = false ∧ m.hasTok Tok.isCloseCurly = false := by
  rcases h with h | h <;>
  exact ⟨hasTok_not h (by intro t; cases t <;> simp [Tok.isWs, Tok.isNewline, Tok.isOpenCurly]),
    hasTok_not h (by intro t; cases t <;> simp [Tok.isWs, Tok.isNewline, Tok.isCloseCurly])⟩

theorem Sim.noBrace {a b : List Node} (h : Sim a b) (ha : NoBrace a) : NoBrace b := by
  induction h with
  | nil => exact ha
  | keep h ih =>
    intro n hn
    rcases List.mem_cons.1 hn with rfl | hn
    · exact ha _ (by simp)
    · exact ih (fun n hn => ha n (by simp [hn])) n hn
  | field h ih =>
    intro n hn
    rcases List.mem_cons.1 hn with rfl | hn
    · exact ⟨rfl, rfl⟩
    · exact ih (fun n hn => ha n (by simp [hn])) n hn
  | complex h1 h2 h ih =>
    intro n hn
    rcases List.mem_cons.1 hn with rfl | hn
    · exact ⟨hasTok_complex h2, hasTok_complex h2⟩
    · exact ih (fun n hn => ha n (by simp [hn])) n hn
  | nl hn hm h ih =>
    intro n hn
    simp only [List.mem_cons] at hn
    rcases hn with rfl | rfl | hn
    · exact ha _ (by simp)
    · exact hm.noBrace
    · exact ih (fun n hn => ha n (by simp [hn])) n hn
  | dropField h ih => exact ih (fun n hn => ha n (by simp [hn]))
  | dropSep hn h ih => exact ih (fun n hn => ha n (by simp [hn]))

theorem Sim.split {a b r : List Node} (h : Sim (a ++ b) r) :
    ∃ a' b', r = a' ++ b' ∧ Sim a a' ∧ Sim b b' := by
  generalize hab : a ++ b = ab at h
  induction h generalizing a b with
  | nil =>
    simp only [List.append_eq_nil_iff] at hab
    obtain ⟨rfl, rfl⟩ := hab
    exact ⟨[], [], rfl, .nil, .nil⟩
  | keep h ih =>
    cases a with
    | nil => simp only [List.nil_append] at hab; subst hab; exact ⟨[], _, rfl, .nil, .keep h⟩
    | cons x a =>
      simp only [List.cons_append, List.cons.injEq] at hab
      obtain ⟨rfl, hab⟩ := hab
      obtain ⟨a', b', rfl, h1, h2⟩ := ih hab
      exact ⟨_ :: a', b', rfl, .keep h1, h2⟩
  | field h ih =>
    cases a with
    | nil => simp only [List.nil_append] at hab; subst hab; exact ⟨[], _, rfl, .nil, .field h⟩
    | cons x a =>
      simp only [List.cons_append, List.cons.injEq] at hab
      obtain ⟨rfl, hab⟩ := hab
      obtain ⟨a', b', rfl, h1, h2⟩ := ih hab
      exact ⟨_ :: a', b', rfl, .field h1, h2⟩
  | complex hc1 hc2 h ih =>
    cases a with
    | nil => simp only [List.nil_append] at hab; subst hab; exact ⟨[], _, rfl, .nil, .complex hc1 hc2 h⟩
    | cons x a =>
      simp only [List.cons_append, List.cons.injEq] at hab
      obtain ⟨rfl, hab⟩ := hab
      obtain ⟨a', b', rfl, h1, h2⟩ := ih hab
      exact ⟨_ :: a', b', rfl, .complex hc1 hc2 h1, h2⟩
  | nl hn hm h ih =>
    cases a with
    | nil => simp only [List.nil_append] at hab; subst hab; exact ⟨[], _, rfl, .nil, .nl hn hm h⟩
    | cons x a =>
      simp only [List.cons_append, List.cons.injEq] at hab
      obtain ⟨rfl, hab⟩ := hab
      obtain ⟨a', b', rfl, h1, h2⟩ := ih hab
      exact ⟨_ :: _ :: a', b', rfl, .nl hn hm h1, h2⟩
  | dropField h ih =>
    cases a with
    | nil => simp only [List.nil_append] at hab; subst hab; exact ⟨[], _, rfl, .nil, .dropField h⟩
    | cons x a =>
      simp only [List.cons_append, List.cons.injEq] at hab
      obtain ⟨rfl, hab⟩ := hab
      obtain ⟨a', b', rfl, h1, h2⟩ := ih hab
      exact ⟨a', b', rfl, .dropField h1, h2⟩
  | dropSep hn h ih =>
    cases a with
    | nil => simp only [List.nil_append] at hab; subst hab; exact ⟨[], _, rfl, .nil, .dropSep hn h⟩
    | cons x a =>
      simp only [List.cons_append, List.cons.injEq] at hab
      obtain ⟨rfl, hab⟩ := hab
      obtain ⟨a', b', rfl, h1, h2⟩ := ih hab
      exact ⟨a', b', rfl, .dropSep hn h1, h2⟩

theorem Sim.nil_left {r : List Node} (h : Sim [] r) : r = [] := by
  cases h; rfl

theorem Sim.brace {t : Tok} {r : List Node} (ht : t = .openCurly ∨ t = .closeCurly)
    (h : Sim [.single t] r) : r = [.single t] := by
  cases h with
  | keep h => rw [h.nil_left]
  | complex h1 h2 h => simp [isComplex] at h1
  | nl hn hm h => rcases ht with rfl | rfl <;> simp [hasTok, singleToken?, Tok.isNewline] at hn
  | dropSep hn h =>
    rcases ht with rfl | rfl <;> simp [hasTok, singleToken?, Tok.isWs, Tok.isComma] at hn

theorem Sim.braces {a r : List Node} (h : Sim a r) (ha : Braces a) : Braces r := by
  rcases ha with ⟨mid, rfl, hm⟩ | ha
  · left
    obtain ⟨x, y, rfl, h1, h2⟩ := Sim.split (a := [.single .openCurly]) h
    obtain ⟨m, z, rfl, h3, h4⟩ := Sim.split h2
    rw [Sim.brace (Or.inl rfl) h1, Sim.brace (Or.inr rfl) h4]
    exact ⟨m, rfl, h3.noBrace hm⟩
  · exact Or.inr (h.noBrace ha)

theorem Sim.dropSepRight {a r : List Node} (h : Sim a r) : Sim a (DocEdit.dropSep r) := by
  induction h with
  | nil => exact .nil
  | @keep n ns ns' h ih =>
    rw [DocEdit.dropSep]
    split
    · rename_i hs
      exact .dropSep (by simpa using hs) ih
    · exact .keep h
  | field h ih => exact .field h
  | @complex n n' ns ns' h1 h2 h ih =>
    rw [DocEdit.dropSep, hasTok_complex h2, hasTok_complex h2]
    exact .complex h1 h2 h
  | @nl n m ns ns' hn hm h ih =>
    rw [DocEdit.dropSep]
    rw [hasTok_not hn (by intro t; cases t <;> simp [Tok.isNewline, Tok.isWs]),
      hasTok_not hn (by intro t; cases t <;> simp [Tok.isNewline, Tok.isComma])]
    exact .nl hn hm h
  | dropField h ih => exact .dropField ih
  | dropSep hn h ih => exact .dropSep hn ih

/-! ## Trailing commas -/

theorem NoTrail.cons {n : Node} {ns : List Node} :
    NoTrail (n :: ns) ↔ NoTrail ns ∧ (n.hasTok Tok.isComma = true → ∃ f ∈ ns, f.isField = true) := by
  constructor
  · intro h
    exact ⟨fun a c b hb hc => h (n :: a) c b (by rw [hb]; rfl) hc, fun hc => h [] n ns rfl hc⟩
  · rintro ⟨h1, h2⟩ a c b hb hc
    cases a with
    | nil =>
      simp only [List.nil_append, List.cons.injEq] at hb
      obtain ⟨rfl, rfl⟩ := hb
      exact h2 hc
    | cons x a =>
      simp only [List.cons_append, List.cons.injEq] at hb
      obtain ⟨rfl, rfl⟩ := hb
      exact h1 a c b rfl hc

theorem NoTrail.nil : NoTrail [] := by
  intro a c b h
  simp at h

theorem NoTrail.dropSep {ns : List Node} (h : NoTrail ns) : NoTrail (dropSep ns) := by
  induction ns with
  | nil => exact h
  | cons n ns ih =>
    rw [DocEdit.dropSep]
    split
    · exact ih (NoTrail.cons.1 h).1
    · exact h

theorem mem_dropSep {ns : List Node} {n : Node} (h : n ∈ dropSep ns) : n ∈ ns := by
  induction ns with
  | nil => exact h
  | cons m ns ih =>
    rw [DocEdit.dropSep] at h
    split at h
    · simp [ih h]
    · exact h

theorem field_mem_dropSep {ns : List Node} {n : Node} (hf : n.isField = true) :
    n ∈ dropSep ns ↔ n ∈ ns := by
  refine ⟨mem_dropSep, fun h => ?_⟩
  induction ns with
  | nil => exact h
  | cons m ns ih =>
    rw [DocEdit.dropSep]
    split
    · rename_i hs
      rcases List.mem_cons.1 h with rfl | h
      · cases n <;> simp_all [isField, hasTok, singleToken?]
      · exact ih h
    · exact h

theorem Occurs.dropSep {ns : List Node} {p : Path} : Occurs (dropSep ns) p ↔ Occurs ns p :=
  ⟨fun h => h.mono fun _ hn _ => mem_dropSep hn,
   fun h => h.mono fun _ hn hf => (field_mem_dropSep hf).2 hn⟩

/-! ## Replacing the value of a field -/

theorem replaceValue_spec {v' : Node} (hv' : v'.isValue = true) {cs : List Node} {v : Node}
    (hv : fieldValue cs = .ok v) :
    ∃ cs', replaceValue v' cs = .ok cs' ∧ fieldPath cs' = fieldPath cs ∧ fieldValue cs' = .ok v' ∧
      (∀ fl, WfList fl cs → WfNode fl v' → WfList fl cs') := by
  induction cs with
  | nil => simp [fieldValue] at hv
  | cons n ns ih =>
    rw [fieldValue] at hv
    rw [replaceValue]
    by_cases h : n.isValue = true
    · rw [if_pos h]
      refine ⟨v' :: ns, rfl, ?_, by rw [fieldValue, if_pos hv'], fun fl h1 h2 => ⟨h2, h1.2⟩⟩
      cases n <;> cases v' <;> simp_all [isValue, fieldPath]
    · rw [if_neg h] at hv ⊢
      obtain ⟨cs', h1, h2, h3, h4⟩ := ih hv
      rw [h1]
      refine ⟨n :: cs', rfl, ?_, by rw [fieldValue, if_neg h, h3], fun fl h5 h6 => ⟨h5.1, h4 fl h5.2 h6⟩⟩
      cases n <;> simp_all [isValue, fieldPath]

/-! ## Indentation -/

/-- A value node that may be put into a tree. -/
structure VOk (fl : Syntax) (v : Node) : Prop where
  isValue : v.isValue = true
  notField : v.isField = false
  wf : WfNode fl v

theorem Neutral.wf {m : Node} (fl : Syntax) (h : Neutral m) : WfNode fl m := by
  cases m <;> first | trivial | (simp [Neutral, hasTok, singleToken?] at h)

theorem Neutral.notComma {m : Node} (h : Neutral m) : m.hasTok Tok.isComma = false := by
  rcases h with h | h <;>
  exact hasTok_not h (by intro t; cases t <;> simp [Tok.isWs, Tok.isNewline, Tok.isComma])

/-- What `indent_text` keeps. -/
structure IndentSpec (fl : Syntax) (n n' : Node) : Prop where
  wf : WfNode fl n'
  value : n'.isValue = n.isValue
  field : n'.isField = n.isField
  complex : n'.isComplex = n.isComplex
  other : n.isComplex = false → n.isField = false → n' = n

mutual
theorem indentNode_spec {fl : Syntax} {ind : Node} (hi : Neutral ind) :
    (n : Node) → WfNode fl n → (∃ n', indentNode ind n = .ok n' ∧ IndentSpec fl n n') ∨
      (indentNode ind n = .fuel ∧ ind.hasTok Tok.isNewline = true)
  | .object cs, hn => by
    rw [indentNode]
    rcases indentList_spec hi cs hn.2.2 with ⟨cs', h, h1, h2, h3, _⟩ | ⟨h, h1⟩
    · rw [h]
      exact Or.inl ⟨_, rfl, ⟨h2.braces hn.1, fun hj => h3 (hn.2.1 hj), h1⟩, rfl, rfl, rfl, by simp [isComplex]⟩
    · rw [h]; exact Or.inr ⟨rfl, h1⟩
  | .array cs, hn => by
    rw [indentNode]
    rcases indentList_spec hi cs hn with ⟨cs', h, h1, _⟩ | ⟨h, h1⟩
    · rw [h]
      exact Or.inl ⟨_, rfl, h1, rfl, rfl, rfl, by simp [isComplex]⟩
    · rw [h]; exact Or.inr ⟨rfl, h1⟩
  | .concat cs, hn => by
    rw [indentNode]
    rcases indentList_spec hi cs hn.2 with ⟨cs', h, h1, _, _, _, h2⟩ | ⟨h, h1⟩
    · rw [h]
      exact Or.inl ⟨_, rfl, ⟨h2 hn.1, h1⟩, rfl, rfl, rfl, by simp [isComplex]⟩
    · rw [h]; exact Or.inr ⟨rfl, h1⟩
  | .field cs, hn => by
    rw [indentNode]
    obtain ⟨⟨k, ks, ts, hk⟩, hv, hcs⟩ := hn
    rcases indentField_spec hi cs hcs hv with ⟨cs', h, h1, h2, h3⟩ | ⟨h, h1⟩
    · rw [h]
      exact Or.inl ⟨_, rfl, ⟨⟨k, ks, ts, by rw [h2, hk]⟩, h3, h1⟩, rfl, rfl, rfl, by simp [isField]⟩
    · rw [h]; exact Or.inr ⟨rfl, h1⟩
  | .single _, _ | .comment _, _ | .path _ _, _ | .simple _, _ | .incl _ _, _ =>
    Or.inl ⟨_, rfl, trivial, rfl, rfl, rfl, fun _ _ => rfl⟩
theorem indentList_spec {fl : Syntax} {ind : Node} (hi : Neutral ind) :
    (ns : List Node) → WfList fl ns → (∃ ns', indentList ind ns = .ok ns' ∧ WfList fl ns' ∧
        Sim ns ns' ∧ (NoTrail ns → NoTrail ns') ∧
        ((∃ f ∈ ns, f.isField = true) → ∃ f ∈ ns', f.isField = true) ∧
        ((∃ c ∈ ns, c.isValue = true) → ∃ c ∈ ns', c.isValue = true)) ∨
      (indentList ind ns = .fuel ∧ ind.hasTok Tok.isNewline = true)
  | [], _ => Or.inl ⟨[], rfl, trivial, .nil, id, id, id⟩
  | n :: ns, hw => by
    rw [indentList]
    rcases indentNode_spec hi n hw.1 with ⟨n', h, hs⟩ | ⟨h, h1⟩
    · rw [h, Res.ok_bind]
      by_cases hnl : n.hasTok Tok.isNewline = true
      · rw [if_pos hnl]
        by_cases hind : ind.hasTok Tok.isNewline = true
        · rw [if_pos hind]; exact Or.inr ⟨rfl, hind⟩
        · rw [if_neg hind]
          have hn' : n' = n := by
            apply hs.other <;> cases n <;> first | rfl | (simp [hasTok, singleToken?] at hnl)
          subst hn'
          rcases indentList_spec hi ns hw.2 with ⟨ns', h2, h3, h4, h5, h6, h7⟩ | ⟨h2, h3⟩
          · rw [h2]
            refine Or.inl ⟨_, rfl, ⟨hs.wf, hi.wf fl, h3⟩, .nl hnl hi h4, ?_, ?_, ?_⟩
            · intro ht
              rw [NoTrail.cons] at ht
              rw [NoTrail.cons, NoTrail.cons, hi.notComma]
              refine ⟨⟨h5 ht.1, by simp⟩, fun hc => ?_⟩
              obtain ⟨f, hf, hff⟩ := h6 (ht.2 hc)
              exact ⟨f, by simp [hf], hff⟩
            · rintro ⟨f, hf, hff⟩
              rcases List.mem_cons.1 hf with rfl | hf
              · exact ⟨f, by simp, hff⟩
              · obtain ⟨f, hf, hff⟩ := h6 ⟨f, hf, hff⟩
                exact ⟨f, by simp [hf], hff⟩
            · rintro ⟨f, hf, hff⟩
              rcases List.mem_cons.1 hf with rfl | hf
              · exact ⟨f, by simp, hff⟩
              · obtain ⟨f, hf, hff⟩ := h7 ⟨f, hf, hff⟩
                exact ⟨f, by simp [hf], hff⟩
          · exact absurd h3 hind
      · rw [if_neg hnl]
        rcases indentList_spec hi ns hw.2 with ⟨ns', h2, h3, h4, h5, h6, h7⟩ | ⟨h2, h3⟩
        · rw [h2]
          refine Or.inl ⟨_, rfl, ⟨hs.wf, h3⟩, ?_, ?_, ?_, ?_⟩
          · by_cases hc : n.isComplex = true
            · exact .complex hc (by rw [hs.complex, hc]) h4
            · by_cases hf : n.isField = true
              · have hf' := hs.field.trans hf
                cases n <;> simp [isField] at hf
                cases n' <;> simp [isField] at hf'
                exact .field h4
              · rw [hs.other (by simpa using hc) (by simpa using hf)]
                exact .keep h4
          · intro ht
            rw [NoTrail.cons] at ht ⊢
            refine ⟨h5 ht.1, fun hc => h6 (ht.2 ?_)⟩
            by_cases hcx : n.isComplex = true
            · rw [hasTok_complex (by rw [hs.complex, hcx])] at hc
              simp at hc
            · by_cases hf : n.isField = true
              · have hf' := hs.field.trans hf
                cases n' <;> simp [isField, hasTok, singleToken?] at hf' hc
              · rwa [hs.other (by simpa using hcx) (by simpa using hf)] at hc
          · rintro ⟨f, hf, hff⟩
            rcases List.mem_cons.1 hf with rfl | hf
            · exact ⟨n', by simp, by rw [hs.field, hff]⟩
            · obtain ⟨f, hf, hff⟩ := h6 ⟨f, hf, hff⟩
              exact ⟨f, by simp [hf], hff⟩
          · rintro ⟨f, hf, hff⟩
            rcases List.mem_cons.1 hf with rfl | hf
            · exact ⟨n', by simp, by rw [hs.value, hff]⟩
            · obtain ⟨f, hf, hff⟩ := h7 ⟨f, hf, hff⟩
              exact ⟨f, by simp [hf], hff⟩
        · rw [h2]; exact Or.inr ⟨rfl, h3⟩
    · rw [h]; exact Or.inr ⟨rfl, h1⟩
theorem indentField_spec {fl : Syntax} {ind : Node} (hi : Neutral ind) :
    (cs : List Node) → WfList fl cs → (∃ v, fieldValue cs = .ok v) →
      (∃ cs', indentField ind cs = .ok cs' ∧ WfList fl cs' ∧ fieldPath cs' = fieldPath cs ∧
        ∃ v, fieldValue cs' = .ok v) ∨
      (indentField ind cs = .fuel ∧ ind.hasTok Tok.isNewline = true)
  | [], _, hv => by simp [fieldValue] at hv
  | n :: ns, hw, hv => by
    rw [indentField]
    by_cases hc : n.isComplex = true
    · rw [if_pos hc]
      rcases indentNode_spec hi n hw.1 with ⟨n', h, hs⟩ | ⟨h, h1⟩
      · rw [h]
        refine Or.inl ⟨_, rfl, ⟨hs.wf, hw.2⟩, ?_, n', ?_⟩
        · have := hs.complex
          cases n <;> simp [isComplex] at hc <;> cases n' <;> simp_all [isComplex, fieldPath]
        · rw [fieldValue, hs.value, if_pos (by cases n <;> simp_all [isComplex, isValue])]
      · rw [h]; exact Or.inr ⟨rfl, h1⟩
    · rw [if_neg hc]
      by_cases hval : n.isValue = true
      · rw [if_pos hval]
        exact Or.inl ⟨_, rfl, hw, rfl, n, by rw [fieldValue, if_pos hval]⟩
      · rw [if_neg hval]
        rw [fieldValue, if_neg hval] at hv
        rcases indentField_spec hi ns hw.2 hv with ⟨cs', h, h1, h2, v, h3⟩ | ⟨h, h1⟩
        · rw [h]
          refine Or.inl ⟨_, rfl, ⟨hw.1, h1⟩, ?_, v, by rw [fieldValue, if_neg hval, h3]⟩
          cases n <;> simp_all [fieldPath]
        · rw [h]; exact Or.inr ⟨rfl, h1⟩
end

theorem IndentSpec.vok {fl : Syntax} {n n' : Node} (h : IndentSpec fl n n') (hv : VOk fl n) : VOk fl n' :=
  ⟨by rw [h.value, hv.isValue], by rw [h.field, hv.notField], h.wf⟩

theorem indentedValue_spec {fl : Syntax} (i : Nat) (prev : Option Node) {v : Node} (hv : VOk fl v) :
    ∃ v', indentedValue i prev v = .ok v' ∧ VOk fl v' := by
  unfold indentedValue
  split
  · rename_i b
    split
    · rename_i h
      simp only [Bool.and_eq_true] at h
      rcases indentNode_spec (fl := fl) (ind := b) (Or.inl h.2) v hv.wf with ⟨n', h1, h2⟩ | ⟨h1, h2⟩
      · exact ⟨n', h1, h2.vok hv⟩
      · rw [hasTok_not h.2 (by intro t; cases t <;> simp [Tok.isWs, Tok.isNewline])] at h2
        simp at h2
    · exact ⟨v, rfl, hv⟩
  · exact ⟨v, rfl, hv⟩

/-! ## Changing -/

/-- Neither path is a prefix of the other. -/
def Incomparable (p q : Path) : Prop := ¬ p <+: q ∧ ¬ q <+: p

theorem Incomparable.tail {key p q : Path} : Incomparable (key ++ p) (key ++ q) ↔ Incomparable p q := by
  simp [Incomparable, List.prefix_append_right_inj]

/-- What `change_value_on_path` achieves on the children of an object. -/
structure ChangeSpec (fl : Syntax) (desired : Path) (value : Option Node) (ns r : List Node) : Prop where
  wf : WfList fl r
  sim : Sim ns r
  frame : ∀ q, Incomparable desired q → (Occurs r q ↔ Occurs ns q)
  gone : value = none → ¬ Occurs r desired

theorem changeOther_spec {fl : Syntax} {desired : Path} {value : Option Node} {ns r : List Node}
    {seen : Bool} {vc : Option Node} (hr : ChangeSpec fl desired value ns r)
    (hvc : vc = value ∨ vc = none)
    (hj : fl = .json → NoTrail r ∧ (seen = true → ∃ f ∈ r, f.isField = true)) {n : Node}
    (hf : n.isField = false) (hn : WfNode fl n) :
    ∃ r' seen' vc', (if fl = .json && !seen && n.hasTok Tok.isComma then Res.ok (r, seen, vc)
        else .ok (n :: r, seen, vc)) = .ok (r', seen', vc') ∧
      ChangeSpec fl desired value (n :: ns) r' ∧ (vc' = value ∨ vc' = none) ∧
      (fl = .json → NoTrail r' ∧ (seen' = true → ∃ f ∈ r', f.isField = true)) := by
  have hocc : ∀ (l : List Node) (q : Path), Occurs (n :: l) q ↔ Occurs l q := fun l q =>
    Occurs.cons.trans (or_iff_right (Occurs.not_field hf))
  split
  · rename_i hc
    simp only [Bool.and_eq_true, decide_eq_true_eq] at hc
    refine ⟨_, _, _, rfl, ⟨hr.wf, .dropSep (Or.inr hc.2) hr.sim, ?_, hr.gone⟩, hvc, hj⟩
    intro q hq
    rw [hocc, hr.frame q hq]
  · rename_i hc
    refine ⟨_, _, _, rfl, ⟨⟨hn, hr.wf⟩, .keep hr.sim, ?_, ?_⟩, hvc, ?_⟩
    · intro q hq
      rw [hocc, hocc, hr.frame q hq]
    · intro hv
      rw [hocc]
      exact hr.gone hv
    · intro hjs
      refine ⟨NoTrail.cons.2 ⟨(hj hjs).1, fun hcm => ?_⟩, fun hs => ?_⟩
      · refine (hj hjs).2 ?_
        cases seen with
        | true => rfl
        | false => exact absurd (by simp [hjs, hcm]) hc
      · obtain ⟨f, h1, h2⟩ := (hj hjs).2 hs
        exact ⟨f, by simp [h1], h2⟩

mutual
theorem changeLoop_spec {fl : Syntax} {desired : Path} (hd : desired ≠ []) {value : Option Node}
    (hv : ∀ v, value = some v → VOk fl v) :
    (ns : List Node) → WfList fl ns → (i : Nat) → (prev : Option Node) →
      ∃ r seen vc, changeLoop fl desired value i prev ns = .ok (r, seen, vc) ∧
        ChangeSpec fl desired value ns r ∧ (vc = value ∨ vc = none) ∧
        (fl = .json → NoTrail r ∧ (seen = true → ∃ f ∈ r, f.isField = true))
  | [], _, i, prev => ⟨[], false, value, by rw [changeLoop],
      ⟨trivial, .nil, fun _ _ => Iff.rfl, fun _ => Occurs.nil⟩, Or.inl rfl,
      fun _ => ⟨NoTrail.nil, by simp⟩⟩
  | n :: ns, hw, i, prev => by
    obtain ⟨r, seen, vc, h1, h2, h3, h4⟩ := changeLoop_spec hd hv ns hw.2 (i + 1) (some n)
    rw [changeLoop, h1]
    simp only [Res.ok_bind]
    exact changeNode_spec hd hv i prev h2 h3 h4 n hw.1
theorem changeNode_spec {fl : Syntax} {desired : Path} (hd : desired ≠ []) {value : Option Node}
    (hv : ∀ v, value = some v → VOk fl v) (i : Nat) (prev : Option Node) {ns r : List Node}
    {seen : Bool} {vc : Option Node} (hr : ChangeSpec fl desired value ns r)
    (hvc : vc = value ∨ vc = none)
    (hj : fl = .json → NoTrail r ∧ (seen = true → ∃ f ∈ r, f.isField = true)) :
    (n : Node) → WfNode fl n →
      ∃ r' seen' vc', changeNode fl desired i prev r seen vc n = .ok (r', seen', vc') ∧
        ChangeSpec fl desired value (n :: ns) r' ∧ (vc' = value ∨ vc' = none) ∧
        (fl = .json → NoTrail r' ∧ (seen' = true → ∃ f ∈ r', f.isField = true))
  | .field cs, hn => by
    have hn0 := hn
    obtain ⟨⟨k, ks, ts, hkey⟩, ⟨v, hval⟩, hcs⟩ := hn
    have hocc := fun q => Occurs.field (p := q) hkey
    have hjf : ∀ cs', fl = .json → NoTrail (Node.field cs' :: r) ∧
        (true = true → ∃ f ∈ Node.field cs' :: r, f.isField = true) := by
      intro cs' hjs
      refine ⟨NoTrail.cons.2 ⟨(hj hjs).1, by simp [hasTok, singleToken?]⟩, fun _ => ⟨.field cs', by simp, rfl⟩⟩
    -- a deleted field
    have hdel : desired <+: k :: ks →
        ∃ r' seen' vc', (Res.ok (dropSep r, seen, vc) : Res (List Node × Bool × Option Node))
          = .ok (r', seen', vc') ∧
        ChangeSpec fl desired value (.field cs :: ns) r' ∧ (vc' = value ∨ vc' = none) ∧
        (fl = .json → NoTrail r' ∧ (seen' = true → ∃ f ∈ r', f.isField = true)) := by
      intro hpre
      refine ⟨_, _, _, rfl, ⟨?_, .dropField hr.sim.dropSepRight, ?_, ?_⟩, hvc, ?_⟩
      · rw [WfList.iff]
        intro m hm
        exact (WfList.iff.1 hr.wf) m (mem_dropSep hm)
      · intro q hq
        rw [Occurs.dropSep, Occurs.cons, hr.frame q hq, hocc]
        refine (or_iff_right ?_).symm
        rintro (h | ⟨rem, ocs, _, he, _⟩)
        · rcases List.prefix_or_prefix_of_prefix h hpre with h | h
          · exact hq.2 h
          · exact hq.1 h
        · exact hq.1 (hpre.trans ⟨rem, he.symm⟩)
      · intro hvn
        rw [Occurs.dropSep]
        exact hr.gone hvn
      · intro hjs
        refine ⟨(hj hjs).1.dropSep, fun hs => ?_⟩
        obtain ⟨f, hf, hff⟩ := (hj hjs).2 hs
        exact ⟨f, (field_mem_dropSep hff).2 hf, hff⟩
    rw [changeNode, hkey]
    simp only [Res.ok_bind]
    by_cases heq : k :: ks = desired
    · rw [(PathM.C03_beq _ _).2 heq]
      cases vc with
      | none =>
        simp only [Option.isNone_none, Bool.and_true, if_true]
        exact hdel (by rw [heq]; exact List.prefix_refl _)
      | some w =>
        simp only [Option.isNone_some, Bool.false_and, Bool.false_eq_true, if_false]
        rw [PathM.C03_startsWith _ _ (by simp)]
        simp only [Res.ok_bind, Bool.not_true, Bool.and_false, Bool.false_eq_true, if_false, if_true]
        have hw : value = some w := by
          rcases hvc with h | h
          · exact h.symm
          · simp at h
        obtain ⟨v', h1, h2⟩ := indentedValue_spec i prev (hv w hw)
        obtain ⟨cs', h3, h4, h5, h6⟩ := replaceValue_spec h2.isValue hval
        rw [setField]
        simp only [h1, Res.ok_bind, h3]
        refine ⟨_, _, _, rfl, ⟨⟨⟨⟨k, ks, ts, by rw [h4, hkey]⟩, ⟨v', h5⟩, h6 fl hcs h2.wf⟩, hr.wf⟩,
          .field hr.sim, ?_, ?_⟩, Or.inr rfl, hjf cs'⟩
        · intro q hq
          rw [Occurs.cons, Occurs.cons (b := ns), hr.frame q hq, hocc,
            Occurs.field (ts := ts) (by rw [h4, hkey])]
          have : ∀ x : Path, ¬ (q <+: k :: ks) ∧ ¬ (q = k :: ks ++ x) := by
            intro x
            rw [heq]
            exact ⟨hq.2, fun h => hq.1 ⟨x, h.symm⟩⟩
          constructor
          · rintro ((h | ⟨x, _, _, h, _⟩) | h)
            · exact absurd h (this []).1
            · exact absurd h (this x).2
            · exact Or.inr h
          · rintro ((h | ⟨x, _, _, h, _⟩) | h)
            · exact absurd h (this []).1
            · exact absurd h (this x).2
            · exact Or.inr h
        · intro hvn
          rw [hw] at hvn
          simp at hvn
    · have hbeq : PathM.beq (k :: ks) desired = false := by
        rw [← Bool.not_eq_true, PathM.C03_beq]; exact heq
      rw [hbeq]
      simp only [Bool.and_false, Bool.false_eq_true, if_false]
      rw [PathM.C03_startsWith _ _ (by simp)]
      by_cases hpre : desired <+: k :: ks
      · simp only [hpre, decide_true, Bool.not_false, Bool.and_self, Res.ok_bind, if_true]
        exact hdel hpre
      · simp only [hpre, decide_false, Bool.false_and, Res.ok_bind, Bool.false_eq_true, if_false]
        rw [PathM.C03_startsWith _ _ hd]
        by_cases hbel : k :: ks <+: desired
        · obtain ⟨rem, hrem, hpe, hsub⟩ := length_drop_facts (by simp) hbel heq
          simp only [hbel, decide_true, Res.ok_bind, if_true]
          rw [hsub]
          have hvc' : ∀ v, vc = some v → VOk fl v := by
            intro w hw
            rcases hvc with h | h
            · exact hv w (h ▸ hw)
            · rw [h] at hw; simp at hw
          obtain ⟨cs', v', h1, h2, h3, h4, h5, h6⟩ := changeField_spec hrem hvc' cs hcs v hval
          rw [h1]
          simp only [Res.ok_bind]
          have hocc' := fun q => Occurs.field (p := q) (cs := cs') (ts := ts) (by rw [h2, hkey])
          refine ⟨_, _, _, rfl, ⟨⟨⟨⟨k, ks, ts, by rw [h2, hkey]⟩, ⟨v', h3⟩, h4⟩, hr.wf⟩,
            .field hr.sim, ?_, ?_⟩, hvc, hjf cs'⟩
          · intro q hq
            rw [Occurs.cons, Occurs.cons (b := ns), hr.frame q hq, hocc, hocc']
            have hnp : ¬ (q <+: k :: ks) := fun h => hq.2 (h.trans hbel)
            simp only [hnp, false_or]
            refine or_congr_left ?_
            constructor
            · rintro ⟨x, ocs, hx, rfl, hv1, ho⟩
              rw [h3] at hv1
              simp only [Res.ok.injEq] at hv1
              obtain ⟨ocs0, h7, h8⟩ := (h5 x (by rw [hpe] at hq; exact Incomparable.tail.1 hq)).1
                ⟨ocs, hv1, ho⟩
              exact ⟨x, ocs0, hx, rfl, by rw [hval, h7], h8⟩
            · rintro ⟨x, ocs, hx, rfl, hv1, ho⟩
              rw [hval] at hv1
              simp only [Res.ok.injEq] at hv1
              obtain ⟨ocs0, h7, h8⟩ := (h5 x (by rw [hpe] at hq; exact Incomparable.tail.1 hq)).2
                ⟨ocs, hv1, ho⟩
              exact ⟨x, ocs0, hx, rfl, by rw [h3, h7], h8⟩
          · intro hvn
            rw [Occurs.cons, hocc']
            rintro ((h | ⟨x, ocs, hx, hxe, hv1, ho⟩) | h)
            · exact hpre h
            · rw [hpe] at hxe
              have hxe := List.append_cancel_left hxe
              subst hxe
              rw [h3] at hv1
              simp only [Res.ok.injEq] at hv1
              refine h6 ?_ ⟨ocs, hv1, ho⟩
              rcases hvc with h | h
              · rw [h, hvn]
              · exact h
            · exact hr.gone hvn h
        · simp only [hbel, decide_false, Res.ok_bind, Bool.false_eq_true, if_false]
          refine ⟨_, _, _, rfl, ⟨⟨hn0, hr.wf⟩, .field hr.sim, ?_, ?_⟩, hvc, hjf cs⟩
          · intro q hq
            rw [Occurs.cons, Occurs.cons (b := ns), hr.frame q hq]
          · intro hvn
            rw [Occurs.cons, hocc]
            rintro ((h | ⟨x, ocs, hx, hxe, hv1, ho⟩) | h)
            · exact hpre h
            · exact hbel ⟨x, hxe.symm⟩
            · exact hr.gone hvn h
  | .single _, hn | .comment _, hn | .path _ _, hn | .simple _, hn | .incl _ _, hn | .object _, hn
  | .array _, hn | .concat _, hn => changeOther_spec hr hvc hj rfl hn
theorem changeField_spec {fl : Syntax} {rem : Path} (hr : rem ≠ []) {value : Option Node}
    (hv : ∀ v, value = some v → VOk fl v) :
    (cs : List Node) → WfList fl cs → (v : Node) → fieldValue cs = .ok v →
      ∃ cs' v', changeField fl rem value cs = .ok cs' ∧ fieldPath cs' = fieldPath cs ∧
        fieldValue cs' = .ok v' ∧ WfList fl cs' ∧
        (∀ q, Incomparable rem q → ((∃ ocs, v' = .object ocs ∧ Occurs ocs q) ↔
          ∃ ocs, v = .object ocs ∧ Occurs ocs q)) ∧
        (value = none → ¬ ∃ ocs, v' = .object ocs ∧ Occurs ocs rem)
  | [], _, v, hval => by simp [fieldValue] at hval
  | n :: ns, hw, v, hval => by
    rw [changeField]
    by_cases hvn : n.isValue = true
    · rw [if_pos hvn]
      rw [fieldValue, if_pos hvn] at hval
      simp only [Res.ok.injEq] at hval
      subst hval
      obtain ⟨n', h1, h2, h3, h4, h5⟩ := changeInObject_spec hr hv n hw.1 hvn
      rw [h1]
      refine ⟨_, n', rfl, ?_, by rw [fieldValue, if_pos h2], ⟨h3, hw.2⟩, h4, h5⟩
      cases n <;> simp [isValue] at hvn <;> cases n' <;> simp_all [isValue, fieldPath]
    · rw [if_neg hvn]
      rw [fieldValue, if_neg hvn] at hval
      obtain ⟨cs', v', h1, h2, h3, h4, h5⟩ := changeField_spec hr hv ns hw.2 v hval
      rw [h1]
      refine ⟨_, v', rfl, ?_, by rw [fieldValue, if_neg hvn, h3], ⟨hw.1, h4⟩, h5⟩
      cases n <;> simp_all [fieldPath]
theorem changeInObject_spec {fl : Syntax} {rem : Path} (hr : rem ≠ []) {value : Option Node}
    (hv : ∀ v, value = some v → VOk fl v) :
    (n : Node) → WfNode fl n → n.isValue = true →
      ∃ n', changeInObject fl rem value n = .ok n' ∧ n'.isValue = true ∧ WfNode fl n' ∧
        (∀ q, Incomparable rem q → ((∃ ocs, n' = .object ocs ∧ Occurs ocs q) ↔
          ∃ ocs, n = .object ocs ∧ Occurs ocs q)) ∧
        (value = none → ¬ ∃ ocs, n' = .object ocs ∧ Occurs ocs rem)
  | .object ocs, hn, _ => by
    obtain ⟨r, seen, vc, h1, h2, _, h3⟩ := changeLoop_spec hr hv ocs hn.2.2 0 none
    rw [changeInObject, h1]
    refine ⟨_, rfl, rfl, ⟨h2.sim.braces hn.1, fun hj => (h3 hj).1, h2.wf⟩, ?_, ?_⟩
    · intro q hq
      simpa using h2.frame q hq
    · intro hvn
      simpa using h2.gone hvn
  | .single _, hn, hv' | .comment _, hn, hv' | .path _ _, hn, hv' | .simple _, hn, hv'
  | .incl _ _, hn, hv' | .field _, hn, hv' | .array _, hn, hv' | .concat _, hn, hv' =>
    ⟨_, rfl, hv', hn, fun _ _ => Iff.rfl, by simp⟩
end

/-! ## Nothing changes when the path does not occur -/

mutual
theorem changeLoop_absent {fl : Syntax} {desired : Path} (hd : desired ≠ []) {value : Option Node} :
    (ns : List Node) → WfList fl ns → (fl = .json → NoTrail ns) → ¬ Occurs ns desired →
      (i : Nat) → (prev : Option Node) →
      ∃ seen, changeLoop fl desired value i prev ns = .ok (ns, seen, value) ∧
        ((∃ f ∈ ns, f.isField = true) → seen = true)
  | [], _, _, _, i, prev => ⟨false, by rw [changeLoop], by simp⟩
  | n :: ns, hw, hj, ho, i, prev => by
    rw [Occurs.cons, not_or] at ho
    obtain ⟨seen, h1, h2⟩ := changeLoop_absent hd ns hw.2 (fun h => (NoTrail.cons.1 (hj h)).1) ho.2
      (i + 1) (some n)
    rw [changeLoop, h1]
    simp only [Res.ok_bind]
    obtain ⟨seen', h3, h4, h5⟩ := changeNode_absent hd (value := value) i prev (r := ns)
      n (fun h hc => h2 ((NoTrail.cons.1 (hj h)).2 hc)) hw.1 ho.1
    refine ⟨seen', h3, ?_⟩
    rintro ⟨f, hf, hff⟩
    rcases List.mem_cons.1 hf with rfl | hf
    · exact h5 hff
    · exact h4 (h2 ⟨f, hf, hff⟩)
theorem changeNode_absent {fl : Syntax} {desired : Path} (hd : desired ≠ []) {value : Option Node}
    (i : Nat) (prev : Option Node) {r : List Node} {seen : Bool} :
    (n : Node) → (hj : fl = .json → n.hasTok Tok.isComma = true → seen = true) → WfNode fl n →
      ¬ Occurs [n] desired →
      ∃ seen', changeNode fl desired i prev r seen value n = .ok (n :: r, seen', value) ∧
        (seen = true → seen' = true) ∧ (n.isField = true → seen' = true)
  | .field cs, hj, hn, ho => by
    obtain ⟨⟨k, ks, ts, hkey⟩, ⟨v, hval⟩, hcs⟩ := hn
    rw [Occurs.field hkey, not_or] at ho
    have heq : k :: ks ≠ desired := by
      rintro rfl
      exact ho.1 (List.prefix_refl _)
    rw [changeNode, hkey]
    simp only [Res.ok_bind]
    have hbeq : PathM.beq (k :: ks) desired = false := by
      rw [← Bool.not_eq_true, PathM.C03_beq]; exact heq
    rw [hbeq]
    simp only [Bool.and_false, Bool.false_eq_true, if_false]
    rw [PathM.C03_startsWith _ _ (by simp)]
    simp only [ho.1, decide_false, Bool.false_and, Res.ok_bind, Bool.false_eq_true, if_false]
    rw [PathM.C03_startsWith _ _ hd]
    by_cases hbel : k :: ks <+: desired
    · obtain ⟨rem, hrem, hpe, hsub⟩ := length_drop_facts (by simp) hbel heq
      simp only [hbel, decide_true, Res.ok_bind, if_true]
      rw [hsub, changeField_absent hrem cs hcs v hval (by
        rintro ⟨ocs, rfl, h⟩
        exact ho.2 ⟨rem, ocs, hrem, hpe, hval, h⟩)]
      exact ⟨true, rfl, by simp, by simp⟩
    · simp only [hbel, decide_false, Res.ok_bind, Bool.false_eq_true, if_false]
      exact ⟨true, rfl, by simp, by simp⟩
  | .single _, hj, hn, ho | .comment _, hj, hn, ho | .path _ _, hj, hn, ho | .simple _, hj, hn, ho
  | .incl _ _, hj, hn, ho | .object _, hj, hn, ho | .array _, hj, hn, ho | .concat _, hj, hn, ho => by
    rw [changeNode]
    · rw [if_neg]
      · exact ⟨seen, rfl, id, by simp [isField]⟩
      · simp only [Bool.and_eq_true, decide_eq_true_eq, not_and, Bool.not_eq_true', and_imp]
        intro h1 h2 h3
        rw [hj h1 h3] at h2
        simp at h2
    · simp
theorem changeField_absent {fl : Syntax} {rem : Path} (hr : rem ≠ []) {value : Option Node} :
    (cs : List Node) → WfList fl cs → (v : Node) → fieldValue cs = .ok v →
      (¬ ∃ ocs, v = .object ocs ∧ Occurs ocs rem) → changeField fl rem value cs = .ok cs
  | [], _, v, hval, _ => by simp [fieldValue] at hval
  | n :: ns, hw, v, hval, ho => by
    rw [changeField]
    by_cases hvn : n.isValue = true
    · rw [if_pos hvn]
      rw [fieldValue, if_pos hvn] at hval
      simp only [Res.ok.injEq] at hval
      subst hval
      rw [changeInObject_absent hr n hw.1 ho]
      rfl
    · rw [if_neg hvn]
      rw [fieldValue, if_neg hvn] at hval
      rw [changeField_absent hr ns hw.2 v hval ho]
      rfl
theorem changeInObject_absent {fl : Syntax} {rem : Path} (hr : rem ≠ []) {value : Option Node} :
    (n : Node) → WfNode fl n → (¬ ∃ ocs, n = .object ocs ∧ Occurs ocs rem) →
      changeInObject fl rem value n = .ok n
  | .object ocs, hn, ho => by
    obtain ⟨seen, h1, _⟩ := changeLoop_absent hr ocs hn.2.2 hn.2.1
      (fun h => ho ⟨ocs, rfl, h⟩) 0 none (value := value)
    rw [changeInObject, h1]
    rfl
  | .single _, _, _ | .comment _, _, _ | .path _ _, _, _ | .simple _, _, _
  | .incl _ _, _, _ | .field _, _, _ | .array _, _, _ | .concat _, _, _ => rfl
end

/-! ## Adding -/

/-- `a` with a comma inserted behind a field, or `a` itself. -/
def CommaIn (a b : List Node) : Prop :=
  b = a ∨ ∃ x f y, f.isField = true ∧ a = x ++ f :: y ∧ b = x ++ f :: .single .comma :: y

theorem insertLoop_plain {fl : Syntax} {brace same : Bool} {new : Node} {todo : List Node}
    (h : brace = false ∨ ∀ n ∈ todo, n.hasTok Tok.isCloseCurly = false) (done : List Node) :
    ∃ x, insertLoop fl brace same new done todo = .ok (x ++ done) ∧ CommaIn todo.reverse x := by
  induction todo generalizing done with
  | nil => exact ⟨[], rfl, Or.inl rfl⟩
  | cons c rest ih =>
    rw [insertLoop.eq_def]
    simp only
    by_cases hc : ((decide (fl = .json) || same) && c.isField && !startsWithComma done) = true
    · rw [if_pos hc]
      simp only [Bool.and_eq_true] at hc
      exact ⟨rest.reverse ++ [c, .single .comma], by simp,
        Or.inr ⟨rest.reverse, c, [], hc.1.2, by simp, rfl⟩⟩
    · rw [if_neg hc, if_neg]
      · obtain ⟨x, h1, h2⟩ := ih (by
          rcases h with h | h
          · exact Or.inl h
          · exact Or.inr fun n hn => h n (by simp [hn])) (c :: done)
        refine ⟨x ++ [c], by rw [h1]; simp, ?_⟩
        rw [List.reverse_cons]
        rcases h2 with rfl | ⟨u, f, v, hf, h3, rfl⟩
        · exact Or.inl rfl
        · exact Or.inr ⟨u, f, v ++ [c], hf, by rw [h3]; simp, by simp⟩
      · rcases h with h | h
        · simp [h]
        · simp [h c (by simp)]

/-- Where the new setting goes. -/
def InsertSpec (new : Node) (cs r : List Node) : Prop :=
  ∃ x0 x y, cs = x0 ++ y ∧ r = x ++ new :: y ∧ CommaIn x0 x ∧
    (∀ n ∈ y, n.isField = false ∧ n.hasTok Tok.isComma = false) ∧
    (∀ mid, cs = .single .openCurly :: (mid ++ [.single .closeCurly]) →
      ∃ x1 y1, x0 = .single .openCurly :: x1 ∧ y = y1 ++ [.single .closeCurly])

theorem tokNode_notField {p : Tok → Bool} {n : Node} (h : n.hasTok p = true) : n.isField = false := by
  cases n <;> simp_all [hasTok, singleToken?, isField]

theorem insertNew_brace {fl : Syntax} {same : Bool} {new : Node} {mid : List Node}
    (hm : NoBrace mid) :
    ∃ r, insertLoop fl true same new [] (Node.single .openCurly :: (mid ++ [.single .closeCurly])).reverse
        = .ok r ∧ InsertSpec new (.single .openCurly :: (mid ++ [.single .closeCurly])) r := by
  have hclose : (Node.single .closeCurly).isField = false ∧
      (Node.single .closeCurly).hasTok Tok.isComma = false := ⟨rfl, rfl⟩
  -- the common continuation
  have fin : ∀ (m y : List Node), mid = m ++ y →
      (∀ n ∈ y, n.isField = false ∧ n.hasTok Tok.isComma = false) →
      ∃ r, insertLoop fl true same new (new :: (y ++ [.single .closeCurly]))
        (m.reverse ++ [.single .openCurly]) = .ok r ∧
        InsertSpec new (.single .openCurly :: (mid ++ [.single .closeCurly])) r := by
    intro m y hmy hy
    obtain ⟨x, h1, h2⟩ := insertLoop_plain (fl := fl) (brace := true) (same := same) (new := new)
      (todo := m.reverse ++ [.single .openCurly]) (Or.inr (by
        intro n hn
        rcases List.mem_append.1 hn with hn | hn
        · exact (hm n (by rw [hmy]; simp [List.mem_reverse.1 hn])).2
        · simp only [List.mem_singleton] at hn
          subst hn
          rfl)) (new :: (y ++ [.single .closeCurly]))
    refine ⟨_, h1, .single .openCurly :: m, x, y ++ [.single .closeCurly], by rw [hmy]; simp, rfl, ?_, ?_, ?_⟩
    · simpa using h2
    · intro n hn
      rcases List.mem_append.1 hn with hn | hn
      · exact hy n hn
      · simp only [List.mem_singleton] at hn
        subst hn
        exact hclose
    · intro mid' _
      exact ⟨m, y, rfl, rfl⟩
  have hneut : ∀ n : Node, Neutral n → n.isField = false ∧ n.hasTok Tok.isComma = false := by
    intro n hn
    refine ⟨?_, hn.notComma⟩
    rcases hn with hn | hn <;> exact tokNode_notField hn
  have hrev : (Node.single .openCurly :: (mid ++ [.single .closeCurly])).reverse
      = .single .closeCurly :: (mid.reverse ++ [.single .openCurly]) := by simp
  rw [hrev, insertLoop.eq_def]
  simp only [isField, Bool.and_false, Bool.false_and, Bool.false_eq_true, if_false]
  rw [if_pos (by rfl)]
  rcases List.eq_nil_or_concat mid with rfl | ⟨m, pv, hmp⟩
  · simp only [List.reverse_nil, List.nil_append]
    have h1 : (Node.single Tok.openCurly).hasTok Tok.isNewline = false := rfl
    have h2 : (Node.single Tok.openCurly).hasTok Tok.isWs = false := rfl
    rw [h1, h2]
    simp only [Bool.false_eq_true, if_false]
    exact fin [] [] rfl (by simp)
  · have hmp' : mid = m ++ [pv] := by simpa using hmp
    have hr2 : mid.reverse ++ [Node.single Tok.openCurly] = pv :: (m.reverse ++ [.single .openCurly]) := by
      rw [hmp']; simp
    rw [hr2]
    simp only
    by_cases hnl : pv.hasTok Tok.isNewline = true
    · rw [if_pos hnl]
      exact fin m [pv] hmp' (by
        intro n hn
        simp only [List.mem_singleton] at hn
        subst hn
        exact hneut _ (Or.inr hnl))
    · rw [if_neg hnl]
      by_cases hws : pv.hasTok Tok.isWs = true
      · rw [if_pos hws]
        have hp1 : ∀ n ∈ [pv], n.isField = false ∧ n.hasTok Tok.isComma = false := by
          intro n hn
          simp only [List.mem_singleton] at hn
          subst hn
          exact hneut _ (Or.inl hws)
        rcases List.eq_nil_or_concat m with rfl | ⟨m2, bf, hmb⟩
        · simp only [List.reverse_nil, List.nil_append]
          have h1 : (Node.single Tok.openCurly).hasTok Tok.isNewline = false := rfl
          rw [h1]
          simp only [Bool.false_eq_true, if_false]
          split
          · exact fin [] [pv] (by rw [hmp']) hp1
          · have := fin [pv] [] (by rw [hmp']; simp) (by simp)
            simpa using this
        · have hmb' : m = m2 ++ [bf] := by simpa using hmb
          have hr3 : m.reverse ++ [Node.single Tok.openCurly] = bf :: (m2.reverse ++ [.single .openCurly]) := by
            rw [hmb']; simp
          rw [hr3]
          simp only
          split
          · have := fin m [pv] hmp' hp1
            rwa [hr3] at this
          · split
            · rename_i hbn
              refine fin m2 [bf, pv] (by rw [hmp', hmb']; simp) ?_
              intro n hn
              simp only [List.mem_cons, List.not_mem_nil, or_false] at hn
              rcases hn with rfl | rfl
              · exact hneut _ (Or.inr hbn)
              · exact hneut _ (Or.inl hws)
            · have := fin mid [] (by simp) (by simp)
              rwa [hr2, hr3] at this
      · rw [if_neg hws]
        have := fin mid [] (by simp) (by simp)
        rwa [hr2] at this

theorem insertNew_spec {fl : Syntax} {same : Bool} {new : Node} {cs : List Node} (hb : Braces cs) :
    ∃ r, insertNew fl same new cs = .ok r ∧ InsertSpec new cs r := by
  unfold insertNew
  rcases hb with ⟨mid, rfl, hm⟩ | hnb
  · obtain ⟨r, h1, h2⟩ := insertNew_brace (fl := fl) (same := same) (new := new) hm
    have hb : startsWithBrace (Node.single .openCurly :: (mid ++ [.single .closeCurly])) = true := rfl
    unfold insertBase
    rw [hb, if_pos (by simp), h1]
    exact ⟨r, rfl, h2⟩
  · have hbr : startsWithBrace cs = false := by
      unfold startsWithBrace
      split
      · have := (hnb (.single .openCurly) (by simp)).1
        simp [hasTok, singleToken?, Tok.isOpenCurly] at this
      · rfl
    have hcs1 : ∃ x, insertBase fl same new cs = .ok x ∧ CommaIn cs x := by
      unfold insertBase
      rw [hbr]
      split
      · obtain ⟨x, h1, h2⟩ := insertLoop_plain (fl := fl) (brace := false) (same := same) (new := new)
          (todo := cs.reverse) (Or.inl rfl) []
        exact ⟨x, by simpa using h1, by simpa using h2⟩
      · exact ⟨cs, rfl, Or.inl rfl⟩
    obtain ⟨x, h1, h2⟩ := hcs1
    rw [h1, hbr]
    simp only [Res.ok_bind, Bool.false_eq_true, if_false, insertEnd]
    have hno : ∀ mid, cs ≠ Node.single .openCurly :: (mid ++ [.single .closeCurly]) := by
      intro mid h
      have := (hnb (.single .openCurly) (by rw [h]; simp)).1
      simp [hasTok, singleToken?, Tok.isOpenCurly] at this
    rcases List.eq_nil_or_concat x with rfl | ⟨x', l, hx⟩
    · have : cs = [] := by
        rcases h2 with h | ⟨a, f, b, _, _, h⟩
        · exact h.symm
        · simp at h
      subst this
      exact ⟨[new], rfl, [], [], [], rfl, rfl, Or.inl rfl, by simp, fun mid h => absurd h (hno mid)⟩
    · have hx' : x = x' ++ [l] := by simpa using hx
      rw [hx', List.getLast?_concat]
      simp only [List.dropLast_concat]
      split
      · rename_i hl
        have hlf := tokNode_notField hl
        have hlc : l.hasTok Tok.isComma = false :=
          hasTok_not hl (by intro t; cases t <;> simp [Tok.isNewline, Tok.isComma])
        have : ∃ c0, cs = c0 ++ [l] ∧ CommaIn c0 x' := by
          rcases h2 with h | ⟨a, f, b, hf, h3, h4⟩
          · exact ⟨x', by rw [← h, hx'], Or.inl rfl⟩
          · rw [hx'] at h4
            rcases List.eq_nil_or_concat b with rfl | ⟨b', l', hb'⟩
            · have h5 : x' ++ [l] = (a ++ [f]) ++ [.single .comma] := by rw [h4]; simp
              have := (List.append_inj' h5 rfl).2
              simp only [List.cons.injEq, and_true] at this
              subst this
              simp [hasTok, singleToken?, Tok.isComma] at hlc
            · have hb'' : b = b' ++ [l'] := by simpa using hb'
              have h5 : x' ++ [l] = (a ++ f :: .single .comma :: b') ++ [l'] := by
                rw [h4, hb'']; simp
              obtain ⟨h6, h7⟩ := List.append_inj' h5 rfl
              simp only [List.cons.injEq, and_true] at h7
              subst h7
              exact ⟨a ++ f :: b', by rw [h3, hb'']; simp, Or.inr ⟨a, f, b', hf, rfl, h6⟩⟩
        obtain ⟨c0, h3, h4⟩ := this
        refine ⟨_, rfl, c0, x', [l], h3, by simp, h4, ?_, fun mid h => absurd h (hno mid)⟩
        intro n hn
        simp only [List.mem_singleton] at hn
        subst hn
        exact ⟨hlf, hlc⟩
      · exact ⟨_, rfl, cs, x, [], by simp, by rw [hx'], h2, by simp, fun mid h => absurd h (hno mid)⟩

theorem CommaIn.mem {a b : List Node} (h : CommaIn a b) {n : Node} :
    n ∈ b → n ∈ a ∨ n = .single .comma := by
  rcases h with rfl | ⟨x, f, y, hf, rfl, rfl⟩
  · exact Or.inl
  · intro hn
    simp only [List.mem_append, List.mem_cons] at hn ⊢
    rcases hn with h | h | h | h <;> simp [h]

theorem CommaIn.mem_left {a b : List Node} (h : CommaIn a b) {n : Node} : n ∈ a → n ∈ b := by
  rcases h with rfl | ⟨x, f, y, hf, rfl, rfl⟩
  · exact id
  · intro hn
    simp only [List.mem_append, List.mem_cons] at hn ⊢
    rcases hn with h | h | h <;> simp [h]

theorem InsertSpec.occurs {new : Node} {cs r : List Node} (h : InsertSpec new cs r) (q : Path) :
    Occurs r q ↔ Occurs cs q ∨ Occurs [new] q := by
  obtain ⟨x0, x, y, rfl, rfl, hc, hy, _⟩ := h
  rw [Occurs.append, Occurs.append, Occurs.cons (b := y)]
  have : Occurs x q ↔ Occurs x0 q := by
    constructor
    · intro h
      refine h.mono fun n hn hf => ?_
      rcases hc.mem hn with h | rfl
      · exact h
      · simp [isField] at hf
    · intro h
      exact h.mono fun n hn _ => hc.mem_left hn
  rw [this]
  constructor
  · rintro (h | h | h)
    · exact Or.inl (Or.inl h)
    · exact Or.inr h
    · exact Or.inl (Or.inr h)
  · rintro ((h | h) | h)
    · exact Or.inl h
    · exact Or.inr (Or.inr h)
    · exact Or.inr (Or.inl h)

theorem InsertSpec.wf {fl : Syntax} {new : Node} {cs r : List Node} (h : InsertSpec new cs r)
    (hc : WfList fl cs) (hn : WfNode fl new) : WfList fl r := by
  obtain ⟨x0, x, y, rfl, rfl, hcm, hy, _⟩ := h
  rw [WfList.iff] at hc ⊢
  intro n hm
  simp only [List.mem_append, List.mem_cons] at hm
  rcases hm with h | rfl | h
  · rcases hcm.mem h with h | rfl
    · exact hc n (by simp [h])
    · trivial
  · exact hn
  · exact hc n (by simp [h])

theorem InsertSpec.noTrail {new : Node} {cs r : List Node} (h : InsertSpec new cs r)
    (hn : new.isField = true) : NoTrail r := by
  obtain ⟨x0, x, y, rfl, rfl, hcm, hy, _⟩ := h
  clear hcm
  induction x with
  | nil =>
    rw [List.nil_append, NoTrail.cons]
    refine ⟨?_, fun hc => ?_⟩
    · intro a c b hab hc
      have := (hy c (by rw [hab]; simp)).2
      rw [this] at hc
      simp at hc
    · cases new <;> simp_all [isField, hasTok, singleToken?]
  | cons n x ih =>
    rw [List.cons_append, NoTrail.cons]
    exact ⟨ih, fun _ => ⟨new, by simp, hn⟩⟩

theorem InsertSpec.braces {new : Node} {cs r : List Node} (h : InsertSpec new cs r)
    (hn : new.isField = true) (hb : Braces cs) : Braces r := by
  obtain ⟨x0, x, y, hcs, rfl, hcm, hy, hbr⟩ := h
  have hnew : new.hasTok Tok.isOpenCurly = false ∧ new.hasTok Tok.isCloseCurly = false := by
    cases new <;> simp_all [isField, hasTok, singleToken?]
  rcases hb with ⟨mid, hmid, hm⟩ | hnb
  · left
    obtain ⟨x1, y1, hx0, hy1⟩ := hbr mid hmid
    have hmid' : mid = x1 ++ y1 := by
      rw [hmid, hx0, hy1] at hcs
      simp only [List.cons_append, List.cons.injEq, true_and] at hcs
      rw [← List.append_assoc] at hcs
      exact (List.append_inj' hcs rfl).1
    have hx : ∃ x2, x = .single .openCurly :: x2 ∧ ∀ n ∈ x2, n ∈ x1 ∨ n = .single .comma := by
      rcases hcm with rfl | ⟨a, f, b, hf, h1, rfl⟩
      · exact ⟨x1, hx0, fun n hn => Or.inl hn⟩
      · rw [hx0] at h1
        cases a with
        | nil =>
          simp only [List.nil_append, List.cons.injEq] at h1
          rw [← h1.1] at hf
          simp [isField] at hf
        | cons z a =>
          simp only [List.cons_append, List.cons.injEq] at h1
          obtain ⟨rfl, rfl⟩ := h1
          refine ⟨a ++ f :: .single .comma :: b, rfl, ?_⟩
          intro n hn
          simp only [List.mem_append, List.mem_cons] at hn ⊢
          rcases hn with h | h | h | h <;> simp [h]
    obtain ⟨x2, rfl, hx2⟩ := hx
    refine ⟨x2 ++ new :: y1, by rw [hy1]; simp, ?_⟩
    intro n hn
    simp only [List.mem_append, List.mem_cons] at hn
    rcases hn with h | rfl | h
    · rcases hx2 n h with h | rfl
      · exact hm n (by rw [hmid']; simp [h])
      · exact ⟨rfl, rfl⟩
    · exact hnew
    · exact hm n (by rw [hmid']; simp [h])
  · right
    intro n hn
    simp only [List.mem_append, List.mem_cons] at hn
    rcases hn with h | rfl | h
    · rcases hcm.mem h with h | rfl
      · exact hnb n (by rw [hcs]; simp [h])
      · exact ⟨rfl, rfl⟩
    · exact hnew
    · exact hnb n (by rw [hcs]; simp [h])

theorem indentScan_neutral {seen : Bool} {cs : List Node} {w : Node} {b : Bool}
    (h : indentScan seen cs = (some w, b)) : Neutral w := by
  induction cs generalizing seen with
  | nil => simp [indentScan] at h
  | cons n ns ih =>
    rw [indentScan] at h
    by_cases hs : (!seen) = true
    · rw [if_pos hs] at h
      exact ih h
    · rw [if_neg hs] at h
      split at h
      · rename_i hc
        simp only [Bool.and_eq_true] at hc
        simp only [Prod.mk.injEq, Option.some.injEq] at h
        exact Or.inl (h.1 ▸ hc.1)
      · exact ih h

theorem indentation_neutral (cs : List Node) : ∀ n ∈ indentation cs, Neutral n := by
  have hl : Neutral lineNode := Or.inr rfl
  have hw : ∀ s, Neutral (wsNode s) := fun s => Or.inl rfl
  unfold indentation
  split
  · simp
  · split
    · rename_i w b h
      intro n hn
      simp only [List.mem_cons, List.not_mem_nil, or_false] at hn
      rcases hn with rfl | rfl
      · exact hl
      · exact indentScan_neutral h
    · intro n hn
      simp only [List.mem_singleton] at hn
      subst hn
      exact hw _
    · intro n hn
      split at hn
      · simp only [List.mem_cons, List.not_mem_nil, or_false] at hn
        rcases hn with rfl | rfl
        · exact hl
        · exact hw _
      · simp only [List.mem_singleton] at hn
        subst hn
        exact hl

theorem prepare_spec {fl : Syntax} {cs : List Node} {value : Node} (hv : VOk fl value)
    {indent : List Node} {iv : Node} {same : Bool} (h : prepare cs value = .ok (indent, iv, same)) :
    (∀ n ∈ indent, Neutral n) ∧ VOk fl iv := by
  unfold prepare at h
  rw [Res.bind_eq_ok] at h
  obtain ⟨iv', h1, h2⟩ := h
  simp only [Res.ok.injEq, Prod.mk.injEq] at h2
  obtain ⟨rfl, rfl, _⟩ := h2
  refine ⟨indentation_neutral cs, ?_⟩
  unfold indentedNew at h1
  split at h1
  · rename_i l hl
    split at h1
    · rcases indentNode_spec (fl := fl) (indentation_neutral cs l (List.mem_of_getLast? hl)) value hv.wf with
        ⟨n', h3, h4⟩ | ⟨h3, _⟩
      · rw [h3] at h1
        cases h1
        exact h4.vok hv
      · rw [h3] at h1
        cases h1
    · cases h1; exact hv
  · cases h1; exact hv

/-- Number of separating periods among the tokens of a path node. -/
def dots (toks : List Tok) : Nat := toks.countP Tok.isDot

theorem subTokens_dots {k : Nat} {toks toks' : List Tok} {c : Nat} (h : subTokens k c toks = .ok toks')
    (hc : c < k) : dots toks + c = k + dots toks' := by
  induction toks generalizing c with
  | nil => simp [subTokens] at h
  | cons t ts ih =>
    rw [subTokens] at h
    by_cases hd : t.isDot = true
    · rw [if_pos hd] at h
      rw [dots, List.countP_cons_of_pos hd]
      split at h
      · simp only [Res.ok.injEq] at h
        subst h
        simp only [dots]
        omega
      · have := ih h (by omega)
        simp only [dots] at *
        omega
    · rw [if_neg hd] at h
      rw [dots, List.countP_cons_of_neg hd]
      rw [if_neg (by omega)] at h
      exact ih h hc

theorem firstNode_spec {k : Str} {p : Path} {toks : List Tok} (hd : dots toks + 1 = (k :: p).length) :
    ∃ ts, firstNode (k :: p) toks = .ok (.path [k] ts) := by
  unfold firstNode
  by_cases h : toks.any Tok.isDot = true
  · rw [if_pos h]
    cases p with
    | nil =>
      simp only [List.length_cons, List.length_nil, dots] at hd
      have : toks.countP Tok.isDot = 0 := by omega
      rw [List.countP_eq_zero] at this
      rw [List.any_eq_true] at h
      obtain ⟨t, ht, ht2⟩ := h
      exact absurd ht2 (this t ht)
    | cons k2 p => exact ⟨_, rfl⟩
  · rw [if_neg h]
    cases p with
    | nil => exact ⟨_, rfl⟩
    | cons k2 p =>
      exfalso
      apply h
      rw [List.any_eq_true]
      have : 0 < toks.countP Tok.isDot := by
        simp only [List.length_cons, dots] at hd
        omega
      obtain ⟨t, ht, ht2⟩ := List.countP_pos_iff.1 this
      exact ⟨t, ht, ht2⟩

theorem Neutral.notValue {n : Node} (h : Neutral n) : n.isValue = false := by
  cases n <;> first | rfl | (simp [Neutral, hasTok, singleToken?] at h)

theorem Neutral.notField {n : Node} (h : Neutral n) : n.isField = false := by
  rcases h with h | h <;> exact tokNode_notField h

theorem fieldPath_neutral {a b : List Node} (h : ∀ n ∈ a, Neutral n) :
    fieldPath (a ++ b) = fieldPath b := by
  induction a with
  | nil => rfl
  | cons n a ih =>
    have hn := h n (by simp)
    rw [List.cons_append]
    cases n with
    | path p ts => simp [Neutral, hasTok, singleToken?] at hn
    | _ =>
      rw [fieldPath]
      · exact ih (fun m hm => h m (by simp [hm]))
      · simp

theorem fieldValue_neutral {a b : List Node} (h : ∀ n ∈ a, Neutral n) :
    fieldValue (a ++ b) = fieldValue b := by
  induction a with
  | nil => rfl
  | cons n a ih =>
    rw [List.cons_append, fieldValue, if_neg (by simp [(h n (by simp)).notValue])]
    exact ih (fun m hm => h m (by simp [hm]))

/-- What adding a value achieves on the children of an object. -/
structure AddSpec (fl : Syntax) (p : Path) (cs r : List Node) : Prop where
  wf : WfList fl r
  braces : Braces cs → Braces r
  trail : NoTrail cs → NoTrail r
  occ : Occurs r p
  frame : ∀ q, Incomparable p q → (Occurs r q ↔ Occurs cs q)

theorem newObjectNodes_spec {indent : List Node} (h : ∀ n ∈ indent, Neutral n) :
    Braces (newObjectNodes indent) ∧ (∀ fl, WfList fl (newObjectNodes indent)) ∧
      (∀ q, ¬ Occurs (newObjectNodes indent) q) := by
  have hmid : ∀ n ∈ (if indent.isEmpty then [lineNode] else []) ++ indent, Neutral n := by
    intro n hn
    rcases List.mem_append.1 hn with h1 | h1
    · split at h1
      · simp only [List.mem_singleton] at h1
        subst h1
        exact Or.inr rfl
      · simp at h1
    · exact h n h1
  have hall : ∀ n ∈ newObjectNodes indent, n.isField = false ∧ ∀ fl, WfNode fl n := by
    intro n hn
    unfold newObjectNodes at hn
    simp only [List.cons_append, List.mem_cons, List.mem_append, List.not_mem_nil, or_false] at hn
    have : n = .single .openCurly ∨ n = .single .closeCurly ∨ Neutral n := by
      rcases hn with h1 | (h1 | h1) | h1
      · exact Or.inl h1
      · exact Or.inr (Or.inr (hmid n (List.mem_append.2 (Or.inl h1))))
      · exact Or.inr (Or.inr (h n h1))
      · exact Or.inr (Or.inl h1)
    rcases this with rfl | rfl | h1
    · exact ⟨rfl, fun _ => trivial⟩
    · exact ⟨rfl, fun _ => trivial⟩
    · exact ⟨h1.notField, fun fl => h1.wf fl⟩
  refine ⟨Or.inl ⟨_, rfl, fun n hn => (hmid n hn).noBrace⟩, ?_, ?_⟩
  · intro fl
    rw [WfList.iff]
    exact fun n hn => (hall n hn).2 fl
  · intro q ho
    cases ho with
    | here h1 _ _ => have := (hall _ h1).1; simp [isField] at this
    | inside h1 _ _ _ _ => have := (hall _ h1).1; simp [isField] at this

/-- The field that `buildNew` creates. -/
theorem newField_spec {fl : Syntax} {indent : List Node} (h : ∀ n ∈ indent, Neutral n) {k : Str}
    {ts : List Tok} {v : Node} (hv : v.isValue = true) (hw : WfNode fl v) {new : Node}
    (hnew : new = newField indent (.path [k] ts) v) :
    WfNode fl new ∧ new.isField = true ∧
      ∀ q, Occurs [new] q ↔ q <+: [k] ∨ ∃ rem ocs, rem ≠ [] ∧ q = [k] ++ rem ∧
        v = .object ocs ∧ Occurs ocs rem := by
  subst hnew
  have hp : fieldPath (indent ++ [.path [k] ts, wsNode [' '], .single .colon, wsNode [' '], v])
      = .ok ([k], ts) := by rw [fieldPath_neutral h]; rfl
  have hval : fieldValue (indent ++ [.path [k] ts, wsNode [' '], .single .colon, wsNode [' '], v])
      = .ok v := by
    rw [fieldValue_neutral h, fieldValue, if_neg (by simp [isValue]), fieldValue,
      if_neg (by simp [isValue, wsNode]), fieldValue, if_neg (by simp [isValue]), fieldValue,
      if_neg (by simp [isValue, wsNode]), fieldValue, if_pos hv]
  refine ⟨⟨⟨k, [], ts, hp⟩, ⟨v, hval⟩, ?_⟩, rfl, ?_⟩
  · rw [WfList.iff]
    intro n hn
    simp only [List.mem_append, List.mem_cons, List.not_mem_nil, or_false] at hn
    rcases hn with h1 | rfl | rfl | rfl | rfl | rfl
    · exact (h n h1).wf fl
    all_goals first | trivial | exact hw
  · intro q
    rw [newField, Occurs.field hp, hval]
    simp only [Res.ok.injEq]

theorem insert_addSpec {fl : Syntax} {same : Bool} {new : Node} {cs r : List Node} {p : Path}
    (hb : Braces cs) (hw : WfList fl cs) (hnw : WfNode fl new) (hnf : new.isField = true)
    (hocc : Occurs [new] p) (hfr : ∀ q, Incomparable p q → ¬ Occurs [new] q)
    (h : insertNew fl same new cs = .ok r) : AddSpec fl p cs r := by
  obtain ⟨r', h1, h2⟩ := insertNew_spec (fl := fl) (same := same) (new := new) hb
  rw [h] at h1
  cases h1
  refine ⟨h2.wf hw hnw, h2.braces hnf, fun _ => h2.noTrail hnf, (h2.occurs p).2 (Or.inr hocc), ?_⟩
  intro q hq
  rw [h2.occurs q]
  exact or_iff_left (hfr q hq)

theorem buildNew_spec {fl : Syntax} {p : Path} (hp : p ≠ []) {iv : Node} {indent : List Node}
    {same : Bool} {cs : List Node} {toks : List Tok} (hv : VOk fl iv) (hi : ∀ n ∈ indent, Neutral n)
    (hb : Braces cs) (hw : WfList fl cs) (hd : dots toks + 1 = p.length) {r : List Node}
    (h : buildNew fl iv indent same cs p toks = .ok r) : AddSpec fl p cs r := by
  induction p generalizing iv indent same cs toks r with
  | nil => exact absurd rfl hp
  | cons k p ih =>
    obtain ⟨ts, hf⟩ := firstNode_spec hd
    cases p with
    | nil =>
      rw [buildNew] at h
      · rw [hf, Res.ok_bind] at h
        obtain ⟨n1, n2, n3⟩ := newField_spec (ts := ts) (k := k) hi hv.isValue hv.wf rfl
        refine insert_addSpec hb hw n1 n2 ((n3 _).2 (Or.inl List.prefix_rfl)) ?_ h
        intro q hq ho
        rcases (n3 q).1 ho with h | ⟨rem, ocs, _, h, _⟩
        · exact hq.2 h
        · exact hq.1 (h ▸ List.prefix_append _ _)
      · simp
    | cons k2 p =>
      rw [buildNew, hf, Res.ok_bind, Res.bind_eq_ok] at h
      obtain ⟨toks', h3, h1⟩ := h
      rw [Res.bind_eq_ok] at h1
      obtain ⟨⟨indent', iv', same'⟩, h4, h1⟩ := h1
      simp only at h1
      rw [Res.bind_eq_ok] at h1
      obtain ⟨ocs, h5, h2⟩ := h1
      obtain ⟨o1, o2, o3⟩ := newObjectNodes_spec hi
      obtain ⟨q1, q2⟩ := prepare_spec hv h4
      have hd' : dots toks' + 1 = (k2 :: p).length := by
        have := subTokens_dots h3 (by omega)
        simp only [List.length_cons] at hd ⊢
        omega
      have hi' := ih (by simp) q2 q1 o1 (o2 fl) hd' h5
      have hnt : NoTrail ocs := hi'.trail (by
        intro a c b hab hc
        exfalso
        have hmem : c ∈ newObjectNodes indent := by rw [hab]; simp
        unfold newObjectNodes at hmem
        simp only [List.cons_append, List.mem_cons, List.mem_append, List.not_mem_nil, or_false] at hmem
        rcases hmem with rfl | (h1 | h1) | rfl
        · simp [hasTok, singleToken?, Tok.isComma] at hc
        · split at h1
          · simp only [List.mem_singleton] at h1
            subst h1
            simp [hasTok, singleToken?, Tok.isComma, lineNode] at hc
          · simp at h1
        · rw [(hi c h1).notComma] at hc; simp at hc
        · simp [hasTok, singleToken?, Tok.isComma] at hc)
      obtain ⟨n1, n2, n3⟩ := newField_spec (fl := fl) (ts := ts) (k := k) (v := .object ocs) hi rfl
        ⟨hi'.braces o1, fun _ => hnt, hi'.wf⟩ rfl
      refine insert_addSpec hb hw n1 n2 ((n3 _).2 (Or.inr ⟨k2 :: p, ocs, by simp, rfl, rfl, hi'.occ⟩)) ?_ h2
      intro q hq ho
      rcases (n3 q).1 ho with h | ⟨rem, ocs', _, h, he, ho'⟩
      · exact hq.2 (h.trans (List.prefix_append [k] (k2 :: p)))
      · simp only [Node.object.injEq] at he
        subst he
        subst h
        have hq' : Incomparable (k2 :: p) rem := (Incomparable.tail (key := [k])).1 hq
        exact o3 _ ((hi'.frame rem hq').1 ho')

theorem addFinish_spec {fl : Syntax} {value : Node} {p : Path} (hp : p ≠ []) {toks : List Tok}
    {cs : List Node} (hv : VOk fl value) (hb : Braces cs) (hw : WfList fl cs)
    (hd : dots toks + 1 = p.length) {inner : Res (Option (List Node))}
    (hin : ∀ r, inner = .ok (some r) → AddSpec fl p cs r) {r : List Node}
    (h : addFinish fl value p toks cs inner = .ok r) : AddSpec fl p cs r := by
  unfold addFinish at h
  rw [Res.bind_eq_ok] at h
  obtain ⟨⟨indent, iv, same⟩, h1, h⟩ := h
  obtain ⟨q1, q2⟩ := prepare_spec hv h1
  simp only at h
  rw [Res.bind_eq_ok] at h
  obtain ⟨o, h2, h⟩ := h
  cases o with
  | some cs' =>
    simp only [Res.ok.injEq] at h
    subst h
    unfold searchFields at h2
    split at h2
    · exact hin _ h2
    · simp at h2
  | none => exact buildNew_spec hp q2 q1 hb hw hd h

theorem Sim.field_noTrail {a b c c' : List Node} (h : NoTrail (a ++ .field c :: b)) :
    NoTrail (a ++ .field c' :: b) := by
  induction a with
  | nil =>
    rw [List.nil_append, NoTrail.cons] at *
    exact ⟨h.1, by simp [hasTok, singleToken?]⟩
  | cons n a ih =>
    rw [List.cons_append, NoTrail.cons] at *
    exact ⟨ih h.1, fun _ => ⟨.field c', by simp, rfl⟩⟩

theorem Sim.refl (a : List Node) : Sim a a := by
  induction a with
  | nil => exact .nil
  | cons n a ih => exact .keep ih

theorem Sim.prepend (a : List Node) {b c : List Node} (h : Sim b c) : Sim (a ++ b) (a ++ c) := by
  induction a with
  | nil => exact h
  | cons n a ih => exact .keep ih

/-- What the search for a field to add to achieves: one field is replaced. -/
def AddInSpec (fl : Syntax) (p : Path) (ns r : List Node) : Prop :=
  ∃ a c c' b, ns = a ++ .field c :: b ∧ r = a ++ .field c' :: b ∧ WfNode fl (.field c') ∧
    Occurs [.field c'] p ∧ ∀ q, Incomparable p q → (Occurs [.field c'] q ↔ Occurs [.field c] q)

theorem AddInSpec.addSpec {fl : Syntax} {p : Path} {ns r : List Node} (h : AddInSpec fl p ns r)
    (hw : WfList fl ns) : AddSpec fl p ns r := by
  obtain ⟨a, c, c', b, rfl, rfl, h1, h2, h3⟩ := h
  refine ⟨?_, (Sim.prepend a (.field (Sim.refl b))).braces, Sim.field_noTrail, ?_, ?_⟩
  · rw [WfList.iff] at *
    intro n hn
    rcases List.mem_append.1 hn with hn | hn
    · exact hw n (by simp [hn])
    · rcases List.mem_cons.1 hn with rfl | hn
      · exact h1
      · exact hw n (by simp [hn])
  · exact Occurs.append.2 (Or.inr (Occurs.cons.2 (Or.inl h2)))
  · intro q hq
    rw [Occurs.append, Occurs.append, Occurs.cons, Occurs.cons (n := .field c), h3 q hq]

mutual
theorem addIn_spec {fl : Syntax} {value : Node} (hv : VOk fl value) {p : Path} (hp : p ≠ [])
    {toks : List Tok} (hd : dots toks + 1 = p.length) :
    (ns : List Node) → WfList fl ns → (r : List Node) → addIn fl value p toks ns = .ok (some r) →
      AddInSpec fl p ns r
  | [], _, r, h => by simp [addIn] at h
  | n :: ns, hw, r, h => by
    rw [addIn, Res.bind_eq_ok] at h
    obtain ⟨o, h1, h⟩ := h
    cases o with
    | some ns' =>
      simp only [Res.ok.injEq, Option.some.injEq] at h
      subst h
      obtain ⟨a, c, c', b, rfl, rfl, h2⟩ := addIn_spec hv hp hd ns hw.2 ns' h1
      exact ⟨n :: a, c, c', b, rfl, rfl, h2⟩
    | none =>
      simp only at h
      rw [Res.bind_eq_ok] at h
      obtain ⟨o, h2, h⟩ := h
      cases o with
      | none => simp at h
      | some n' =>
        simp only [Option.map_some, Res.ok.injEq, Option.some.injEq] at h
        subst h
        obtain ⟨c, c', rfl, rfl, h3⟩ := addNode_spec hv hp hd n hw.1 n' h2
        exact ⟨[], c, c', ns, rfl, rfl, h3⟩
termination_by structural ns => ns
theorem addNode_spec {fl : Syntax} {value : Node} (hv : VOk fl value) {p : Path} (hp : p ≠ [])
    {toks : List Tok} (hd : dots toks + 1 = p.length) :
    (n : Node) → WfNode fl n → (n' : Node) → addNode fl value p toks n = .ok (some n') →
      ∃ c c', n = .field c ∧ n' = .field c' ∧ WfNode fl (.field c') ∧ Occurs [.field c'] p ∧
        ∀ q, Incomparable p q → (Occurs [.field c'] q ↔ Occurs [.field c] q)
  | .field cs, hn, n', h => by
    obtain ⟨⟨k, ks, ts, hkey⟩, ⟨v, hval⟩, hcs⟩ := hn
    rw [addNode, hkey, Res.ok_bind] at h
    simp only at h
    rw [PathM.C03_startsWith p (k :: ks) hp, Res.ok_bind] at h
    by_cases hpre : (k :: ks) <+: p
    · rw [if_pos (by simpa using hpre), PathM.C03_length _ (by simp)] at h
      rw [Res.bind_eq_ok] at h
      obtain ⟨o, h2, h⟩ := h
      cases o with
      | none => simp at h
      | some cs' =>
        simp only [Option.map_some, Res.ok.injEq, Option.some.injEq] at h
        subst h
        obtain ⟨rem, rfl⟩ := hpre
        obtain ⟨ocs, ocs', rfl, h3, h4, h5, h6, h7⟩ :=
          addField_spec hv (key := k :: ks) (by simp) hd cs hcs v hval cs' h2
        refine ⟨cs, cs', rfl, rfl, ⟨⟨k, ks, ts, by rw [h3, hkey]⟩, ⟨_, h4⟩, h5⟩, ?_, ?_⟩
        · rw [Occurs.field (by rw [h3, hkey])]
          exact Or.inr ⟨rem, ocs', h6, rfl, h4, h7.occ⟩
        · intro q hq
          rw [Occurs.field (key := k :: ks) (by rw [h3, hkey]), Occurs.field hkey, hval, h4]
          refine or_congr Iff.rfl ?_
          simp only [Res.ok.injEq, Node.object.injEq]
          constructor
          · rintro ⟨rem', _, hr, rfl, rfl, ho⟩
            exact ⟨rem', _, hr, rfl, rfl, (h7.frame rem' (Incomparable.tail.1 hq)).1 ho⟩
          · rintro ⟨rem', _, hr, rfl, rfl, ho⟩
            exact ⟨rem', _, hr, rfl, rfl, (h7.frame rem' (Incomparable.tail.1 hq)).2 ho⟩
    · rw [if_neg (by simpa using hpre)] at h
      simp at h
  | .single _, _, _, h | .comment _, _, _, h | .path _ _, _, _, h | .simple _, _, _, h
  | .incl .., _, _, h | .object _, _, _, h | .array _, _, _, h | .concat _, _, _, h => by simp [addNode] at h
termination_by structural n => n
theorem addField_spec {fl : Syntax} {value : Node} (hv : VOk fl value) {key rem : Path}
    (hk : key ≠ []) {toks : List Tok} (hd : dots toks + 1 = (key ++ rem).length) :
    (cs : List Node) → WfList fl cs → (v : Node) → fieldValue cs = .ok v → (cs' : List Node) →
      addField fl value key.length (key ++ rem) toks cs = .ok (some cs') →
      ∃ ocs ocs', v = .object ocs ∧ fieldPath cs' = fieldPath cs ∧
        fieldValue cs' = .ok (.object ocs') ∧ WfList fl cs' ∧ rem ≠ [] ∧ AddSpec fl rem ocs ocs'
  | [], _, v, hval, _, _ => by simp [fieldValue] at hval
  | n :: ns, hw, v, hval, cs', h => by
    rw [addField] at h
    rw [fieldValue] at hval
    by_cases hvn : n.isValue = true
    · rw [if_pos hvn] at h hval
      cases hval
      rw [Res.bind_eq_ok] at h
      obtain ⟨o, h2, h⟩ := h
      cases o with
      | none => simp at h
      | some n' =>
        simp only [Option.map_some, Res.ok.injEq, Option.some.injEq] at h
        subst h
        obtain ⟨ocs, ocs', rfl, rfl, h3, h4, h5⟩ := addInObject_spec hv hk hd n hw.1 n' h2
        exact ⟨ocs, ocs', rfl, rfl, rfl, ⟨h3, hw.2⟩, h4, h5⟩
    · rw [if_neg hvn] at h hval
      rw [Res.bind_eq_ok] at h
      obtain ⟨o, h2, h⟩ := h
      cases o with
      | none => simp at h
      | some ns' =>
        simp only [Option.map_some, Res.ok.injEq, Option.some.injEq] at h
        subst h
        obtain ⟨ocs, ocs', rfl, h3, h4, h5, h6⟩ := addField_spec hv hk hd ns hw.2 v hval ns' h2
        refine ⟨ocs, ocs', rfl, ?_, ?_, ⟨hw.1, h5⟩, h6⟩
        · cases n <;> simp_all [fieldPath]
        · rw [fieldValue, if_neg hvn, h4]
termination_by structural cs => cs
theorem addInObject_spec {fl : Syntax} {value : Node} (hv : VOk fl value) {key rem : Path}
    (hk : key ≠ []) {toks : List Tok} (hd : dots toks + 1 = (key ++ rem).length) :
    (n : Node) → WfNode fl n → (n' : Node) →
      addInObject fl value key.length (key ++ rem) toks n = .ok (some n') →
      ∃ ocs ocs', n = .object ocs ∧ n' = .object ocs' ∧ WfNode fl n' ∧ rem ≠ [] ∧
        AddSpec fl rem ocs ocs'
  | .object ocs, hn, n', h => by
    rw [addInObject, Res.bind_eq_ok] at h
    obtain ⟨toks', h1, h⟩ := h
    simp only at h
    rw [Res.bind_eq_ok] at h
    obtain ⟨ocs', h2, h⟩ := h
    simp only [Res.ok.injEq, Option.some.injEq] at h
    subst h
    have hkl : 0 < key.length := List.length_pos_iff.2 hk
    have hdd := subTokens_dots h1 hkl
    rw [List.length_append] at hd
    have hr : rem ≠ [] := by
      rintro rfl
      simp only [List.length_nil] at hd
      omega
    have hsub : subPath key.length (key ++ rem) = rem := by
      rw [PathM.C03_subPath]
      · simp
      · have := List.length_pos_iff.2 hr
        simp only [List.length_append]
        omega
    rw [hsub] at h2
    have hspec := addFinish_spec hr hv hn.1 hn.2.2 (by omega)
      (fun r hr' => (addIn_spec hv hr (by omega) ocs hn.2.2 r hr').addSpec hn.2.2) h2
    exact ⟨ocs, ocs', rfl, rfl, ⟨hspec.braces hn.1, fun hj => hspec.trail (hn.2.1 hj), hspec.wf⟩, hr, hspec⟩
  | .single _, _, _, h | .comment _, _, _, h | .path _ _, _, _, h | .simple _, _, _, h
  | .incl .., _, _, h | .field _, _, _, h | .array _, _, _, h | .concat _, _, _, h => by simp [addInObject] at h
termination_by structural n => n
end

theorem addValue_spec {fl : Syntax} {value : Node} (hv : VOk fl value) {p : Path} (hp : p ≠ [])
    {toks : List Tok} (hd : dots toks + 1 = p.length) {cs r : List Node} (hn : WfNode fl (.object cs))
    (h : addValue fl p toks value cs = .ok r) : AddSpec fl p cs r :=
  addFinish_spec hp hv hn.1 hn.2.2 hd
    (fun r hr => (addIn_spec hv hp hd cs hn.2.2 r hr).addSpec hn.2.2) h

end DocEdit
end Hocon
