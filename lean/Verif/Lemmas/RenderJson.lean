import Verif.Spec.RenderText
import Verif.Lemmas.RenderSort
import Verif.Lemmas.JsonLex

/-!
# JSON rendering produces JSON texts
-/

set_option autoImplicit false

namespace Hocon
namespace Render

open Spec

/-! ### Texts -/

theorem chop_append (a b : Str) (n : Nat) (h : b.length = n) : chop n (a ++ b) = a := by
  subst h
  rw [chop, List.length_append, Nat.add_sub_cancel]
  exact List.take_left ..

theorem jws_nil : JWs [] := by intro c h; cases h

theorem jws_indent (o : Options) (n : Nat) : JWs (indent o n) := by
  rw [indent]
  split
  · intro c hc; exact Or.inl (List.eq_of_mem_replicate hc)
  · exact jws_nil

theorem _root_.Hocon.Spec.JWs.append {a b : Str} (ha : JWs a) (hb : JWs b) : JWs (a ++ b) := by
  intro c hc
  rcases List.mem_append.1 hc with h | h
  · exact ha c h
  · exact hb c h

theorem jws_nl : JWs (ch "\n") := by
  intro c hc; simp at hc; subst hc; exact Or.inr (Or.inr (Or.inl rfl))

theorem jws_sp : JWs (ch " ") := by
  intro c hc; simp at hc; subst hc; exact Or.inl rfl

theorem jws_opt_nl (o : Options) : JWs (if o.formatted then ch "\n" else []) := by
  split
  · exact jws_nl
  · exact jws_nil

section
variable {env : Env} {N : Str → Scalar → Prop}

theorem elems_pre {vs : List Value} {w u : Str} (hw : JWs w) (h : JText env N (.elems vs) u) :
    JText env N (.elems vs) (w ++ u) := by
  cases h with
  | @elem w1 t w2 v h1 h h2 =>
    rw [show w ++ (w1 ++ t ++ w2) = (w ++ w1) ++ t ++ w2 by simp]
    exact .elem (hw.append h1) h h2
  | @elemCons w1 t w2 u v vs h1 h h2 h3 =>
    rw [show w ++ (w1 ++ t ++ w2 ++ ',' :: u) = (w ++ w1) ++ t ++ w2 ++ ',' :: u by simp]
    exact .elemCons (hw.append h1) h h2 h3

theorem elems_post {vs : List Value} {w u : Str} (hw : JWs w) (h : JText env N (.elems vs) u) :
    JText env N (.elems vs) (u ++ w) := by
  generalize hk : JPart.elems vs = k at h
  induction h generalizing vs with
  | @elem w1 t w2 v h1 h h2 =>
    cases hk
    rw [show w1 ++ t ++ w2 ++ w = w1 ++ t ++ (w2 ++ w) by simp]
    exact .elem h1 h (h2.append hw)
  | @elemCons w1 t w2 u v vs h1 h h2 h3 _ ih =>
    cases hk
    rw [show w1 ++ t ++ w2 ++ ',' :: u ++ w = w1 ++ t ++ w2 ++ ',' :: (u ++ w) by simp]
    exact .elemCons h1 h h2 (ih rfl)
  | _ => cases hk

theorem members_pre {fs : List (Str × Value)} {w u : Str} (hw : JWs w) (h : JText env N (.members fs) u) :
    JText env N (.members fs) (w ++ u) := by
  cases h with
  | @member w1 kt w2 w3 t w4 k v h1 hk h2 h3 h h4 =>
    rw [show w ++ (w1 ++ ('"' :: kt ++ ['"']) ++ w2 ++ ':' :: w3 ++ t ++ w4)
      = (w ++ w1) ++ ('"' :: kt ++ ['"']) ++ w2 ++ ':' :: w3 ++ t ++ w4 by simp]
    exact .member (hw.append h1) hk h2 h3 h h4
  | @memberCons w1 kt w2 w3 t w4 k u v fs h1 hk h2 h3 h h4 h5 =>
    rw [show w ++ (w1 ++ ('"' :: kt ++ ['"']) ++ w2 ++ ':' :: w3 ++ t ++ w4 ++ ',' :: u)
      = (w ++ w1) ++ ('"' :: kt ++ ['"']) ++ w2 ++ ':' :: w3 ++ t ++ w4 ++ ',' :: u by simp]
    exact .memberCons (hw.append h1) hk h2 h3 h h4 h5

theorem members_post {fs : List (Str × Value)} {w u : Str} (hw : JWs w) (h : JText env N (.members fs) u) :
    JText env N (.members fs) (u ++ w) := by
  generalize hk : JPart.members fs = k at h
  induction h generalizing fs with
  | @member w1 kt w2 w3 t w4 k v h1 hk' h2 h3 h h4 =>
    cases hk
    rw [show w1 ++ ('"' :: kt ++ ['"']) ++ w2 ++ ':' :: w3 ++ t ++ w4 ++ w
      = w1 ++ ('"' :: kt ++ ['"']) ++ w2 ++ ':' :: w3 ++ t ++ (w4 ++ w) by simp]
    exact .member h1 hk' h2 h3 h (h4.append hw)
  | @memberCons w1 kt w2 w3 t w4 k u v fs h1 hk' h2 h3 h h4 h5 _ ih =>
    cases hk
    rw [show w1 ++ ('"' :: kt ++ ['"']) ++ w2 ++ ':' :: w3 ++ t ++ w4 ++ ',' :: u ++ w
      = w1 ++ ('"' :: kt ++ ['"']) ++ w2 ++ ':' :: w3 ++ t ++ w4 ++ ',' :: (u ++ w) by simp]
    exact .memberCons h1 hk' h2 h3 h h4 (ih rfl)
  | _ => cases hk

end

/-! ### Scalars -/

theorem plainChar_chars {env : Env} {c : Char} (h : PlainChar c) {t s : Str} (hs : JChars env t s) :
    JChars env (escapeChar c ++ t) (c :: s) := by
  by_cases hq : c = '"'
  · subst hq; exact .escape (e := '"') (by decide) hs
  by_cases hb : c = '\\'
  · subst hb; exact .escape (e := '\\') (by decide) hs
  by_cases hn : c = '\n'
  · subst hn; exact .escape (e := 'n') (by decide) hs
  by_cases ht : c = '\t'
  · subst ht; exact .escape (e := 't') (by decide) hs
  by_cases hr : c = '\r'
  · subst hr; exact .escape (e := 'r') (by decide) hs
  by_cases hbs : c = '\x08'
  · subst hbs; exact .escape (e := 'b') (by decide) hs
  by_cases hff : c = '\x0c'
  · subst hff; exact .escape (e := 'f') (by decide) hs
  have he : escapeChar c = [c] := by simp [escapeChar, *]
  rw [he]
  rcases h with ⟨h1, h2⟩ | h | h | h | h | h
  · exact .plain h1 h2 hq hb hs
  all_goals exact absurd h ‹_›

theorem plainStr_chars {env : Env} {s : Str} (h : PlainStr s) : JChars env (s.flatMap escapeChar) s := by
  induction s with
  | nil => exact .nil
  | cons c s ih =>
    rw [List.flatMap_cons]
    exact plainChar_chars (h c (.head _)) (ih fun x hx => h x (.tail _ hx))

theorem decVal_toDigits (n : Nat) : decVal (Nat.toDigits 10 n) = n := by
  have h := Nat.ofDigitChars_ten_toDigits (n := n)
  rw [Nat.ofDigitChars_eq_foldl] at h
  rw [decVal]
  refine Eq.trans ?_ h
  congr 1
  funext a c
  rw [Nat.mul_comm]
  rfl

theorem toDigits_digit (n : Nat) : ∀ c ∈ Nat.toDigits 10 n, JDigit c := by
  intro c hc
  have := Nat.isDigit_of_mem_toDigits (by decide) (by decide) hc
  simp [Char.isDigit] at this
  exact ⟨this.1, this.2⟩

theorem showInt_numeral (env : Env) {i : Int} (h1 : -9223372036854775808 ≤ i) (h2 : i ≤ 9223372036854775807) :
    Numeral env (showInt i) (intValue i (showInt i)) := by
  rw [showInt]
  split
  · refine Numeral.int (sg := ['-']) (ds := Nat.toDigits 10 i.natAbs) (Or.inr rfl) Nat.toDigits_ne_nil (toDigits_digit _)
      ?_ h1 h2
    rw [decVal_toDigits, if_neg (by simp)]; omega
  · refine Numeral.int (sg := []) (ds := Nat.toDigits 10 i.natAbs) (Or.inl rfl) Nat.toDigits_ne_nil (toDigits_digit _)
      ?_ h1 h2
    rw [decVal_toDigits, if_pos rfl]; omega

theorem intOf_intValue (i : Int) (t : Str) : intOf (intValue i t) = some i := by
  rw [intValue]; split <;> rfl

theorem scalar_json {env : Env} {o : Options} (ho : o.json = true) {s : Scalar} (h : Writable env s) :
    ∃ s', JText env (Numeral env) (.value (.scalar s')) (scalar env o s) ∧ SameScalar env s s' := by
  cases s with
  | null => exact ⟨.null, .null, .null⟩
  | bool b =>
    cases b
    · exact ⟨.bool false, .false_, .bool _⟩
    · exact ⟨.bool true, .true_, .bool _⟩
  | str s q =>
    refine ⟨.str s true, ?_, .str ..⟩
    rw [scalar, if_pos ho]
    exact .str (plainStr_chars h)
  | int i t =>
    simp only [Writable] at h
    split at h
    · subst t
      exact ⟨_, .num (showInt_numeral env h.1 h.2), .int _ _ i rfl (intOf_intValue ..)⟩
    · rename_i hne
      obtain ⟨s, h1, h2⟩ := h
      refine ⟨s, .num ?_, h2⟩
      rw [scalar, Scalar.transformToString, if_neg (by simpa using hne)]
      · exact h1
      · simp
  | long i t =>
    simp only [Writable] at h
    split at h
    · subst t
      exact ⟨_, .num (showInt_numeral env h.1 h.2), .int _ _ i rfl (intOf_intValue ..)⟩
    · rename_i hne
      obtain ⟨s, h1, h2⟩ := h
      refine ⟨s, .num ?_, h2⟩
      rw [scalar, Scalar.transformToString, if_neg (by simpa using hne)]
      · exact h1
      · simp
  | double d t =>
    obtain ⟨s, h1, h2⟩ := h
    refine ⟨s, .num ?_, h2⟩
    rw [scalar, Scalar.transformToString]
    · simpa using h1
    · simp

theorem numeral_writable {env : Env} (hnan : NoNaN env) {t : Str} {s : Scalar} (h : Numeral env t s) :
    Writable env s := by
  have hint : ∀ i t, t ≠ [] → Numeral env t (intValue i t) → Writable env (intValue i t) := by
    intro i t hne h
    rw [intValue] at h ⊢
    split
    · rename_i hr
      rw [if_pos hr] at h
      simp only [Writable, if_neg hne]
      exact ⟨_, h, .int _ _ i rfl rfl⟩
    · rename_i hr
      rw [if_neg hr] at h
      simp only [Writable, if_neg hne]
      exact ⟨_, h, .int _ _ i rfl rfl⟩
  have h' := h
  cases h with
  | @int sg ds i hs hne hd hi h1 h2 => exact hint _ _ (by simp [hne]) h'
  | whole => exact hint _ _ (by simp) h'
  | @double c b d i hc hb hx hp h1 h2 =>
    refine ⟨.double d (c :: b), ?_, .double d d _ _ (hnan (c :: b) d ?_ hp)⟩
    · rw [if_neg (by simp)]; exact h'
    · intro x hx
      rcases List.mem_cons.1 hx with rfl | hx
      · rcases hc with rfl | hc
        · decide
        · have := hc.numberChar
          simpa [Tokenizer.numberChars] using this
      · exact hb x hx

/-- What a part has to satisfy for its text to be rendered again. -/
def PlainPart : JPart → Prop
  | .value v => PlainTree v
  | .elems vs => PlainTreeL vs
  | .members fs => PlainTreeF fs

/-- `Renderable` for parts. -/
def RenderablePart (env : Env) : JPart → Prop
  | .value v => Renderable env v
  | .elems vs => RenderableL env vs
  | .members fs => RenderableF env fs

theorem jtext_renderable {env : Env} (hnan : NoNaN env) {k : JPart} {t : Str} (h : JText env (Numeral env) k t)
    (hp : PlainPart k) : RenderablePart env k := by
  induction h with
  | null => trivial
  | true_ => trivial
  | false_ => trivial
  | num h => exact numeral_writable hnan h
  | str => exact hp
  | emptyArr => trivial
  | arr _ ih => exact ih hp
  | emptyObj => exact ⟨.nil, trivial⟩
  | obj _ hn ih => exact ⟨hn, ih hp⟩
  | elem _ _ _ ih => exact ⟨ih hp.1, trivial⟩
  | elemCons _ _ _ _ ih ih2 => exact ⟨ih hp.1, ih2 hp.2⟩
  | member _ _ _ _ _ _ ih => exact ⟨hp.1, ih hp.2.1, trivial⟩
  | memberCons _ _ _ _ _ _ _ ih ih2 => exact ⟨hp.1, ih hp.2.1, ih2 hp.2.2⟩

theorem jtext_mono {env : Env} {N M : Str → Scalar → Prop} (hNM : ∀ t s, N t s → M t s) {k : JPart} {t : Str}
    (h : JText env N k t) : JText env M k t := by
  induction h with
  | null => exact .null
  | true_ => exact .true_
  | false_ => exact .false_
  | num h => exact .num (hNM _ _ h)
  | str h => exact .str h
  | emptyArr h => exact .emptyArr h
  | arr _ ih => exact .arr ih
  | emptyObj h => exact .emptyObj h
  | obj _ hn ih => exact .obj ih hn
  | elem h1 _ h2 ih => exact .elem h1 ih h2
  | elemCons h1 _ h2 _ ih ih2 => exact .elemCons h1 ih h2 ih2
  | member h1 h2 h3 h4 _ h5 ih => exact .member h1 h2 h3 h4 ih h5
  | memberCons h1 h2 h3 h4 _ h5 _ ih ih2 => exact .memberCons h1 h2 h3 h4 ih h5 ih2

/-! ### Objects -/

/-- Position by position. -/
inductive All2 {α β : Type} (R : α → β → Prop) : List α → List β → Prop
  | nil : All2 R [] []
  | cons {a : α} {b : β} {as : List α} {bs : List β} : R a b → All2 R as bs → All2 R (a :: as) (b :: bs)

/-- A rendered entry is the text of a member. -/
def IsMember (env : Env) (e : Str × Str) (f : Str × Value) : Prop :=
  e.1 = f.1 ∧ ∃ kt w2 w3 t w4, e.2 = ('"' :: kt ++ ['"']) ++ w2 ++ ':' :: w3 ++ t ++ w4 ∧ JChars env kt f.1 ∧
    JWs w2 ∧ JWs w3 ∧ JText env (Numeral env) (.value f.2) t ∧ JWs w4

theorem all2_insert {R : Str × Str → Str × Value → Prop} {e : Str × Str} {f : Str × Value}
    {es : List (Str × Str)} {fs : List (Str × Value)} (h : R e f) (hs : All2 R es fs) :
    ∃ gs, All2 R (insert e es) gs ∧ gs.Perm (f :: fs) := by
  induction hs with
  | nil => exact ⟨[f], .cons h .nil, .refl _⟩
  | @cons a b as bs hab hs ih =>
    rw [insert]
    split
    · exact ⟨f :: b :: bs, .cons h (.cons hab hs), .refl _⟩
    · obtain ⟨gs, h1, h2⟩ := ih
      exact ⟨b :: gs, .cons hab h1, (h2.cons b).trans (.swap ..)⟩

theorem all2_sort {R : Str × Str → Str × Value → Prop} {es : List (Str × Str)} {fs : List (Str × Value)}
    (hs : All2 R es fs) : ∃ gs, All2 R (sort es) gs ∧ gs.Perm fs := by
  induction hs with
  | nil => exact ⟨[], .nil, .refl _⟩
  | @cons a b as bs hab hs ih =>
    obtain ⟨gs, h1, h2⟩ := ih
    obtain ⟨hs, h3, h4⟩ := all2_insert hab h1
    exact ⟨hs, h3, h4.trans (h2.cons b)⟩

/-- The separator after an entry. -/
def entrySep (o : Options) : Str := if o.formatted then (if o.json then ch ",\n" else ch "\n") else ch ","

theorem entrySep_length (o : Options) : (entrySep o).length = separatorCount o := by
  rcases o with ⟨f, j⟩
  cases f <;> cases j <;> rfl

theorem entries_json {env : Env} {o : Options} (ho : o.json = true) (ind : Nat) {es : List (Str × Str)}
    {fs : List (Str × Value)} (h : All2 (IsMember env) es fs) (hne : es ≠ []) :
    ∃ body, entriesText o ind es = body ++ entrySep o ∧ JText env (Numeral env) (.members fs) body := by
  induction h with
  | nil => exact absurd rfl hne
  | @cons e f es fs hef hs ih =>
    obtain ⟨k, t⟩ := e
    obtain ⟨k', v⟩ := f
    obtain ⟨rfl, kt, w2, w3, t', w4, rfl, hk, h2, h3, ht, h4⟩ := hef
    simp only at hk ht
    cases hs with
    | nil =>
      refine ⟨indent o ind ++ (('"' :: kt ++ ['"']) ++ w2 ++ ':' :: w3 ++ t' ++ w4), ?_, ?_⟩
      · rw [entriesText, entriesText, List.append_nil]; rfl
      · have := JText.member (jws_indent o ind) hk h2 h3 ht h4
        simpa using this
    | cons hab hs =>
      obtain ⟨body, hb1, hb2⟩ := ih (by simp)
      refine ⟨indent o ind ++ (('"' :: kt ++ ['"']) ++ w2 ++ ':' :: w3 ++ t' ++ w4) ++
        ',' :: ((if o.formatted then ch "\n" else []) ++ body), ?_, ?_⟩
      · rw [entriesText, hb1]
        simp only [entrySep, ho, if_true]
        cases o.formatted <;> simp
      · have := JText.memberCons (jws_indent o ind) hk h2 h3 ht h4 (members_pre (jws_opt_nl o) hb2)
        simpa using this

theorem all2_length {α β : Type} {R : α → β → Prop} {as : List α} {bs : List β} (h : All2 R as bs) :
    as.length = bs.length := by
  induction h with
  | nil => rfl
  | cons _ _ ih => simp [ih]

/-- Same key, equal values. -/
def SameEntry (env : Env) (f g : Str × Value) : Prop := f.1 = g.1 ∧ Same env f.2 g.2

theorem all2_keys {env : Env} {fs gs : List (Str × Value)} (h : All2 (SameEntry env) fs gs) :
    fs.map Prod.fst = gs.map Prod.fst := by
  induction h with
  | nil => rfl
  | cons h _ ih => simp [h.1, ih]

theorem nodup_unique {gs : List (Str × Value)} (hn : (gs.map Prod.fst).Nodup) {k : Str} {x y : Value}
    (hx : (k, x) ∈ gs) (hy : (k, y) ∈ gs) : x = y := by
  induction gs with
  | nil => cases hx
  | cons g gs ih =>
    have hn' := List.nodup_cons.1 hn
    rcases List.mem_cons.1 hx with rfl | hx
    · rcases List.mem_cons.1 hy with hy | hy
      · exact ((Prod.mk.inj hy).2).symm
      · exact absurd (List.mem_map_of_mem (f := Prod.fst) hy) hn'.1
    · rcases List.mem_cons.1 hy with rfl | hy
      · exact absurd (List.mem_map_of_mem (f := Prod.fst) (a := (k, x)) ‹(k, x) ∈ gs›) hn'.1
      · exact ih hn'.2 hx hy

theorem sameF_of {env : Env} {fs gs hs : List (Str × Value)} (h : All2 (SameEntry env) fs gs)
    (hsub : ∀ g ∈ gs, g ∈ hs) (hn : (hs.map Prod.fst).Nodup) : SameF env fs hs := by
  induction h with
  | nil => trivial
  | @cons f g fs gs hfg _ ih =>
    obtain ⟨k, x⟩ := f
    obtain ⟨k', y⟩ := g
    obtain ⟨rfl, hs'⟩ := hfg
    refine ⟨fun z hz => ?_, ih fun g hg => hsub g (.tail _ hg)⟩
    rw [← nodup_unique hn (hsub _ (.head _)) hz]
    exact hs'

theorem same_obj {env : Env} {fs gs hs : List (Str × Value)} {r i r' i' : Bool} (h : All2 (SameEntry env) fs gs)
    (hp : hs.Perm gs) (hn : (fs.map Prod.fst).Nodup) : Same env (.obj fs r i) (.obj hs r' i') := by
  have hk := all2_keys h
  refine ⟨fun k => ?_, sameF_of h (fun g hg => hp.mem_iff.2 hg) ?_⟩
  · rw [hk]; exact ((hp.map Prod.fst).mem_iff).symm
  · rw [(hp.map Prod.fst).nodup_iff, ← hk]; exact hn

theorem keyPrefix_json {o : Options} (ho : o.json = true) {k : Str} (hk : k ≠ []) (v : Value) :
    ∃ w2 w3, keyPrefix o k v = '"' :: k.flatMap escapeChar ++ ['"'] ++ w2 ++ ':' :: w3 ∧ JWs w2 ∧ JWs w3 := by
  rw [keyPrefix, if_neg (by simpa using hk), if_pos ho]
  cases o.formatted
  · exact ⟨[], [], by simp [renderJsonString], jws_nil, jws_nil⟩
  · exact ⟨ch " ", ch " ", by simp [renderJsonString], jws_sp, jws_sp⟩

mutual
theorem render_json {env : Env} {o : Options} (ho : o.json = true) : ∀ (v : Value), Renderable env v →
    ∀ ind root, ∃ t w v', render env o v ind root = t ++ w ∧ JWs w ∧ JText env (Numeral env) (.value v') t ∧
      Same env v v'
  | .scalar s, h, ind, root => by
    obtain ⟨s', h1, h2⟩ := scalar_json ho h
    exact ⟨_, [], _, (by rw [render, List.append_nil]), jws_nil, h1, by rw [Same]; exact h2⟩
  | .list [], _, ind, root =>
    ⟨ch "[]", [], .list [], by rw [render]; rfl, jws_nil, .emptyArr (w := []) jws_nil, by simp [Same, SameL]⟩
  | .list (v :: vs), h, ind, root => by
    rw [Renderable] at h
    obtain ⟨body, vs', h1, h2, h3⟩ := renderElems_json ho (v :: vs) h (by simp) ind root
    refine ⟨_, [], .list vs', (by rw [List.append_nil]), jws_nil, ?_, by rw [Same]; exact h3⟩
    rw [render, closeList, h1]
    cases hf : o.formatted
    · simp only [Bool.false_eq_true, if_false]
      rw [chop_append _ _ 1 rfl]
      exact .arr h2
    · simp only [if_true]
      rw [show body ++ ',' :: ch "\n" = (body ++ ch ",") ++ ch "\n" by simp, chop_append _ _ 1 rfl,
        chop_append _ _ 1 rfl]
      have : '[' :: ch "\n" ++ (body ++ '\n' :: indent o ind ++ [']'])
          = '[' :: (ch "\n" ++ (body ++ (ch "\n" ++ indent o ind))) ++ [']'] := by simp
      rw [this]
      exact .arr (elems_pre jws_nl (elems_post (jws_nl.append (jws_indent o ind)) h2))
  | .obj [] r i, _, ind, root => by
    refine ⟨ch "{}", rootNewline o root, .obj [] true false, by rw [render], ?_, .emptyObj (w := []) jws_nil,
      by simp [Same, SameF]⟩
    rw [rootNewline]
    split
    · exact jws_nl
    · exact jws_nil
  | .obj (f :: fs) r i, h, ind, root => by
    rw [Renderable] at h
    obtain ⟨hn, h⟩ := h
    obtain ⟨fs', h1, h2⟩ := renderFields_json ho (f :: fs) h (ind + 1)
    obtain ⟨gs, h3, h4⟩ := all2_sort h1
    have hne : sort (renderFields env o (f :: fs) (ind + 1)) ≠ [] := by
      intro he
      have := (sort_perm (renderFields env o (f :: fs) (ind + 1))).length_eq
      rw [he, all2_length h1, ← all2_length h2] at this
      simp at this
    obtain ⟨body, h5, h6⟩ := entries_json ho (ind + 1) h3 hne
    have hng : (gs.map Prod.fst).Nodup := by
      rw [(h4.map Prod.fst).nodup_iff, ← all2_keys h2]; exact hn
    refine ⟨_, rootNewline o root, .obj gs true false, by rw [render], ?_, ?_, same_obj h2 h4 hn⟩
    · rw [rootNewline]
      split
      · exact jws_nl
      · exact jws_nil
    · rw [objectText]
      simp only [ho, Bool.true_or, if_true]
      rw [h5, chop_append _ _ _ (entrySep_length o)]
      have : '{' :: (if o.formatted then ch "\n" else []) ++ body ++
          ((if o.formatted then '\n' :: indent o ind else []) ++ ['}'])
          = '{' :: ((if o.formatted then ch "\n" else []) ++ (body ++ (if o.formatted then '\n' :: indent o ind else [])))
            ++ ['}'] := by simp
      rw [this]
      refine .obj (members_pre (jws_opt_nl o) (members_post ?_ h6)) hng
      split
      · exact jws_nl.append (jws_indent o ind)
      · exact jws_nil
theorem renderElems_json {env : Env} {o : Options} (ho : o.json = true) : ∀ (vs : List Value), RenderableL env vs →
    vs ≠ [] → ∀ ind root, ∃ body vs', renderElems env o vs ind root
      = body ++ ',' :: (if o.formatted then ch "\n" else []) ∧ JText env (Numeral env) (.elems vs') body ∧
      SameL env vs vs'
  | [], _, hne, _, _ => absurd rfl hne
  | [v], h, _, ind, root => by
    rw [RenderableL] at h
    obtain ⟨t, w, v', h1, h2, h3, h4⟩ := render_json ho v h.1 (ind + 1) root
    refine ⟨indent o (ind + 1) ++ t ++ w, [v'], ?_, .elem (jws_indent o _) h3 h2, by simp [SameL, h4]⟩
    rw [renderElems, h1, renderElems]
    simp
  | v :: v2 :: vs, h, _, ind, root => by
    rw [RenderableL] at h
    obtain ⟨t, w, v', h1, h2, h3, h4⟩ := render_json ho v h.1 (ind + 1) root
    obtain ⟨body, vs', h5, h6, h7⟩ := renderElems_json ho (v2 :: vs) h.2 (by simp) ind root
    refine ⟨indent o (ind + 1) ++ t ++ w ++ ',' :: ((if o.formatted then ch "\n" else []) ++ body), v' :: vs', ?_,
      .elemCons (jws_indent o _) h3 h2 (elems_pre (jws_opt_nl o) h6), by rw [SameL]; exact ⟨h4, h7⟩⟩
    rw [renderElems, h1, h5]
    simp
theorem renderFields_json {env : Env} {o : Options} (ho : o.json = true) : ∀ (fs : List (Str × Value)),
    RenderableF env fs → ∀ ind, ∃ fs', All2 (IsMember env) (renderFields env o fs ind) fs' ∧
      All2 (SameEntry env) fs fs'
  | [], _, ind => ⟨[], by rw [renderFields]; exact .nil, .nil⟩
  | (k, v) :: fs, h, ind => by
    rw [RenderableF] at h
    obtain ⟨⟨hk, hpk⟩, hv, hfs⟩ := h
    obtain ⟨t, w, v', h1, h2, h3, h4⟩ := render_json ho v hv ind false
    obtain ⟨fs', h5, h6⟩ := renderFields_json ho fs hfs ind
    obtain ⟨w2, w3, hp, hw2, hw3⟩ := keyPrefix_json ho hk v
    refine ⟨(k, v') :: fs', ?_, .cons ⟨rfl, h4⟩ h6⟩
    have he : renderFields env o ((k, v) :: fs) ind
        = (k, keyPrefix o k v ++ render env o v ind false) :: renderFields env o fs ind := by
      cases v with
      | dm _ => exact absurd hv (by simp [Renderable])
      | dmo _ => exact absurd hv (by simp [Renderable])
      | _ => rw [renderFields] <;> simp
    rw [he, h1, hp]
    refine .cons ⟨rfl, _, w2, w3, t, w, ?_, plainStr_chars hpk, hw2, hw3, h3, h2⟩ h5
    simp
end

end Render
end Hocon
