import Verif.Include
import Verif.Lemmas.ConfigParserTotal
import Verif.Lemmas.DocParserWf
import Verif.Props.DocParserProps

/-!
# Totality of parsing texts and files into values
-/

set_option autoImplicit false

namespace Hocon

namespace DocParser
open PathParser (Syntax)

theorem parseEnd_complex {fl : Syntax} {mc : Bool} {cs : List Node} {toks : List Tok}
    {ns : List Node} (h : parseEnd fl mc cs toks = .ok ns)
    (hc : mc = false → ∃ c ∈ cs, c.isComplex = true) : ∃ c ∈ ns, c.isComplex = true := by
  unfold parseEnd at h
  rw [Res.bind_eq_ok] at h
  obtain ⟨⟨ws, t, ts⟩, _, h⟩ := h
  simp only at h
  split at h
  · simp only [Res.ok.injEq] at h
    subst h
    cases mc with
    | false =>
      obtain ⟨c, h1, h2⟩ := hc rfl
      exact ⟨c, by simp [h1], h2⟩
    | true => exact ⟨_, List.mem_singleton.2 rfl, rfl⟩
  · cases h

theorem parseValue_complex {env : Env} {fl : Syntax} {fuel : Nat} {t : Tok} {toks toks' : List Tok}
    {v : Node} (ht : t = .openCurly ∨ t = .openSquare)
    (h : parseValue env fl fuel t toks = .ok (v, toks')) : v.isComplex = true := by
  cases fuel with
  | zero => simp [parseValue] at h
  | succ fuel =>
    rcases ht with rfl | rfl
    · rw [parseValue, Res.bind_eq_ok] at h
      obtain ⟨⟨ns, ts⟩, _, h⟩ := h
      simp only [Res.ok.injEq, Prod.mk.injEq] at h
      rw [← h.1]
      rfl
    · rw [parseValue] at h
      cases fuel with
      | zero => simp [parseArray] at h
      | succ fuel =>
        rw [parseArray, Res.bind_eq_ok] at h
        obtain ⟨⟨ws, o, ts⟩, _, h⟩ := h
        cases o with
        | some w =>
          simp only [Res.bind_eq_ok] at h
          obtain ⟨⟨ns, ts2⟩, _, h⟩ := h
          simp only [Res.ok.injEq, Prod.mk.injEq] at h
          rw [← h.1]
          rfl
        | none =>
          simp only [Res.bind_eq_ok] at h
          obtain ⟨⟨ws2, t, ts2⟩, _, h⟩ := h
          simp only at h
          split at h
          · simp only [Res.ok.injEq, Prod.mk.injEq] at h
            rw [← h.1]
            rfl
          · split at h
            · simp only [Res.bind_eq_ok] at h
              obtain ⟨⟨w, ts3⟩, _, ⟨ns, ts4⟩, _, h⟩ := h
              simp only [Res.ok.injEq, Prod.mk.injEq] at h
              rw [← h.1]
              rfl
            · cases h

/-- A parsed document contains a complex value (the root value). -/
theorem parse_complex {env : Env} {fl : Syntax} {toks : List Tok} {ns : List Node}
    (h : parse env fl toks = .ok ns) : ∃ c ∈ ns, c.isComplex = true := by
  unfold parse at h
  rw [Res.bind_eq_ok] at h
  obtain ⟨⟨t, toks1⟩, _, h⟩ := h
  simp only at h
  split at h
  · rw [Res.bind_eq_ok] at h
    obtain ⟨⟨ws, t, toks2⟩, h1, h⟩ := h
    simp only at h
    split at h
    · rw [Res.bind_eq_ok] at h
      obtain ⟨⟨v, toks3⟩, h2, h⟩ := h
      exact parseEnd_complex h fun _ => ⟨v, by simp, parseValue_complex (.inl rfl) h2⟩
    · rw [Res.bind_eq_ok] at h
      obtain ⟨⟨v, toks3⟩, h2, h⟩ := h
      exact parseEnd_complex h fun _ => ⟨v, by simp, parseValue_complex (.inr rfl) h2⟩
    · split at h
      · simp at h
      · rw [Res.bind_eq_ok] at h
        obtain ⟨⟨ns1, toks3⟩, h2, h⟩ := h
        exact parseEnd_complex h (by simp)
  · simp at h

theorem parseDocument_wf {env : Env} {fl : Syntax} {s : Str} {ns : List Node}
    (h : parseDocument env fl s = .ok ns) :
    DocEdit.WfList fl ns ∧ ∃ c ∈ ns, c.isComplex = true := by
  unfold parseDocument at h
  rw [Res.bind_eq_ok] at h
  obtain ⟨toks, _, h⟩ := h
  exact ⟨DocEdit.parse_wf h, parse_complex h⟩

end DocParser

namespace ConfigParser
open Value DocParser PathParser

mutual
/-- An include statement of the tree. -/
def hasIncl (kind : IncludeKind) (cs : List Node) : Node → Prop
  | .field ns => hasInclL kind cs ns
  | .concat ns => hasInclL kind cs ns
  | .object ns => hasInclL kind cs ns
  | .array ns => hasInclL kind cs ns
  | .incl ns k => k = kind ∧ ns = cs
  | _ => False
/-- An include statement in one of the trees. -/
def hasInclL (kind : IncludeKind) (cs : List Node) : List Node → Prop
  | [] => False
  | n :: ns => hasIncl kind cs n ∨ hasInclL kind cs ns
end

mutual
theorem sound_of {bad : Prop} {fl : Syntax} {Q : IncludeKind → List Node → Prop} : (n : Node) →
    (bad ∨ DocEdit.WfNode fl n) → (∀ kind cs, hasIncl kind cs n → Q kind cs) → Sound bad Q n
  | .field cs, hw, h => by
    rw [Sound]
    rw [DocEdit.WfNode] at hw
    exact ⟨hw.imp_right And.left, soundL_of cs (hw.imp_right fun h => h.2.2) fun k c hc => h k c hc⟩
  | .concat cs, hw, h => by
    rw [Sound]
    rw [DocEdit.WfNode] at hw
    exact ⟨hw.imp_right And.left, soundL_of cs (hw.imp_right And.right) fun k c hc => h k c hc⟩
  | .object cs, hw, h => by
    rw [Sound]
    rw [DocEdit.WfNode] at hw
    exact soundL_of cs (hw.imp_right fun h => h.2.2) fun k c hc => h k c hc
  | .array cs, hw, h => by
    rw [Sound]
    rw [DocEdit.WfNode] at hw
    exact soundL_of cs hw fun k c hc => h k c hc
  | .incl cs kind, _, h => by
    rw [Sound]
    exact h kind cs ⟨rfl, rfl⟩
  | .single _, _, _ | .comment _, _, _ | .path .., _, _ | .simple _, _, _ => trivial
theorem soundL_of {bad : Prop} {fl : Syntax} {Q : IncludeKind → List Node → Prop} :
    (ns : List Node) → (bad ∨ DocEdit.WfList fl ns) → (∀ kind cs, hasInclL kind cs ns → Q kind cs) →
    SoundL bad Q ns
  | [], _, _ => trivial
  | n :: ns, hw, h => by
    rw [DocEdit.WfList] at hw
    exact ⟨sound_of n (hw.imp_right And.left) fun k c hc => h k c (.inl hc),
      soundL_of ns (hw.imp_right And.right) fun k c hc => h k c (.inr hc)⟩
end

theorem parseText_sat (bad : Prop) (env : Env) (inc : Includer) (fl : Syntax) (s : Str) (n : Nat)
    (hd : parseDocument env fl s = .ub → bad)
    (hi : ∀ ns, parseDocument env fl s = .ok ns → ∀ kind cs, hasInclL kind cs ns →
      IncSat bad env inc kind cs) :
    (parseText env inc fl s n).Sat bad (fun _ => True) := by
  unfold parseText
  have h1 : (parseDocument env fl s).Sat bad (fun _ => True) := by
    cases h : parseDocument env fl s with
    | ok _ => trivial
    | err _ => trivial
    | ub => exact hd h
    | fuel => exact C48_parse_terminates env fl s h
  refine h1.bind fun ns hns _ => ?_
  obtain ⟨hw, hc⟩ := parseDocument_wf hns
  refine (parseRoot_sat bad env inc _ ns none n
    (soundL_of ns (.inr hw) (hi ns hns))).bind ?_
  rintro ⟨o, m⟩ _ ho
  cases o with
  | none => exact absurd rfl (ho (.inr hc))
  | some v => trivial

end ConfigParser

namespace Files
open Value PathParser ConfigParser DocParser

theorem forceObject_sat (bad : Prop) (v : Value) :
    (forceObject v).Sat bad (fun w => w.isObject = true) := by
  unfold forceObject
  split
  · assumption
  · split <;> trivial

theorem tryParse_sat {α : Type} {bad : Prop} {P : α → Prop} {r : Res α} (h : r.Sat bad P) :
    (tryParse r).Sat bad (fun o => ∀ a, o = some a → P a) := by
  cases r with
  | ok a => rintro b ⟨⟩; exact h
  | err e =>
    rw [tryParse]
    split
    · rintro b ⟨⟩
    · trivial
  | ub => exact h
  | fuel => exact h

theorem mergeFound_sat {bad : Prop} {s : SyntaxOpt} {am : Bool} {conf json : Nat → Res (Value × Nat)}
    (hc : ∀ n, (conf n).Sat bad (fun x => x.1.isObject = true))
    (hj : ∀ n, (json n).Sat bad (fun x => x.1.isObject = true)) (n : Nat) :
    (mergeFound s am conf json n).Sat bad (fun x => x.1.isObject = true) := by
  unfold mergeFound
  refine Res.Sat.bind (P := fun c => ∀ a, c = some a → a.1.isObject = true) ?_ fun c _ h1 => ?_
  · split
    · exact tryParse_sat (hc n)
    · rintro a ⟨⟩
  · have hb : (c.getD (Value.empty, n)).1.isObject = true := by
      cases c with
      | none => rfl
      | some a => exact h1 a rfl
    generalize c.getD (Value.empty, n) = q at hb
    obtain ⟨base, m⟩ := q
    simp only at hb ⊢
    refine Res.Sat.bind (P := fun c => ∀ a, c = some a → a.1.isObject = true) ?_ fun j _ h2 => ?_
    · split
      · refine tryParse_sat ((hj m).bind ?_)
        rintro ⟨v, k⟩ _ _
        exact (withFallback_sat bad base v).bind fun w _ hw => hw.2 hb
      · rintro a ⟨⟩
    · split
      · trivial
      · cases j with
        | none => exact hb
        | some a => exact h2 a rfl

/-- The files an include of `name` in a file of the directory `dir` may read. -/
def targets (dir name : Str) : List Str :=
  if syntaxFromExtension name ≠ .unspecified then [relativeTo dir name]
  else [name ++ ch ".conf", name ++ ch ".json"]

theorem includeName_sat {bad : Prop} {load : Loader} {dir name : Str}
    (h : ∀ f ∈ targets dir name, ∀ s n, (load f s n).Sat bad (fun x => x.1.isObject = true))
    (n : Nat) : (Files.includeName load dir name n).Sat bad (fun x => x.1.isObject = true) := by
  unfold Files.includeName
  unfold targets at h
  split
  · rename_i hs
    rw [if_pos hs] at h
    exact h _ (by simp) _ _
  · rename_i hs
    rw [if_neg hs] at h
    exact mergeFound_sat (fun n => h _ (by simp) _ n) (fun n => h _ (by simp) _ n) n

theorem includer_sat {bad : Prop} {env : Env} {load : Loader} {res : Value → Res Value} {dir : Str}
    {kind : IncludeKind} {cs : List Node}
    (hr : ∀ v, v.isObject = true → (res v).Sat bad (fun w => bad ∨ w.isObject = true))
    (h : ∀ n name m, ConfigParser.includeName env cs n = .ok (name, m) →
      ∀ f ∈ targets dir name, ∀ s n, (load f s n).Sat bad (fun x => x.1.isObject = true)) :
    IncSat bad env (includer load res dir) kind cs := by
  intro n
  unfold callIncluder
  split
  · refine (ConfigParser.includeName_sat bad env cs n).bind ?_
    rintro ⟨name, m⟩ hn _
    refine (includeName_sat (h n name m hn) m).bind ?_
    rintro ⟨v, k⟩ _ hv
    exact (hr v hv).bind fun w _ hw => hw
  · refine (ConfigParser.includeName_sat bad env cs n).bind ?_
    rintro ⟨name, m⟩ hn _
    exact (includeName_sat (h n name m hn) m).mono fun x _ hx => .inr hx
  · trivial
  · trivial

end Files
end Hocon
