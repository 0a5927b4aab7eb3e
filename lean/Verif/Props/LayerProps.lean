import Verif.Spec.Layers
import Verif.Props.HoconProps

/-!
# Earlier text and fallbacks (C87)
-/

set_option autoImplicit false

namespace Hocon
namespace LayerProps

open Spec Value HoconParse ConfigParser

/-! ## Texts one after the other -/

theorem gap_append {a b : Str} (ha : HGap a) (hb : HGap b) : HGap (a ++ b) := by
  induction ha with
  | nil => exact hb
  | blank h _ ih => exact .blank h ih
  | newline _ ih => exact .newline ih
  | hash h _ ih => simpa using HGap.hash h ih
  | slashes h _ ih => simpa using HGap.slashes h ih

theorem last_newline {l g : Str} (hl : HLast l) (hg : HGap g) : HGap (l ++ '\n' :: g) := by
  cases hl with
  | gap h => exact gap_append h (.newline hg)
  | hash h hb => simpa using gap_append h (HGap.hash hb hg)
  | slashes h hb => simpa using gap_append h (HGap.slashes hb hg)

theorem members_append {env : Env} {N : Str → Scalar → Prop} {as bs : List (Path × Value)} {t s u : Str}
    (h : HText env N (.members as) t) (hs : HSep s) (hu : HText env N (.members bs) u) :
    HText env N (.members (as ++ bs)) (t ++ s ++ u) := by
  generalize hp : HPart.members as = p at h
  induction h generalizing as with
  | last h _ =>
    cases hp
    exact .memberCons h hs hu
  | @memberCons t s' u' p v as' h1 h2 _ _ ih =>
    cases hp
    have := ih rfl
    have := HText.memberCons h1 h2 this
    simpa using this
  | _ => cases hp

theorem last_append {l l' : Str} (hl : HLast l) (hl' : HLast l') : HLast (l ++ '\n' :: l') := by
  cases hl' with
  | gap h => exact .gap (last_newline hl h)
  | hash h hb => simpa using HLast.hash (last_newline hl h) hb
  | slashes h hb => simpa using HLast.slashes (last_newline hl h) hb

theorem fields_append {env : Env} {N : Str → Scalar → Prop} {as bs : List (Path × Value)} {t u : Str}
    (ht : HFields env N as t) (hu : HFields env N bs u) : HFields env N (as ++ bs) (t ++ '\n' :: u) := by
  cases ht with
  | empty hl =>
    cases hu with
    | empty hl' => exact .empty (last_append hl hl')
    | fields hg hm hl' => simpa using HFields.fields (last_newline hl hg) hm hl'
    | comma hg hm hg1 hl' => simpa using HFields.comma (last_newline hl hg) hm hg1 hl'
  | fields hg hm hl =>
    cases hu with
    | empty hl' => simpa using HFields.fields hg hm (last_append hl hl')
    | fields hg' hm' hl' =>
      simpa using HFields.fields hg (members_append hm (.newline (last_newline hl hg') (by simp)) hm') hl'
    | comma hg' hm' hg1 hl' =>
      simpa using HFields.comma hg (members_append hm (.newline (last_newline hl hg') (by simp)) hm') hg1 hl'
  | comma hg hm hg1 hl =>
    cases hu with
    | empty hl' => simpa using HFields.comma hg hm hg1 (last_append hl hl')
    | fields hg' hm' hl' =>
      simpa using HFields.fields hg (members_append hm (.comma hg1 (last_newline hl hg')) hm') hl'
    | comma hg' hm' hg2 hl' =>
      simpa using HFields.comma hg (members_append hm (.comma hg1 (last_newline hl hg')) hm') hg2 hl'

theorem fields_doc {env : Env} {N : Str → Scalar → Prop} {as : List (Path × Value)} {t : Str}
    (h : HFields env N as t) : HDoc env N (assigned as) t := by
  cases h with
  | empty h => exact .empty h
  | fields h1 h2 h3 => exact .open_ h1 h2 h3
  | comma h1 h2 h3 h4 => exact .openComma h1 h2 h3 h4

theorem fields_plain {env : Env} (hx : HexOk env) {as : List (Path × Value)} {t : Str}
    (h : HFields env (Numeral env) as t) : ∀ a ∈ as, a.1 ≠ [] ∧ a.2.Plain := by
  cases h with
  | empty h => simp
  | fields h1 h2 h3 => exact HoconAccept.htext_plain hx h2
  | comma h1 h2 h3 h4 => exact HoconAccept.htext_plain hx h2

/-! ## Fields put over fields -/

/-- The merged fields. -/
def mrg (fs gs : Fields) : Fields := pmergeF fs gs ++ extraFields (keysOf fs) gs

/-- What is found in merged fields. -/
def both : Option Value → Option Value → Option Value
  | some v, some w => some (pmerge v w)
  | some v, none => some v
  | none, x => x

theorem findKey_mrg (fs gs : Fields) (k : Str) : findKey (mrg fs gs) k = both (findKey fs k) (findKey gs k) := by
  rw [mrg, findKey_append, findKey_pmergeF, findKey_extra]
  cases h1 : findKey fs k with
  | none =>
    have h2 : k ∉ keysOf fs := findKey_none.1 h1
    simp [h2, both]
  | some v => cases findKey gs k <;> simp [both]

theorem mrg_assoc (fs gs hs : Fields) (hg : PlainF gs) (hh : PlainF hs) : mrg (mrg fs gs) hs = mrg fs (mrg gs hs) := by
  have := pmerge_assoc (.obj fs true false) (.obj gs true false) (.obj hs true false) (plain_obj.2 ⟨rfl, hg⟩) (plain_obj.2 ⟨rfl, hh⟩)
  simp only [pmerge_obj] at this
  simpa [mrg] using this

theorem findKey_assign (fs : Fields) (k : Str) (p : Path) (v : Value) (k' : Str) :
    findKey (assign fs (k :: p, v)) k' = findKey (mrg [(k, under p v)] fs) k' := by
  rw [findKey_mrg, assign]
  cases hfk : findKey fs k with
  | none =>
    rw [setField_new _ _ _ hfk, findKey_putKey]
    by_cases h : k = k'
    · subst h
      simp [findKey, hfk, both]
    · simp [findKey, h, both]
  | some old =>
    rw [setField_old _ _ _ _ hfk, findKey_putKey, over_eq]
    by_cases h : k = k'
    · subst h
      simp [findKey, hfk, both]
    · simp [findKey, h, both]

theorem foldl_mrg (fs : Fields) (hf : PlainF fs) : (as : List (Path × Value)) → (∀ a ∈ as, a.1 ≠ [] ∧ a.2.Plain) →
    ∀ k, findKey (as.foldl assign fs) k = findKey (mrg (as.foldl assign []) fs) k := by
  intro as
  obtain ⟨bs, rfl⟩ : ∃ bs : List (Path × Value), as = bs.reverse := ⟨as.reverse, by simp⟩
  induction bs with
  | nil =>
    intro _ k
    rw [findKey_mrg]
    simp [findKey, both]
  | cons a bs ih =>
    rw [List.reverse_cons]
    generalize bs.reverse = as at ih ⊢
    intro h k
    have h' : ∀ b ∈ as, b.1 ≠ [] ∧ b.2.Plain := fun b hb => h b (by simp [hb])
    obtain ⟨p, v⟩ := a
    obtain ⟨hp, hv⟩ := h (p, v) (by simp)
    cases p with
    | nil => exact absurd rfl hp
    | cons k0 p =>
      have hA := assign_plainF as [] plainF_nil h'
      rw [List.foldl_append, List.foldl_append]
      simp only [List.foldl_cons, List.foldl_nil]
      rw [findKey_assign, findKey_mrg, ih h' k, ← findKey_mrg, ← mrg_assoc _ _ _ hA hf, findKey_mrg, findKey_mrg (assign _ _),
        findKey_assign]

theorem perm_of_findKey {fs gs : Fields} (hf : (keysOf fs).Nodup) (hg : (keysOf gs).Nodup)
    (h : ∀ k, findKey fs k = findKey gs k) : fs.Perm gs := by
  have nd : ∀ {l : Fields}, (keysOf l).Nodup → l.Nodup := fun h => List.Nodup.of_map Prod.fst h
  refine (List.perm_ext_iff_of_nodup (nd hf) (nd hg)).2 ?_
  rintro ⟨k, v⟩
  exact ⟨fun hm => findKey_mem ((h k) ▸ findKey_of_mem hf hm), fun hm => findKey_mem ((h k).symm ▸ findKey_of_mem hg hm)⟩

theorem mrg_plain {fs gs : Fields} (hf : PlainF fs) (hg : PlainF gs) : PlainF (mrg fs gs) := by
  have := Plain.merge (plain_obj.2 ⟨rfl, hf⟩ : (Value.obj fs true false).Plain) (plain_obj.2 ⟨rfl, hg⟩ : (Value.obj gs true false).Plain)
  rw [pmerge_obj] at this
  exact (plain_obj.1 this).2

theorem fallback_fields {fs gs : Fields} (hf : PlainF fs) (hg : PlainF gs) :
    configWithFallback (.obj fs true false) (.obj gs true false) = .ok (.obj (mrg fs gs) true false) := by
  rw [configWithFallback, (withFallback_plain _ _ (plain_obj.2 ⟨rfl, hf⟩) (plain_obj.2 ⟨rfl, hg⟩)).1, Res.ok_bind, pmerge_obj]
  rfl

/-- `a.with_fallback(b).with_fallback(c)...`. -/
def chain (a : Value) : List Value → Res Value
  | [] => .ok a
  | b :: bs => configWithFallback a b >>= fun c => chain c bs

theorem chain_fields : (rest : List (List (Path × Value))) → (G : Fields) → (bs : List (Path × Value)) → PlainF G →
    (∀ a ∈ bs, a.1 ≠ [] ∧ a.2.Plain) → (∀ as ∈ rest, ∀ a ∈ as, a.1 ≠ [] ∧ a.2.Plain) →
    (∀ k, findKey G k = findKey (bs.foldl assign []) k) →
    ∃ G', chain (.obj G true false) (rest.map assigned) = .ok (.obj G' true false) ∧ PlainF G' ∧
      ∀ k, findKey G' k = findKey ((rest.reverse.flatten ++ bs).foldl assign []) k
  | [], G, bs, hG, _, _, h => ⟨G, rfl, hG, by simpa using h⟩
  | as :: rest, G, bs, hG, hbs, hr, h => by
    have has : ∀ a ∈ as, a.1 ≠ [] ∧ a.2.Plain := hr as (by simp)
    have hA := assign_plainF as [] plainF_nil has
    obtain ⟨G', h1, h2, h3⟩ := chain_fields rest (mrg G (as.foldl assign [])) (as ++ bs) (mrg_plain hG hA)
      (by intro a ha; rcases List.mem_append.1 ha with ha | ha <;> [exact has a ha; exact hbs a ha])
      (fun x hx => hr x (by simp [hx])) (by
        intro k
        rw [List.foldl_append, foldl_mrg _ hA bs hbs, findKey_mrg, findKey_mrg, h k])
    refine ⟨G', ?_, h2, ?_⟩
    · rw [List.map_cons, chain, assigned, fallback_fields hG hA, Res.ok_bind]
      exact h1
    · intro k
      rw [h3 k]
      simp

theorem stacked_fields {env : Env} {N : Str → Scalar → Prop} : (ds : List (List (Path × Value) × Str)) → ds ≠ [] →
    (∀ d ∈ ds, HFields env N d.1 d.2) → HFields env N (ds.map Prod.fst).flatten (stacked (ds.map Prod.snd))
  | [], h, _ => absurd rfl h
  | [d], _, h => by simpa [stacked] using h d (by simp)
  | d :: e :: ds, _, h => by
    have := fields_append (h d (by simp)) (stacked_fields (e :: ds) (by simp) (fun x hx => h x (by simp_all)))
    simpa [stacked] using this

/-! ## C87 -/

/-- **C87.** Texts of fields, one after the other in one document, give the same configuration as parsing each
of them and giving the earlier ones as fallbacks to the later ones: the same keys with the same values. -/
theorem C87_earlier_is_fallback (env : Env) (hx : HexOk env) (inc : Includer) (as bs : List (Path × Value)) (t u : Str)
    (ht : HFields env (Numeral env) as t) (hu : HFields env (Numeral env) bs u) (n : Nat) :
    ∃ a b fs gs, parseText env inc .conf t n = .ok (a, n) ∧ parseText env inc .conf u n = .ok (b, n) ∧
      parseText env inc .conf (t ++ '\n' :: u) n = .ok (.obj fs true false, n) ∧
      configWithFallback b a = .ok (.obj gs true false) ∧ fs.Perm gs := by
  have ha := fields_plain hx ht
  have hb := fields_plain hx hu
  have hA := assign_plainF as [] plainF_nil ha
  have hB := assign_plainF bs [] plainF_nil hb
  refine ⟨assigned as, assigned bs, _, _, HoconAccept.hocon_accepted env hx inc _ _ n (fields_doc ht),
    HoconAccept.hocon_accepted env hx inc _ _ n (fields_doc hu),
    HoconAccept.hocon_accepted env hx inc _ _ n (fields_doc (fields_append ht hu)), fallback_fields hB hA, ?_⟩
  refine perm_of_findKey (assign_plainF (as ++ bs) [] plainF_nil ?_).nodup (mrg_plain hB hA).nodup ?_
  · intro a h
    rcases List.mem_append.1 h with h | h
    · exact ha a h
    · exact hb a h
  · intro k
    rw [List.foldl_append]
    exact foldl_mrg _ hA bs hb k

/-- **C87.** The same for any number of texts, the last with all earlier ones as fallbacks, the nearest first. -/
theorem C87_many (env : Env) (hx : HexOk env) (inc : Includer) (d : List (Path × Value) × Str)
    (ds : List (List (Path × Value) × Str)) (h : ∀ e ∈ d :: ds, HFields env (Numeral env) e.1 e.2) (n : Nat) :
    ∃ (c : Value) (cs : List Value) (fs gs : Fields),
      (d :: ds).map (fun e => parseText env inc .conf e.2 n) = (c :: cs).map (fun c => .ok (c, n)) ∧
      parseText env inc .conf (stacked ((d :: ds).reverse.map Prod.snd)) n = .ok (.obj fs true false, n) ∧
      chain c cs = .ok (.obj gs true false) ∧ fs.Perm gs := by
  have hd : ∀ e ∈ d :: ds, ∀ a ∈ e.1, a.1 ≠ [] ∧ a.2.Plain := fun e he => fields_plain hx (h e he)
  have hD := assign_plainF d.1 [] plainF_nil (hd d (by simp))
  obtain ⟨G, h1, h2, h3⟩ := chain_fields (ds.map Prod.fst) (d.1.foldl assign []) d.1 hD (hd d (by simp))
    (by intro x hx; obtain ⟨e, he, rfl⟩ := List.mem_map.1 hx; exact hd e (by simp [he])) (fun _ => rfl)
  refine ⟨assigned d.1, (ds.map Prod.fst).map assigned, _, G, ?_,
    HoconAccept.hocon_accepted env hx inc _ _ n (fields_doc (stacked_fields (d :: ds).reverse (by simp)
      (fun x hx => h x (List.mem_reverse.1 hx)))), h1, ?_⟩
  · rw [show assigned d.1 :: (ds.map Prod.fst).map assigned = (d :: ds).map fun e => assigned e.1 by simp, List.map_map]
    exact List.map_congr_left fun e he => HoconAccept.hocon_accepted env hx inc _ _ n (fields_doc (h e he))
  · refine perm_of_findKey (assign_plainF _ [] plainF_nil ?_).nodup h2.nodup ?_
    · intro a ha
      obtain ⟨l, hl, ha⟩ := List.mem_flatten.1 ha
      obtain ⟨e, he, rfl⟩ := List.mem_map.1 hl
      exact hd e (List.mem_reverse.1 he) a ha
    · intro k
      rw [h3 k]
      simp

/-- Two texts with a common section and a comment at the end of the first. -/
example : HFields Tokenizer.exEnv (Numeral Tokenizer.exEnv) [([ch "s"], assigned [([ch "h"], .scalar (.str (ch "x") false))])]
      (ch "s { h = x } # c") ∧
    HFields Tokenizer.exEnv (Numeral Tokenizer.exEnv) [([ch "s", ch "h"], .scalar (.str (ch "y") false))] (ch "s.h : y,") := by
  have word : ∀ t, (t = ch "x" ∨ t = ch "y") → Word t := by
    rintro t (rfl | rfl) <;>
    exact ⟨by decide, by unfold WordChar; decide, by decide, by decide, by unfold JDigit; decide, by decide, by decide, by decide⟩
  have bare : ∀ t : Str, (t = ch "s" ∨ t = ch "h") → t ≠ [] ∧ (∀ c ∈ t, WordChar c ∧ c ≠ '.' ∧ c ≠ '/') ∧
      WordStart t ∧ t ≠ ch "include" := by
    rintro t (rfl | rfl) <;>
    exact ⟨by decide, by unfold WordChar; decide, ⟨by unfold JDigit; decide, by decide, by decide, by decide⟩, by decide⟩
  have sp : ∀ {g}, HGap g → HGap (' ' :: g) := fun h => .blank (Or.inl rfl) h
  obtain ⟨s1, s2, s3, s4⟩ := bare (ch "s") (by simp)
  obtain ⟨h1, h2, h3, h4⟩ := bare (ch "h") (by simp)
  constructor
  · refine .fields (g := []) (t := ch "s { h = x }") (l := ch " # c") .nil (.last ?_)
      (.hash (g := ch " ") (b := ch " c") (sp .nil) (by decide))
    refine .sect (kt := ch "s") (g := ch " ") (t := ch " h = x }") ⟨.bare s1 s2, s3, s4⟩ (sp .nil) ?_
    refine .obj (g := ch " ") (t := ch "h = x") (e := ch " ") (sp .nil) (.last ?_) (.gap (sp .nil))
    exact .field (kt := ch "h") (g1 := ch " ") (c := '=') (g2 := ch " ") (t := ch "x") ⟨.bare h1 h2, h3, h4⟩ (sp .nil)
      (by decide) (sp .nil) (.atom (.word (word _ (by simp))))
  · refine .comma (g := []) (t := ch "s.h : y") (g1 := []) (l := []) .nil (.last ?_) .nil (.gap .nil)
    exact .field (kt := ch "s.h") (g1 := ch " ") (c := ':') (g2 := ch " ") (t := ch "y")
      ⟨.bareCons (t := ch "s") s1 s2 (.bare h1 h2), ⟨by unfold JDigit; decide, by decide, by decide, by decide⟩, by decide⟩
      (sp .nil) (by decide) (sp .nil) (.atom (.word (word _ (by simp))))

end LayerProps
end Hocon
