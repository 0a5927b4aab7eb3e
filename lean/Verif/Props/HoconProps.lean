import Verif.Lemmas.HoconAccept
import Verif.Props.ConfigParserProps

/-!
# HOCON texts (C62)

`Spec.HDoc` (Verif/Spec/HoconText.lean) is a grammar of HOCON over characters together with the value a
text stands for.
-/

set_option autoImplicit false

namespace Hocon
namespace HoconProps

open Spec ConfigParser Value
open PathParser (Syntax)

/-- **C62.** Every HOCON text of the grammar is accepted and yields exactly the value it denotes, whatever
the includer; no reference objects are created. -/
theorem C62_hocon_accepted (env : Env) (hx : HexOk env) (inc : Includer) (v : Value) (t : Str) (n : Nat)
    (h : HDoc env (Numeral env) v t) : parseText env inc .conf t n = .ok (v, n) :=
  HoconAccept.hocon_accepted env hx inc v t n h

/-- **C62 (fields).** In the object that a text of fields denotes, one sees at every path what the last
assignment that has something there shows, unless a later value that is not an object hides it. -/
theorem C62_fields (env : Env) (hx : HexOk env) (as : List (Path × Value)) (t : Str)
    (h : HText env (Numeral env) (.members as) t) (q : Path) (hq : q ≠ []) :
    Through (layers as) q (look (assigned as) q) := by
  have has : ∀ a ∈ as, a.1 ≠ [] ∧ a.2.Plain :=
    HoconAccept.htext_plain hx h
  clear h
  suffices H : ∀ (as : List (Path × Value)) (fs : Fields) (below : List Value), PlainF fs →
      (∀ a ∈ as, a.1 ≠ [] ∧ a.2.Plain) → (∀ q, q ≠ [] → Through below q (look (newObj fs) q)) →
      ∀ q, q ≠ [] → Through (layers as ++ below) q (look (newObj (as.foldl assign fs)) q) by
    have := H as [] [] HoconParse.plainF_nil has (by
      intro q hq
      cases q with
      | nil => exact absurd rfl hq
      | cons k q =>
        have : look (newObj []) (k :: q) = none := by simp [look_cons, newObj, child_obj]
        rw [this]; exact .bottom _) q hq
    rw [List.append_nil] at this
    have e : look (assigned as) q = look (newObj (as.foldl assign [])) q := by
      cases q with
      | nil => exact absurd rfl hq
      | cons k q => simp only [look_cons, newObj, assigned, child_obj]
    rwa [e]
  intro as
  induction as with
  | nil => intro fs below _ _ hb; simpa [layers] using hb
  | cons a as ih =>
    intro fs below hf h hb q hq
    obtain ⟨p, v⟩ := a
    obtain ⟨h1, h2⟩ := h _ (.head _)
    obtain ⟨e, e'⟩ := HoconParse.putField_assign hf h2 h1
    have := ih _ (nest p v :: below) e' (fun b hb => h b (.tail _ hb)) (putField_layer hf h2 e below hb) q hq
    simpa [layers] using this

/-- A document with a comment, a section, words, a dotted key, both separators and a trailing comma. -/
example : HDoc Tokenizer.exEnv (Numeral Tokenizer.exEnv)
    (assigned [([ch "s"], assigned [([ch "h"], .scalar (.str (ch "my host") true))]),
      ([ch "s", ch "p q"], .list [.scalar (.int 80 (ch "80")), .scalar (.str (ch "x") false)])])
    (ch "# c\ns {\n h = my host\n}\ns.\"p q\" : [80\nx,], // end") := by
  have word : ∀ t, (t = ch "my" ∨ t = ch "host" ∨ t = ch "x") → Word t := by
    rintro t (rfl | rfl | rfl) <;>
    exact ⟨by decide, by unfold WordChar; decide, by decide, by decide, by unfold JDigit; decide, by decide, by decide, by decide⟩
  have bare : ∀ t : Str, (t = ch "s" ∨ t = ch "h") → t ≠ [] ∧ (∀ c ∈ t, WordChar c ∧ c ≠ '.' ∧ c ≠ '/') ∧
      WordStart t ∧ t ≠ ch "include" := by
    rintro t (rfl | rfl) <;>
    exact ⟨by decide, by unfold WordChar; decide, ⟨by unfold JDigit; decide, by decide, by decide, by decide⟩, by decide⟩
  have sp : ∀ {g}, HGap g → HGap (' ' :: g) := fun h => .blank (Or.inl rfl) h
  refine .openComma (g := ch "# c\n") (t := ch "s {\n h = my host\n}\ns.\"p q\" : [80\nx,]") (g1 := []) (l := ch " // end")
    (.hash (b := ch " c") (by decide) .nil) ?_ .nil (.slashes (g := ch " ") (b := ch " end") (sp .nil) (by decide))
  refine .memberCons (t := ch "s {\n h = my host\n}") (s := ch "\n") (u := ch "s.\"p q\" : [80\nx,]") ?_
    (.newline (.newline .nil) (by decide)) (.last ?_)
  · obtain ⟨h1, h2, h3, h4⟩ := bare (ch "s") (by simp)
    refine .sect (kt := ch "s") (g := ch " ") (t := ch "\n h = my host\n}") ⟨.bare h1 h2, h3, h4⟩ (sp .nil) ?_
    refine .obj (g := ch "\n ") (t := ch "h = my host") (e := ch "\n") (.newline (sp .nil)) (.last ?_) (.gap (.newline .nil))
    obtain ⟨h1, h2, h3, h4⟩ := bare (ch "h") (by simp)
    refine .field (kt := ch "h") (g1 := ch " ") (c := '=') (g2 := ch " ") (t := ch "my host") ⟨.bare h1 h2, h3, h4⟩ (sp .nil)
      (by decide) (sp .nil) ?_
    exact .words (x := ch "my") (t := ch "my") (w := ch " ") (y := ch "host") (u := ch "host") (.word (word _ (by simp)))
      (by decide) (by decide) (by unfold HBlank; decide) (.one (.word (word _ (by simp))) (by decide))
  · obtain ⟨h1, h2, _⟩ := bare (ch "s") (by simp)
    refine .field (kt := ch "s.\"p q\"") (g1 := ch " ") (c := ':') (g2 := ch " ") (t := ch "[80\nx,]")
      ⟨.bareCons (t := ch "s") h1 h2 (.quoted (k := ch "p q") (t := ch "p q") ?_), ⟨by unfold JDigit; decide, by decide, by decide, by decide⟩,
        by decide⟩ (sp .nil) (by decide) (sp .nil) ?_
    · exact .plain (by decide) (by decide) (by decide) (by decide) (.plain (by decide) (by decide) (by decide) (by decide)
        (.plain (by decide) (by decide) (by decide) (by decide) .nil))
    · refine .arr (g := []) (t := ch "80\nx") (e := ch ",") .nil ?_ (.comma (g1 := []) (g2 := []) .nil .nil)
      refine .elemCons (t := ch "80") (s := ch "\n") (u := ch "x") (.atom (.num ?_)) (.newline (.newline .nil) (by decide))
        (.elem (.atom (.word (word _ (by simp)))))
      exact .int (sg := []) (ds := ch "80") (i := 80) (Or.inl rfl) (by decide) (by unfold JDigit; decide) (by decide) (by decide)
        (by decide)

end HoconProps
end Hocon
