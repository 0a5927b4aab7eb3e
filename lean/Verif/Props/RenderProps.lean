import Verif.Lemmas.RenderJson
import Verif.Lemmas.RenderOrder
import Verif.Lemmas.JsonAccept
import Verif.Lemmas.RenderParsed

/-!
# Rendering (C23, C47, C61, C63)

`Spec.Renderable` (Verif/Spec/RenderText.lean) is the set of resolved values over the supported
alphabet, `Spec.Same` structural equality, `Spec.sepBy` a list of pieces with separators between
neighbours and `Spec.Reordered` equality up to the order of fields.
-/

set_option autoImplicit false

namespace Hocon
namespace RenderProps

open Spec Render ConfigParser
open PathParser (Syntax)

/-- **C23.** A resolved object or list, rendered as JSON (formatted or not, without comments), is read
back in JSON mode and as HOCON, and the value read is equal to the one rendered. -/
theorem C23_json_roundtrip (env : Env) (hx : HexOk env) (inc : Includer) (fl : Syntax) (o : Options)
    (ho : o.json = true) (v : Value) (hv : Renderable env v) (hroot : ∀ s, v ≠ .scalar s) (n : Nat) :
    ∃ v', parseText env inc fl (renderValue env o v) n = .ok (v', n) ∧ Same env v v' := by
  obtain ⟨t, w, v', h1, h2, h3, h4⟩ := render_json ho v hv 0 true
  refine ⟨v', ?_, h4⟩
  rw [renderValue, h1]
  refine JsonAccept.json_accepted env (JsonLex.numeral_lex env) hx inc fl v' [] t w n (by simp [JWs]) h3 h2 ?_
  cases h3 with
  | emptyArr => exact Or.inr rfl
  | arr => exact Or.inr rfl
  | emptyObj => exact Or.inl rfl
  | obj => exact Or.inl rfl
  | _ => cases v <;> first | exact absurd rfl (hroot _) | simp [Same] at h4 | simp [Renderable] at hv

/-- **C23 (values parsed from JSON).** What has been parsed from a JSON text can be rendered and parsed
again, and the two values are equal; the strings must be plain and the keys not empty. -/
theorem C23_parsed_roundtrip (env : Env) (hx : HexOk env) (hnan : NoNaN env) (inc inc' : Includer) (fl fl' : Syntax)
    (o : Options) (ho : o.json = true) (v : Value) (w1 t w2 : Str) (h1 : JWs w1) (h : JText env (JNum env) (.value v) t)
    (h2 : JWs w2) (hp : PlainTree v) (hroot : ∀ s, v ≠ .scalar s) (n m : Nat) :
    parseText env inc fl (w1 ++ t ++ w2) n = .ok (v, n) ∧
    ∃ v', parseText env inc' fl' (renderValue env o v) m = .ok (v', m) ∧ Same env v v' := by
  have hr : Renderable env v :=
    jtext_renderable hnan (jtext_mono (fun _ _ => JsonLex.jnum_numeral) h) hp
  refine ⟨?_, C23_json_roundtrip env hx inc' fl' o ho v hr hroot m⟩
  refine JsonAccept.json_accepted env (JsonLex.jnum_lex env) hx inc fl v w1 t w2 n h1 h h2 ?_
  cases h with
  | emptyArr => exact Or.inr rfl
  | arr => exact Or.inr rfl
  | emptyObj => exact Or.inl rfl
  | obj => exact Or.inl rfl
  | _ => exact absurd rfl (hroot _)

/-- A value that meets the hypotheses: nested composites, a number with and one without original text,
characters that need escapes. -/
example : Renderable Tokenizer.exEnv
    (.obj [(ch "b c", .list [.scalar (.int 7 []), .scalar (.int 12 (ch "012")), .scalar .null]),
      (ch "a\n", .obj [(ch "x", .scalar (.str (ch "q\"\t") false))] true false)] true false) := by
  refine ⟨by decide, ⟨by decide, ?_⟩, ?_, ⟨by decide, ?_⟩, ?_, trivial⟩
  · simp [PlainStr, PlainChar]
  · refine ⟨⟨by decide, by decide⟩, ⟨?_, trivial, trivial⟩⟩
    show ∃ s, Numeral Tokenizer.exEnv (ch "012") s ∧ _
    exact ⟨_, .int (sg := []) (ds := ch "012") (i := 12) (Or.inl rfl) (by decide) (by simp [JDigit]) (by decide) (by decide)
      (by decide), .int _ _ 12 rfl rfl⟩
  · simp [PlainStr, PlainChar]
  · refine ⟨by decide, ⟨by decide, ?_⟩, ?_, trivial⟩
    · simp [PlainStr, PlainChar]
    · show PlainStr _
      simp [PlainStr, PlainChar]

/-- Keys must not be empty: the renderer leaves an empty key and its colon out, and the text is
refused. -/
theorem C23_empty_key_lost (env : Env) (inc : Includer) (fl : Syntax) (n : Nat) :
    renderValue env concise (.obj [([], .scalar (.int 1 []))] true false) = ch "{1}" ∧
    ∃ e, parseText env inc fl (ch "{1}") n = .err e := by
  refine ⟨by rfl, ?_⟩
  cases fl
  · exact ⟨_, rfl⟩
  · exact ⟨_, rfl⟩

/-- Other control characters must not occur: they are written as they are and then refused. -/
theorem C23_control_character (env : Env) (inc : Includer) (fl : Syntax) (n : Nat) :
    ∃ e, parseText env inc fl (renderValue env concise (.list [.scalar (.str ['\x01'] true)])) n = .err e := by
  cases fl
  · exact ⟨_, rfl⟩
  · exact ⟨_, rfl⟩

/-- **C47 (lists).** A list rendered concisely is its elements, each rendered by itself, with one comma
between neighbours, in brackets. -/
theorem C47_list (env : Env) (vs : List Value) :
    renderValue env concise (.list vs) = '[' :: sepBy (ch ",") (vs.map (renderValue env concise)) ++ [']'] := by
  cases vs with
  | nil => rfl
  | cons v vs =>
    rw [renderValue, render, closeList, renderElems_sepBy env concise _ (by simp)]
    simp only [show concise.formatted = false from rfl, Bool.false_eq_true, if_false]
    rw [chop_append _ _ 1 rfl]
    have : (fun v => indent concise (0 + 1) ++ render env concise v (0 + 1) true) = renderValue env concise := by
      funext v
      rw [indent_concise, List.nil_append, renderValue]
      exact render_concise env v _ _ _ _
    rw [this]
    rfl

/-- Neither of the unresolved merges, which render as several entries. -/
def Settled : Value → Prop
  | .dm _ => False
  | .dmo _ => False
  | _ => True

/-- **C47 (objects).** An object rendered concisely is its entries, in some order and each exactly
once, with one comma between neighbours, in braces. An entry is the quoted key, a colon and the value
rendered by itself (only the value if the key is empty). -/
theorem C47_object (env : Env) (fs : List (Str × Value)) (r i : Bool) (hs : ∀ f ∈ fs, Settled f.2) :
    ∃ gs : List (Str × Value), gs.Perm fs ∧ renderValue env concise (.obj fs r i)
      = '{' :: sepBy (ch ",") (gs.map fun f =>
          (if f.1 = [] then [] else renderJsonString f.1 ++ ch ":") ++ renderValue env concise f.2) ++ ['}'] := by
  cases fs with
  | nil => exact ⟨[], .refl _, rfl⟩
  | cons f fs =>
    have hR : ∀ fs : List (Str × Value), All2 (fun e f => e = entry env concise 1 f) (fs.map (entry env concise 1)) fs := by
      intro fs
      induction fs with
      | nil => exact .nil
      | cons g gs ih => exact .cons rfl ih
    obtain ⟨gs, h1, h2⟩ := all2_sort (hR (f :: fs))
    have hm : ∀ {es : List (Str × Str)} {gs : List (Str × Value)}, All2 (fun e f => e = entry env concise 1 f) es gs →
        es = gs.map (entry env concise 1) := by
      intro es gs h
      induction h with
      | nil => rfl
      | cons h _ ih => rw [h, ih]; rfl
    refine ⟨gs, h2, ?_⟩
    have hne : gs ≠ [] := by
      rintro rfl
      have := h2.length_eq
      simp at this
    rw [renderValue, render, objectText]
    simp only [show concise.formatted = false from rfl, show concise.json = true from rfl, Bool.false_eq_true, if_false,
      Bool.true_or, if_true]
    rw [renderFields_eq, hm h1, entriesText_sepBy _ _ _ (by simpa using hne), chop_append _ _ _ (entrySep_length concise)]
    have he : ∀ f : Str × Value, Settled f.2 → (entry env concise 1 f).2
        = (if f.1 = [] then [] else renderJsonString f.1 ++ ch ":") ++ renderValue env concise f.2 := by
      rintro ⟨k, v⟩ hv
      have : entry env concise 1 (k, v) = (k, keyPrefix concise k v ++ render env concise v 1 false) := by
        cases v with
        | dm _ => exact absurd hv (by simp [Settled])
        | dmo _ => exact absurd hv (by simp [Settled])
        | _ => rfl
      rw [this, renderValue, render_concise env v 1 0 false true]
      simp only [keyPrefix]
      congr 1
      cases k <;> rfl
    have hmap : (gs.map (entry env concise 1)).map (fun e => indent concise (0 + 1) ++ e.2)
        = gs.map fun f => (if f.1 = [] then [] else renderJsonString f.1 ++ ch ":") ++ renderValue env concise f.2 := by
      rw [List.map_map]
      apply List.map_congr_left
      intro f hf
      rw [Function.comp, indent_concise, List.nil_append, he f (hs f (h2.mem_iff.1 hf))]
    rw [hmap, rootNewline_concise]
    simp [entrySep, concise]

/-- Three entries, one with an empty key, at two levels. -/
example : renderValue Tokenizer.exEnv concise
    (.obj [(ch "b", .list [.scalar .null, .list []]), ([], .scalar (.bool true)), (ch "a", .obj [] true false)] true false)
    = ch "{true,\"a\":{},\"b\":[null,[]]}" := by decide +kernel

/-- **C61.** The rendered text does not depend on the order in which the hash maps are iterated, at any
depth and with any options. -/
theorem C61_order_irrelevant (env : Env) (o : Options) (v w : Value) (h : Reordered v w) :
    renderValue env o v = renderValue env o w :=
  render_reordered env o v w h 0 true

/-- Two orders at two levels. -/
example : Reordered
    (.obj [(ch "a", .scalar .null), (ch "b", .obj [(ch "2", .scalar .null), (ch "10", .list [])] true false)] true false)
    (.obj [(ch "b", .obj [(ch "10", .list []), (ch "2", .scalar .null)] true false), (ch "a", .scalar .null)] true true) := by
  refine .obj (by decide) (.cons (.scalar _) (.cons ?_ .nil)) (.swap ..)
  exact .obj (by decide) (.cons (.scalar _) (.cons (.list .nil) .nil)) (.swap ..)

/-- **C63.** A resolved object, rendered as HOCON (formatted or not, without comments), is read back and
the value read is equal to the one rendered. -/
theorem C63_hocon_roundtrip (env : Env) (hx : HexOk env) (inc : Includer) (o : Options) (ho : o.json = false)
    (fs : List (Str × Value)) (r i : Bool) (hv : Renderable env (.obj fs r i)) (n : Nat) :
    ∃ v', parseText env inc .conf (renderValue env o (.obj fs r i)) n = .ok (v', n) ∧ Same env (.obj fs r i) v' := by
  obtain ⟨v', h1, h2⟩ := renderRoot_hocon ho fs r i hv
  exact ⟨v', HoconAccept.hocon_accepted env hx inc v' _ n h1, h2⟩

/-- **C63 (parsed documents).** A HOCON document whose root is an object can be parsed, rendered with any
options (without comments) and parsed again; the two values are equal. Strings must be plain and keys not
empty. -/
theorem C63_parsed_roundtrip (env : Env) (hx : HexOk env) (hnan : NoNaN env) (inc inc' : Includer) (o : Options)
    (fs : List (Str × Value)) (r i : Bool) (t : Str) (h : HDoc env (Numeral env) (.obj fs r i) t)
    (hp : PlainTree (.obj fs r i)) (n m : Nat) :
    parseText env inc .conf t n = .ok (.obj fs r i, n) ∧
    ∃ v', parseText env inc' .conf (renderValue env o (.obj fs r i)) m = .ok (v', m) ∧ Same env (.obj fs r i) v' := by
  have hr : Renderable env (.obj fs r i) := ready_renderable _ (hdoc_ready hnan h) hp
  refine ⟨HoconAccept.hocon_accepted env hx inc _ t n h, ?_⟩
  cases ho : o.json
  · exact C63_hocon_roundtrip env hx inc' o ho fs r i hr m
  · exact C23_json_roundtrip env hx inc' .conf o ho _ hr (by simp) m

/-- The text of a value that meets the hypotheses of C63 (the one of the example after C23). -/
example : renderValue Tokenizer.exEnv ⟨true, false⟩
    (.obj [(ch "b c", .list [.scalar (.int 7 []), .scalar (.int 12 (ch "012")), .scalar .null]),
      (ch "a\n", .obj [(ch "x", .scalar (.str (ch "q\"\t") false))] true false),
      (ch "host", .scalar (.str (ch "localhost") true))] true false)
    = ch "\"a\\n\" {\n    x=\"q\\\"\\t\"\n}\n\"b c\"=[\n    7,\n    012,\n    null\n]\nhost=localhost\n" := by
  decide +kernel

/-- The root must be an object: a list at the root hands "at root" on to its elements, whose braces are
then left out, and the text is refused. -/
theorem C63_root_list_unreadable (env : Env) (inc : Includer) (n : Nat) :
    renderValue env ⟨false, false⟩ (.list [.obj [(ch "a", .scalar (.int 1 []))] true false]) = ch "[a=1]" ∧
    ∃ e, parseText env inc .conf (ch "[a=1]") n = .err e :=
  ⟨by rfl, _, rfl⟩

end RenderProps
end Hocon
