import Verif.Props.SubstTextProps
import Verif.Lemmas.SubstSound

/-!
# Rendering configurations that are not resolved (C70)

`Spec.Textual` (Verif/Spec/Unresolved.lean) are the trees of settings with substitutions that one text
can stand for, `Spec.Like` says that two of them are the same up to the order of fields, quoting and
the identity of the objects for substitutions.
-/

set_option autoImplicit false

namespace Hocon
namespace UnresolvedProps

open Spec ConfigParser Value Resolve Render

/-- **C70.** A configuration with substitutions, rendered with any options (without comments), is read
back: the same settings with the same values and substitutions, repeated settings with the same older
values in the same order. -/
theorem C70_reread_partial (env : Env) (hx : HexOk env) (inc : Includer) (o : Render.Options)
    (fs : Fields) (r i : Bool) (h : Textual env (.obj fs r i)) (n : Nat) :
    ∃ v' m, parseText env inc .conf (renderValue env o (.obj fs r i)) n = .ok (v', m) ∧ Like env (.obj fs r i) v' := by
  obtain ⟨s, v', m, h1, h2, h3⟩ := renderRoot_text (o := o) fs r i h n
  exact ⟨v', m, SubstTextProps.C68_reads_partial env hx inc s _ v' n m h1 h2, h3⟩

/-- **C70 (parsed documents).** A document with substitutions can be parsed, rendered with any options
(without comments) and parsed again, with the same settings. -/
theorem C70_parsed_partial (env : Env) (hx : HexOk env) (hnan : NoNaN env) (inc inc' : Includer) (o : Render.Options)
    (s : Syn) (t : Str) (fs : Fields) (r i : Bool) (n m k : Nat) (h : SDoc env (Numeral env) s t)
    (hm : DocMeans env s n (.obj fs r i) m) (hp : Spelt (.obj fs r i)) :
    parseText env inc .conf t n = .ok (.obj fs r i, m) ∧
    ∃ v' l, parseText env inc' .conf (renderValue env o (.obj fs r i)) k = .ok (v', l) ∧ Like env (.obj fs r i) v' := by
  refine ⟨SubstTextProps.C68_reads_partial env hx inc s t _ n m h hm, ?_⟩
  have := sdoc_sound hnan h hm
  exact C70_reread_partial env hx inc' o fs r i (sound_textual _ this.1 this.2 hp) k

/-! ## The hypotheses are met -/

/-- The document of C68. -/
example : Spelt (.obj SubstTextProps.exFields false false) := by
  have path : ∀ k : Str, (k = ch "a" ∨ k = ch "b" ∨ k = ch "c" ∨ k = ch "v") → WordStart k := by
    rintro k (rfl | rfl | rfl | rfl) <;> exact ⟨by unfold JDigit; decide, by decide, by decide, by decide⟩
  have p1 : ∀ k : Str, (k = ch "a" ∨ k = ch "b" ∨ k = ch "c" ∨ k = ch "v") → PathText [k] := by
    intro k hk
    refine ⟨by simp, ?_, ?_⟩
    · rcases hk with rfl | rfl | rfl | rfl <;> unfold PlainStr PlainChar <;> decide
    · rintro x hx; cases hx; exact path k hk
  have p2 : PathText [ch "b", ch "c"] := by
    refine ⟨by simp, by unfold PlainStr PlainChar; decide, ?_⟩
    rintro x hx; cases hx; exact path _ (by simp)
  have pl : ∀ k : Str, (k = ch "a" ∨ k = ch "b" ∨ k = ch "c" ∨ k = ch "v" ∨ k = ch "e" ∨ k = ch "f" ∨ k = ch "p" ∨ k = ch "q" ∨
      k = ch "r" ∨ k = ch "x ") → PlainStr k := by
    rintro k (rfl | rfl | rfl | rfl | rfl | rfl | rfl | rfl | rfl | rfl) <;> unfold PlainStr PlainChar <;> decide
  simp only [SubstTextProps.exFields, exStr, Spelt, SpeltF, SpeltL, and_true, true_and, ne_eq, List.cons_ne_nil, not_false_eq_true]
  refine ⟨?_, ?_, ?_⟩ <;> repeat' apply And.intro
  all_goals first | exact p2 | exact p1 _ (by simp) | exact pl _ (by simp)

/-- Its text when it is rendered, and when it is rendered as JSON with line breaks: the older value of
`a` comes first, `+=` has become a substitution. -/
example : renderValue Tokenizer.exEnv ⟨false, false⟩ (.obj SubstTextProps.exFields false false)
    = ch "\"a\":[p],\"a\":${a}[q],b{c=${?b.c}[\"x \"${?v}]},\"e\":${b},\"e\":{f=r}" ∧
    renderValue Tokenizer.exEnv ⟨true, true⟩ (.obj [(ch "a", .dm [.ref 0 [ch "x y", ch "z"] true 0, Value.exInt 1])] false false)
      = ch "{\n        \"a\" : 1,\n    \"a\" : ${?\"x y\".z}\n\n}\n" := by
  constructor <;> decide +kernel

/-! ## Where it fails -/

/-- **C70** does not extend to what the configuration resolves to. The blank between two substitutions
has no meaning if they are lists, but it is rendered as a quoted string (config_string.cc 34-44), which
cannot be put next to a list. -/
theorem C70_blank_violated (n : Nat) (hn : 40 ≤ n) :
    settled n (ch "a=[1]\nb=[2]\nc=${a} ${b}") = .ok (some (.obj [(ch "a", .list [.scalar (.int 1 (ch "1"))]),
      (ch "b", .list [.scalar (.int 2 (ch "2"))]),
      (ch "c", .list [.scalar (.int 1 (ch "1")), .scalar (.int 2 (ch "2"))])] true false)) ∧
    (∃ v m, parseText Tokenizer.exEnv noInc .conf (ch "a=[1]\nb=[2]\nc=${a} ${b}") 0 = .ok (v, m) ∧
      renderValue Tokenizer.exEnv ⟨false, false⟩ v = ch "a=[1],b=[2],c=${a}\" \"${b}") ∧
    settled n (ch "a=[1],b=[2],c=${a}\" \"${b}") = .err .config :=
  ⟨settled_le (by simp) (by decide +kernel) hn,
   ⟨.obj [(ch "a", .list [.scalar (.int 1 (ch "1"))]), (ch "b", .list [.scalar (.int 2 (ch "2"))]),
      (ch "c", .concat [.ref 0 [ch "a"] false 0, .scalar (.str (ch " ") false), .ref 1 [ch "b"] false 0])] false false, 2,
    by decide +kernel, by decide +kernel⟩,
   settled_le (by simp) (by decide +kernel) hn⟩

/-- **C70** fails for settings with several values put over older ones as a whole: the values are kept
as a stack within a stack, the inner one is rendered without its key, and the text is refused. -/
theorem C70_nested_violated :
    ∃ v m, parseText Tokenizer.exEnv noInc .conf (ch "x=1\ny=2\na{b=1}\na{b=${x},b=${y}}") 0 = .ok (v, m) ∧
      renderValue Tokenizer.exEnv ⟨false, false⟩ v = ch "a{\"b\":1,\"b\":${x},${y}},x=1,y=2" ∧
      parseText Tokenizer.exEnv noInc .conf (ch "a{\"b\":1,\"b\":${x},${y}},x=1,y=2") 0 = .err .parse :=
  ⟨.obj [(ch "x", .scalar (.int 1 (ch "1"))), (ch "y", .scalar (.int 2 (ch "2"))),
      (ch "a", .obj [(ch "b", .dm [.dm [.ref 1 [ch "y"] false 0, .ref 0 [ch "x"] false 0], .scalar (.int 1 (ch "1"))])] false false)]
      false false, 2, by decide +kernel, by decide +kernel, by decide +kernel⟩

end UnresolvedProps
end Hocon
