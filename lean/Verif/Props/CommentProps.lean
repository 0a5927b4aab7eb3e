import Verif.Lemmas.LinesFind
import Verif.Lemmas.AccessNotesErase

/-!
# Comments and line numbers of parsed settings (C71, C72)

`Notes.parseTextA` (Verif/ParseNotes.lean) parses a text to values with their origins, `Notes.peekPathA`
looks up a path in them. `Spec.HLines` are documents made of lines, `Spec.Stands` says on which line a
setting stands and which comments belong to it (Verif/Spec/Lines.lean).
-/

set_option autoImplicit false

namespace Hocon
namespace CommentProps

open Spec Notes Lines ConfigParser
open PathParser (Syntax)

/-! ## C71 -/

/-- **C71.** Neither the settings, nor whether a text is accepted, nor what is found at a path depend on
where the text comes from: parsing with origins gives the values of parsing without. -/
theorem C71_parse (env : Env) (base : Origin) (inc : AIncluder) (fl : Syntax) (s : Str) (n : Nat) :
    Res.mapOk (fun r => (r.1.erase, r.2)) (parseTextA env base inc fl s n) = parseText env inc.erase fl s n :=
  parseTextA_erase env base inc fl s n

/-- **C71.** Two sources with the same text and includes with the same values. -/
theorem C71_source_irrelevant (env : Env) (base base' : Origin) (inc inc' : AIncluder) (hi : inc.erase = inc'.erase)
    (fl : Syntax) (s : Str) (n : Nat) :
    Res.mapOk (fun r => (r.1.erase, r.2)) (parseTextA env base inc fl s n)
      = Res.mapOk (fun r => (r.1.erase, r.2)) (parseTextA env base' inc' fl s n) := by
  rw [C71_parse, C71_parse, hi]

/-- **C71.** The lookup of a path. -/
theorem C71_lookup (v : AVal) (p : Path) :
    Res.mapOk (Option.map AVal.erase) (peekPathA v p) = Value.peekPath v.erase p :=
  peekPathA_erase v p

/-- No includes. -/
def noIncA : AIncluder := ⟨fun _ _ => .err .io, fun _ _ => .err .io⟩

/-- The origin of a text given as a string. -/
def exBase : Origin := ⟨ch "string", -1, -1, .generic, [], []⟩

example : parseTextA Tokenizer.exEnv exBase noIncA .conf (ch "# c\na : 1 2") 0
    = .ok (.obj { exBase with line := 1, endLine := 1 } [(ch "a",
        .scalar { exBase with line := 2, endLine := 2, comments := [ch " c"] } (.str (ch "1 2") true))] true false, 0) := rfl

/-! ## C72 -/

/-- **C72 (partial).** A document made of lines is accepted, and every setting has the number of the line it
stands on and exactly the comments that belong to it; other paths have no setting. Missing: values
other than scalars on one line and sections, keys with several elements, keys set twice, braces
around the document. -/
theorem C72_comments_partial (env : Env) (hx : HexOk env) (its : List Item) (t : Str)
    (ht : HLines env (Numeral env) true true its t) (htidy : Tidy [] its) (base : Origin) (hb : base.comments = [])
    (inc : AIncluder) (n : Nat) :
    ∃ v, parseTextA env base inc .conf t n = .ok (v, n) ∧
      v.origin = { base with line := 1, endLine := 1 } ∧
      (∀ p m cs s, Stands 1 [] its p m cs s → ∃ w, peekPathA v p = .ok (some w) ∧
        w.origin = { base with line := m, endLine := m, comments := cs } ∧ ValueIs w.erase s) ∧
      (∀ p w, p ≠ [] → peekPathA v p = .ok (some w) → ∃ m cs s, Stands 1 [] its p m cs s) := by
  refine ⟨_, lines_parse hx ht htidy base hb inc n, ?_, ?_, ?_⟩
  · show at_ base 1 [] = _
    rw [at_]
    cases base
    simp_all
  · intro p m cs s h
    exact stands_peek h htidy _ _ _
  · intro p w hp h
    exact peek_stands hp h

/-- **C72.** The line and the comments of a setting are determined by the lines. -/
theorem C72_unique (its : List Item) (htidy : Tidy [] its) {p : Path} {m m' : Nat} {cs cs' : List Str}
    {s s' : Option Scalar} (h : Stands 1 [] its p m cs s) (h' : Stands 1 [] its p m' cs' s') : m = m' ∧ cs = cs' := by
  obtain ⟨w, h1, h2, _⟩ := stands_peek (base := exBase) h htidy exBase true false
  obtain ⟨w', h1', h2', _⟩ := stands_peek (base := exBase) h' htidy exBase true false
  rw [h1] at h1'
  obtain rfl : w = w' := by simpa using h1'
  rw [h2] at h2'
  simp only [at_, Origin.mk.injEq] at h2'
  exact ⟨by omega, h2'.2.2.2.2.2⟩

/-- Comments above, behind and below settings, blank lines, a section with a comment behind its brace. -/
def exText : Str := ch "# about a
a = true # yes

# gone

# about b
// more
b { # first
  c : \"x\", // see
}
"

/-- What it says. -/
def exItems : List Item := [.remark (ch " about a"), .set (ch "a") (.bool true) (some (ch " yes")), .blank,
  .remark (ch " gone"), .blank, .remark (ch " about b"), .remark (ch " more"),
  .sect (ch "b") (some (ch " first")) [.set (ch "c") (.str (ch "x") true) (some (ch " see"))] none]

theorem exText_lines : HLines Tokenizer.exEnv (Numeral Tokenizer.exEnv) true true exItems exText := by
  have bare : ∀ t : Str, (t = ch "a" ∨ t = ch "b" ∨ t = ch "c") → HKey Tokenizer.exEnv [t] t := by
    rintro t (rfl | rfl | rfl) <;>
    exact ⟨.bare (by decide) (by unfold WordChar; decide), ⟨by unfold JDigit; decide, by decide, by decide, by decide⟩, by decide⟩
  have none_ : Blanks [] := by intro c hc; cases hc
  have one : Blanks (ch " ") := by intro c hc; simp at hc; exact Or.inl hc
  have two : Blanks (ch "  ") := by intro c hc; simp at hc; exact Or.inl hc
  have hash : ∀ c : Str, '\n' ∉ c → HNote (some c) ('#' :: c) := fun c h => HNote.hash (w := []) none_ h
  have slashes : ∀ c : Str, '\n' ∉ c → HNote (some c) ('/' :: '/' :: c) := fun c h => HNote.slashes (w := []) none_ h
  refine .note (o := some (ch " about a")) (hash _ (by decide)) (.newline ?_)
  refine .set (w := []) (kt := ch "a") (w1 := ch " ") (c := '=') (w2 := ch " ") (t := ch "true") (e := ch " # yes")
    none_ (bare _ (Or.inl rfl)) one (Or.inr rfl) one .true_ (by decide) (.plain (.hash (w := ch " ") one (by decide)))
    (.newline ?_)
  refine .note (o := none) (t := []) (.none none_) (.newline ?_)
  refine .note (o := some (ch " gone")) (hash _ (by decide)) (.newline ?_)
  refine .note (o := none) (t := []) (.none none_) (.newline ?_)
  refine .note (o := some (ch " about b")) (hash _ (by decide)) (.newline ?_)
  refine .note (o := some (ch " more")) (slashes _ (by decide)) (.newline ?_)
  refine .sect (w := []) (kt := ch "b") (w1 := ch " ") (f := ch " # first") (x := ch "\n  c : \"x\", // see\n") (w2 := [])
    (e := []) none_ (bare _ (Or.inr (Or.inl rfl))) one (.hash (w := ch " ") one (by decide)) (.newline ?_) none_
    (.plain (.none none_)) (.newline .nil)
  exact .set (w := ch "  ") (kt := ch "c") (w1 := ch " ") (c := ':') (w2 := ch " ") (t := ch "\"x\"") (e := ch ", // see")
    two (bare _ (Or.inr (Or.inr rfl))) one (Or.inl rfl) one
    (.str (t := ch "x") (s := ch "x") (.plain (c := 'x') (by decide) (by decide) (by decide) (by decide) .nil)) (by decide)
    (.comma (w := []) none_ (.slashes (w := ch " ") one (by decide))) (.newline .nil)

example : Tidy [] exItems := by
  refine .remark (.set (by decide) (by decide) (.blank (.remark (.blank (.remark (.remark (.sect (by decide) (by simp) ?_ .nil)))))))
  exact .set (by decide) (by decide) .nil

example : Stands 1 [] exItems [ch "a"] 2 [ch " about a", ch " yes"] (some (.bool true)) :=
  .set (pre := [.remark (ch " about a")])

example : Stands 1 [] exItems [ch "b", ch "c"] 9 [ch " first", ch " see"] (some (.str (ch "x") true)) :=
  .inside (pre := [.remark (ch " about a"), .set (ch "a") (.bool true) (some (ch " yes")), .blank,
    .remark (ch " gone"), .blank, .remark (ch " about b"), .remark (ch " more")]) (.set (pre := []))

example : Stands 1 [] exItems [ch "b"] 8 [ch " about b", ch " more"] none :=
  .sect (pre := [.remark (ch " about a"), .set (ch "a") (.bool true) (some (ch " yes")), .blank,
    .remark (ch " gone"), .blank, .remark (ch " about b"), .remark (ch " more")]) 

/-! ### Where the code departs from it -/

/-- The origin on a line of `exBase`. -/
def on (l : Int) (cs : List Str) : Origin := { exBase with line := l, endLine := l, comments := cs }

/-- **C72 (violated).** A comment behind a setting that repeats the only comment above it is dropped. -/
theorem C72_repeated_comment_violated (env : Env) (inc : AIncluder) (n : Nat) :
    parseTextA env exBase inc .conf (ch "# x\na = true # x") n
      = .ok (.obj (on 1 []) [(ch "a", .scalar (on 2 [ch " x"]) (.bool true))] true false, n) := rfl

/-- **C72 (violated).** A comment above a setting with the path `a.b` is also a comment of `a`, although
the code asks for none there. -/
theorem C72_path_comment_violated (env : Env) (inc : AIncluder) (n : Nat) :
    parseTextA env exBase inc .conf (ch "# x\na.b = true") n
      = .ok (.obj (on 1 []) [(ch "a", .obj (on 2 [ch " x"]) [(ch "b", .scalar (on 2 [ch " x"]) (.bool true))] true false)]
          true false, n) := rfl

/-- **C72 (violated).** Newlines before a value are not counted, so a section after it gets a wrong line:
`b` stands on line 3. -/
theorem C72_newline_not_counted (env : Env) (inc : AIncluder) (n : Nat) :
    parseTextA env exBase inc .conf (ch "a =\ntrue\nb {}") n
      = .ok (.obj (on 1 []) [(ch "a", .scalar (on 2 []) (.bool true)), (ch "b", .obj (on 2 []) [] true false)]
          true false, n) := rfl

/-- **C72 (violated).** A comment behind the closing brace of the document counts if a newline follows, and
is lost at the end of the text. -/
theorem C72_last_comment_violated (env : Env) (inc : AIncluder) (n : Nat) :
    parseTextA env exBase inc .conf (ch "{} # x\n") n = .ok (.obj (on 1 [ch " x"]) [] true false, n) ∧
    parseTextA env exBase inc .conf (ch "{} # x") n = .ok (.obj (on 1 []) [] true false, n) := ⟨rfl, rfl⟩

/-- **C72 (violated).** A comment above an `include` becomes a comment of the next setting. -/
theorem C72_include_comment_violated (env : Env) (n : Nat) :
    parseTextA env exBase ⟨fun _ n => .ok (.obj (on 1 []) [] true false, n), fun _ n => .ok (.obj (on 1 []) [] true false, n)⟩
        .conf (ch "# x\ninclude \"f\"\na = true") n
      = .ok (.obj (on 1 []) [(ch "a", .scalar (on 3 [ch " x"]) (.bool true))] true false, n) := rfl

end CommentProps
end Hocon
