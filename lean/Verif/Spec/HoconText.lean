import Verif.Spec.JsonText

/-!
# Specification: HOCON texts and what they denote

The grammar of the HOCON documents people write by hand, over characters, together with the value each
text stands for. It does not refer to the tokenizer or the parser. Covered: optional root braces,
`:`, `=` and `{` after a key, dotted and quoted keys, commas or newlines between elements and fields,
trailing separators, `#` and `//` comments, words without quotes, values of several words, triple
quotes, repeated keys. Not covered: substitutions, includes, `+=`, concatenation of objects and lists.
As in `Spec/JsonText.lean` strings are ASCII; words are printable ASCII.
-/

set_option autoImplicit false

namespace Hocon
namespace Spec

/-! ## Merging -/

mutual
/-- The value `v` put over the older value `old`: two objects merge, with the fields of `v` first;
otherwise `v` hides `old`. The last component of an object says that older values do not show through
it: this is so once it has been put over something that is not an object. -/
def over (v old : Value) : Value :=
  match v with
  | .obj fs r false =>
    match old with
    | .obj gs _ j => .obj (overFields fs gs ++ gs.filter fun g => !(fs.any fun f => f.1 == g.1)) true j
    | _ => .obj fs r true
  | v => v
/-- The fields `fs` put over the fields of the same names in `gs`. -/
def overFields : List (Str × Value) → List (Str × Value) → List (Str × Value)
  | [], _ => []
  | (k, v) :: fs, gs =>
    (k, match gs.find? fun g => g.1 == k with
      | some g => over v g.2
      | none => v) :: overFields fs gs
end

/-- The value `v` under the keys `p`. -/
def under : Path → Value → Value
  | [], v => v
  | k :: p, v => .obj [(k, under p v)] true false

/-- The fields after assigning `v` to the key `k`. -/
def setField (k : Str) (v : Value) : List (Str × Value) → List (Str × Value)
  | [] => [(k, v)]
  | (k', old) :: fs => if k' = k then (k, over v old) :: fs else (k', old) :: setField k v fs

/-- The fields after assigning `v` to the path `p`. -/
def assign (fs : List (Str × Value)) : Path × Value → List (Str × Value)
  | ([], _) => fs
  | (k :: p, v) => setField k (under p v) fs

/-- The object made by a sequence of assignments. -/
def assigned (as : List (Path × Value)) : Value := .obj (as.foldl assign []) true false

/-! ## Blanks, comments, separators -/

/-- Blanks other than a newline. -/
def HBlank (c : Char) : Prop := c = ' ' ∨ c = '\t' ∨ c = '\r'

/-- Blanks, newlines and comments. A comment ends with its line. -/
inductive HGap : Str → Prop
  | nil : HGap []
  | blank {c : Char} {g : Str} : HBlank c → HGap g → HGap (c :: g)
  | newline {g : Str} : HGap g → HGap ('\n' :: g)
  | hash {b g : Str} : '\n' ∉ b → HGap g → HGap ('#' :: b ++ '\n' :: g)
  | slashes {b g : Str} : '\n' ∉ b → HGap g → HGap ('/' :: '/' :: b ++ '\n' :: g)

/-- The end of a text: a gap, possibly with a comment that nothing follows. -/
inductive HLast : Str → Prop
  | gap {g : Str} : HGap g → HLast g
  | hash {b g : Str} : HGap g → '\n' ∉ b → HLast (g ++ '#' :: b)
  | slashes {b g : Str} : HGap g → '\n' ∉ b → HLast (g ++ '/' :: '/' :: b)

/-- Between two elements or fields: a comma or a newline. -/
inductive HSep : Str → Prop
  | newline {g : Str} : HGap g → '\n' ∈ g → HSep g
  | comma {g1 g2 : Str} : HGap g1 → HGap g2 → HSep (g1 ++ ',' :: g2)

/-- After the last element or field: possibly a separator. -/
inductive HEnd : Str → Prop
  | gap {g : Str} : HGap g → HEnd g
  | comma {g1 g2 : Str} : HGap g1 → HGap g2 → HEnd (g1 ++ ',' :: g2)

/-! ## Words and keys -/

/-- Printable ASCII characters without a special meaning. -/
def WordChar (c : Char) : Prop := 0x20 < c.toNat ∧ c.toNat < 0x7f ∧ c ∉ ch "$\"{}[]:=,+#`^?!@*&\\"

/-- Text that begins neither a number nor one of the three literals. -/
def WordStart (t : Str) : Prop :=
  (∀ c, t.head? = some c → ¬ JDigit c ∧ c ≠ '-') ∧
    ¬ ch "true" <+: t ∧ ¬ ch "false" <+: t ∧ ¬ ch "null" <+: t

/-- A string written without quotes. -/
structure Word (t : Str) : Prop where
  ne : t ≠ []
  chars : ∀ c ∈ t, WordChar c
  noComment : ¬ ch "//" <:+: t
  last : t.getLast? ≠ some '/'
  start : WordStart t

/-- `HSegs env p t`: the text `t` consists of the elements of the path `p`, with or without quotes,
separated by periods. -/
inductive HSegs (env : Env) : Path → Str → Prop
  | bare {t : Str} : t ≠ [] → (∀ c ∈ t, WordChar c ∧ c ≠ '.' ∧ c ≠ '/') → HSegs env [t] t
  | quoted {k t : Str} : JChars env t k → HSegs env [k] ('"' :: t ++ ['"'])
  | bareCons {t u : Str} {p : Path} : t ≠ [] → (∀ c ∈ t, WordChar c ∧ c ≠ '.' ∧ c ≠ '/') → HSegs env p u →
      HSegs env (t :: p) (t ++ '.' :: u)
  | quotedCons {k t u : Str} {p : Path} : JChars env t k → HSegs env p u →
      HSegs env (k :: p) ('"' :: t ++ '"' :: '.' :: u)

/-- A key. -/
structure HKey (env : Env) (p : Path) (t : Str) : Prop where
  segs : HSegs env p t
  start : WordStart t
  notInclude : t ≠ ch "include"

/-! ## Values -/

/-- `HAtom env N s x t`: the text `t` stands for the scalar `s`; within a value of several words it
stands for the text `x`. Triple quotes contain everything up to the next three quotes. -/
inductive HAtom (env : Env) (N : Str → Scalar → Prop) : Scalar → Str → Str → Prop
  | null : HAtom env N .null (ch "null") (ch "null")
  | true_ : HAtom env N (.bool true) (ch "true") (ch "true")
  | false_ : HAtom env N (.bool false) (ch "false") (ch "false")
  | num {t : Str} {s : Scalar} : N t s → HAtom env N s t t
  | str {t s : Str} : JChars env t s → HAtom env N (.str s true) s ('"' :: t ++ ['"'])
  | triple {t : Str} : ¬ ch "\"\"\"" <:+: t → HAtom env N (.str t true) t (ch "\"\"\"" ++ t ++ ch "\"\"\"")
  | word {t : Str} : Word t → HAtom env N (.str t false) t t

/-- Words with blanks in between; the text they stand for includes the blanks. -/
inductive HWords (env : Env) (N : Str → Scalar → Prop) : Str → Str → Prop
  | one {s : Scalar} {x t : Str} : HAtom env N s x t → x ≠ [] → HWords env N x t
  | cons {s : Scalar} {x t w y u : Str} : HAtom env N s x t → x ≠ [] → w ≠ [] → (∀ c ∈ w, HBlank c) →
      HWords env N y u → HWords env N (x ++ w ++ y) (t ++ w ++ u)

/-- Nonterminals with what they denote: a value, the elements of a list, one field, the fields of an
object. -/
inductive HPart where
  | value (v : Value)
  | elems (vs : List Value)
  | member (p : Path) (v : Value)
  | members (as : List (Path × Value))

/-- `HText env N k t`: the text `t` derives from the nonterminal of `k` and denotes what `k` says.
Numbers are given by `N`. -/
inductive HText (env : Env) (N : Str → Scalar → Prop) : HPart → Str → Prop
  | atom {s : Scalar} {x t : Str} : HAtom env N s x t → HText env N (.value (.scalar s)) t
  | words {s : Scalar} {x t w y u : Str} : HAtom env N s x t → x ≠ [] → w ≠ [] → (∀ c ∈ w, HBlank c) →
      HWords env N y u → HText env N (.value (.scalar (.str (x ++ w ++ y) true))) (t ++ w ++ u)
  | emptyArr {g : Str} : HGap g → HText env N (.value (.list [])) ('[' :: g ++ [']'])
  | arr {g t e : Str} {vs : List Value} : HGap g → HText env N (.elems vs) t → HEnd e →
      HText env N (.value (.list vs)) ('[' :: g ++ t ++ e ++ [']'])
  | emptyObj {g : Str} : HGap g → HText env N (.value (assigned [])) ('{' :: g ++ ['}'])
  | obj {g t e : Str} {as : List (Path × Value)} : HGap g → HText env N (.members as) t → HEnd e →
      HText env N (.value (assigned as)) ('{' :: g ++ t ++ e ++ ['}'])
  | elem {t : Str} {v : Value} : HText env N (.value v) t → HText env N (.elems [v]) t
  | elemCons {t s u : Str} {v : Value} {vs : List Value} : HText env N (.value v) t → HSep s →
      HText env N (.elems vs) u → HText env N (.elems (v :: vs)) (t ++ s ++ u)
  | field {kt g1 g2 t : Str} {c : Char} {p : Path} {v : Value} : HKey env p kt → HGap g1 → (c = ':' ∨ c = '=') →
      HGap g2 → HText env N (.value v) t → HText env N (.member p v) (kt ++ g1 ++ c :: g2 ++ t)
  | sect {kt g t : Str} {p : Path} {v : Value} : HKey env p kt → HGap g →
      HText env N (.value v) ('{' :: t) → HText env N (.member p v) (kt ++ g ++ '{' :: t)
  | last {t : Str} {p : Path} {v : Value} : HText env N (.member p v) t → HText env N (.members [(p, v)]) t
  | memberCons {t s u : Str} {p : Path} {v : Value} {as : List (Path × Value)} : HText env N (.member p v) t →
      HSep s → HText env N (.members as) u → HText env N (.members ((p, v) :: as)) (t ++ s ++ u)

/-- `HDoc env N v t`: the whole text `t` is a HOCON document that denotes `v`. -/
inductive HDoc (env : Env) (N : Str → Scalar → Prop) : Value → Str → Prop
  | braces {g t l : Str} {v : Value} : HGap g → HText env N (.value v) t →
      (t.head? = some '{' ∨ t.head? = some '[') → HLast l → HDoc env N v (g ++ t ++ l)
  | empty {l : Str} : HLast l → HDoc env N (assigned []) l
  | open_ {g t l : Str} {as : List (Path × Value)} : HGap g → HText env N (.members as) t → HLast l →
      HDoc env N (assigned as) (g ++ t ++ l)
  | openComma {g t g1 l : Str} {as : List (Path × Value)} : HGap g → HText env N (.members as) t → HGap g1 →
      HLast l → HDoc env N (assigned as) (g ++ t ++ g1 ++ ',' :: l)

end Spec
end Hocon
