import Verif.Spec.HoconText

/-!
# Documents as people lay them out, and which comment belongs to which setting

A document made of lines: blank lines, lines with nothing but a comment, settings with a scalar value, and
sections `key {` … `}`. A setting or the end of a section may be followed by a comma and by a comment on
the same line; so may the opening brace of a section (without the comma).

A comment belongs to a setting if it stands on the same line after the setting, or if it stands on a line
of its own above the setting, with nothing but such lines in between. A comment behind an opening brace
counts like a line of its own at the start of the section.
-/

set_option autoImplicit false

namespace Hocon
namespace Spec

/-- What the lines of a document say. -/
inductive Item where
  | blank
  | remark (c : Str)
  | set (k : Str) (s : Scalar) (note : Option Str)
  | sect (k : Str) (first : Option Str) (inner : List Item) (note : Option Str)

/-- Blanks, possibly none. -/
def Blanks (w : Str) : Prop := ∀ c ∈ w, HBlank c

/-- The end of a line: nothing, or a comment. -/
inductive HNote : Option Str → Str → Prop
  | none {w : Str} : Blanks w → HNote none w
  | hash {w c : Str} : Blanks w → '\n' ∉ c → HNote (some c) (w ++ '#' :: c)
  | slashes {w c : Str} : Blanks w → '\n' ∉ c → HNote (some c) (w ++ '/' :: '/' :: c)

/-- The same after a setting, where a comma may stand. -/
inductive HTail : Option Str → Str → Prop
  | plain {o : Option Str} {t : Str} : HNote o t → HTail o t
  | comma {o : Option Str} {w t : Str} : Blanks w → HNote o t → HTail o (w ++ ',' :: t)

/-- A line without a setting. -/
def noteItem : Option Str → Item
  | none => .blank
  | some c => .remark c

/-- `HLines env N z true its t`: the text `t` consists of the lines `its`; `HLines env N z false its t`: the
same after the contents of a line. With `z` the last line need not end with a newline. -/
inductive HLines (env : Env) (N : Str → Scalar → Prop) : Bool → Bool → List Item → Str → Prop
  | nil {z : Bool} : HLines env N z true [] []
  | eof : HLines env N true false [] []
  | newline {z : Bool} {its : List Item} {u : Str} : HLines env N z true its u →
      HLines env N z false its ('\n' :: u)
  | note {z : Bool} {o : Option Str} {its : List Item} {t u : Str} : HNote o t → HLines env N z false its u →
      HLines env N z true (noteItem o :: its) (t ++ u)
  | set {z : Bool} {k kt w w1 w2 x t e u : Str} {c : Char} {s : Scalar} {o : Option Str} {its : List Item} :
      Blanks w → HKey env [k] kt → Blanks w1 → (c = ':' ∨ c = '=') → Blanks w2 → HAtom env N s x t → '\n' ∉ t →
      HTail o e → HLines env N z false its u →
      HLines env N z true (.set k s o :: its) (w ++ (kt ++ (w1 ++ c :: (w2 ++ (t ++ (e ++ u))))))
  | sect {z : Bool} {k kt w w1 w2 f x e u : Str} {o o' : Option Str} {inner its : List Item} :
      Blanks w → HKey env [k] kt → Blanks w1 → HNote o f → HLines env N false false inner x → Blanks w2 →
      HTail o' e → HLines env N z false its u →
      HLines env N z true (.sect k o inner o' :: its)
        (w ++ (kt ++ (w1 ++ '{' :: (f ++ (x ++ (w2 ++ '}' :: (e ++ u)))))))

mutual
/-- The number of lines of an item. -/
def Item.rows : Item → Nat
  | .sect _ _ inner _ => rows inner + 2
  | _ => 1
/-- The number of lines. -/
def rows : List Item → Nat
  | [] => 0
  | it :: its => it.rows + rows its
end

/-- The comments on the lines directly above what follows the lines `pre`; `cs` are those before `pre`. -/
def above (cs : List Str) : List Item → List Str
  | [] => cs
  | .remark c :: pre => above (cs ++ [c]) pre
  | _ :: pre => above [] pre

/-- `Stands l cs its p m ds s`: among the lines `its`, the first of them on line `l` below the comments
`cs`, line `m` has the setting with the path `p`, the comments `ds` belong to it, and it is the scalar
`s`, or a section. -/
inductive Stands : Nat → List Str → List Item → Path → Nat → List Str → Option Scalar → Prop
  | set {l : Nat} {cs : List Str} {pre post : List Item} {k : Str} {s : Scalar} {o : Option Str} :
      Stands l cs (pre ++ .set k s o :: post) [k] (l + rows pre) (above cs pre ++ o.toList) (some s)
  | sect {l : Nat} {cs : List Str} {pre post inner : List Item} {k : Str} {o o' : Option Str} :
      Stands l cs (pre ++ .sect k o inner o' :: post) [k] (l + rows pre) (above cs pre ++ o'.toList) none
  | inside {l m : Nat} {cs ds : List Str} {pre post inner : List Item} {k : Str} {o o' : Option Str} {p : Path}
      {s : Option Scalar} : Stands (l + rows pre + 1) o.toList inner p m ds s →
      Stands l cs (pre ++ .sect k o inner o' :: post) (k :: p) m ds s

/-- The keys set by the lines, not looking into sections. -/
def keysIn : List Item → List Str
  | [] => []
  | .set k _ _ :: its => k :: keysIn its
  | .sect k _ _ _ :: its => k :: keysIn its
  | _ :: its => keysIn its

/-- Every key is set once in its section, and a comment behind a setting does not repeat the only comment
above it; `cs` are the comments before the lines. -/
inductive Tidy : List Str → List Item → Prop
  | nil {cs : List Str} : Tidy cs []
  | blank {cs : List Str} {its : List Item} : Tidy [] its → Tidy cs (.blank :: its)
  | remark {cs : List Str} {c : Str} {its : List Item} : Tidy (cs ++ [c]) its → Tidy cs (.remark c :: its)
  | set {cs : List Str} {k : Str} {s : Scalar} {o : Option Str} {its : List Item} : k ∉ keysIn its →
      (∀ c, o = some c → cs ≠ [c]) → Tidy [] its → Tidy cs (.set k s o :: its)
  | sect {cs : List Str} {k : Str} {o o' : Option Str} {inner its : List Item} : k ∉ keysIn its →
      (∀ c, o' = some c → cs ≠ [c]) → Tidy o.toList inner → Tidy [] its → Tidy cs (.sect k o inner o' :: its)

end Spec
end Hocon
