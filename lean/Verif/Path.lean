import Verif.Base

/-!
# Paths

Model of `lib/src/path.cc` and `lib/src/path_builder.cc`. A `path` holds a persistent singly linked
list of strings (`lib/inc/hocon/functional_list.hpp`); the model is the list itself.
`first()` returns a possibly null pointer: `Option`.
-/

namespace Hocon

/-- `class path`: `List<shared_string> _path` (`lib/inc/hocon/path.hpp`). -/
abbrev Path := List Str

namespace PathM

/-- `path::first`, path.cc 55-60. -/
def first : Path → Option Str
  | [] => none
  | k :: _ => some k

/-- `path::remainder`, path.cc 62-67. -/
def remainder : Path → Path
  | [] => []
  | _ :: r => r

/-- `path::has_remainder`, path.cc 69-71. -/
def hasRemainder (p : Path) : Bool := !(remainder p).isEmpty

/-- `path::last`, path.cc 73-79: walk while there is a remainder. -/
def last : Path → Option Str
  | [] => first []
  | k :: r => if hasRemainder (k :: r) then last r else first (k :: r)

/-- `path::length`, path.cc 88-96 (note: starts at 1). -/
def length : Path → Nat
  | [] => 1
  | k :: r => if hasRemainder (k :: r) then length r + 1 else 1

/-- `path::sub_path(int)`, path.cc 98-106. A negative argument removes nothing, like 0. -/
def subPath : Nat → Path → Path
  | 0, p => p
  | n + 1, p => if hasRemainder p then subPath n (remainder p) else p

/-- `path_builder`: a stack of keys, top first (path_builder.hpp `std::stack<std::string> _keys`). -/
abbrev Builder := List Str

/-- `path_builder::append_key`, path_builder.cc 7-9. -/
def Builder.appendKey (b : Builder) (k : Str) : Builder := k :: b

/-- `path_builder::append_path`, path_builder.cc 11-26: push the elements one by one; an empty path
is a no-op. -/
def Builder.appendPath (b : Builder) : Path → Builder
  | [] => b
  | k :: r => Builder.appendPath (Builder.appendKey b k) r

/-- The loop of `path_builder::result`, path_builder.cc 28-36. -/
def Builder.resultFrom : Builder → Path → Path
  | [], acc => acc
  | k :: b, acc => Builder.resultFrom b (k :: acc)

/-- `path_builder::result`, path_builder.cc 28-36. -/
def Builder.result (b : Builder) : Path := Builder.resultFrom b []

/-- `path::prepend`, path.cc 81-86. -/
def prepend (self pre : Path) : Path :=
  Builder.result (Builder.appendPath (Builder.appendPath [] pre) self)

/-- The loop of `path::sub_path(int, int)`, path.cc 116-123. `*from.first()` on an empty path is a
null dereference. -/
def subPathRangeLoop : Nat → Path → Builder → Res Path
  | 0, _, b => .ok (Builder.result b)
  | n + 1, from_, b =>
    match first from_ with
    | none => .ub
    | some k =>
      let from' := remainder from_
      if from'.isEmpty then .err .config
      else subPathRangeLoop n from' (Builder.appendKey b k)

/-- `path::sub_path(int first_index, int last_index)`, path.cc 108-125 (non-negative indices). -/
def subPathRange (firstIndex lastIndex : Nat) (p : Path) : Res Path :=
  if lastIndex < firstIndex then .err .config
  else subPathRangeLoop (lastIndex - firstIndex) (subPath firstIndex p) []

/-- The loop of `path::starts_with`, path.cc 135-141. Comparing with `*my_remainder.first()` when
that is null is undefined behaviour. -/
def startsWithLoop : Path → Path → Res Bool
  | _, [] => .ok true
  | mine, o :: os =>
    match first mine with
    | none => .ub
    | some m => if o = m then startsWithLoop (remainder mine) os else .ok false

/-- `path::starts_with`, path.cc 131-145. -/
def startsWith (self other : Path) : Res Bool :=
  if length other ≤ length self then startsWithLoop self other else .ok false

/-- The loop of `path::parent`, path.cc 154-157. -/
def parentLoop : Path → Builder → Builder
  | [], b => b
  | k :: r, b => if hasRemainder (k :: r) then parentLoop r (Builder.appendKey b k) else b

/-- `path::parent`, path.cc 147-159. -/
def parent (p : Path) : Path :=
  if hasRemainder p then Builder.result (parentLoop p []) else []

/-- `path::operator==`, path.cc 161-170: both null, or first elements equal and remainders equal. -/
def beq : Path → Path → Bool
  | [], [] => true
  | [], _ :: _ => false
  | _ :: _, [] => false
  | a :: p, b :: q => a == b && beq p q

/-- `path::path(vector<string>)`, path.cc 23-37. -/
def ofElements : List Str → Res Path
  | [] => .err .config
  | e :: es => .ok (e :: Builder.result (es.foldl Builder.appendKey []))

/-- `path::path(vector<path>)`, path.cc 39-53. If the first path is empty, `first()` is a null
pointer that is stored as an element (`ub`: every later use dereferences it). -/
def concatPaths : List Path → Res Path
  | [] => .err .config
  | p :: ps =>
    match first p with
    | none => .ub
    | some k =>
      .ok (k :: Builder.result
        (ps.foldl Builder.appendPath (if hasRemainder p then Builder.appendPath [] (remainder p) else [])))

end PathM
end Hocon
