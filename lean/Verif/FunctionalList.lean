import Verif.Base

/-!
# The functional list

Model of `lib/inc/hocon/functional_list.hpp`. A `List<T>` is a pointer to immutable cells, so it is a
list here; sharing (`headCount`) is not modelled, and neither is printing. `operator==` of the elements
decides equality. Function arguments are pure. A failed `assert` is undefined behaviour: with `NDEBUG` a
null pointer is dereferenced.
-/

set_option autoImplicit false

namespace Hocon
namespace FList

variable {T U : Type}

/-- `front`, functional_list.hpp 39-43. -/
def front : List T → Res T
  | [] => .ub
  | a :: _ => .ok a

/-- `popped_front`, functional_list.hpp 44-48. -/
def poppedFront : List T → Res (List T)
  | [] => .ub
  | _ :: l => .ok l

/-- `take`, functional_list.hpp 54-58. -/
def take (n : Int) : List T → List T
  | [] => []
  | a :: l => if n ≤ 0 then [] else a :: take (n - 1) l

/-- `insertedAt`, functional_list.hpp 59-67. -/
def insertedAt (v : T) (i : Int) : List T → Res (List T)
  | [] => if i = 0 then .ok [v] else .ub
  | a :: l => if i = 0 then .ok (v :: a :: l) else (insertedAt v (i - 1) l).bind fun r => .ok (a :: r)

/-- `removed`, functional_list.hpp 68-74. -/
def removed [DecidableEq T] (v : T) : List T → List T
  | [] => []
  | a :: l => if v = a then removed v l else a :: removed v l

/-- `removed1`, functional_list.hpp 75-81. It goes on with `removed` (80). -/
def removed1 [DecidableEq T] (v : T) : List T → List T
  | [] => []
  | a :: l => if v = a then l else a :: removed v l

/-- `member`, functional_list.hpp 82-87. -/
def member [DecidableEq T] (v : T) : List T → Bool
  | [] => false
  | a :: l => if v = a then true else member v l

/-- `all`, functional_list.hpp 106-114. -/
def all (p : T → Bool) : List T → Bool
  | [] => true
  | a :: l => if !p a then false else all p l

/-- Writing elements through an `OutListIter` that holds `acc`, functional_list.hpp 142-157. -/
def writeAll (acc : List T) : List T → List T
  | [] => acc
  | a :: l => writeAll (a :: acc) l

/-- `concat`, functional_list.hpp 174-180. -/
def concat : List T → List T → List T
  | [], b => b
  | x :: a, b => x :: concat a b

/-- `fmap`, functional_list.hpp 182-192. -/
def fmap (f : T → U) : List T → List U
  | [] => []
  | a :: l => f a :: fmap f l

/-- `filter`, functional_list.hpp 194-205. -/
def filter (p : T → Bool) : List T → List T
  | [] => []
  | a :: l => if p a then a :: filter p l else filter p l

/-- `foldr`, functional_list.hpp 207-216. -/
def foldr (f : T → U → U) (acc : U) : List T → U
  | [] => acc
  | a :: l => f a (foldr f acc l)

/-- `foldl`, functional_list.hpp 218-227. -/
def foldl (f : U → T → U) (acc : U) : List T → U
  | [] => acc
  | a :: l => foldl f (f acc a) l

/-- `set_diff`, functional_list.hpp 229-236. -/
def setDiff [DecidableEq T] (as bs : List T) : List T := foldl (fun acc x => removed x acc) as bs

/-- `set_union`, functional_list.hpp 238-249. -/
def setUnion [DecidableEq T] (xs ys : List T) : List T :=
  concat (foldl (fun acc x => removed x acc) ys xs) xs

/-- `concatAll`, functional_list.hpp 251-256. -/
def concatAll : List (List T) → List T
  | [] => []
  | a :: l => concat a (concatAll l)

/-- `iterateN`, functional_list.hpp 282-287. The argument `n` is `count` as a natural number: both are
zero for `count <= 0`. -/
def iterateNat (f : T → T) (init : T) : Nat → List T
  | 0 => []
  | n + 1 => init :: iterateNat f (f init) n

/-- `iterateN`, functional_list.hpp 282-287. -/
def iterateN (f : T → T) (init : T) (count : Int) : List T := iterateNat f init count.toNat

/-- `reversed`, functional_list.hpp 311-318. -/
def reversed (l : List T) : List T := foldl (fun acc v => v :: acc) [] l

end FList
end Hocon
