/-!
# Base definitions shared by the model

Strings, outcomes and the external functions the C++ code calls.
-/

namespace Hocon

/-- `std::string`: a list of characters. One `Char` stands for one byte; all theorems quantify
over arbitrary `Char`s, hence over all bytes. -/
abbrev Str := List Char

/-- `ch "abc"` is the character list `['a','b','c']` (a literal, so that the kernel can compute
with it). -/
syntax (name := chTerm) "ch " str : term

open Lean in
macro_rules
  | `(ch $s:str) => do
    let cs := s.getString.toList.map fun c => Syntax.mkCharLit c
    `([$(cs.toArray),*])

/-- Exception classes thrown by the library, `lib/inc/hocon/config_exception.hpp` lines 13-232. -/
inductive Err where
  /-- plain `config_exception` -/
  | config
  /-- `wrong_type_exception` -/
  | wrongType
  /-- `missing_exception` -/
  | missing
  /-- `null_exception` -/
  | null
  /-- `bad_value_exception` -/
  | badValue
  /-- `bad_path_exception` -/
  | badPath
  /-- `bug_or_broken_exception` -/
  | bug
  /-- `io_exception` -/
  | io
  /-- `parse_exception` -/
  | parse
  /-- `unresolved_substitution_exception` -/
  | unresolvedSubst
  /-- `not_resolved_exception` -/
  | notResolved
  /-- `not_possible_to_resolve_exception` -/
  | notPossible
  /-- an exception that does not derive from `config_exception`
  (`unsupported_exception`, `std::out_of_range`, a thrown pointer, ...) -/
  | foreign
  deriving DecidableEq, Repr

/-- Outcome of a modelled C++ function.
`ub`: the C++ has undefined behaviour. `fuel`: the model's recursion bound was reached (this is
an artefact of the model; theorems about totality show it is not reached). -/
inductive Res (α : Type) where
  | ok (a : α)
  | err (e : Err)
  | ub
  | fuel
  deriving Repr, DecidableEq

namespace Res

/-- Sequencing: the first outcome that is not `ok` wins. -/
@[inline] def bind {α β : Type} : Res α → (α → Res β) → Res β
  | ok a, f => f a
  | err e, _ => err e
  | ub, _ => ub
  | fuel, _ => fuel

instance : Monad Res where
  pure := ok
  bind := bind

@[simp] theorem pure_eq {α : Type} (a : α) : (pure a : Res α) = ok a := rfl
@[simp] theorem ok_bind {α β : Type} (a : α) (f : α → Res β) : (ok a >>= f) = f a := rfl
@[simp] theorem err_bind {α β : Type} (e : Err) (f : α → Res β) : (err e >>= f) = err e := rfl
@[simp] theorem ub_bind {α β : Type} (f : α → Res β) : (ub >>= f) = ub := rfl
@[simp] theorem fuel_bind {α β : Type} (f : α → Res β) : (fuel >>= f) = fuel := rfl

/-- A bind that returns normally: both parts did. -/
theorem bind_eq_ok {α β : Type} {x : Res α} {f : α → Res β} {b : β} :
    (x >>= f) = ok b ↔ ∃ a, x = ok a ∧ f a = ok b := by
  cases x <;> simp

/-- `true` iff the outcome is a normal return. -/
def isOk {α : Type} : Res α → Bool
  | ok _ => true
  | _ => false

/-- `true` iff the function returned or threw (no undefined behaviour, no recursion bound). -/
def isThrowOrOk {α : Type} : Res α → Bool
  | ok _ => true
  | err _ => true
  | _ => false

end Res

/-- A C++ `double`, identified by an opaque code (its bit pattern). The model never looks inside;
every operation on it is a field of `Env`. -/
abbrev Dbl := Int

/-- The functions outside the library that the modelled code calls. Theorems quantify over all
`Env`s, so no property of these functions is assumed unless stated as a hypothesis. -/
structure Env where
  /-- `boost::lexical_cast<double>`; `none` = `bad_lexical_cast` -/
  parseDouble : Str → Option Dbl
  /-- `static_cast<int64_t>(double)`; `none` = out of range (undefined behaviour) -/
  doubleToI64 : Dbl → Option Int
  /-- `static_cast<double>(int64_t)` -/
  i64ToDouble : Int → Dbl
  /-- `double == double` -/
  doubleEq : Dbl → Dbl → Bool
  /-- `std::to_string(double)` -/
  showDouble : Dbl → Str
  /-- `sscanf(s, "%hx", &x)` on a (NUL-terminated) string; `none` = nothing stored, `x` stays
  uninitialised -/
  scanHx : Str → Option Nat
  /-- `boost::nowide::narrow` of the one-character wide string with this code -/
  narrow : Nat → Str
  /-- environment variable lookup -/
  getenv : Str → Option Str

end Hocon
