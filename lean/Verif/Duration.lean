import Verif.Access

/-!
# Durations

Model of the duration getters in `lib/src/config.cc` 316-489. A C++ `duration` is a pair of seconds
(`int64_t`) and nanoseconds (`int`). Signed overflow is undefined behaviour. Division and remainder
of C++ integers truncate towards zero (`Int.tdiv`, `Int.tmod`).
-/

set_option autoImplicit false

namespace Hocon
open Tokenizer (lexCastI64)

/-- `time_unit`, config.hpp 20. -/
inductive TimeUnit where
  | nanoseconds
  | microseconds
  | milliseconds
  | seconds
  | minutes
  | hours
  | days
  deriving DecidableEq, Repr

/-- Operations on `double` used for durations, config.cc 402-441. They are external functions: every
theorem holds for all of them. -/
structure DblOps where
  /-- a decimal constant -/
  ofInt : Int → Dbl
  /-- `/` -/
  div : Dbl → Dbl → Dbl
  /-- `*` -/
  mul : Dbl → Dbl → Dbl
  /-- `fmod` -/
  fmod : Dbl → Dbl → Dbl
  /-- `isnormal` -/
  isNormal : Dbl → Bool
  /-- `static_cast<int>`; `none` = undefined -/
  toInt : Dbl → Option Int

namespace Duration

/-- The result of a 64-bit signed operation (config.cc 336-342, 385-391): undefined on overflow. -/
def chk (i : Int) : Res Int := if i64Min ≤ i ∧ i ≤ i64Max then .ok i else .ub

/-- The `switch` of `config::convert(int64_t, ...)`, config.cc 366-395: seconds and nanoseconds. -/
def splitI64 (n : Int) : TimeUnit → Res (Int × Int)
  | .nanoseconds => .ok (n.tdiv 1000000000, n.tmod 1000000000)
  | .microseconds => .ok (n.tdiv 1000000, n.tmod 1000000 * 1000)
  | .milliseconds => .ok (n.tdiv 1000, n.tmod 1000 * 1000000)
  | .seconds => .ok (n, 0)
  | .minutes => (chk (n * 60)).bind fun s => .ok (s, 0)
  | .hours => (chk (n * 3600)).bind fun s => .ok (s, 0)
  | .days => (chk (n * 86400)).bind fun s => .ok (s, 0)

/-- `config::convert(int64_t, time_unit)`, config.cc 365-400. -/
def convertI64 (n : Int) (u : TimeUnit) : Res (Int × Int) :=
  (splitI64 n u).bind fun d =>
    if (decide (n ≥ 0)) != (decide (d.1 ≥ 0)) then .err .config else .ok d

/-- The `switch` of `config::convert(double, ...)`, config.cc 403-436. -/
def splitDouble (o : DblOps) (x : Dbl) : TimeUnit → Dbl × Dbl
  | .nanoseconds => (o.div x (o.ofInt 1000000000), o.fmod x (o.ofInt 1000000000))
  | .microseconds => (o.div x (o.ofInt 1000000), o.mul (o.fmod x (o.ofInt 1000000)) (o.ofInt 1000))
  | .milliseconds => (o.div x (o.ofInt 1000), o.mul (o.fmod x (o.ofInt 1000)) (o.ofInt 1000000))
  | .seconds => (x, o.mul (o.fmod x (o.ofInt 1)) (o.ofInt 1000000000))
  | .minutes => (o.mul x (o.ofInt 60),
      o.mul (o.fmod (o.mul x (o.ofInt 60)) (o.ofInt 1)) (o.ofInt 1000000000))
  | .hours => (o.mul x (o.ofInt 3600),
      o.mul (o.fmod (o.mul x (o.ofInt 3600)) (o.ofInt 1)) (o.ofInt 1000000000))
  | .days => (o.mul x (o.ofInt 86400),
      o.mul (o.fmod (o.mul x (o.ofInt 86400)) (o.ofInt 1)) (o.ofInt 1000000000))

/-- The casts at the end of `convert(double, ...)`, config.cc 440. -/
def castPair (env : Env) (o : DblOps) (d : Dbl × Dbl) : Res (Int × Int) :=
  match env.doubleToI64 d.1, o.toInt d.2 with
  | some s, some n => .ok (s, n)
  | _, _ => .ub

/-- `config::convert(double, time_unit)`, config.cc 402-441. -/
def convertDouble (env : Env) (o : DblOps) (x : Dbl) (u : TimeUnit) : Res (Int × Int) :=
  if !(o.isNormal (splitDouble o x u).1) || !(o.isNormal (splitDouble o x u).2) then .err .config
  else castPair env o (splitDouble o x u)

/-- The `switch` of `config::get_duration(path, unit)`, config.cc 333-358. -/
def inUnit (d : Int × Int) : TimeUnit → Res Int
  | .nanoseconds => (chk (d.1 * 1000000000)).bind fun x => chk (x + d.2)
  | .microseconds => (chk (d.1 * 1000000)).bind fun x => chk (x + d.2.tdiv 1000)
  | .milliseconds => (chk (d.1 * 1000)).bind fun x => chk (x + d.2.tdiv 1000000)
  | .seconds => .ok d.1
  | .minutes => .ok (d.1.tdiv 60)
  | .hours => .ok (d.1.tdiv 3600)
  | .days => .ok (d.1.tdiv 86400)

/-- `config::get_duration(path, unit)` after the value has been read, config.cc 331-363. -/
def toUnit (d : Int × Int) (u : TimeUnit) : Res Int :=
  (inUnit d u).bind fun r =>
    if (decide (r ≥ 0)) != (decide (d.1 ≥ 0)) then .err .config else .ok r

/-- `config::get_units`, config.cc 443-461. -/
def getUnits (s : Str) : Res TimeUnit :=
  if s = ch "ns" ∨ s = ch "nanos" ∨ s = ch "nanoseconds" then .ok .nanoseconds
  else if s = ch "us" ∨ s = ch "micros" ∨ s = ch "microseconds" then .ok .microseconds
  else if s = [] ∨ s = ch "ms" ∨ s = ch "millis" ∨ s = ch "milliseconds" then .ok .milliseconds
  else if s = ch "s" ∨ s = ch "seconds" then .ok .seconds
  else if s = ch "m" ∨ s = ch "minutes" then .ok .minutes
  else if s = ch "h" ∨ s = ch "hours" then .ok .hours
  else if s = ch "d" ∨ s = ch "days" then .ok .days
  else .err .config

/-- The plural rule of `parse_duration`, config.cc 473-475. -/
def plural (u : Str) : Str :=
  if u.length > 2 ∧ u.getLast? ≠ some 's' then u ++ ch "s" else u

/-- `boost::algorithm::trim`, `trim_copy` (config.cc 464, 467) in the classic locale. -/
def trim (s : Str) : Str := ((s.dropWhile isSpace).reverse.dropWhile isSpace).reverse

/-- Unit part of a trimmed duration text, config.cc 465-466: everything from the first letter on. -/
def unitPart (s : Str) : Str := s.dropWhile fun c => !isAlpha c

/-- Number part of a trimmed duration text, config.cc 467. -/
def numberPart (s : Str) : Str := trim (s.take (s.length - (unitPart s).length))

/-- The conversion of the number, config.cc 477-488. An exception of `get_units` or `convert` is not a
`bad_lexical_cast`, so it passes. -/
def convertText (env : Env) (o : DblOps) (num unit : Str) : Res (Int × Int) :=
  match lexCastI64 num with
  | some n => (getUnits unit).bind fun u => convertI64 n u
  | none =>
    match env.parseDouble num with
    | some x => (getUnits unit).bind fun u => convertDouble env o x u
    | none => .err .badValue

/-- `config::parse_duration`, config.cc 463-489. -/
def parseDuration (env : Env) (o : DblOps) (input : Str) : Res (Int × Int) :=
  if (numberPart (trim input)).isEmpty then .err .badValue
  else convertText env o (numberPart (trim input)) (plural (unitPart (trim input)))

/-- `config::get_duration(path)` after the value has been read, config.cc 316-329. The origin of the
value (used only for the message) is taken to be there. -/
def ofValue (env : Env) (o : DblOps) : Value → Res (Int × Int)
  | .scalar (.double d _) => convertDouble env o d .milliseconds
  | .scalar (.long i _) => convertI64 i .milliseconds
  | .scalar (.int i _) => convertI64 i .milliseconds
  | .scalar (.str s _) => parseDuration env o s
  | _ => .err .badValue

/-- `config::get_duration(path, unit)`, config.cc 316-363. -/
def getDuration (env : Env) (o : DblOps) (root : Value) (expr : Str) (unit : TimeUnit) : Res Int :=
  (Value.getValue env root expr).bind fun v => (ofValue env o v).bind fun d => toUnit d unit

end Duration
end Hocon
