import Verif.Duration
import Verif.Spec.Convert

/-!
# Specification: units of time
-/

set_option autoImplicit false

namespace Hocon
namespace Spec

/-- Nanoseconds per unit. -/
def nanosPer : TimeUnit → Int
  | .nanoseconds => 1
  | .microseconds => 1000
  | .milliseconds => 1000 ^ 2
  | .seconds => 1000 ^ 3
  | .minutes => 60 * 1000 ^ 3
  | .hours => 60 * 60 * 1000 ^ 3
  | .days => 24 * 60 * 60 * 1000 ^ 3

/-- The documented spellings of units (HOCON.md, "Duration format"). -/
def spellings : List (Str × TimeUnit) :=
  [(ch "ns", .nanoseconds), (ch "nano", .nanoseconds), (ch "nanos", .nanoseconds),
   (ch "nanosecond", .nanoseconds), (ch "nanoseconds", .nanoseconds),
   (ch "us", .microseconds), (ch "micro", .microseconds), (ch "micros", .microseconds),
   (ch "microsecond", .microseconds), (ch "microseconds", .microseconds),
   (ch "", .milliseconds), (ch "ms", .milliseconds), (ch "milli", .milliseconds),
   (ch "millis", .milliseconds), (ch "millisecond", .milliseconds), (ch "milliseconds", .milliseconds),
   (ch "s", .seconds), (ch "second", .seconds), (ch "seconds", .seconds),
   (ch "m", .minutes), (ch "minute", .minutes), (ch "minutes", .minutes),
   (ch "h", .hours), (ch "hour", .hours), (ch "hours", .hours),
   (ch "d", .days), (ch "day", .days), (ch "days", .days)]

/-- Only white space of the "C" locale. -/
def Blank (w : Str) : Prop := ∀ c ∈ w, c ∈ [' ', '\t', '\n', '\x0b', '\x0c', '\r']

/-- A configuration value that stands for `n` units `u`: a number (milliseconds), or a string made of a
decimal integer and a documented unit, with any white space around and between. -/
inductive Amount : Value → Int → TimeUnit → Prop where
  | int (n : Int) (orig : Str) : Amount (.scalar (.int n orig)) n .milliseconds
  | long (n : Int) (orig : Str) : Amount (.scalar (.long n orig)) n .milliseconds
  | text (num unit w1 w2 w3 : Str) (n : Int) (u : TimeUnit) (quoted : Bool) :
      Denotes num n → (unit, u) ∈ spellings → Blank w1 → Blank w2 → Blank w3 →
      Amount (.scalar (.str (w1 ++ num ++ w2 ++ unit ++ w3) quoted)) n u

end Spec
end Hocon
