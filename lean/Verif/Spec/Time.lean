import Verif.Model.Go
import Mathlib.Data.Rat.Floor
/-!
# Timestamps of RFC 3339 and the instants they denote

The calendar is given by the length of each year and month; days are counted one year and one month at a time.
-/
namespace Verif.Funcs

/-- Gregorian leap years (RFC 3339 appendix C). -/
def Leap (y : Nat) : Prop := (4 ∣ y ∧ ¬ 100 ∣ y) ∨ 400 ∣ y

instance (y : Nat) : Decidable (Leap y) := by unfold Leap; infer_instance

/-- RFC 3339 section 5.7: the length of a month. -/
def monthLength (y m : Nat) : Nat :=
  if m = 2 then (if Leap y then 29 else 28)
  else if m = 4 ∨ m = 6 ∨ m = 9 ∨ m = 11 then 30
  else 31

/-- The days of the years before `y`, from year 0. -/
def daysOfYears : Nat → Nat
  | 0 => 0
  | y + 1 => daysOfYears y + (if Leap y then 366 else 365)

/-- The days of the first `m` months of a year. -/
def daysOfMonths (y : Nat) : Nat → Nat
  | 0 => 0
  | m + 1 => daysOfMonths y m + monthLength y (m + 1)

/-- The parts of a timestamp.  `frac` are the digits of the fraction of a second, `zone` the offset from UTC:
its sign (`true` is `+`), hours and minutes, or nothing for `Z`. -/
structure Stamp where
  year : Nat
  month : Nat
  day : Nat
  hour : Nat
  min : Nat
  sec : Nat
  frac : List Nat
  zone : Option (Bool × Nat × Nat)

/-- A valid timestamp (RFC 3339 section 5.6), leap seconds apart. -/
structure Stamp.Valid (s : Stamp) : Prop where
  year : s.year ≤ 9999
  month : 1 ≤ s.month ∧ s.month ≤ 12
  day : 1 ≤ s.day ∧ s.day ≤ monthLength s.year s.month
  hour : s.hour ≤ 23
  min : s.min ≤ 59
  sec : s.sec ≤ 59
  frac : ∀ d ∈ s.frac, d ≤ 9
  zone : ∀ z ∈ s.zone, z.2.1 ≤ 23 ∧ z.2.2 ≤ 59

/-- A decimal digit. -/
def dig (n : Nat) : UInt8 := (48 + n % 10).toUInt8

/-- Two digits. -/
def dig2 (n : Nat) : Bytes := [dig (n / 10), dig n]

/-- The offset as written. -/
def renderZone : Option (Bool × Nat × Nat) → Bytes
  | none => [90]
  | some (pos, h, m) => (if pos then 43 else 45) :: (dig2 h ++ 58 :: dig2 m)

/-- The fraction as written. -/
def renderFrac (l : List Nat) : Bytes := if l = [] then [] else 46 :: l.map dig

/-- The timestamp as written: `2006-01-02T15:04:05.999+07:00`. -/
def Stamp.render (s : Stamp) : Bytes :=
  dig2 (s.year / 100) ++ dig2 s.year ++ 45 :: dig2 s.month ++ 45 :: dig2 s.day ++ 84 :: dig2 s.hour ++
    58 :: dig2 s.min ++ 58 :: dig2 s.sec ++ renderFrac s.frac ++ renderZone s.zone

/-- The fraction of a second: `0.d₁d₂…`. -/
def fracVal : List Nat → Rat
  | [] => 0
  | d :: l => (d + fracVal l) / 10

/-- The offset from UTC in seconds. -/
def zoneSec : Option (Bool × Nat × Nat) → Int
  | none => 0
  | some (true, h, m) => h * 3600 + m * 60
  | some (false, h, m) => -(h * 3600 + m * 60)

/-- The instant in seconds since the start of year 0, UTC. -/
def Stamp.instant (s : Stamp) : Rat :=
  (((daysOfYears s.year + daysOfMonths s.year (s.month - 1) + (s.day - 1)) * 86400 +
    s.hour * 3600 + s.min * 60 + s.sec : Nat) : Rat) - zoneSec s.zone + fracVal s.frac

/-- The order of two things as a number. -/
def order {α : Type} [LT α] [DecidableRel (α := α) (· < ·)] (x y : α) : Int :=
  if x < y then -1 else if y < x then 1 else 0

end Verif.Funcs
