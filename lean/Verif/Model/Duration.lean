import Verif.Model.Cty
import Verif.Model.TimeAdd
/-!
# `time.ParseDuration`

External code, modelled as recalled (it is not on the machine): `time.ParseDuration` with `leadingInt`,
`leadingFraction` and `unitMap`, as called by `internal/lang/funcs/datetime.go` L55.  Instead of an error text there
is `none`.  Numbers of the type `float64` are rational numbers rounded to 53 bits, of any exponent: with more than 300
digits after the point Go computes with infinity, where the result is zero as well.
-/
namespace Verif.Funcs
open Hcl (rd)

/-- `'0' <= c && c <= '9'` -/
def isDigit (c : UInt8) : Bool := decide (48 ≤ c) && decide (c ≤ 57)

/-- `time.leadingInt` with the number read before; `none`: overflow. -/
def leadingInt (x : Nat) : Bytes → Option (Nat × Bytes)
  | [] => some (x, [])
  | c :: s =>
    if isDigit c then
      if x > 2 ^ 63 / 10 then none
      else if x * 10 + (c.toNat - 48) > 2 ^ 63 then none
      else leadingInt (x * 10 + (c.toNat - 48)) s
    else some (x, c :: s)

/-- `time.leadingFraction`: the digits as a number, the power of ten and the rest; digits after an overflow are
skipped. -/
def leadingFraction (x : Nat) (scale : Rat) (overflow : Bool) : Bytes → Nat × Rat × Bytes
  | [] => (x, scale, [])
  | c :: s =>
    if isDigit c then
      if overflow || decide (x > (2 ^ 63 - 1) / 10) || decide (x * 10 + (c.toNat - 48) > 2 ^ 63) then
        leadingFraction x scale true s
      else leadingFraction (x * 10 + (c.toNat - 48)) (rd 53 (scale * 10)) false s
    else (x, scale, c :: s)

/-- `time.unitMap`; there are two signs for micro. -/
def unitMap (u : Bytes) : Option Nat :=
  if u = b "ns" then some 1
  else if u = b "us" then some 1000
  else if u = b "µs" then some 1000
  else if u = b "μs" then some 1000
  else if u = b "ms" then some 1000000
  else if u = b "s" then some 1000000000
  else if u = b "m" then some 60000000000
  else if u = b "h" then some 3600000000000
  else none

/-- What is not part of a unit. -/
def inUnit (c : UInt8) : Bool := !(c == 46 || isDigit c)

/-- The digits after a point, if there is one: number, scale, rest, and whether there are any. -/
def fractionPart : Bytes → Nat × Rat × Bytes × Bool
  | 46 :: s =>
    let r := leadingFraction 0 1 false s
    (r.1, r.2.1, r.2.2, decide (r.2.2.length ≠ s.length))
  | s => (0, 1, s, false)

/-- The value of a number with a unit in nanoseconds. -/
def partValue (v f : Nat) (scale : Rat) (unit : Nat) : Option Nat :=
  if v > 2 ^ 63 / unit then none
  else if f > 0 then
    let w := v * unit + (rd 53 (rd 53 f * rd 53 (unit / scale))).floor.toNat
    if w > 2 ^ 63 then none else some w
  else some (v * unit)

/-- One turn of the loop of `time.ParseDuration`: the value and the rest. -/
def durationPart (s : Bytes) : Option (Nat × Bytes) :=
  match s with
  | [] => none
  | c :: _ =>
    if inUnit c then none
    else match leadingInt 0 s with
      | none => none
      | some (v, s1) =>
        let (f, scale, s2, post) := fractionPart s1
        if s1.length = s.length ∧ post = false then none
        else if s2.takeWhile inUnit = [] then none
        else match unitMap (s2.takeWhile inUnit) with
          | none => none
          | some unit =>
            match partValue v f scale unit with
            | none => none
            | some w => some (w, s2.dropWhile inUnit)

/-- The loop, with a bound for the number of turns; the sum is a `uint64`. -/
def durationLoop : Nat → Bytes → Nat → Option Nat
  | _, [], d => some d
  | 0, _ :: _, _ => none
  | n + 1, c :: s, d =>
    match durationPart (c :: s) with
    | none => none
    | some (v, r) => if (d + v) % 2 ^ 64 > 2 ^ 63 then none else durationLoop n r ((d + v) % 2 ^ 64)

/-- The text after the sign. -/
def unsigned : Bytes → Bool × Bytes
  | 45 :: s => (true, s)
  | 43 :: s => (false, s)
  | s => (false, s)

/-- `time.ParseDuration` -/
def parseDuration (s : Bytes) : Option Int :=
  let (neg, r) := unsigned s
  if r = [48] then some 0
  else if r = [] then none
  else match durationLoop r.length r 0 with
    | none => none
    | some d => if neg then some (-(d : Int)) else if d > 2 ^ 63 - 1 then none else some d

end Verif.Funcs
