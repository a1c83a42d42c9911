import Mathlib.Data.Rat.Defs
import Verif.Model.Go
/-!
# Durations as they are documented

A sequence of decimal numbers with units, such as `1.5h` or `1h30m`; a minus sign in front makes it negative.
-/
namespace Verif.Funcs

/-- The units and their nanoseconds. -/
def units : List (Bytes × Nat) :=
  [(b "ns", 1), (b "us", 10 ^ 3), (b "µs", 10 ^ 3), (b "μs", 10 ^ 3), (b "ms", 10 ^ 6), (b "s", 10 ^ 9), (b "m", 60 * 10 ^ 9),
   (b "h", 3600 * 10 ^ 9)]

/-- A digit. -/
def IsDig (c : UInt8) : Prop := 48 ≤ c ∧ c ≤ 57

instance (c : UInt8) : Decidable (IsDig c) := by unfold IsDig; infer_instance

/-- The number that digits stand for. -/
def decimal (ds : Bytes) : Nat := ds.foldl (fun x c => x * 10 + (c.toNat - 48)) 0

/-- A number with a unit: digits before the point, the point with the digits after it, and the unit. -/
structure Part where
  whole : Bytes
  frac : Option Bytes
  name : Bytes
  unit : Nat

/-- The digits after the point. -/
def Part.digits (p : Part) : Bytes := p.frac.getD []

structure Part.Valid (p : Part) : Prop where
  unit : (p.name, p.unit) ∈ units
  whole : ∀ c ∈ p.whole, IsDig c
  frac : ∀ c ∈ p.digits, IsDig c
  some : p.whole ≠ [] ∨ p.digits ≠ []

/-- The point with the digits after it. -/
def pointed : Option Bytes → Bytes
  | none => []
  | some f => 46 :: f

/-- The text. -/
def Part.render (p : Part) : Bytes := p.whole ++ pointed p.frac ++ p.name

/-- The nanoseconds. -/
def Part.value (p : Part) : Rat := (decimal p.whole + decimal p.digits / 10 ^ p.digits.length) * p.unit

/-- The text of a sequence. -/
def renderParts (ps : List Part) : Bytes := (ps.map Part.render).flatten

/-- The sum of a sequence. -/
def total (ps : List Part) : Rat := (ps.map Part.value).sum

/-- Signs. -/
inductive Sign where
  | none | plus | minus
deriving DecidableEq

def Sign.render : Sign → Bytes
  | .none => []
  | .plus => [43]
  | .minus => [45]

/-- The number with the sign. -/
def Sign.apply : Sign → Rat → Rat
  | .minus, q => -q
  | _, q => q

/-- The largest duration: an `int64` of nanoseconds, which is one more below zero. -/
def Sign.most : Sign → Rat
  | .minus => 2 ^ 63
  | _ => 2 ^ 63 - 1

end Verif.Funcs
