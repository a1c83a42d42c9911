import Mathlib.Algebra.Order.Field.Power
import Mathlib.Data.Rat.Floor
import Verif.Model.Cty
/-!
# What the conversions between native data and cty values should do
-/
namespace Verif.Hcl

/-- `q` is a binary floating point number with `p` bits of mantissa (exponent unbounded). -/
def IsFloat (p : Nat) (q : Rat) : Prop := ∃ k e : Int, q = k * (2 : Rat) ^ e ∧ |k| < 2 ^ p

/-- `q` is the value of an `int64`. -/
def IsInt64 (q : Rat) : Prop := ∃ n : Int, q = n ∧ -(2 ^ 63) ≤ n ∧ n < 2 ^ 63

/-- The value of a native number. -/
def GV.value : GV → Option Rat
  | .int n => some n
  | .flt q => some q
  | _ => none

/-- `q` has no fractional part. -/
def IsWhole (q : Rat) : Prop := ∃ n : Int, q = n

mutual
/-- Data that survives the conversion to cty and back: no nil, normalised strings and keys, integers in
the range of `int64`, positive fractions representable in a `float32`. -/
def Plain (nfc : Bytes → Bytes) : GV → Prop
  | .nil => False
  | .str s => nfc s = s
  | .bool _ => True
  | .int n => IsInt64 n
  | .flt q => IsInt64 q ∨ 0 < q ∧ ¬ IsWhole q ∧ IsFloat 24 q
  | .list l => PlainL nfc l
  | .map m => PlainM nfc m
  | .nilList => True
  | .nilMap => True
def PlainL (nfc : Bytes → Bytes) : List GV → Prop
  | [] => True
  | v :: l => Plain nfc v ∧ PlainL nfc l
def PlainM (nfc : Bytes → Bytes) : List (Bytes × GV) → Prop
  | [] => True
  | (k, v) :: m => nfc k = k ∧ Plain nfc v ∧ PlainM nfc m
end

mutual
/-- The same data where an empty list or map is a nil slice or map, and a number without a fractional part
has an integer type. -/
def GV.norm : GV → GV
  | .list [] => .nilList
  | .list (v :: l) => .list (v.norm :: normL l)
  | .map [] => .nilMap
  | .map ((k, v) :: m) => .map ((k, v.norm) :: normM m)
  | .flt q => if q.den = 1 then .int q.num else .flt q
  | v => v
def normL : List GV → List GV
  | [] => []
  | v :: l => v.norm :: normL l
def normM : List (Bytes × GV) → List (Bytes × GV)
  | [] => []
  | (k, v) :: m => (k, v.norm) :: normM m
end

end Verif.Hcl
