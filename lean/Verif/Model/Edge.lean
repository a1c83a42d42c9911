import Verif.Model.HclPrint
/-!
# Numbers at the edges of the floating point formats

`Model/Cty` has numbers of any size in formats without limits for the exponent.  Here are `NativeToCty` and `CtyNumberToNative` (`utils/util.go` L168-224) and the
numbers of `shortDirect` (`dethcl/encoding.go` L37-51) again, with the limits of `float32` and `float64`, with infinities and NaN.

External code, modelled as recalled (it is not on the machine): `Int64`, `Int`, `Float32`, `Float64` and `SetFloat64` of `big.Float`, with their accuracy;
`gocty.FromCtyValue` to `int64`, `float32`, `float64`; `cty.NumberFloatVal`; `%f` of `fmt`.

Simplifications: the sign of zero and the limits of the exponent of a `big.Float` are not represented; `int` and `int64` are one type.
-/
namespace Verif.Edge
open Hcl (pow2 roundEven expo fitsI64 intText fltText)

/-- A binary format: bits of the mantissa, smallest and largest exponent of a normal number. -/
structure Fmt where
  p : Nat
  emin : Int
  emax : Int

/-- `float32` -/
def f32 : Fmt := ⟨24, -126, 127⟩

/-- `float64` -/
def f64 : Fmt := ⟨53, -1022, 1023⟩

/-- A value of such a format. -/
inductive F where
  | fin (q : Rat)
  | inf (neg : Bool)
  | nan
deriving DecidableEq

/-- The absolute value. -/
def mag (q : Rat) : Rat := if q < 0 then -q else q

/-- The exponent of the last place of the numbers near `q`. -/
def last (f : Fmt) (q : Rat) : Int := (if expo q < f.emin then f.emin else expo q) - (f.p - 1)

/-- The nearest number, ties to even, that has the last place of the format. -/
def near (f : Fmt) (q : Rat) : Rat := roundEven (mag q / pow2 (last f q)) * pow2 (last f q)

/-- Rounding of IEEE 754 to nearest, ties to even: what is too large becomes infinite. -/
def round (f : Fmt) (q : Rat) : F :=
  if q = 0 then .fin 0
  else if pow2 (f.emax + 1) ≤ near f q then .inf (decide (q < 0))
  else .fin (if q < 0 then -near f q else near f q)

/-- A cty number, a `big.Float`. -/
inductive N where
  | fin (q : Rat)
  | inf (neg : Bool)
deriving DecidableEq

/-- `big.Accuracy` -/
inductive Acc where
  | below
  | exact
  | above
deriving DecidableEq

/-- How a result compares with the number. -/
def accOf (r q : Rat) : Acc := if r < q then .below else if q < r then .above else .exact

/-- `big.Float.Int64`: toward zero, and the nearest `int64` for what is out of range. -/
def int64 : N → Int × Acc
  | .inf true => (-(2 ^ 63), .above)
  | .inf false => (2 ^ 63 - 1, .below)
  | .fin q =>
    let t := if q < 0 then -(-q).floor else q.floor
    let r := if t < -(2 ^ 63) then -(2 ^ 63) else if 2 ^ 63 ≤ t then 2 ^ 63 - 1 else t
    (r, accOf r q)

/-- `big.Float.Int`, the accuracy. -/
def bigInt : N → Acc
  | .inf true => .above
  | .inf false => .below
  | .fin q => accOf (if q < 0 then -(-q).floor else q.floor) q

/-- `big.Float.Float32` and `Float64`. -/
def float (f : Fmt) : N → F × Acc
  | .inf s => (.inf s, .exact)
  | .fin q => match round f q with
    | .fin r => (.fin r, accOf r q)
    | .inf s => (.inf s, if s then .below else .above)
    | .nan => (.nan, .exact)

/-- `gocty.FromCtyValue` to an `int64` or `int`: the number must be whole and in range. -/
def fromInt (n : N) : Except Unit Int :=
  match int64 n with
  | (x, .exact) => .ok x
  | _ => .error ()

/-- `reflect.Value.SetFloat`: a `float64` becomes a number of the format. -/
def setFloat (f : Fmt) : F → F
  | .fin q => round f q
  | x => x

/-- `gocty.FromCtyValue` to a `float32` or `float64`: through a `float64`, which must not become infinite. -/
def fromFloat (f : Fmt) (n : N) : Except Unit F :=
  match float f64 n with
  | (.inf s, .exact) => .ok (setFloat f (.inf s))
  | (.inf _, _) => .error ()
  | (x, _) => .ok (setFloat f x)

/-- A native number. -/
inductive Native where
  | int (n : Int)
  | f32 (x : F)
  | f64 (x : F)
deriving DecidableEq

/-- utils/util.go L203-224 `CtyNumberToNative` -/
def toNative (n : N) : Except Unit Native :=
  if (int64 n).2 ≠ .below then (fromInt n).map .int              -- L205-211
  else if bigInt n ≠ .below then (fromInt n).map .int            -- L212-215
  else if (float f32 n).2 ≠ .below then (fromFloat f32 n).map .f32   -- L216-219
  else (fromFloat f64 n).map .f64                                -- L221-223

/-- utils/util.go L196-200 `NativeToCty` of a `float32` or `float64`; `none`: `SetFloat64` panics. -/
def toCty : F → Option N
  | .fin q => some (.fin q)
  | .inf s => some (.inf s)
  | .nan => none

/-- What comes of writing a number. -/
inductive Out where
  | text (s : Bytes)
  | err
  | panic
deriving DecidableEq

/-- `fmt.Sprintf("%f", x)` -/
def fText : F → Bytes
  | .fin q => fltText q
  | .inf true => b "-Inf"
  | .inf false => b "+Inf"
  | .nan => b "NaN"

/-- dethcl/encoding.go L37-51: `shortDirect` of a `float32` or `float64`. -/
def write (x : F) : Out :=
  match toCty x with
  | none => .panic                                               -- L38
  | some n => match toNative n with
    | .error _ => .err                                           -- L42-45
    | .ok (.int k) => .text (intText k)                          -- L46-48
    | .ok (.f32 y) => .text (fText y)                            -- L51
    | .ok (.f64 y) => .text (fText y)

end Verif.Edge
