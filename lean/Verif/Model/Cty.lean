import Verif.Model.Go
/-!
# Generic native data and go-cty values

Model of `utils/util.go` L168-280 (`NativeToCty`, `CtyNumberToNative`, `CtyToNative`).

External code, modelled as recalled (it is not on the machine): `math/big` (`Float.Int64`, `Float.Int`,
`Float.Float32` with their accuracy), `gocty.FromCtyValue`, `gocty.ToCtyValue`, `cty.StringVal` and
`cty.ObjectVal` (which normalise to NFC; `nfc` is a parameter).

Simplifications:
* all Go integer types are one constructor `int`, `float32` and `float64` are one constructor `flt` that
  holds the exact rational value; NaN, infinities and the sign of zero are not represented;
* the exponent range of the floating point formats is not represented (no overflow, no subnormal numbers);
* unknown values, marks and capsule types are not represented; cty lists, sets and tuples are all `tuple`,
  maps and objects are both `object`.
-/

namespace Verif.Hcl

/-- Data as it comes out of `json.Unmarshal`/`yaml.Unmarshal`/`Unmarshal` into a
`map[string]interface{}`.  `nilList` and `nilMap` are the typed nil values `[]interface{}(nil)` and
`map[string]interface{}(nil)` inside an interface. -/
inductive GV where
  | nil
  | str (s : Bytes)
  | bool (v : Bool)
  | int (n : Int)
  | flt (q : Rat)
  | list (l : List GV)
  | map (m : List (Bytes × GV))
  | nilList
  | nilMap

/-- Powers of two with integer exponent. -/
def pow2 (e : Int) : Rat := if 0 ≤ e then (2 : Rat) ^ e.toNat else 1 / (2 : Rat) ^ (-e).toNat

/-- Rounding to the nearest integer, ties to even. -/
def roundEven (x : Rat) : Int :=
  if x - x.floor < 1 / 2 then x.floor
  else if 1 / 2 < x - x.floor then x.floor + 1
  else if x.floor % 2 = 0 then x.floor else x.floor + 1

/-- The binary exponent of a number that is not zero: the `e` with `2^e ≤ |q| < 2^(e+1)`. -/
def expo (q : Rat) : Int :=
  let e : Int := (q.num.natAbs.log2 : Int) - (q.den.log2 : Int)
  if pow2 e ≤ (q.num.natAbs : Rat) / q.den then e else e - 1

/-- Rounding to a binary floating point number with `p` bits of mantissa, to nearest, ties to even:
`float32` is `p = 24`, `float64` is `p = 53`, a cty number is `p = 512`. -/
def rd (p : Nat) (q : Rat) : Rat :=
  if q = 0 then 0
  else roundEven (q * pow2 (p - 1 - expo q)) / pow2 (p - 1 - expo q)

/-- Whether an integer fits into an `int64`. -/
def fitsI64 (n : Int) : Bool := decide (-(2 ^ 63) ≤ n) && decide (n < 2 ^ 63)

/-- utils/util.go L203-224 `CtyNumberToNative`.

L205 `v.Int64()` truncates toward zero: `Exact` for an integer in range, `Above` for a negative number that
is not an integer or is below the range, and then L207 `FromCtyValue` to `int64` fails unless the number is
an integer in range (the check of L208 only chooses between the Go types `int` and `int64`).
L212 `v.Int(nil)`: `Exact` for an integer beyond the range, for which L214 fails.
L216 `v.Float32()`: `Exact` or `Above`; L218 `FromCtyValue` to `float32` goes through `float64`. -/
def ctyNumberToNative (q : Rat) : Except Unit GV :=
  if q.den = 1 ∧ fitsI64 q.num then .ok (.int q.num)          -- L205 Exact
  else if q < 0 then .error ()                                -- L205 Above
  else if q.den = 1 then .error ()                            -- L212 Exact
  else if q ≤ rd 24 q then .ok (.flt (rd 24 (rd 53 q)))       -- L216 Exact, Above
  else .ok (.flt (rd 53 q))                                   -- L221

/-- A cty value. -/
inductive Cty where
  | null
  | str (s : Bytes)
  | num (q : Rat)
  | bool (v : Bool)
  | tuple (l : List Cty)
  | object (m : List (Bytes × Cty))

section
variable (nfc : Bytes → Bytes)

mutual
/-- utils/util.go L168-201 `NativeToCty`: L169-171 `nil` becomes an empty object. L174-183 maps (the result
of `cty.ObjectVal` is again a map, keys normalised), L184-193 lists, L196-200 scalars by `gocty`.  A typed
nil map or slice takes the same cases with no iteration. -/
def nativeToCty : GV → Cty
  | .nil => .object []
  | .map m => .object (nativeToCtyM m)
  | .nilMap => .object []
  | .list l => .tuple (nativeToCtyL l)
  | .nilList => .tuple []
  | .str s => .str (nfc s)
  | .bool v => .bool v
  | .int n => .num n
  | .flt q => .num q
/-- L186-192 -/
def nativeToCtyL : List GV → List Cty
  | [] => []
  | v :: l => nativeToCty v :: nativeToCtyL l
/-- L176-182 -/
def nativeToCtyM : List (Bytes × GV) → List (Bytes × Cty)
  | [] => []
  | (k, v) :: m => (nfc k, nativeToCty v) :: nativeToCtyM m
end
end

/-- Whether the interface value is nil (typed nil maps and slices are not), utils/util.go L254, L270. -/
def GV.isNil : GV → Bool
  | .nil => true
  | _ => false

/-- utils/util.go L248-262: the map starts as nil and is made by the first member. -/
def mkMap (m : List (Bytes × GV)) : GV := if m.isEmpty then .nilMap else .map m

/-- utils/util.go L264-275: the slice starts as nil. -/
def mkList (l : List GV) : GV := if l.isEmpty then .nilList else .list l

mutual
/-- utils/util.go L226-280 `CtyToNative`. -/
def ctyToNative : Cty → Except Unit GV
  | .null => .ok .nil                                   -- L227-229
  | .str s => .ok (.str s)                              -- L233-236
  | .num q => ctyNumberToNative q                       -- L237-238
  | .bool v => .ok (.bool v)                            -- L239-242
  | .object m => (ctyToNativeM m).map mkMap             -- L247-262
  | .tuple l => (ctyToNativeL l).map mkList             -- L263-275
/-- L265-274: nil members are dropped. -/
def ctyToNativeL : List Cty → Except Unit (List GV)
  | [] => .ok []
  | c :: l => (ctyToNative c).bind fun v => (ctyToNativeL l).map fun vs => if v.isNil then vs else v :: vs
/-- L249-261: nil members are dropped. -/
def ctyToNativeM : List (Bytes × Cty) → Except Unit (List (Bytes × GV))
  | [] => .ok []
  | (k, c) :: m => (ctyToNative c).bind fun v => (ctyToNativeM m).map fun r => if v.isNil then r else (k, v) :: r
end

end Verif.Hcl
