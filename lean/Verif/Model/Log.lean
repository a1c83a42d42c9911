import Verif.Model.Number
/-!
# log and pow

Model of `internal/lang/funcs/number.go` L15-42 `LogFunc` and L44-71 `PowFunc`.

External code, modelled as recalled (it is not on the machine): `gocty.FromCtyValue` into a `float64`, division
of `float64`, the special cases of `math.Log` and `math.Pow` as documented, and `cty.NumberFloatVal`, which
panics for a NaN; `function.Function.Call` turns the panic into an error.  Between the special cases `math.Log`
and `math.Pow` are the parameters `lg` and `pw`.

Simplification: a zero has no sign (an argument `-0` is taken as `0`; a result `-0` is the number 0).
-/
namespace Verif.Funcs
open Hcl (rd roundEven pow2)

/-- A `float64`. -/
inductive F64 where
  | fin (q : Rat)
  | inf (negative : Bool)
  | nan
deriving DecidableEq

/-- Rounding to a `float64`: 53 bits of mantissa, subnormal numbers below `2 ^ -1022`, infinity from `2 ^ 1024`
on. -/
def round64 (q : Rat) : F64 :=
  if -pow2 (-1022) < q ∧ q < pow2 (-1022) then .fin (roundEven (q * pow2 1074) / pow2 1074)
  else if pow2 1024 ≤ rd 53 q then .inf false
  else if rd 53 q ≤ -pow2 1024 then .inf true
  else .fin (rd 53 q)

/-- `gocty.FromCtyValue` into a `float64`: rounding must not make an infinity. -/
def Num.toF64 : Num → Option F64
  | .inf neg => some (.inf neg)
  | .fin q =>
    match round64 q with
    | .inf _ => none
    | f => some f

/-- Division of `float64`. -/
def F64.div : F64 → F64 → F64
  | .nan, _ => .nan
  | _, .nan => .nan
  | .inf _, .inf _ => .nan
  | .fin _, .inf _ => .fin 0
  | .inf neg, .fin y => .inf (neg ^^ decide (y < 0))
  | .fin x, .fin y => if y = 0 then (if x = 0 then .nan else .inf (decide (x < 0))) else round64 (x / y)

/-- `math.Log`, with the parameter `lg` for positive numbers. -/
def mathLog (lg : Rat → Rat) : F64 → F64
  | .nan => .nan
  | .inf neg => if neg then .nan else .inf false
  | .fin x => if x < 0 then .nan else if x = 0 then .inf true else .fin (lg x)

/-- `cty.NumberFloatVal`; a panic is an error of the call. -/
def numberFloatVal : F64 → Res Num
  | .nan => .error ()
  | .inf neg => .ok (.val (.inf neg))
  | .fin q => .ok (.val (.fin q))

/-- `function.Call` for two parameters without `AllowUnknown` and `AllowNull`. -/
def call2 {α β γ : Type} (f : α → β → Res γ) : K α → K β → Res γ
  | .null, _ => .error ()
  | _, .null => .error ()
  | .unk, _ => .ok .unk
  | _, .unk => .ok .unk
  | .val a, .val b => f a b

/-- internal/lang/funcs/number.go L29-41 -/
def logImpl (lg : Rat → Rat) (num base : Num) : Res Num :=
  match num.toF64 with
  | none => .error ()                                                   -- L31-33
  | some num =>
    match base.toF64 with
    | none => .error ()                                                 -- L36-38
    | some base => numberFloatVal ((mathLog lg num).div (mathLog lg base))  -- L40

/-- internal/lang/funcs/number.go L15-42, L161-164 -/
def log (lg : Rat → Rat) (num base : K Num) : Res Num := call2 (logImpl lg) num base

/-- Whether a number is an odd integer. -/
def oddInt (q : Rat) : Bool := decide (q.den = 1 ∧ q.num % 2 ≠ 0)

/-- `math.Pow`, with the parameter `pw` where both numbers are finite, the first is not zero or one, the second is
not zero or one, and the second is an integer if the first is negative. -/
def mathPow (pw : Rat → Rat → F64) : F64 → F64 → F64
  | x, y =>
    if y = .fin 0 ∨ x = .fin 1 then .fin 1
    else if y = .fin 1 then x
    else
      match x, y with
      | .nan, _ => .nan
      | _, .nan => .nan
      | .fin x, .fin y =>
        if x = 0 then (if y < 0 then .inf false else .fin 0)
        else if x < 0 ∧ y.den ≠ 1 then .nan
        else pw x y
      | .fin x, .inf neg =>
        if x = -1 then .fin 1
        else if (decide (-1 < x) && decide (x < 1)) = neg then .inf false
        else .fin 0
      | .inf _, .inf negY => if negY then .fin 0 else .inf false
      | .inf neg, .fin y => if y < 0 then .fin 0 else .inf (neg && oddInt y)

/-- internal/lang/funcs/number.go L58-70 -/
def powImpl (pw : Rat → Rat → F64) (num power : Num) : Res Num :=
  match num.toF64 with
  | none => .error ()                                                   -- L60-62
  | some num =>
    match power.toF64 with
    | none => .error ()                                                 -- L65-67
    | some power => numberFloatVal (mathPow pw num power)               -- L69

/-- internal/lang/funcs/number.go L44-71, L166-169 -/
def pow (pw : Rat → Rat → F64) (num power : K Num) : Res Num := call2 (powImpl pw) num power

end Verif.Funcs
