import Verif.Model.Edge
import Verif.Spec.Cty
/-!
# What floating point formats are, and what conversions of numbers should do
-/
namespace Verif.Edge
open Hcl (IsFloat IsInt64 IsWhole)

/-- `q` is a finite number of the format: a mantissa of `p` bits times a power of two in range. -/
def IsF (f : Fmt) (q : Rat) : Prop := ∃ k e : Int, q = k * (2 : Rat) ^ e ∧ |k| < 2 ^ f.p ∧ f.emin - (f.p - 1) ≤ e ∧ e ≤ f.emax - (f.p - 1)

/-- A format makes sense. -/
structure Fmt.Ok (f : Fmt) : Prop where
  pos : 0 < f.p
  range : f.emin ≤ f.emax

/-- What a native number stands for. -/
def Native.val : Native → F
  | .int n => .fin n
  | .f32 x => x
  | .f64 x => x

/-- The same number of `Model/Cty`, where there is one. -/
def Native.gv : Native → Option Hcl.GV
  | .int n => some (.int n)
  | .f32 (.fin q) => some (.flt q)
  | .f64 (.fin q) => some (.flt q)
  | _ => none

end Verif.Edge
