import Mathlib.Analysis.SpecialFunctions.Log.Base
import Verif.Model.Number
/-!
# What log and pow should do
-/
namespace Verif.Funcs

/-- The finite numbers that a `float64` can represent. -/
def Float64 (q : Rat) : Prop := ∃ k e : Int, q = k * (2 : Rat) ^ e ∧ |k| < 2 ^ 53 ∧ -1074 ≤ e ∧ |q| < 2 ^ 1024

/-- The numbers that a `float64` can represent. -/
def Exact : Num → Prop
  | .fin q => Float64 q
  | .inf _ => True

/-- A natural logarithm with an error of at most one unit in the last place. -/
def LogLike (lg : Rat → Rat) : Prop :=
  ∀ x : Rat, 0 < x → Float64 x → |(lg x : ℝ) - Real.log x| ≤ |Real.log x| / 2 ^ 52

end Verif.Funcs
