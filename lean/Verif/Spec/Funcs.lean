import Verif.Model.Funcs
import Verif.Spec.Cty
import Mathlib.Data.List.Forall2
/-!
# What the functions on collections, strings and marks are to do
-/
namespace Verif.Funcs

/-- `y` is what the value `x` may turn out to be. -/
def Completes {α : Type} (x y : K α) : Prop := y ≠ .unk ∧ (x = .unk ∨ y = x)

/-- The strings that the argument may turn out to be. -/
def Possible (a : StrArg) (x : Bytes) : Prop :=
  match a with
  | .known s => x = s
  | .null => False
  | .unk p => ∃ r, x = p ++ r

/-- The comparison is equality of values. -/
def Decides {α : Type} [DecidableEq α] (eq : α → α → Res Bool) : Prop :=
  ∀ x y, eq x y = .ok (.val (decide (x = y)))

/-- `coalesce` passes over the value. -/
def Skipped {α : Type} (empty : α → Bool) (x : K α) : Prop := x = .null ∨ ∃ a, x = .val a ∧ empty a = true

/-- Values that are known at every level. -/
def known (m : GoMap Bytes (List Bytes)) : GoMap Bytes (K (List (K Bytes))) :=
  m.map fun e => (e.1, .val (e.2.map .val))

/-- The list of a key; empty if the key is absent. -/
def listOf (m : GoMap Bytes (List Bytes)) (k : Bytes) : List Bytes := (GoMap.get? m k).getD []

/-- In the order of strings. -/
def InOrder (l : List Bytes) : Prop := l.Pairwise (· ≤ ·)

end Verif.Funcs
