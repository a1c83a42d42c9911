import Verif.Model.Go
import Mathlib.Data.Nat.Digits.Defs
/-!
# Integers written in a base from 2 to 62
-/
namespace Verif.Funcs

/-- The digits of base 62 in order. -/
def alphabet : Bytes := b "0123456789abcdefghijklmnopqrstuvwxyzABCDEFGHIJKLMNOPQRSTUVWXYZ"

/-- The character `c` is the digit `d` in a base; up to base 36 a letter may be in upper case (26 places further
in the alphabet). -/
def IsDigit (base : Nat) (c : UInt8) (d : Nat) : Prop :=
  d < base ∧ (alphabet[d]? = some c ∨ base ≤ 36 ∧ 10 ≤ d ∧ alphabet[d + 26]? = some c)

/-- The text is an optional sign and at least one digit, the most significant first, and stands for `n`. -/
def Denotes (base : Nat) (s : Bytes) (n : Int) : Prop :=
  ∃ (sign cs : Bytes) (ds : List Nat), s = sign ++ cs ∧ cs ≠ [] ∧ List.Forall₂ (IsDigit base) cs ds ∧
    ((sign = [] ∨ sign = b "+") ∧ n = (Nat.ofDigits base ds.reverse : Nat) ∨
      sign = b "-" ∧ n = -((Nat.ofDigits base ds.reverse : Nat) : Int))

/-- An integer written in a base. -/
def writeInt (base : Nat) (n : Int) : Bytes :=
  (if n < 0 then b "-" else []) ++
    (if n = 0 then b "0" else (Nat.digits base n.natAbs).reverse.map fun d => alphabet.getD d 0)

end Verif.Funcs
