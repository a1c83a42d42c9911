import Verif.Model.Funcs
/-!
# Functions on numbers

Model of `internal/lang/funcs/number.go` L72-97 `SignumFunc` and L99-155 `ParseIntFunc`.

External code, modelled as recalled (it is not on the machine): `big.Int.SetString` with a base other than 0
(no prefix and no underscores; digits are collected one by one instead of in machine words),
`big.Float.SetInt`, `gocty.FromCtyValue` into an `int`, and `function.Function.Call` as in `Model/Funcs.lean`.
-/
namespace Verif.Funcs
open Hcl (rd fitsI64)

/-- A cty number: `big.Float` has infinities. -/
inductive Num where
  | fin (q : Rat)
  | inf (negative : Bool)
deriving DecidableEq

/-- `gocty.FromCtyValue` into an `int`: only integers in range (64 bits). -/
def Num.toInt : Num → Option Int
  | .fin q => if q.den = 1 ∧ fitsI64 q.num = true then some q.num else none
  | .inf _ => none

/-- internal/lang/funcs/number.go L82-96 -/
def signumImpl (x : Num) : Res Int :=
  match x.toInt with
  | none => .error ()                             -- L84-86
  | some num =>
    if num < 0 then .ok (.val (-1))               -- L88-89
    else if 0 < num then .ok (.val 1)             -- L90-91
    else .ok (.val 0)                             -- L92-93

/-- internal/lang/funcs/number.go L72-97 -/
def signum (x : K Num) : Res Int := call signumImpl x

/-! ## parseint -/

/-- The digit of a character in `nat.scan`: `maxBaseSmall` is 36, `MaxBase` is 62. -/
def scanDigit (base : Nat) (ch : UInt8) : Nat :=
  if 48 ≤ ch ∧ ch ≤ 57 then ch.toNat - 48
  else if 97 ≤ ch ∧ ch ≤ 122 then ch.toNat - 97 + 10
  else if 65 ≤ ch ∧ ch ≤ 90 then (if base ≤ 36 then ch.toNat - 65 + 10 else ch.toNat - 65 + 36)
  else 63

/-- The loop of `nat.scan`: the number so far, the count of digits and the text that is left. -/
def scanLoop (base : Nat) (z count : Nat) : Bytes → Nat × Nat × Bytes
  | [] => (z, count, [])
  | ch :: s =>
    if base ≤ scanDigit base ch then (z, count, ch :: s)
    else scanLoop base (z * base + scanDigit base ch) (count + 1) s

/-- `scanSign`: whether there is a minus sign, and the text behind the sign. -/
def scanSign : Bytes → Bool × Bytes
  | 45 :: s => (true, s)
  | 43 :: s => (false, s)
  | s => (false, s)

/-- The end of `big.Int.SetString`: there must be a digit, and nothing may be left. -/
def scanEnd (neg : Bool) : Nat × Nat × Bytes → Option Int
  | (_, 0, _) => none
  | (z, _, []) => some (if neg then -(z : Int) else z)
  | _ => none

/-- `big.Int.SetString` -/
def bigSetString (s : Bytes) (base : Nat) : Option Int :=
  scanEnd (scanSign s).1 (scanLoop base 0 0 (scanSign s).2)

/-- `big.Int.BitLen` -/
def bitLen (n : Int) : Nat := if n = 0 then 0 else n.natAbs.log2 + 1

/-- `big.Float.SetInt` on a new float: the precision is the larger of the length of the number and 64. -/
def bigSetInt (n : Int) : BF :=
  ⟨rd (max (bitLen n) 64) n, max (bitLen n) 64⟩

/-- The first argument of `parseint`, which may be of any type: a string, or a value of another type, given
by the name of its type. -/
inductive Dyn where
  | str (s : Bytes)
  | other (friendlyName : Bytes)
deriving DecidableEq

/-- What `parseint` returns: a value, an unknown value (nothing is said of its marks, which `Call` decides), or an
error for an argument with its message. -/
inductive ParseRes where
  | ok (x : Marked BF)
  | unk
  | err (arg : Nat) (msg : Bytes)
deriving DecidableEq

/-- internal/lang/funcs/number.go L121-154; `quote` is `fmt.Sprintf("%q", s)`. -/
def parseIntImpl (quote : Bytes → Bytes) (numstr : Bytes) (numMarks : List Mark) (base : Num) (baseMarks : List Mark) :
    ParseRes :=
  match base.toInt with
  | none => .err 1 (b "value must be a whole number, between -9223372036854775808 and 9223372036854775807 inclusive")  -- L132-134
  | some base =>
    if base < 2 ∨ 62 < base then
      .err 1 (b "base must be a whole number between 2 and 62 inclusive")       -- L136-141
    else
      match bigSetString numstr base.toNat with
      | none =>
        .err 0 (b "cannot parse " ++ redactIfSensitive quote numstr [numMarks] ++ b " as a base " ++
          redactIfSensitive (fun s => s) (b (toString base)) [baseMarks] ++ b " integer")   -- L144-151
      | some num => .ok (Marked.withMarks ⟨bigSetInt num, []⟩ (numMarks ++ baseMarks))      -- L153

/-- internal/lang/funcs/number.go L99-155 -/
def parseInt (quote : Bytes → Bytes) (number : Marked (K Dyn)) (base : Marked (K Num)) : ParseRes :=
  match number.v, base.v with
  | .null, _ => .err 0 (b "argument must not be null")
  | _, .null => .err 1 (b "argument must not be null")
  | .val (.other name), _ => .err 0 (b "first argument must be a string, not " ++ name)    -- L112-114
  | .val (.str s), .val q => parseIntImpl quote s number.marks q base.marks
  | _, _ => .unk

end Verif.Funcs
