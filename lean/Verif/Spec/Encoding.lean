import Verif.Model.Go
/-!
# Base64 (RFC 4648 section 4) and percent encoding (RFC 3986, with `+` for a space)
-/
namespace Verif.Funcs

/-- RFC 4648 table 1. -/
def letter (n : Nat) : UInt8 :=
  if n < 26 then 65 + n.toUInt8
  else if n < 52 then 97 + (n - 26).toUInt8
  else if n < 62 then 48 + (n - 52).toUInt8
  else if n = 62 then 43
  else 47

/-- The text is the encoding of the bytes: 24 bits become four groups of six bits; at the end the bits are
filled with zeros and the groups with `=`. -/
inductive Encodes : Bytes → Bytes → Prop
  | nil : Encodes [] []
  | one {x : UInt8} {g h : Nat} : g < 64 → h < 64 → x.toNat * 16 = g * 64 + h →
      Encodes [x] [letter g, letter h, 61, 61]
  | two {x y : UInt8} {g h i : Nat} : g < 64 → h < 64 → i < 64 →
      (x.toNat * 256 + y.toNat) * 4 = g * 64 * 64 + h * 64 + i →
      Encodes [x, y] [letter g, letter h, letter i, 61]
  | three {x y z : UInt8} {g h i j : Nat} {s t : Bytes} : g < 64 → h < 64 → i < 64 → j < 64 →
      x.toNat * 256 * 256 + y.toNat * 256 + z.toNat = g * 64 * 64 * 64 + h * 64 * 64 + i * 64 + j →
      Encodes s t → Encodes (x :: y :: z :: s) (letter g :: letter h :: letter i :: letter j :: t)

/-- The text reads as the bytes: as `Encodes`, but the bits filled in at the end need not be zero. -/
inductive Reads : Bytes → Bytes → Prop
  | nil : Reads [] []
  | one {x : UInt8} {g h : Nat} : g < 64 → h < 64 → x.toNat = (g * 64 + h) / 16 →
      Reads [x] [letter g, letter h, 61, 61]
  | two {x y : UInt8} {g h i : Nat} : g < 64 → h < 64 → i < 64 →
      x.toNat * 256 + y.toNat = (g * 64 * 64 + h * 64 + i) / 4 →
      Reads [x, y] [letter g, letter h, letter i, 61]
  | three {x y z : UInt8} {g h i j : Nat} {s t : Bytes} : g < 64 → h < 64 → i < 64 → j < 64 →
      x.toNat * 256 * 256 + y.toNat * 256 + z.toNat = g * 64 * 64 * 64 + h * 64 * 64 + i * 64 + j →
      Reads s t → Reads (x :: y :: z :: s) (letter g :: letter h :: letter i :: letter j :: t)

/-- The value of a hexadecimal digit. -/
def hexVal (c : UInt8) : Option Nat :=
  if 48 ≤ c ∧ c ≤ 57 then some (c.toNat - 48)
  else if 65 ≤ c ∧ c ≤ 70 then some (c.toNat - 55)
  else if 97 ≤ c ∧ c ≤ 102 then some (c.toNat - 87)
  else none

/-- Decoding a query component: `+` is a space, `%` and two digits is a byte. -/
def unescape : Bytes → Option Bytes
  | [] => some []
  | 37 :: c :: d :: r =>
    match hexVal c, hexVal d with
    | some x, some y => (unescape r).map (((x * 16 + y).toUInt8) :: ·)
    | _, _ => none
  | c :: r =>
    if c = 37 then none
    else if c = 43 then (unescape r).map (32 :: ·)
    else (unescape r).map (c :: ·)

/-- RFC 3986 section 2.3: letters, digits, `-`, `.`, `_`, `~`. -/
def Unreserved (c : UInt8) : Prop :=
  (65 ≤ c ∧ c ≤ 90) ∨ (97 ≤ c ∧ c ≤ 122) ∨ (48 ≤ c ∧ c ≤ 57) ∨ c = 45 ∨ c = 46 ∨ c = 95 ∨ c = 126

/-- Normalisation does not change ASCII text. -/
def FixesAscii (nfc : Bytes → Bytes) : Prop := ∀ t : Bytes, (∀ c ∈ t, c < 128) → nfc t = t

end Verif.Funcs
