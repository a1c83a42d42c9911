import Verif.Model.Go
/-!
# The text grammar of IP addresses, independent of the parser

Numbers in Lean's `Nat`; text as bytes (`.` is 46, `:` is 58, `/` is 47).
-/
namespace Verif.IPAddr

/-- `c` is the decimal digit of value `d`. -/
def IsDec (c : UInt8) (d : Nat) : Prop := d < 10 ∧ c = UInt8.ofNat (48 + d)

/-- `c` is a hexadecimal digit of value `d`, in either case. -/
def IsHex (c : UInt8) (d : Nat) : Prop :=
  (d < 10 ∧ c = UInt8.ofNat (48 + d)) ∨
  (10 ≤ d ∧ d < 16 ∧ (c = UInt8.ofNat (97 + (d - 10)) ∨ c = UInt8.ofNat (65 + (d - 10))))

/-- A nonempty string of digits in the given base, most significant first, with its value. -/
inductive Numeral (dig : UInt8 → Nat → Prop) (base : Nat) : Bytes → Nat → Prop
  | one {c d} : dig c d → Numeral dig base [c] d
  | snoc {t v c d} : Numeral dig base t v → dig c d → Numeral dig base (t ++ [c]) (v * base + d)

/-- An octet: decimal digits (leading zeros allowed), value at most 255. -/
def Octet (t : Bytes) (v : Nat) : Prop := Numeral IsDec 10 t v ∧ v ≤ 255

/-- A 16-bit group: hexadecimal digits (leading zeros allowed), value at most 0xFFFF. -/
def Group (t : Bytes) (v : Nat) : Prop := Numeral IsHex 16 t v ∧ v ≤ 0xFFFF

/-- Dotted quad. -/
def Quad (s : Bytes) (o : List Nat) : Prop :=
  ∃ t0 t1 t2 t3 v0 v1 v2 v3, Octet t0 v0 ∧ Octet t1 v1 ∧ Octet t2 v2 ∧ Octet t3 v3 ∧
    s = t0 ++ 46 :: (t1 ++ 46 :: (t2 ++ 46 :: t3)) ∧ o = [v0, v1, v2, v3]

/-- Colon-separated groups. -/
inductive HexGroups : Bytes → List Nat → Prop
  | one {t v} : Group t v → HexGroups t [v]
  | cons {t v u gs} : Group t v → HexGroups u gs → HexGroups (t ++ 58 :: u) (v :: gs)

/-- Colon-separated groups, where the last two groups may be written as a dotted quad. -/
inductive Groups : Bytes → List Nat → Prop
  | one {t v} : Group t v → Groups t [v]
  | quad {t a b c d} : Quad t [a, b, c, d] → Groups t [a * 256 + b, c * 256 + d]
  | cons {t v u gs} : Group t v → Groups u gs → Groups (t ++ 58 :: u) (v :: gs)

/-- IPv6 text and its eight groups: all eight, or fewer with one `::` standing for at
least one zero group. -/
inductive IPv6Text : Bytes → List Nat → Prop
  | full {s gs} : Groups s gs → gs.length = 8 → IPv6Text s gs
  | ellipsis {l r lg rg} :
      (l = [] ∧ lg = [] ∨ HexGroups l lg) → (r = [] ∧ rg = [] ∨ Groups r rg) →
      lg.length + rg.length ≤ 7 →
      IPv6Text (l ++ 58 :: 58 :: r) (lg ++ List.replicate (8 - (lg.length + rg.length)) 0 ++ rg)

/-- Big-endian bytes of 16-bit groups. -/
def groupBytes (gs : List Nat) : Bytes :=
  gs.flatMap fun g => [UInt8.ofNat (g / 256), UInt8.ofNat (g % 256)]

/-- The 12-byte prefix of IPv4-mapped addresses. -/
def mappedPrefix : Bytes := [0, 0, 0, 0, 0, 0, 0, 0, 0, 0, 0xff, 0xff]

/-- The number denoted by big-endian bytes. -/
def natOf : Bytes → Nat
  | [] => 0
  | c :: s => c.toNat * 256 ^ s.length + natOf s

end Verif.IPAddr

namespace Verif.IPAddr

/-- Decimal text of a number, without leading zeros. -/
def decText (n : Nat) : Bytes :=
  if n < 10 then [UInt8.ofNat (48 + n)] else decText (n / 10) ++ [UInt8.ofNat (48 + n % 10)]
  termination_by n

/-- Lower-case hexadecimal text of a number, without leading zeros. -/
def hexChar (d : Nat) : UInt8 := if d < 10 then UInt8.ofNat (48 + d) else UInt8.ofNat (97 + (d - 10))

def hexText (n : Nat) : Bytes :=
  if n < 16 then [hexChar n] else hexText (n / 16) ++ [hexChar (n % 16)]
  termination_by n

/-- Texts with a separator between them. -/
def joinWith (sep : UInt8) : List Bytes → Bytes
  | [] => []
  | [t] => t
  | t :: ts => t ++ sep :: joinWith sep ts

/-- The network of address bytes `a` with prefix length `n`, as numbers: the last
`8*|a| - n` bits cleared. -/
structure IsNet (a : Bytes) (n : Nat) (net mask : Bytes) : Prop where
  le : n ≤ 8 * a.length
  netLen : net.length = a.length
  maskLen : mask.length = a.length
  net : natOf net = natOf a / 2 ^ (8 * a.length - n) * 2 ^ (8 * a.length - n)
  mask : natOf mask = 2 ^ (8 * a.length) - 2 ^ (8 * a.length - n)

/-- Text `addr/len` of an address, the address in bytes, its 16-byte form and the length. -/
inductive CIDRText (s : Bytes) : Bytes → Bytes → Nat → Prop
  | v4 {t m o n} : Quad t o → Numeral IsDec 10 m n → s = t ++ 47 :: m →
      CIDRText s (o.map UInt8.ofNat) (mappedPrefix ++ o.map UInt8.ofNat) n
  | v6 {t m gs n} : IPv6Text t gs → Numeral IsDec 10 m n → s = t ++ 47 :: m →
      CIDRText s (groupBytes gs) (groupBytes gs) n

end Verif.IPAddr
