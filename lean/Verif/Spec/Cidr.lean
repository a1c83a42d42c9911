import Verif.Spec.IPText
/-!
# Arithmetic of address blocks, independent of the code

A block of width `w` (32 or 128) is a start and a prefix length `q`: the `2^(w-q)` numbers
from the start on.
-/
namespace Verif.Cidr

/-- The smallest multiple of `2^k` that is at least `x`. -/
def alignUp (x k : Nat) : Nat := (x + 2 ^ k - 1) / 2 ^ k * 2 ^ k

/-- Sequential aligned allocation from `pos` of blocks extending a prefix of length `n` by
the given numbers of bits: the list of (start, prefix length). -/
def allocate (w n : Nat) : Nat → List Nat → List (Nat × Nat)
  | _, [] => []
  | pos, e :: es =>
    (alignUp pos (w - (n + e)), n + e) ::
      allocate w n (alignUp pos (w - (n + e)) + 2 ^ (w - (n + e))) es

/-- `(s, q)` is an aligned block inside the block `(a, n)`. -/
def SubBlock (w a n s q : Nat) : Prop :=
  n ≤ q ∧ q ≤ w ∧ 2 ^ (w - q) ∣ s ∧ a ≤ s ∧ s + 2 ^ (w - q) ≤ a + 2 ^ (w - n)

/-- A base network. -/
structure IsBase (w a n : Nat) : Prop where
  width : w = 32 ∨ w = 128
  le : n ≤ w
  aligned : 2 ^ (w - n) ∣ a
  fits : a + 2 ^ (w - n) ≤ 2 ^ w

/-- The IPv4-mapped IPv6 addresses are `[0xffff * 2^32, 2^48)`. -/
def mappedLo : Nat := 0xffff * 2 ^ 32

/-- `s` is the text of a prefix: addresses of `len` bytes, base address `a`, length `n`. -/
def PrefixText (s : Bytes) (len a n : Nat) : Prop :=
  ∃ bytes ip, IPAddr.CIDRText s bytes ip n ∧ len = bytes.length ∧ n ≤ 8 * len ∧
    a = IPAddr.natOf bytes / 2 ^ (8 * len - n) * 2 ^ (8 * len - n)

/-- `t` is the text of an address of `len` bytes with the number `a`. -/
def AddrText (t : Bytes) (len a : Nat) : Prop :=
  len = 4 ∧ (∃ o, IPAddr.Quad t o ∧ IPAddr.natOf (o.map UInt8.ofNat) = a) ∨
  len = 16 ∧ ∃ gs, IPAddr.IPv6Text t gs ∧ IPAddr.natOf (IPAddr.groupBytes gs) = a

end Verif.Cidr
