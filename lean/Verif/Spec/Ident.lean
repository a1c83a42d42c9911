import Verif.Model.Go
/-! What a text that names a UUID looks like (RFC 4122 section 3, and the other forms that google/uuid documents), and
which cost a bcrypt hash says. -/
namespace Verif.Ident

/-- A hexadecimal digit, of either case. -/
def IsHex (c : UInt8) (v : Nat) : Prop :=
  (v < 10 ∧ c.toNat = 48 + v) ∨ (10 ≤ v ∧ v < 16 ∧ (c.toNat = 87 + v ∨ c.toNat = 55 + v))

/-- Two hexadecimal digits for each byte. -/
inductive HexOf : Bytes → Bytes → Prop
  | nil : HexOf [] []
  | cons {x c d : UInt8} {v w : Nat} {u s : Bytes} : IsHex c v → IsHex d w → x.toNat = 16 * v + w → HexOf u s →
      HexOf (x :: u) (c :: d :: s)

/-- Groups of 8, 4, 4, 4 and 12 digits with dashes between them. -/
def Dashed (u s : Bytes) : Prop :=
  ∃ u1 u2 u3 u4 u5 s1 s2 s3 s4 s5, u = u1 ++ u2 ++ u3 ++ u4 ++ u5 ∧
    u1.length = 4 ∧ u2.length = 2 ∧ u3.length = 2 ∧ u4.length = 2 ∧ u5.length = 6 ∧
    s = s1 ++ [45] ++ s2 ++ [45] ++ s3 ++ [45] ++ s4 ++ [45] ++ s5 ∧
    HexOf u1 s1 ∧ HexOf u2 s2 ∧ HexOf u3 s3 ∧ HexOf u4 s4 ∧ HexOf u5 s5

/-- `urn:uuid:` in any case. -/
def IsUrn (p : Bytes) : Prop :=
  p.length = 9 ∧ ∀ i, i < 9 → p.getD i 0 = (b "urn:uuid:").getD i 0 ∨ p.getD i 0 = (b "URN:UUID:").getD i 0

/-- The text names the UUID, in one of the four forms. -/
inductive Names (u : Bytes) : Bytes → Prop
  | dashed {s} : Dashed u s → Names u s
  | urn {p s} : IsUrn p → Dashed u s → Names u (p ++ s)
  | braces {s} : Dashed u s → Names u (123 :: s ++ [125])
  | plain {s} : u.length = 16 → HexOf u s → Names u s

/-- RFC 4122 sections 4.1.1 and 4.1.3: 16 bytes with a version, and the variant of the RFC. -/
def HasVersion (u : Bytes) (v : Nat) : Prop :=
  u.length = 16 ∧ (u.getD 6 0).toNat / 16 = v ∧ (u.getD 8 0).toNat / 64 = 2

/-- The text of a hash that was made with this cost. -/
def SaysCost (out : Bytes) (c : Int) : Prop :=
  ∃ (x y : UInt8) (v w : Nat) (r : Bytes), out = b "$2a$" ++ [x, y] ++ b "$" ++ r ∧ r.length = 53 ∧ v < 10 ∧ w < 10 ∧
    x.toNat = 48 + v ∧ y.toNat = 48 + w ∧ c = 10 * v + w
end Verif.Ident
