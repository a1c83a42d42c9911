import Verif.Model.Cidr
import Verif.Model.Number
/-!
# The texts that the functions of `internal/lang/funcs/cidr.go` return

`Model/Cidr` gives addresses and networks; here are the numbers of cty that go in and the texts that come out.

External code, modelled as recalled (it is not on the machine): `net.IP.String` and `net/netip` below it,
`net.IPNet.String`, `gocty.FromCtyValue` into an `int` and a `*big.Int`.
-/
namespace Verif.Cidr
open Funcs (Num)

/-- `digits` of `net/netip`. -/
def digit (d : Nat) : UInt8 := (b "0123456789abcdef").getD d 0

/-- `appendDecimal` of `net/netip`; also `itoa` for a prefix length (at most 128). -/
def appendDecimal (x : Nat) : Bytes :=
  (if 100 ≤ x then [digit (x / 100)] else []) ++ (if 10 ≤ x then [digit (x / 10 % 10)] else []) ++ [digit (x % 10)]

/-- `appendHex` of `net/netip`. -/
def appendHex (x : Nat) : Bytes :=
  (if 0x1000 ≤ x then [digit (x / 4096)] else []) ++ (if 0x100 ≤ x then [digit (x / 256 % 16)] else []) ++
    (if 0x10 ≤ x then [digit (x / 16 % 16)] else []) ++ [digit (x % 16)]

/-- The last `k` digits of a number in a base, the most significant first: the bytes (256) or groups (65536) of an
address. -/
def places (base : Nat) : Nat → Nat → List Nat
  | 0, _ => []
  | k + 1, n => n / base ^ k % base :: places base k n

/-- `netip.Addr.String` of an IPv4 address. -/
def text4 (n : Nat) : Bytes :=
  match places 256 4 n with
  | [x, y, z, w] =>
    appendDecimal x ++ 46 :: (appendDecimal y ++ 46 :: (appendDecimal z ++ 46 :: appendDecimal w))
  | _ => []

/-- The length of the run of zeros at the start. -/
def zeros : List Nat → Nat
  | 0 :: gs => zeros gs + 1
  | _ => 0

/-- `appendTo6` of `net/netip`, first loop: the first of the longest runs of at least two zero groups, as start and
length; `best` is the run so far. -/
def findRun (i : Nat) (best : Nat × Nat) : List Nat → Nat × Nat
  | [] => best
  | g :: gs =>
    if 2 ≤ zeros (g :: gs) ∧ best.2 < zeros (g :: gs) then findRun (i + 1) (i, zeros (g :: gs)) gs
    else findRun (i + 1) best gs

/-- Groups with colons between them. -/
def colons : List Nat → Bytes
  | [] => []
  | [g] => appendHex g
  | g :: gs => appendHex g ++ 58 :: colons gs

/-- `appendTo6` of `net/netip`, second loop. -/
def text6 (n : Nat) : Bytes :=
  let gs := places 65536 8 n
  let run := findRun 0 (255, 0) gs
  if run.2 = 0 then colons gs
  else colons (gs.take run.1) ++ 58 :: 58 :: colons (gs.drop (run.1 + run.2))

/-- External `net.IP.String`; addresses have 0, 4 or 16 bytes. -/
def ipText (p : IP) : Bytes :=
  if p.len = 0 then b "<nil>"
  else
    match p.to4 with
    | some q => text4 q.n
    | none => text6 p.n

/-- External `net.IPNet.String` with `networkNumberAndMask`. -/
def netText (t : Net) : Bytes :=
  match t.ip.to4 with
  | some q =>
    if t.mask.bits = 32 then ipText q ++ 47 :: appendDecimal t.mask.ones
    else if t.mask.bits = 128 then ipText q ++ 47 :: appendDecimal (t.mask.ones - 96)
    else b "<nil>"
  | none =>
    if t.ip.len = 16 ∧ t.mask.bits = 128 then ipText t.ip ++ 47 :: appendDecimal t.mask.ones
    else b "<nil>"

/-- The address made of the bytes of a mask. -/
def Mask.toIP (m : Mask) : IP := ⟨m.bits / 8, 2 ^ m.bits - 2 ^ (m.bits - m.ones)⟩

/-- External `gocty.FromCtyValue` into a `*big.Int`: whole numbers only. -/
def toBig : Num → Option Int
  | .fin q => if q.den = 1 then some q.num else none
  | .inf _ => none

/-- internal/lang/funcs/cidr.go L32-48: `CidrHostFunc`. -/
def host (s : Bytes) (hostnum : Num) : Except CErr Bytes :=
  (withPrefix s (cidrHost · (toBig hostnum))).map ipText

/-- internal/lang/funcs/cidr.go L62-73: `CidrNetmaskFunc`. -/
def netmask (s : Bytes) : Except CErr Bytes :=
  (withPrefix s cidrNetmask).map fun m => ipText m.toIP

/-- internal/lang/funcs/cidr.go L95-117: `CidrSubnetFunc`. -/
def subnet (s : Bytes) (newbits netnum : Num) : Except CErr Bytes :=
  (withPrefix s (cidrSubnet · newbits.toInt (toBig netnum))).map netText

/-- internal/lang/funcs/cidr.go L134-197: `CidrSubnetsFunc`. -/
def subnets (s : Bytes) (newbits : List Num) : Except CErr (List Bytes) :=
  (withPrefix s (cidrSubnets · (newbits.map Num.toInt))).map fun l => l.map netText

end Verif.Cidr
