import Verif.Model.IPAddr
/-!
# Model of `internal/lang/funcs/cidr.go`

`github.com/apparentlymart/go-cidr` v1.1.0 and `net` are external and their source was not
available: they are modelled here from memory of that source, unconfirmed by reading or
running it (`Verif/Check/Cidr.lean` compares the model with the vectors of
`/repo/internal/lang/funcs/cidr_test.go`).  Addresses are
big-endian numbers together with their
length in bytes (4, 16; 0 for the nil address), including the special treatment of
16-byte IPv4-mapped addresses.  `Except CErr`: `err` is a returned error, `panic` a Go
panic inside the implementation (which `function.Call` of go-cty turns into an error).
-/
namespace Verif.Cidr
open Verif.IPAddr

/-- `net.IP`: length in bytes and value. -/
structure IP where
  len : Nat
  n : Nat
  deriving DecidableEq, Repr

/-- Canonical `net.IPMask`: total bits (0: the nil mask) and leading ones. -/
structure Mask where
  bits : Nat
  ones : Nat
  deriving DecidableEq, Repr

/-- `net.IPNet`. -/
structure Net where
  ip : IP
  mask : Mask
  deriving DecidableEq, Repr

inductive CErr where
  | err | panic
  deriving DecidableEq, Repr

def nilIP : IP := ⟨0, 0⟩
def nilMask : Mask := ⟨0, 0⟩

/-- A 16-byte address with the IPv4-mapped prefix `::ffff:0:0/96`. -/
def IP.mapped (p : IP) : Bool := p.len == 16 && p.n / 2 ^ 32 == 0xffff

/-- External `net.IP.To4` (`none`: nil). -/
def IP.to4 (p : IP) : Option IP :=
  if p.len = 4 then some p
  else if p.mapped then some ⟨4, p.n % 2 ^ 32⟩
  else none

/-- External `net.CIDRMask`. -/
def cidrMask (ones : Int) (bits : Nat) : Mask :=
  if (bits = 32 ∨ bits = 128) ∧ 0 ≤ ones ∧ ones ≤ bits then ⟨bits, ones.toNat⟩ else nilMask

/-- Clear the last `k` bits. -/
def clearLow (x k : Nat) : Nat := x / 2 ^ k * 2 ^ k

/-- External `net.IP.Mask`. -/
def IP.applyMask (p : IP) (m : Mask) : IP :=
  let m := if m.bits = 128 ∧ p.len = 4 ∧ m.ones ≥ 96 then ⟨32, m.ones - 96⟩ else m
  let p := if m.bits = 32 ∧ p.mapped then ⟨4, p.n % 2 ^ 32⟩ else p
  if 8 * p.len = m.bits then ⟨p.len, clearLow p.n (m.bits - m.ones)⟩ else nilIP

/-- External `net.IPNet.Contains`. -/
def Net.contains (t : Net) (p : IP) : Bool :=
  let nn := t.ip.to4.getD t.ip
  -- networkNumberAndMask
  if nn.len ≠ 4 ∧ nn.len ≠ 16 then p.to4.getD p == nilIP
  else
    let r : Option (IP × Mask) :=
      if t.mask.bits = 32 then (if nn.len = 4 then some (nn, t.mask) else none)
      else if t.mask.bits = 128 then
        (if nn.len = 4 then some (nn, ⟨32, t.mask.ones - 96⟩) else some (nn, t.mask))
      else none
    let x := p.to4.getD p
    match r with
    | none => x.len = 0
    | some (nn, m) =>
      x.len = nn.len ∧ clearLow x.n (m.bits - m.ones) = clearLow nn.n (m.bits - m.ones)

/-- go-cidr `checkIPv4`. -/
def checkIPv4 (p : IP) : IP := p.to4.getD p

/-- go-cidr `Inc`. -/
def inc (p : IP) : IP := let p := checkIPv4 p; ⟨p.len, (p.n + 1) % 2 ^ (8 * p.len)⟩

/-- go-cidr `Dec`. -/
def dec (p : IP) : IP :=
  let p := checkIPv4 p; ⟨p.len, (p.n + (2 ^ (8 * p.len) - 1)) % 2 ^ (8 * p.len)⟩

/-- `p.Equal(net.IPv4zero) || p.Equal(net.IPv6zero)`. -/
def IP.isZero (p : IP) : Bool :=
  (p.len == 4 && p.n == 0) || (p.len == 16 && (p.n == 0 || p.n == 0xffff * 2 ^ 32))

/-- go-cidr `AddressRange`, second result; panics (in `ipToInt`) on an odd address length. -/
def lastAddr (t : Net) : Except CErr IP :=
  if t.mask.ones = t.mask.bits then .ok t.ip
  else if t.ip.len ≠ 4 ∧ t.ip.len ≠ 16 then .error .panic
  else
    let h := 8 * t.ip.len - t.mask.ones
    .ok ⟨t.ip.len, clearLow t.ip.n h + (2 ^ h - 1)⟩

/-- go-cidr `PreviousSubnet`, first result (the second is ignored, internal/lang/funcs/cidr.go L154). -/
def previousSubnet (t : Net) (prefixLen : Int) : Net :=
  let start := checkIPv4 t.ip
  let m := cidrMask prefixLen (8 * start.len)
  ⟨(dec start).applyMask m, m⟩

/-- go-cidr `NextSubnet`. -/
def nextSubnet (t : Net) (prefixLen : Int) : Except CErr (Net × Bool) := do
  let currentLast ← lastAddr t
  let m := cidrMask prefixLen (8 * currentLast.len)
  let last ← lastAddr ⟨currentLast.applyMask m, m⟩
  let last := inc last
  return (⟨last.applyMask m, m⟩, last.isZero)

/-- internal/lang/funcs/cidr.go L155-194: the loop of `CidrSubnetsFunc`; an argument is
`none` when `gocty.FromCtyValue` does not give an int. -/
def subnetsLoop (network : Net) (startPrefixLen : Nat) :
    Net → List (Option Int) → Except CErr (List Net)
  | _, [] => .ok []
  | _, none :: _ => .error .err                                           -- L157-159
  | current, some length :: rest =>
    if length < 1 then .error .err                                        -- L161-163
    else if length > 32 then .error .err                                  -- L168-170
    else
      let length := length + startPrefixLen                               -- L171
      if length > network.ip.len * 8 then .error .err                     -- L172-181
      else
        match nextSubnet current length with                              -- L183
        | .error e => .error e
        | .ok (next, rollover) =>
          if rollover || !network.contains next.ip then .error .err       -- L184-190
          else
            match subnetsLoop network startPrefixLen next rest with       -- L192-193
            | .error e => .error e
            | .ok l => .ok (next :: l)

/-- internal/lang/funcs/cidr.go L134-197: `CidrSubnetsFunc` after `ParseCIDR`; the results
are the networks whose text is returned. -/
def cidrSubnets (network : Net) (args : List (Option Int)) : Except CErr (List Net) :=
  match args with
  | [] => .ok []                                                          -- L142-144
  | none :: _ => .error .err                                              -- L147-149
  | some firstLength :: _ =>
    subnetsLoop network network.mask.ones
      (previousSubnet network (firstLength + network.mask.ones)) args     -- L150-154

/-- External `big.Int.Or` of a natural number and an integer, in absolute value (what
`big.Int.Bytes` shows). -/
def orAbs (a : Nat) (x : Int) : Nat :=
  match x with
  | .ofNat y => a ||| y
  | .negSucc m => (m - (m &&& a)) + 1       -- (-(m+1)) | a = -((m &^ a) + 1)

/-- go-cidr `insertNumIntoIP` with `intToIP` (which indexes out of range when the number
needs more bytes than the address has). -/
def insertNumIntoIP (p : IP) (num : Int) (prefixLen : Int) : Except CErr IP :=
  if p.len ≠ 4 ∧ p.len ≠ 16 then .error .panic
  else
    let v := orAbs p.n (num * 2 ^ (8 * p.len - prefixLen).toNat)
    if v < 2 ^ (8 * p.len) then .ok ⟨p.len, v⟩ else .error .panic

/-- External `int64(x.Uint64())` for `x ≥ 0`: the low 64 bits as a signed number. -/
def lowInt64 (x : Nat) : Int :=
  let l : Nat := x % 2 ^ 64
  if l < 2 ^ 63 then (l : Int) else (l : Int) - 2 ^ 64

/-- go-cidr `HostBig`: the host number that is compared and the one inserted. -/
def hostBig (t : Net) (num : Int) : Except CErr IP :=
  let hostLen := t.mask.bits - t.mask.ones
  let maxHostNum : Int := 2 ^ hostLen - 1
  let numUint64 : Int := if num < 0 then -num - 1 else lowInt64 num.toNat
  let num' : Int := if num < 0 then maxHostNum - numUint64 else num
  if numUint64 > maxHostNum then .error .err
  else insertNumIntoIP t.ip num' (if t.ip.to4.isSome then 32 else 128)

/-- internal/lang/funcs/cidr.go L32-48: `CidrHostFunc` after `ParseCIDR`. -/
def cidrHost (network : Net) (hostnum : Option Int) : Except CErr IP :=
  match hostnum with
  | none => .error .err                       -- L34-36
  | some num => hostBig network num           -- L42-47

/-- go-cidr `SubnetBig`; `maxNetNum` is computed in uint64 arithmetic. -/
def subnetBig (t : Net) (newBits : Int) (num : Int) : Except CErr Net :=
  let newPrefixLen : Int := t.mask.ones + newBits
  if newPrefixLen > t.mask.bits then .error .err
  else
    let maxNetNum : Nat := if 0 ≤ newBits ∧ newBits < 64 then 2 ^ newBits.toNat - 1 else 2 ^ 64 - 1
    if num.natAbs % 2 ^ 64 > maxNetNum then .error .err
    else
      match insertNumIntoIP t.ip num newPrefixLen with
      | .error e => .error e
      | .ok p => .ok ⟨p, cidrMask newPrefixLen t.mask.bits⟩

/-- internal/lang/funcs/cidr.go L95-116: `CidrSubnetFunc` after `ParseCIDR`. -/
def cidrSubnet (network : Net) (newbits netnum : Option Int) : Except CErr Net :=
  match newbits, netnum with
  | some nb, some num => subnetBig network nb num
  | _, _ => .error .err

/-- internal/lang/funcs/cidr.go L62-73: `CidrNetmaskFunc` after `ParseCIDR`; the result is
the mask. -/
def cidrNetmask (network : Net) : Except CErr Mask :=
  if network.ip.to4.isNone then .error .err else .ok network.mask

/-- External `big.Int.SetBytes`: big-endian. -/
def setBytes (s : Bytes) : Nat := s.foldl (fun n c => n * 256 + c.toNat) 0

/-- Leading ones of a byte (external `simpleMaskLength` of `net`). -/
def byteOnes (c : UInt8) : Nat :=
  ((List.range 8).find? fun k => c.toNat < 256 - 2 ^ (7 - k)).getD 8

/-- Leading ones of a mask. -/
def leadingOnes : Bytes → Nat
  | [] => 0
  | c :: s => if c = 0xff then 8 + leadingOnes s else byteOnes c

/-- The numeric form of the network returned by `ParseCIDR`. -/
def ofIPNet (t : IPNet) : Net :=
  ⟨match t.ip with
    | none => nilIP
    | some a => ⟨a.length, setBytes a⟩,
   ⟨8 * t.mask.length, leadingOnes t.mask⟩⟩

/-- The four functions of cidr.go on a prefix text: `ParseCIDR` first (L37-40, L63-66,
L105-108, L135-138; an error either way when a number is wrong too). -/
def withPrefix {α : Type} (s : Bytes) (f : Net → Except CErr α) : Except CErr α :=
  match parseCIDR s with
  | none => .error .panic
  | some none => .error .err
  | some (some (_, t)) => f (ofIPNet t)

end Verif.Cidr
