import Verif.Model.Go
/-!
# Model of `internal/ipaddr/ip.go` and `internal/ipaddr/parse.go`

`Option` as the outer result: `none` is a Go panic (index or slice out of range).
The inner `Option` is the nil `IP`.  An `IP` is a list of bytes.
-/
namespace Verif.IPAddr

/-- internal/ipaddr/parse.go L11 `big`. -/
def big : Nat := 0xFFFFFF

/-- Result of `dtoi`/`xtoi`: number, characters consumed, success. -/
structure Num where
  n : Nat
  i : Nat
  ok : Bool
  deriving DecidableEq, Repr

/-- L17 of parse.go: the test `'0' <= c && c <= '9'`. -/
def isDigit (c : UInt8) : Bool := 48 ≤ c && c ≤ 57

/-- internal/ipaddr/parse.go L17-26: the loop of `dtoi`; the list is `s[i:]`.  Go's `int`
cannot overflow here since `n < big` on every iteration. -/
def dtoiLoop (n i : Nat) : Bytes → Num
  | [] => if i = 0 then ⟨0, 0, false⟩ else ⟨n, i, true⟩
  | c :: s =>
    if isDigit c then
      let n' := n * 10 + (c - 48).toNat
      if n' ≥ big then ⟨big, i, false⟩ else dtoiLoop n' (i + 1) s
    else if i = 0 then ⟨0, 0, false⟩ else ⟨n, i, true⟩

/-- internal/ipaddr/parse.go L15-27 `dtoi`. -/
def dtoi (s : Bytes) : Num := dtoiLoop 0 0 s

/-- internal/ipaddr/parse.go L34-45: the value of a hexadecimal digit. -/
def hexDigit (c : UInt8) : Option Nat :=
  if 48 ≤ c && c ≤ 57 then some (c - 48).toNat
  else if 97 ≤ c && c ≤ 102 then some ((c - 97).toNat + 10)
  else if 65 ≤ c && c ≤ 70 then some ((c - 65).toNat + 10)
  else none

/-- internal/ipaddr/parse.go L33-53: the loop of `xtoi`. -/
def xtoiLoop (n i : Nat) : Bytes → Num
  | [] => if i = 0 then ⟨0, i, false⟩ else ⟨n, i, true⟩
  | c :: s =>
    match hexDigit c with
    | some d =>
      let n' := n * 16 + d
      if n' ≥ big then ⟨0, i, false⟩ else xtoiLoop n' (i + 1) s
    | none => if i = 0 then ⟨0, i, false⟩ else ⟨n, i, true⟩

/-- internal/ipaddr/parse.go L31-54 `xtoi`. -/
def xtoi (s : Bytes) : Num := xtoiLoop 0 0 s

/-- Go `s[c:]`, panicking when `c > len(s)`. -/
def sliceFrom (s : Bytes) (c : Nat) : Option Bytes := if c ≤ s.length then some (s.drop c) else none

/-- Go `x[i] = v`, panicking when out of range. -/
def setAt (x : Bytes) (i : Nat) (v : UInt8) : Option Bytes :=
  if i < x.length then some (x.set i v) else none

/-- External `net.IPv4(a, b, c, d)`: the 16-byte IPv4-mapped form. -/
def ipv4 (p : Bytes) : Bytes := [0, 0, 0, 0, 0, 0, 0, 0, 0, 0, 0xff, 0xff] ++ p

/-- internal/ipaddr/ip.go L41-46: the separator before every octet but the first. -/
def skipDot (i : Nat) (s : Bytes) : Option (Option Bytes) :=
  if i > 0 then
    match (s[0]? : Option UInt8) with
    | none => none
    | some c => if c ≠ 46 then some none else (sliceFrom s 1).map some
  else some (some s)

/-- internal/ipaddr/ip.go L36-66: iteration `i` of the loop of `parseIPv4`, with the rest
of the text and the bytes `p[0..i)`; first argument: iterations left (`4 - i`). -/
def parseIPv4Loop : Nat → Nat → Bytes → Bytes → Option (Option Bytes)
  | 0, _, s, p => if s.length ≠ 0 then some none else some (some (ipv4 p))     -- L63-66
  | k + 1, i, s, p =>
    if s.length = 0 then some none                                              -- L37-40
    else
      match skipDot i s with                                                    -- L41-46
      | none => none
      | some none => some none
      | some (some s) =>
        let r := dtoi s                                                         -- L47
        if !r.ok || r.n > 0xFF then some none                                   -- L48-50
        else
          match sliceFrom s r.i with                                            -- L60
          | none => none
          | some s => parseIPv4Loop k (i + 1) s (p ++ [UInt8.ofNat r.n])        -- L61

/-- internal/ipaddr/ip.go L34-67 `parseIPv4`. -/
def parseIPv4 (s : Bytes) : Option (Option Bytes) := parseIPv4Loop 4 0 s []

/-- internal/ipaddr/ip.go L153-163: `for j := i-1; j >= ellipsis; j-- { ip[j+n] = ip[j] }`,
with `k` iterations left (`j = e + k - 1`). -/
def moveUp (e n : Nat) : Nat → Bytes → Option Bytes
  | 0, ip => some ip
  | k + 1, ip =>
    match ip[e + k]? with
    | none => none
    | some v =>
      match setAt ip (e + k + n) v with
      | none => none
      | some ip => moveUp e n k ip

/-- internal/ipaddr/ip.go L161-163: `for j := ellipsis+n-1; j >= ellipsis; j-- { ip[j] = 0 }`. -/
def zeroOut (e : Nat) : Nat → Bytes → Option Bytes
  | 0, ip => some ip
  | k + 1, ip =>
    match setAt ip (e + k) 0 with
    | none => none
    | some ip => zeroOut e k ip

/-- internal/ipaddr/ip.go L147-168: the end of `parseIPv6`; `ell = none` is `ellipsis == -1`. -/
def finish6 (i : Nat) (s : Bytes) (ell : Option Nat) (ip : Bytes) : Option (Option Bytes) :=
  if s.length ≠ 0 then some none                                    -- L148-150
  else if i < 16 then
    match ell with
    | none => some none                                             -- L154-156
    | some e =>
      match moveUp e (16 - i) (i - e) ip with                       -- L158-160
      | none => none
      | some ip => (zeroOut e (16 - i) ip).map some                 -- L161-163
  else
    match ell with
    | some _ => some none                                           -- L164-167
    | none => some (some ip)

/-- internal/ipaddr/ip.go L87-168: the loop of `parseIPv6` and what follows it.  The first
argument bounds the iterations (`i` grows by 2 each time, so 9 suffice; `none` on
exhaustion, excluded by the no-panic theorem). -/
def loop6 : Nat → Nat → Bytes → Option Nat → Bytes → Option (Option Bytes)
  | 0, _, _, _, _ => none
  | fuel + 1, i, s, ell, ip =>
    if ¬ i < 16 then finish6 i s ell ip
    else
      let r := xtoi s                                               -- L89
      if !r.ok || r.n > 0xFFFF then some none                       -- L90-92
      else if r.i < s.length ∧ s[r.i]? = some 46 then               -- L95
        if ell = none ∧ i ≠ 12 then some none                       -- L96-99
        else if i + 4 > 16 then some none                           -- L100-103
        else
          match parseIPv4 s with                                    -- L104
          | none => none
          | some none => some none
          | some (some ip4) =>
            match ip4[12]?, ip4[13]?, ip4[14]?, ip4[15]? with       -- L108-111
            | some a, some b, some c, some d =>
              match ((((setAt ip i a).bind fun ip => setAt ip (i + 1) b).bind
                  fun ip => setAt ip (i + 2) c).bind fun ip => setAt ip (i + 3) d) with
              | none => none
              | some ip => finish6 (i + 4) [] ell ip                -- L112-114
            | _, _, _, _ => none
      else
        -- L118-120; byte(n>>8), byte(n)
        match (setAt ip i (UInt8.ofNat (r.n / 256))).bind
            fun ip => setAt ip (i + 1) (UInt8.ofNat (r.n % 256)) with
        | none => none
        | some ip =>
          match sliceFrom s r.i with                                -- L123
          | none => none
          | some s =>
            if s.length = 0 then finish6 (i + 2) s ell ip           -- L124-126
            else
              match s[0]? with
              | none => none
              | some c0 =>
                if c0 ≠ 58 ∨ s.length = 1 then some none            -- L129-131
                else
                  match sliceFrom s 1 with                          -- L132
                  | none => none
                  | some s =>
                    match s[0]? with                                -- L135
                    | none => none
                    | some c1 =>
                      if c1 = 58 then
                        if ell ≠ none then some none                -- L136-138
                        else
                          match sliceFrom s 1 with                  -- L140
                          | none => none
                          | some s =>
                            if s.length = 0 then finish6 (i + 2) s (some (i + 2)) ip  -- L141-143
                            else loop6 fuel (i + 2) s (some (i + 2)) ip
                      else loop6 fuel (i + 2) s ell ip

/-- internal/ipaddr/ip.go L71-169 `parseIPv6`. -/
def parseIPv6 (s : Bytes) : Option (Option Bytes) :=
  let ip := List.replicate 16 0                                     -- L72
  if s.length ≥ 2 ∧ s[0]? = some 58 ∧ s[1]? = some 58 then          -- L76
    match sliceFrom s 2 with
    | none => none
    | some s =>
      if s.length = 0 then some (some ip)                           -- L80-82
      else loop6 9 0 s (some 0) ip
  else loop6 9 0 s none ip

/-- internal/ipaddr/ip.go L177-185: the loop of `ParseIP` over `s[i:]`. -/
def parseIPLoop (s : Bytes) : Bytes → Option (Option Bytes)
  | [] => some none
  | c :: rest =>
    if c = 46 then parseIPv4 s
    else if c = 58 then parseIPv6 s
    else parseIPLoop s rest

/-- internal/ipaddr/ip.go L176-186 `ParseIP`. -/
def parseIP (s : Bytes) : Option (Option Bytes) := parseIPLoop s s

/-- internal/ipaddr/ip.go L219-226 `indexByteString` (`none` for -1); the list is `s[i:]`. -/
def indexByteLoop (c : UInt8) (i : Nat) : Bytes → Option Nat
  | [] => none
  | x :: s => if x = c then some i else indexByteLoop c (i + 1) s

def indexByteString (s : Bytes) (c : UInt8) : Option Nat := indexByteLoop c 0 s

/-- External `net.CIDRMask(ones, 8*l)`: `l` bytes. (Only called with `ones ≤ 8*l`.) -/
def cidrMask (n : Nat) : Nat → Bytes
  | 0 => []
  | l + 1 =>
    if n ≥ 8 then 0xff :: cidrMask (n - 8) l
    else (~~~ (UInt8.ofNat (255 / 2 ^ n))) :: cidrMask 0 l

/-- External `net.IP.Mask` (nil result: `none`). -/
def ipMask (ip mask : Bytes) : Option Bytes :=
  let ip := if mask.length = 4 ∧ ip.length = 16 ∧
      ip.take 12 = [0, 0, 0, 0, 0, 0, 0, 0, 0, 0, 0xff, 0xff] then ip.drop 12 else ip
  if ip.length = mask.length then some (List.zipWith (· &&& ·) ip mask) else none

/-- `*IPNet`: network address and mask. -/
structure IPNet where
  ip : Option Bytes
  mask : Bytes
  deriving DecidableEq

/-- internal/ipaddr/ip.go L196-214 `ParseCIDR`.  Outer `none`: panic; inner `none`: error. -/
def parseCIDR (s : Bytes) : Option (Option (Bytes × IPNet)) :=
  match indexByteString s 47 with
  | none => some none                                               -- L198-200
  | some i =>
    if ¬ (i ≤ s.length ∧ i + 1 ≤ s.length) then none                -- L201 slice bounds
    else
      let addr := s.take i
      let mask := s.drop (i + 1)
      match parseIPv4 addr with                                     -- L203
      | none => none
      | some r4 =>
        match (match r4 with
          | some ip => some (some ip, 4)
          | none => (parseIPv6 addr).map fun r => (r, 16)) with     -- L204-207
        | none => none
        | some (rip, iplen) =>
          let r := dtoi mask                                        -- L208
          match rip with
          | none => some none
          | some ip =>
            if !r.ok || r.i ≠ mask.length || r.n > 8 * iplen then some none   -- L209-211
            else
              let m := cidrMask r.n iplen                           -- L212
              some (some (ip, ⟨ipMask ip m, m⟩))

end Verif.IPAddr
