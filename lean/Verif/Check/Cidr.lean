import Verif.Model.Cidr
/-!
# The vectors of `/repo/internal/lang/funcs/cidr_test.go`

Tests, not proofs of any property: they compare the model (in particular the parts of
go-cidr and `net` recalled from memory) with the outcomes the repository's own tests
expect.
-/
namespace Verif.Cidr.Check
open Verif.IPAddr

/-- Decidable view of an outcome: `none` for a failure of either kind. -/
def res {α : Type} : Except CErr α → Option α
  | .ok a => some a
  | .error _ => none

/-- The IPv4 address of four octets. -/
def v4 (a b c d : Nat) : IP := ⟨4, ((a * 256 + b) * 256 + c) * 256 + d⟩

example : res (withPrefix (b "192.168.1.0/24") (cidrHost · (some 5))) = some (v4 192 168 1 5) := by decide +kernel
example : res (withPrefix (b "192.168.1.0/24") (cidrHost · (some (-5)))) = some (v4 192 168 1 251) := by decide +kernel
example : res (withPrefix (b "192.168.1.0/24") (cidrHost · (some (-256)))) = some (v4 192 168 1 0) := by decide +kernel
example : res (withPrefix (b "010.001.0.0/24") (cidrHost · (some 6))) = some (v4 10 1 0 6) := by decide +kernel
example : res (withPrefix (b "192.168.1.0/30") (cidrHost · (some 255))) = none := by decide +kernel
example : res (withPrefix (b "192.168.1.0/30") (cidrHost · (some (-255)))) = none := by decide +kernel
example : res (withPrefix (b "not-a-cidr") (cidrHost · (some 6))) = none := by decide +kernel
example : res (withPrefix (b "10.256.0.0/8") (cidrHost · (some 6))) = none := by decide +kernel
example : res (withPrefix (b "10.256.0.0/8") (cidrHost · none)) = none := by decide +kernel

example : res (withPrefix (b "192.168.1.0/24") cidrNetmask) = some ⟨32, 24⟩ := by decide +kernel
example : res (withPrefix (b "192.168.1.0/32") cidrNetmask) = some ⟨32, 32⟩ := by decide +kernel
example : res (withPrefix (b "0.0.0.0/0") cidrNetmask) = some ⟨32, 0⟩ := by decide +kernel
example : res (withPrefix (b "010.001.0.0/24") cidrNetmask) = some ⟨32, 24⟩ := by decide +kernel
example : res (withPrefix (b "not-a-cidr") cidrNetmask) = none := by decide +kernel
example : res (withPrefix (b "110.256.0.0/8") cidrNetmask) = none := by decide +kernel
example : res (withPrefix (b "1::/64") cidrNetmask) = none := by decide +kernel

example : res (withPrefix (b "192.168.2.0/20") (cidrSubnet · (some 4) (some 6))) = some ⟨v4 192 168 6 0, ⟨32, 24⟩⟩ := by decide +kernel
example : res (withPrefix (b "fe80::/48") (cidrSubnet · (some 16) (some 6))) = some ⟨⟨16, 0xfe800000000000060000000000000000⟩, ⟨128, 64⟩⟩ := by decide +kernel
-- the Go text of this network is "192.168.6.0/24": `IPNet.String` normalises it
example : res (withPrefix (b "::ffff:192.168.0.0/112") (cidrSubnet · (some 8) (some 6))) = some ⟨⟨16, 0xffffc0a80600⟩, ⟨128, 120⟩⟩ := by decide +kernel
example : res (withPrefix (b "fe80::/48") (cidrSubnet · (some 33) (some 6))) = some ⟨⟨16, 338288524927261089654019741266277826560⟩, ⟨128, 81⟩⟩ := by decide +kernel
example : res (withPrefix (b "010.001.0.0/24") (cidrSubnet · (some 4) (some 1))) = some ⟨v4 10 1 0 16, ⟨32, 28⟩⟩ := by decide +kernel
example : res (withPrefix (b "192.168.0.0/30") (cidrSubnet · (some 4) (some 6))) = none := by decide +kernel
example : res (withPrefix (b "192.168.0.0/168") (cidrSubnet · (some 2) (some 16))) = none := by decide +kernel
example : res (withPrefix (b "not-a-cidr") (cidrSubnet · (some 4) (some 6))) = none := by decide +kernel
example : res (withPrefix (b "10.256.0.0/8") (cidrSubnet · (some 4) (some 6))) = none := by decide +kernel
example : res (withPrefix (b "10.256.0.0/8") (cidrSubnet · none none)) = none := by decide +kernel

example : res (withPrefix (b "10.0.0.0/21") (cidrSubnets · [some (3), some (3), some (3), some (4), some (4), some (4), some (7), some (7), some (7)])) =
    some [⟨v4 10 0 0 0, ⟨32, 24⟩⟩, ⟨v4 10 0 1 0, ⟨32, 24⟩⟩, ⟨v4 10 0 2 0, ⟨32, 24⟩⟩, ⟨v4 10 0 3 0, ⟨32, 25⟩⟩, ⟨v4 10 0 3 128, ⟨32, 25⟩⟩, ⟨v4 10 0 4 0, ⟨32, 25⟩⟩, ⟨v4 10 0 4 128, ⟨32, 28⟩⟩, ⟨v4 10 0 4 144, ⟨32, 28⟩⟩, ⟨v4 10 0 4 160, ⟨32, 28⟩⟩] := by decide +kernel
example : res (withPrefix (b "010.0.0.0/21") (cidrSubnets · [some (3)])) =
    some [⟨v4 10 0 0 0, ⟨32, 24⟩⟩] := by decide +kernel
example : res (withPrefix (b "10.0.0.0/30") (cidrSubnets · [some (1), some (3)])) =
    none := by decide +kernel
example : res (withPrefix (b "10.0.0.0/8") (cidrSubnets · [some (1), some (1), some (1)])) =
    none := by decide +kernel
example : res (withPrefix (b "10.0.0.0/8") (cidrSubnets · [some (1), some (0)])) =
    none := by decide +kernel
example : res (withPrefix (b "10.0.0.0/8") (cidrSubnets · [some (1), some (-1)])) =
    none := by decide +kernel
example : res (withPrefix (b "fe80::/48") (cidrSubnets · [some (1), some (33)])) =
    none := by decide +kernel

end Verif.Cidr.Check
