import Verif.Model.Go
/-!
# Base64 and URL encoding

Model of `internal/lang/funcs/encoding.go` L21-44 `Base64DecodeFunc`, L47-59 `Base64EncodeFunc`, L182-194
`URLEncodeFunc` on known strings without marks (marks are in `Model/Funcs`).

External code, modelled as recalled (it is not on the machine): `encoding/base64` (`StdEncoding`),
`net/url` (`QueryEscape`), `cty.StringVal`, which normalises to NFC; `nfc` is a parameter.
-/
namespace Verif.Funcs

/-- The alphabet of `base64.StdEncoding`. -/
def b64Alpha : Bytes := b "ABCDEFGHIJKLMNOPQRSTUVWXYZabcdefghijklmnopqrstuvwxyz0123456789+/"

/-- `base64.Encoding.encode`: the character of six bits. -/
def b64Char (n : Nat) : UInt8 := b64Alpha.getD n 0

/-- `base64.Encoding.decodeMap`: the six bits of a character. -/
def b64Index (c : UInt8) : Option Nat := if c ∈ b64Alpha then some (b64Alpha.idxOf c) else none

/-- `base64.StdEncoding.EncodeToString`: three bytes at a time, then what is left, with padding. -/
def b64Encode : Bytes → Bytes
  | [] => []
  | [x] =>
    let v := x.toNat * 65536
    [b64Char (v / 262144 % 64), b64Char (v / 4096 % 64), 61, 61]
  | [x, y] =>
    let v := x.toNat * 65536 + y.toNat * 256
    [b64Char (v / 262144 % 64), b64Char (v / 4096 % 64), b64Char (v / 64 % 64), 61]
  | x :: y :: z :: r =>
    let v := x.toNat * 65536 + y.toNat * 256 + z.toNat
    b64Char (v / 262144 % 64) :: b64Char (v / 4096 % 64) :: b64Char (v / 64 % 64) :: b64Char (v % 64) ::
      b64Encode r

/-- `decodeQuantum` on the text without line breaks: four characters at a time; `=` only at the end.  The bits
that are left over are not checked (`StdEncoding` is not strict). -/
def b64DecodeQ : Bytes → Option Bytes
  | [] => some []
  | c0 :: c1 :: c2 :: c3 :: r =>
    match b64Index c0, b64Index c1, b64Index c2, b64Index c3 with
    | some w, some x, some y, some z =>
      let v := w * 262144 + x * 4096 + y * 64 + z
      (b64DecodeQ r).map fun t => (v / 65536).toUInt8 :: (v / 256 % 256).toUInt8 :: (v % 256).toUInt8 :: t
    | some w, some x, some y, none =>
      let v := w * 262144 + x * 4096 + y * 64
      if c3 = 61 ∧ r = [] then some [(v / 65536).toUInt8, (v / 256 % 256).toUInt8] else none
    | some w, some x, none, _ =>
      let v := w * 262144 + x * 4096
      if c2 = 61 ∧ c3 = 61 ∧ r = [] then some [(v / 65536).toUInt8] else none
    | _, _, _, _ => none
  | _ => none

/-- `base64.StdEncoding.DecodeString`: line breaks are skipped. -/
def b64Decode (t : Bytes) : Option Bytes := b64DecodeQ (t.filter fun c => c ≠ 10 ∧ c ≠ 13)

/-- internal/lang/funcs/encoding.go L57 -/
def base64Encode (nfc : Bytes → Bytes) (s : Bytes) : Bytes := nfc (b64Encode s)

/-- internal/lang/funcs/encoding.go L31-43 -/
def base64Decode (nfc : Bytes → Bytes) (t : Bytes) : Except Unit Bytes :=
  match b64Decode t with
  | none => .error ()                                            -- L35-37
  | some s => if utf8Valid s then .ok (nfc s) else .error ()     -- L38-42

/-- `net/url` `shouldEscape(c, encodeQueryComponent)` -/
def shouldEscape (c : UInt8) : Bool :=
  if 97 ≤ c ∧ c ≤ 122 ∨ 65 ≤ c ∧ c ≤ 90 ∨ 48 ≤ c ∧ c ≤ 57 then false
  else if c = 45 ∨ c = 95 ∨ c = 46 ∨ c = 126 then false
  else true

/-- `upperhex` -/
def upperhex (n : Nat) : UInt8 := (b "0123456789ABCDEF").getD n 0

/-- `net/url.QueryEscape` -/
def queryEscape : Bytes → Bytes
  | [] => []
  | c :: r =>
    if c = 32 then 43 :: queryEscape r
    else if shouldEscape c then 37 :: upperhex (c.toNat / 16) :: upperhex (c.toNat % 16) :: queryEscape r
    else c :: queryEscape r

/-- internal/lang/funcs/encoding.go L192 -/
def urlEncode (nfc : Bytes → Bytes) (s : Bytes) : Bytes := nfc (queryEscape s)

end Verif.Funcs
