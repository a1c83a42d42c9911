import Verif.Model.File
import Verif.Model.Number
/-!
# Identifiers and password hashes

Model of `uuid`, `uuidv5` and `bcrypt` of `internal/lang/funcs/crypto.go`.

External code, modelled as recalled (it is not on the machine): `GenerateUUID` of hashicorp/go-uuid, `Parse`,
`NewSHA1` and `String` of google/uuid, `GenerateFromPassword` of golang.org/x/crypto/bcrypt.  SHA-1, the random
bytes and the cipher of bcrypt are parameters.

Simplification: errors of `bcrypt` have no text; that the machine has no random bytes is not represented.
-/
namespace Verif.Ident
open Funcs File

/-- A digit of `%x`, also `hextable` of `encoding/hex`. -/
def hexDigit (d : UInt8) : UInt8 := if d < 10 then d + 48 else d + 87

/-- `hex.Encode`, and `%x` for bytes. -/
def hexEnc : Bytes → Bytes
  | [] => []
  | x :: u => hexDigit (x / 16) :: hexDigit (x % 16) :: hexEnc u

/-- `uuid.FormatUUID` of hashicorp/go-uuid and `UUID.String` of google/uuid, for 16 bytes. -/
def text (u : Bytes) : Bytes :=
  hexEnc (u.take 4) ++ 45 :: (hexEnc ((u.drop 4).take 2) ++ 45 :: (hexEnc ((u.drop 6).take 2) ++
    45 :: (hexEnc ((u.drop 8).take 2) ++ 45 :: hexEnc ((u.drop 10).take 6))))

/-- internal/lang/funcs/crypto.go L29-40 `UUIDFunc`; `random` are the 16 bytes of `uuid.GenerateUUID`. -/
def uuid (nfc : Bytes → Bytes) (random : Bytes) : Bytes := nfc (text random)

/-- `xvalues` of google/uuid. -/
def xvalue (c : UInt8) : Option UInt8 :=
  if 48 ≤ c ∧ c ≤ 57 then some (c - 48)
  else if 65 ≤ c ∧ c ≤ 70 then some (c - 55)
  else if 97 ≤ c ∧ c ≤ 102 then some (c - 87)
  else none

/-- `xtob` of google/uuid. -/
def xtob (c d : UInt8) : Option UInt8 :=
  match xvalue c, xvalue d with
  | some x, some y => some (x * 16 + y)
  | _, _ => none

/-- The offsets of the bytes in a text with dashes. -/
def offsets : List Nat := [0, 2, 4, 6, 9, 11, 14, 16, 19, 21, 24, 26, 28, 30, 32, 34]

/-- The second half of `uuid.Parse`: a text of at least 36 bytes. -/
def dashed (s : Bytes) : Option Bytes :=
  if s.getD 8 0 ≠ 45 ∨ s.getD 13 0 ≠ 45 ∨ s.getD 18 0 ≠ 45 ∨ s.getD 23 0 ≠ 45 then none
  else offsets.mapM fun x => xtob (s.getD x 0) (s.getD (x + 1) 0)

/-- The case of 32 bytes in `uuid.Parse`. -/
def undashed : Bytes → Option Bytes
  | [] => some []
  | c :: d :: s =>
    match xtob c d with
    | none => none
    | some x => (undashed s).map (x :: ·)
  | _ => none

/-- Lower case of ASCII letters: what `strings.EqualFold` compares with `urn:uuid:`. -/
def lower (c : UInt8) : UInt8 := if 65 ≤ c ∧ c ≤ 90 then c + 32 else c

/-- Errors of `uuid.Parse`. -/
inductive ParseErr where
  | length (n : Nat)
  | urn (start : Bytes)
  | format
deriving DecidableEq

/-- An answer or the error of a wrong format. -/
def orFormat : Option Bytes → Except ParseErr Bytes
  | none => .error .format
  | some u => .ok u

/-- `uuid.Parse` of google/uuid. -/
def parse (s : Bytes) : Except ParseErr Bytes :=
  if s.length = 36 then orFormat (dashed s)
  else if s.length = 45 then
    if (s.take 9).map lower ≠ b "urn:uuid:" then .error (.urn (s.take 9)) else orFormat (dashed (s.drop 9))
  else if s.length = 38 then orFormat (dashed (s.drop 1))
  else if s.length = 32 then orFormat (undashed s)
  else .error (.length s.length)

/-- `uuid.NameSpaceDNS` and the like: they differ in one byte. -/
def wellKnown (x : UInt8) : Bytes :=
  [0x6b, 0xa7, 0xb8, x, 0x9d, 0xad, 0x11, 0xd1, 0x80, 0xb4, 0x00, 0xc0, 0x4f, 0xd4, 0x30, 0xc8]

/-- internal/lang/funcs/crypto.go L57-65 -/
def known (s : Bytes) : Option Bytes :=
  if s = b "dns" then some (wellKnown 0x10)
  else if s = b "url" then some (wellKnown 0x11)
  else if s = b "oid" then some (wellKnown 0x12)
  else if s = b "x500" then some (wellKnown 0x14)
  else none

/-- `NewHash` of google/uuid with version 5: the first 16 bytes of the hash, with version and variant. -/
def stamp (h : Bytes) : Bytes :=
  let u := h.take 16
  let u := u.set 6 (u.getD 6 0 % 16 + 0x50)
  u.set 8 (u.getD 8 0 % 64 + 0x80)

/-- internal/lang/funcs/crypto.go L42-74 `UUIDV5Func` -/
def v5 (nfc sha1 : Bytes → Bytes) (errText : ParseErr → Bytes) (ns name : Marked Bytes) : Except Bytes (Marked Bytes) :=
  uuidv5 nfc known (fun s => (parse s).mapError errText) (fun u n => text (stamp (sha1 (u ++ n)))) ns name

/-- Why `bcrypt` fails. -/
inductive HashErr where
  | notInt
  | arguments
  | tooLong
  | cost (c : Int)
deriving DecidableEq

/-- `newFromPassword` and `hashed.Hash` of bcrypt: `salt` is the encoded salt (22 bytes), `core` the encoded hash
(31 bytes). -/
def newFromPassword (salt : Bytes) (core : Bytes → Nat → Bytes → Bytes) (password : Bytes) (cost : Int) :
    Except HashErr Bytes :=
  let cost := if cost < 4 then 10 else cost
  if cost < 4 ∨ 31 < cost then .error (.cost cost)
  else
    let n := cost.toNat
    .ok (b "$2a$" ++ [(n / 10).toUInt8 + 48, (n % 10).toUInt8 + 48] ++ b "$" ++ salt ++ core password n salt)

/-- `bcrypt.GenerateFromPassword` -/
def generateFromPassword (salt : Bytes) (core : Bytes → Nat → Bytes → Bytes) (password : Bytes) (cost : Int) :
    Except HashErr Bytes :=
  if 72 < password.length then .error .tooLong else newFromPassword salt core password cost

/-- internal/lang/funcs/crypto.go L108-116: the cost that is asked for. -/
def asked : List Num → Option Int
  | [] => some 10
  | c :: _ => c.toInt

/-- internal/lang/funcs/crypto.go L94-131 `BcryptFunc`, with its variadic arguments. -/
def bcrypt (salt : Bytes) (core : Bytes → Nat → Bytes → Bytes) (str : Bytes) (costs : List Num) : Except HashErr Bytes :=
  match asked costs with
  | none => .error .notInt
  | some cost =>
    if 1 < costs.length then .error .arguments                  -- L118-120
    else generateFromPassword salt core str cost                -- L122-126
end Verif.Ident
