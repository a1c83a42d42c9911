import Verif.Model.Registry
/-!
# The functions that package funcs exports

The variables of internal/lang/funcs; constructors (`Make..`) are not among them.
-/
namespace Verif.Fn

/-- internal/lang/funcs/*.go: the variables that are functions, by file; the lines are given with each file. -/
def exported : List Bytes := [
  -- internal/lang/funcs/cidr.go L19, L53, L78, L121
  b "CidrHostFunc", b "CidrNetmaskFunc", b "CidrSubnetFunc", b "CidrSubnetsFunc",
  -- internal/lang/funcs/collection.go L19, L68, L98, L135, L177, L222, L330, L414, L491, L561, L618, L639
  b "LengthFunc", b "AllTrueFunc", b "AnyTrueFunc", b "CoalesceFunc", b "IndexFunc", b "LookupFunc", b "MatchkeysFunc", b "OneFunc", b "SumFunc", b "TransposeFunc", b "ListFunc", b "MapFunc",
  -- internal/lang/funcs/conversion.go L105
  b "TypeFunc",
  -- internal/lang/funcs/crypto.go L29, L42, L78, L88, L97, L136, L145, L196, L206, L216
  b "UUIDFunc", b "UUIDV5Func", b "Base64Sha256Func", b "Base64Sha512Func", b "BcryptFunc", b "Md5Func", b "RsaDecryptFunc", b "Sha1Func", b "Sha256Func", b "Sha512Func",
  -- internal/lang/funcs/datetime.go L15, L37, L65
  b "TimestampFunc", b "TimeAddFunc", b "TimeCmpFunc",
  -- internal/lang/funcs/encoding.go L21, L47, L62, L106, L154, L182
  b "Base64DecodeFunc", b "Base64EncodeFunc", b "TextEncodeBase64Func", b "TextDecodeBase64Func", b "Base64GzipFunc", b "URLEncodeFunc",
  -- internal/lang/funcs/filesystem.go L339, L355, L370, L386
  b "BasenameFunc", b "DirnameFunc", b "AbsPathFunc", b "PathExpandFunc",
  -- internal/lang/funcs/number.go L16, L45, L75, L101
  b "LogFunc", b "PowFunc", b "SignumFunc", b "ParseIntFunc",
  -- internal/lang/funcs/sensitive.go L14, L38
  b "SensitiveFunc", b "NonsensitiveFunc",
  -- internal/lang/funcs/string.go L16, L66, L93, L132
  b "StartsWithFunc", b "EndsWithFunc", b "ReplaceFunc", b "StrContainsFunc"]

end Verif.Fn
