import Verif.Model.Call
/-!
# Model of `internal/lang/functions.go`: the functions that are built in

A function is named by the Go expression that the table gives for it; what the functions do is in the other models or
external.
-/

namespace Verif.Fn

/-- A built-in function: one that is the same for all calls, by the name it has in Go; or one that reads files below a
base directory. -/
inductive FnId where
  | go (name : Bytes)
  | file (make : Bytes) (base : Bytes)
  deriving DecidableEq

/-- internal/lang/functions.go L13-119: the table `coreFuncs`. -/
def coreTable : GoMap Bytes FnId := [
  (b "abs", .go (b "stdlib.AbsoluteFunc")),
  (b "abspath", .go (b "funcs.AbsPathFunc")),
  (b "alltrue", .go (b "funcs.AllTrueFunc")),
  (b "anytrue", .go (b "funcs.AnyTrueFunc")),
  (b "basename", .go (b "funcs.BasenameFunc")),
  (b "base64decode", .go (b "funcs.Base64DecodeFunc")),
  (b "base64encode", .go (b "funcs.Base64EncodeFunc")),
  (b "base64gzip", .go (b "funcs.Base64GzipFunc")),
  (b "base64sha256", .go (b "funcs.Base64Sha256Func")),
  (b "base64sha512", .go (b "funcs.Base64Sha512Func")),
  (b "bcrypt", .go (b "funcs.BcryptFunc")),
  (b "can", .go (b "tryfunc.CanFunc")),
  (b "ceil", .go (b "stdlib.CeilFunc")),
  (b "chomp", .go (b "stdlib.ChompFunc")),
  (b "cidrhost", .go (b "funcs.CidrHostFunc")),
  (b "cidrnetmask", .go (b "funcs.CidrNetmaskFunc")),
  (b "cidrsubnet", .go (b "funcs.CidrSubnetFunc")),
  (b "cidrsubnets", .go (b "funcs.CidrSubnetsFunc")),
  (b "coalesce", .go (b "funcs.CoalesceFunc")),
  (b "coalescelist", .go (b "stdlib.CoalesceListFunc")),
  (b "compact", .go (b "stdlib.CompactFunc")),
  (b "concat", .go (b "stdlib.ConcatFunc")),
  (b "contains", .go (b "stdlib.ContainsFunc")),
  (b "csvdecode", .go (b "stdlib.CSVDecodeFunc")),
  (b "dirname", .go (b "funcs.DirnameFunc")),
  (b "distinct", .go (b "stdlib.DistinctFunc")),
  (b "element", .go (b "stdlib.ElementFunc")),
  (b "endswith", .go (b "funcs.EndsWithFunc")),
  (b "chunklist", .go (b "stdlib.ChunklistFunc")),
  (b "flatten", .go (b "stdlib.FlattenFunc")),
  (b "floor", .go (b "stdlib.FloorFunc")),
  (b "format", .go (b "stdlib.FormatFunc")),
  (b "formatdate", .go (b "stdlib.FormatDateFunc")),
  (b "formatlist", .go (b "stdlib.FormatListFunc")),
  (b "indent", .go (b "stdlib.IndentFunc")),
  (b "index", .go (b "funcs.IndexFunc")),
  (b "join", .go (b "stdlib.JoinFunc")),
  (b "jsondecode", .go (b "stdlib.JSONDecodeFunc")),
  (b "jsonencode", .go (b "stdlib.JSONEncodeFunc")),
  (b "keys", .go (b "stdlib.KeysFunc")),
  (b "length", .go (b "funcs.LengthFunc")),
  (b "list", .go (b "funcs.ListFunc")),
  (b "log", .go (b "stdlib.LogFunc")),
  (b "lookup", .go (b "funcs.LookupFunc")),
  (b "lower", .go (b "stdlib.LowerFunc")),
  (b "map", .go (b "funcs.MapFunc")),
  (b "matchkeys", .go (b "funcs.MatchkeysFunc")),
  (b "max", .go (b "stdlib.MaxFunc")),
  (b "md5", .go (b "funcs.Md5Func")),
  (b "merge", .go (b "stdlib.MergeFunc")),
  (b "min", .go (b "stdlib.MinFunc")),
  (b "one", .go (b "funcs.OneFunc")),
  (b "parseint", .go (b "stdlib.ParseIntFunc")),
  (b "pathexpand", .go (b "funcs.PathExpandFunc")),
  (b "pow", .go (b "stdlib.PowFunc")),
  (b "range", .go (b "stdlib.RangeFunc")),
  (b "regex", .go (b "stdlib.RegexFunc")),
  (b "regexall", .go (b "stdlib.RegexAllFunc")),
  (b "replace", .go (b "funcs.ReplaceFunc")),
  (b "reverse", .go (b "stdlib.ReverseListFunc")),
  (b "rsadecrypt", .go (b "funcs.RsaDecryptFunc")),
  (b "sensitive", .go (b "funcs.SensitiveFunc")),
  (b "nonsensitive", .go (b "funcs.NonsensitiveFunc")),
  (b "setintersection", .go (b "stdlib.SetIntersectionFunc")),
  (b "setproduct", .go (b "stdlib.SetProductFunc")),
  (b "setsubtract", .go (b "stdlib.SetSubtractFunc")),
  (b "setunion", .go (b "stdlib.SetUnionFunc")),
  (b "sha1", .go (b "funcs.Sha1Func")),
  (b "sha256", .go (b "funcs.Sha256Func")),
  (b "sha512", .go (b "funcs.Sha512Func")),
  (b "signum", .go (b "stdlib.SignumFunc")),
  (b "slice", .go (b "stdlib.SliceFunc")),
  (b "sort", .go (b "stdlib.SortFunc")),
  (b "split", .go (b "stdlib.SplitFunc")),
  (b "startswith", .go (b "funcs.StartsWithFunc")),
  (b "strcontains", .go (b "funcs.StrContainsFunc")),
  (b "strrev", .go (b "stdlib.ReverseFunc")),
  (b "substr", .go (b "stdlib.SubstrFunc")),
  (b "sum", .go (b "funcs.SumFunc")),
  (b "textdecodebase64", .go (b "funcs.TextDecodeBase64Func")),
  (b "textencodebase64", .go (b "funcs.TextEncodeBase64Func")),
  (b "timestamp", .go (b "funcs.TimestampFunc")),
  (b "timeadd", .go (b "stdlib.TimeAddFunc")),
  (b "timecmp", .go (b "funcs.TimeCmpFunc")),
  (b "title", .go (b "stdlib.TitleFunc")),
  (b "tostring", .go (b "funcs.MakeToFunc(cty.String)")),
  (b "tonumber", .go (b "funcs.MakeToFunc(cty.Number)")),
  (b "tobool", .go (b "funcs.MakeToFunc(cty.Bool)")),
  (b "toset", .go (b "funcs.MakeToFunc(cty.Set(cty.DynamicPseudoType))")),
  (b "tolist", .go (b "funcs.MakeToFunc(cty.List(cty.DynamicPseudoType))")),
  (b "tomap", .go (b "funcs.MakeToFunc(cty.Map(cty.DynamicPseudoType))")),
  (b "transpose", .go (b "funcs.TransposeFunc")),
  (b "trim", .go (b "stdlib.TrimFunc")),
  (b "trimprefix", .go (b "stdlib.TrimPrefixFunc")),
  (b "trimspace", .go (b "stdlib.TrimSpaceFunc")),
  (b "trimsuffix", .go (b "stdlib.TrimSuffixFunc")),
  (b "try", .go (b "tryfunc.TryFunc")),
  (b "upper", .go (b "stdlib.UpperFunc")),
  (b "urlencode", .go (b "funcs.URLEncodeFunc")),
  (b "uuid", .go (b "funcs.UUIDFunc")),
  (b "uuidv5", .go (b "funcs.UUIDV5Func")),
  (b "values", .go (b "stdlib.ValuesFunc")),
  (b "yamldecode", .go (b "ctyyaml.YAMLDecodeFunc")),
  (b "yamlencode", .go (b "ctyyaml.YAMLEncodeFunc")),
  (b "zipmap", .go (b "stdlib.ZipmapFunc"))]

/-- internal/lang/functions.go L121-133: the functions of files with the constructors that make them, in the order in
which they are stored.  The second argument of `MakeFileFunc` is part of the name. -/
def fileTable : List (Bytes × Bytes) := [
  (b "file", b "funcs.MakeFileFunc(_, false)"),
  (b "fileexists", b "funcs.MakeFileExistsFunc"),
  (b "fileset", b "funcs.MakeFileSetFunc"),
  (b "filebase64", b "funcs.MakeFileFunc(_, true)"),
  (b "filebase64sha256", b "funcs.MakeFileBase64Sha256Func"),
  (b "filebase64sha512", b "funcs.MakeFileBase64Sha512Func"),
  (b "filemd5", b "funcs.MakeFileMd5Func"),
  (b "filesha1", b "funcs.MakeFileSha1Func"),
  (b "filesha256", b "funcs.MakeFileSha256Func"),
  (b "filesha512", b "funcs.MakeFileSha512Func")]

/-- internal/lang/functions.go L12-137 `CoreFunctions(base...)`.  `none` is the call without arguments, in which `base` is
nil; `base[0]` (L122) panics if there are no elements, which is the case for `CoreFunctions([]string{}...)`. -/
def coreFunctions : Option (List Bytes) → Except Fail (GoMap Bytes FnId)
  | none => .ok coreTable                                                           -- L121
  | some [] => .error .panic                                                        -- L122
  | some (baseDir :: _) =>
    .ok (fileTable.foldl (fun m e => GoMap.set m e.1 (.file e.2 baseDir)) coreTable)  -- L122-132

/-- utils/tree.go L43-50 of `DefaultTreeFunctions` with the functions of `CoreFunctions(".")`.  `run` says what a built-in
function does, `ord` the order in which L47 visits them. -/
def defaultTreeFuncs (run : FnId → HclFn) (ord : GoMap Bytes HclFn → GoMap Bytes HclFn) (ref : Funcs) : Except Fail Funcs :=
  (coreFunctions (some [b "."])).bind fun core => defaultFuncs (ord (core.map fun e => (e.1, run e.2))) ref

end Verif.Fn
