import Verif.Model.Registry
import Verif.Model.Scalars
/-!
# Model of `internal/lang/funcs/descriptions.go`: descriptions of functions

`DescriptionList` is here with the number of descriptions that each entry has for parameters; their texts are a parameter of the model.  `WithNewDescriptions` of go-cty (external, as recalled)
panics unless there is one description for each parameter, a variadic one included, and changes nothing but descriptions.
-/
namespace Verif.Fn
open Typed (MSpec SFn MFn)

/-- internal/lang/funcs/descriptions.go L29-534 `DescriptionList`: the number of descriptions of parameters. -/
def descriptionCounts : GoMap Bytes Nat := [
  (b "abs", 1),
  (b "abspath", 1),
  (b "alltrue", 1),
  (b "anytrue", 1),
  (b "base64decode", 1),
  (b "base64encode", 1),
  (b "base64gzip", 1),
  (b "base64sha256", 1),
  (b "base64sha512", 1),
  (b "basename", 1),
  (b "bcrypt", 2),
  (b "can", 1),
  (b "ceil", 1),
  (b "chomp", 1),
  (b "chunklist", 2),
  (b "cidrhost", 2),
  (b "cidrnetmask", 1),
  (b "cidrsubnet", 3),
  (b "cidrsubnets", 2),
  (b "coalesce", 1),
  (b "coalescelist", 1),
  (b "compact", 1),
  (b "concat", 1),
  (b "contains", 2),
  (b "csvdecode", 1),
  (b "dirname", 1),
  (b "distinct", 1),
  (b "element", 2),
  (b "endswith", 2),
  (b "file", 1),
  (b "filebase64", 1),
  (b "filebase64sha256", 1),
  (b "filebase64sha512", 1),
  (b "fileexists", 1),
  (b "filemd5", 1),
  (b "fileset", 2),
  (b "filesha1", 1),
  (b "filesha256", 1),
  (b "filesha512", 1),
  (b "flatten", 1),
  (b "floor", 1),
  (b "format", 2),
  (b "formatdate", 2),
  (b "formatlist", 2),
  (b "indent", 2),
  (b "index", 2),
  (b "join", 2),
  (b "jsondecode", 1),
  (b "jsonencode", 1),
  (b "keys", 1),
  (b "length", 1),
  (b "list", 1),
  (b "log", 2),
  (b "lookup", 3),
  (b "lower", 1),
  (b "map", 1),
  (b "matchkeys", 3),
  (b "max", 1),
  (b "md5", 1),
  (b "merge", 1),
  (b "min", 1),
  (b "nonsensitive", 1),
  (b "one", 1),
  (b "parseint", 2),
  (b "pathexpand", 1),
  (b "pow", 2),
  (b "range", 1),
  (b "regex", 2),
  (b "regexall", 2),
  (b "replace", 3),
  (b "reverse", 1),
  (b "rsadecrypt", 2),
  (b "sensitive", 1),
  (b "setintersection", 2),
  (b "setproduct", 1),
  (b "setsubtract", 2),
  (b "setunion", 2),
  (b "sha1", 1),
  (b "sha256", 1),
  (b "sha512", 1),
  (b "signum", 1),
  (b "slice", 3),
  (b "sort", 1),
  (b "split", 2),
  (b "startswith", 2),
  (b "strcontains", 2),
  (b "strrev", 1),
  (b "substr", 3),
  (b "sum", 1),
  (b "templatefile", 2),
  (b "textdecodebase64", 2),
  (b "textencodebase64", 2),
  (b "timeadd", 2),
  (b "timecmp", 2),
  (b "timestamp", 0),
  (b "plantimestamp", 0),
  (b "title", 1),
  (b "tobool", 1),
  (b "tolist", 1),
  (b "tomap", 1),
  (b "tonumber", 1),
  (b "toset", 1),
  (b "tostring", 1),
  (b "transpose", 1),
  (b "trim", 2),
  (b "trimprefix", 2),
  (b "trimspace", 1),
  (b "trimsuffix", 2),
  (b "try", 1),
  (b "type", 1),
  (b "upper", 1),
  (b "urlencode", 1),
  (b "uuid", 0),
  (b "uuidv5", 2),
  (b "values", 1),
  (b "yamldecode", 1),
  (b "yamlencode", 1),
  (b "zipmap", 2)]

/-- A function with its descriptions: what it does, its own description and those of its parameters. -/
structure Described where
  spec : MSpec
  text : Bytes
  params : List Bytes

/-- The texts in `DescriptionList`: a description, and those of as many parameters as there are. -/
structure Texts where
  text : Bytes → Bytes
  param : Bytes → Nat → Bytes

/-- go-cty `Function.WithNewDescriptions` (external): the number of parameters that it asks for. -/
def paramCount (f : MSpec) : Nat := f.params.length + (if f.var.isSome then 1 else 0)

/-- internal/lang/funcs/descriptions.go L539-548 `WithDescription`; the error is the panic of `WithNewDescriptions`. -/
def withDescription (t : Texts) (name : Bytes) (f : Described) : Except Fail Described :=
  match GoMap.get? descriptionCounts name with
  | none => .ok f                                                                   -- L541-543
  | some n =>
    if n = paramCount f.spec then .ok { f with text := t.text name, params := (List.range n).map (t.param name) }   -- L547
    else .error .panic

/-- The functions of the package that other parts of the model have the parameters of. -/
inductive Known where
  | scalar (f : SFn)
  | typed (f : MFn)

/-- Their specifications. -/
def Known.spec (run : Typed.Run) (x : Typed.Ext) (conv : Typed.MConv) : Known → MSpec
  | .scalar f => f.spec run
  | .typed f => f.spec x conv

/-- The Go names of the functions of package funcs in the table of internal/lang/functions.go L13-119. -/
def goNames : GoMap Bytes Known := [
  (b "funcs.CidrHostFunc", .scalar .cidrhost),
  (b "funcs.CidrNetmaskFunc", .scalar .cidrnetmask),
  (b "funcs.CidrSubnetFunc", .scalar .cidrsubnet),
  (b "funcs.CidrSubnetsFunc", .scalar .cidrsubnets),
  (b "funcs.UUIDFunc", .scalar .uuid),
  (b "funcs.UUIDV5Func", .scalar .uuidv5),
  (b "funcs.BcryptFunc", .scalar .bcrypt),
  (b "funcs.RsaDecryptFunc", .scalar .rsadecrypt),
  (b "funcs.TimestampFunc", .scalar .timestamp),
  (b "funcs.TimeCmpFunc", .scalar .timecmp),
  (b "funcs.Base64DecodeFunc", .scalar .base64decode),
  (b "funcs.Base64EncodeFunc", .scalar .base64encode),
  (b "funcs.TextEncodeBase64Func", .scalar .textencodebase64),
  (b "funcs.TextDecodeBase64Func", .scalar .textdecodebase64),
  (b "funcs.Base64GzipFunc", .scalar .base64gzip),
  (b "funcs.URLEncodeFunc", .scalar .urlencode),
  (b "funcs.BasenameFunc", .scalar .basename),
  (b "funcs.DirnameFunc", .scalar .dirname),
  (b "funcs.AbsPathFunc", .scalar .abspath),
  (b "funcs.PathExpandFunc", .scalar .pathexpand),
  (b "funcs.StartsWithFunc", .scalar .startswith),
  (b "funcs.EndsWithFunc", .scalar .endswith),
  (b "funcs.ReplaceFunc", .scalar .replace),
  (b "funcs.StrContainsFunc", .scalar .strcontains),
  (b "funcs.Md5Func", .scalar .hash),
  (b "funcs.Sha1Func", .scalar .hash),
  (b "funcs.Sha256Func", .scalar .hash),
  (b "funcs.Sha512Func", .scalar .hash),
  (b "funcs.Base64Sha256Func", .scalar .hash),
  (b "funcs.Base64Sha512Func", .scalar .hash),
  (b "funcs.LengthFunc", .typed (.fn .length)),
  (b "funcs.AllTrueFunc", .typed (.fn .allTrue)),
  (b "funcs.AnyTrueFunc", .typed (.fn .anyTrue)),
  (b "funcs.CoalesceFunc", .typed (.fn .coalesce)),
  (b "funcs.IndexFunc", .typed (.fn .index)),
  (b "funcs.LookupFunc", .typed (.fn .lookup)),
  (b "funcs.MatchkeysFunc", .typed (.fn .matchkeys)),
  (b "funcs.OneFunc", .typed (.fn .one)),
  (b "funcs.SumFunc", .typed (.fn .sum)),
  (b "funcs.TransposeFunc", .typed (.fn .transpose)),
  (b "funcs.ListFunc", .typed (.fn .list)),
  (b "funcs.MapFunc", .typed (.fn .map)),
  (b "funcs.MakeToFunc(cty.String)", .typed (.fn (.to .str))),
  (b "funcs.MakeToFunc(cty.Number)", .typed (.fn (.to .num))),
  (b "funcs.MakeToFunc(cty.Bool)", .typed (.fn (.to .bool))),
  (b "funcs.MakeToFunc(cty.Set(cty.DynamicPseudoType))", .typed (.fn (.to (.set .dyn)))),
  (b "funcs.MakeToFunc(cty.List(cty.DynamicPseudoType))", .typed (.fn (.to (.list .dyn)))),
  (b "funcs.MakeToFunc(cty.Map(cty.DynamicPseudoType))", .typed (.fn (.to (.map .dyn)))),
  (b "funcs.SensitiveFunc", .typed .sensitive),
  (b "funcs.NonsensitiveFunc", .typed .nonsensitive)]

/-- The constructors of functions of files, internal/lang/functions.go L121-133. -/
def makeNames : GoMap Bytes Known := [
  (b "funcs.MakeFileFunc(_, false)", .scalar .file),
  (b "funcs.MakeFileExistsFunc", .scalar .fileexists),
  (b "funcs.MakeFileSetFunc", .scalar .fileset),
  (b "funcs.MakeFileFunc(_, true)", .scalar .filebase64),
  (b "funcs.MakeFileBase64Sha256Func", .scalar .fileHash),
  (b "funcs.MakeFileBase64Sha512Func", .scalar .fileHash),
  (b "funcs.MakeFileMd5Func", .scalar .fileHash),
  (b "funcs.MakeFileSha1Func", .scalar .fileHash),
  (b "funcs.MakeFileSha256Func", .scalar .fileHash),
  (b "funcs.MakeFileSha512Func", .scalar .fileHash)]

/-- The function that the table stands for, if it is of package funcs. -/
def FnId.known : FnId → Option Known
  | .go name => GoMap.get? goNames name
  | .file make _ => GoMap.get? makeNames make

/-- Functions of other packages in the table of internal/lang/functions.go L13-119 (external, as recalled): the number of their parameters, and whether there is a variadic one. -/
def externParams : GoMap Bytes (Nat × Bool) := [
  (b "stdlib.AbsoluteFunc", 1, false),
  (b "stdlib.CeilFunc", 1, false),
  (b "stdlib.ChompFunc", 1, false),
  (b "stdlib.CoalesceListFunc", 0, true),
  (b "stdlib.CompactFunc", 1, false),
  (b "stdlib.ConcatFunc", 0, true),
  (b "stdlib.ContainsFunc", 2, false),
  (b "stdlib.CSVDecodeFunc", 1, false),
  (b "stdlib.DistinctFunc", 1, false),
  (b "stdlib.ElementFunc", 2, false),
  (b "stdlib.ChunklistFunc", 2, false),
  (b "stdlib.FlattenFunc", 1, false),
  (b "stdlib.FloorFunc", 1, false),
  (b "stdlib.FormatFunc", 1, true),
  (b "stdlib.FormatDateFunc", 2, false),
  (b "stdlib.FormatListFunc", 1, true),
  (b "stdlib.IndentFunc", 2, false),
  (b "stdlib.JoinFunc", 1, true),
  (b "stdlib.JSONDecodeFunc", 1, false),
  (b "stdlib.JSONEncodeFunc", 1, false),
  (b "stdlib.KeysFunc", 1, false),
  (b "stdlib.LogFunc", 2, false),
  (b "stdlib.LowerFunc", 1, false),
  (b "stdlib.MaxFunc", 0, true),
  (b "stdlib.MergeFunc", 0, true),
  (b "stdlib.MinFunc", 0, true),
  (b "stdlib.ParseIntFunc", 2, false),
  (b "stdlib.PowFunc", 2, false),
  (b "stdlib.RangeFunc", 0, true),
  (b "stdlib.RegexFunc", 2, false),
  (b "stdlib.RegexAllFunc", 2, false),
  (b "stdlib.ReverseListFunc", 1, false),
  (b "stdlib.SetIntersectionFunc", 1, true),
  (b "stdlib.SetProductFunc", 0, true),
  (b "stdlib.SetSubtractFunc", 2, false),
  (b "stdlib.SetUnionFunc", 1, true),
  (b "stdlib.SignumFunc", 1, false),
  (b "stdlib.SliceFunc", 3, false),
  (b "stdlib.SortFunc", 1, false),
  (b "stdlib.SplitFunc", 2, false),
  (b "stdlib.ReverseFunc", 1, false),
  (b "stdlib.SubstrFunc", 3, false),
  (b "stdlib.TimeAddFunc", 2, false),
  (b "stdlib.TitleFunc", 1, false),
  (b "stdlib.TrimFunc", 2, false),
  (b "stdlib.TrimPrefixFunc", 2, false),
  (b "stdlib.TrimSpaceFunc", 1, false),
  (b "stdlib.TrimSuffixFunc", 2, false),
  (b "stdlib.UpperFunc", 1, false),
  (b "stdlib.ValuesFunc", 1, false),
  (b "stdlib.ZipmapFunc", 2, false),
  (b "tryfunc.CanFunc", 1, false),
  (b "tryfunc.TryFunc", 0, true),
  (b "ctyyaml.YAMLDecodeFunc", 1, false),
  (b "ctyyaml.YAMLEncodeFunc", 1, false)]

end Verif.Fn
