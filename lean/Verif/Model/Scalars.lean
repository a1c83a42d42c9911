import Verif.Model.TypedMarks
/-!
# Null, unknown and marked arguments of the functions on strings, numbers, files, times and addresses

Model of what the `function.Spec`s of `internal/lang/funcs/cidr.go`, `crypto.go`, `datetime.go`, `encoding.go`, `filesystem.go`, `number.go` and `string.go`
make `function.Function.Call` do before and after `Impl`, with `mcall` of `Model/TypedMarks`.

What `Impl` does with values that have no marks is the parameter `Run`; other parts of the model are about it (`Model/Cidr`, `Model/Ident`, `Model/File`, ..).

Not here: `templatefile`, whose parameters differ in `AllowMarked`.
-/
namespace Verif.Typed
open Funcs (Mark)

/-- The functions.  `hash` stands for `md5`, `sha1`, .., `base64sha512`, and `fileHash` for `filemd5`, .., which have the same specification. -/
inductive SFn where
  | cidrhost | cidrnetmask | cidrsubnet | cidrsubnets
  | uuid | uuidv5 | bcrypt | rsadecrypt | hash | fileHash
  | timestamp | staticTimestamp | timeadd | timecmp
  | base64decode | base64encode | textencodebase64 | textdecodebase64 | base64gzip | urlencode
  | file | filebase64 | fileexists | fileset | basename | dirname | abspath | pathexpand
  | log | pow | signum | parseint
  | startswith | endswith | replace | strcontains
deriving DecidableEq

/-- What `Impl` does with values without marks (`none`: an error). -/
abbrev Run := SFn → List V → Option V

/-- A parameter without flags. -/
def only (t : Ty) : Param := { ty := t }

/-- A function without `AllowMarked` whose type does not depend on the arguments (`function.StaticReturnType`). -/
def static (run : Run) (f : SFn) (params : List Param) (var : Option Param) (t : Ty) (notNull : Bool) : MSpec :=
  plain ⟨params, var, fun _ => some t, fun args _ => run f args, notNull⟩

/-- internal/lang/funcs/encoding.go L31-43: `Unmark`, and the marks on the result. -/
def mbase64decodeImpl (run : Run) : List MV → Ty → Option MV
  | [s], _ =>
    let str := s.unmark                                                -- L32
    (run .base64decode [str.strip]).map fun r => (MV.leaf [] r).withMarks s.marks   -- L42
  | _, _ => none

/-- internal/lang/funcs/filesystem.go L36-57 -/
def mfileImpl (run : Run) (f : SFn) : List MV → Ty → Option MV
  | [p], _ =>
    let path := p.unmark                                               -- L37
    (run f [path.strip]).map fun r => (MV.leaf [] r).withMarks p.marks -- L48, L53
  | _, _ => none

/-- internal/lang/funcs/filesystem.go L207-258 -/
def mfileexistsImpl (run : Run) : List MV → Ty → Option MV
  | [p], _ =>
    let path := p.unmark                                               -- L208
    (run .fileexists [path.strip]).map fun r => (MV.leaf [] r).withMarks p.marks    -- L225, L231
  | _, _ => none

/-- internal/lang/funcs/filesystem.go L280-333 -/
def mfilesetImpl (run : Run) : List MV → Ty → Option MV
  | [p, g], _ =>
    let path := p.unmark                                               -- L281
    let pattern := g.unmark                                            -- L283
    let marks := p.marks ++ g.marks                                    -- L286
    (run .fileset [path.strip, pattern.strip]).map fun r => (MV.leaf [] r).withMarks marks   -- L329, L332
  | _, _ => none

/-- internal/lang/funcs/number.go L115-120 -/
def mparseintType : List MV → Option Ty
  | n :: _ => match n.ty with
    | .str => some .num
    | _ => none
  | _ => none

/-- internal/lang/funcs/number.go L123-158 -/
def mparseintImpl (run : Run) : List MV → Ty → Option MV
  | [n, c], _ =>
    let num := n.unmark                                                -- L128
    let base := c.unmark                                               -- L133
    (run .parseint [num.strip, base.strip]).map fun r => (MV.leaf [] r).withMarks (n.marks ++ c.marks)   -- L155
  | _, _ => none

/-- The specifications of the functions: parameters, type of the result, flags. -/
def SFn.spec (run : Run) : SFn → MSpec
  -- internal/lang/funcs/cidr.go
  | .cidrhost => static run .cidrhost [only .str, only .num] none .str true                     -- L19-31
  | .cidrnetmask => static run .cidrnetmask [only .str] none .str true                          -- L53-61
  | .cidrsubnet => static run .cidrsubnet [only .str, only .num, only .num] none .str true      -- L78-94
  | .cidrsubnets => static run .cidrsubnets [only .str] (some (only .num)) (.list .str) true    -- L121-133
  -- internal/lang/funcs/crypto.go
  | .uuid => static run .uuid [] none .str true                                                 -- L29-32
  | .uuidv5 => static run .uuidv5 [only .str, only .str] none .str true                         -- L42-54
  | .bcrypt => static run .bcrypt [only .str] (some (only .num)) .str true                      -- L97-109
  | .rsadecrypt => static run .rsadecrypt [only .str, only .str] none .str true                 -- L145-157
  | .hash => static run .hash [only .str] none .str true                                        -- L225-233
  | .fileHash => static run .fileHash [only .str] none .str true                                -- L245-253
  -- internal/lang/funcs/datetime.go
  | .timestamp => static run .timestamp [] none .str true                                       -- L15-18
  | .staticTimestamp => static run .staticTimestamp [] none .str false                          -- L27-29
  | .timeadd => static run .timeadd [only .str, only .str] none .str true                       -- L37-49
  | .timecmp => static run .timecmp [only .str, only .str] none .num true                       -- L65-77
  -- internal/lang/funcs/encoding.go
  | .base64decode => ⟨[only .str], none, true, fun _ => some .str, mbase64decodeImpl run, true⟩ -- L21-30
  | .base64encode => static run .base64encode [only .str] none .str true                        -- L47-55
  | .textencodebase64 => static run .textencodebase64 [only .str, only .str] none .str true     -- L62-74
  | .textdecodebase64 => static run .textdecodebase64 [only .str, only .str] none .str true     -- L106-118
  | .base64gzip => static run .base64gzip [only .str] none .str true                            -- L154-162
  | .urlencode => static run .urlencode [only .str] none .str true                              -- L182-190
  -- internal/lang/funcs/filesystem.go
  | .file => ⟨[only .str], none, true, fun _ => some .str, mfileImpl run .file, true⟩           -- L26-35
  | .filebase64 => ⟨[only .str], none, true, fun _ => some .str, mfileImpl run .filebase64, true⟩
  | .fileexists => ⟨[only .str], none, true, fun _ => some .bool, mfileexistsImpl run, true⟩    -- L197-206
  | .fileset => ⟨[only .str, only .str], none, true, fun _ => some (.set .str), mfilesetImpl run, true⟩   -- L265-279
  | .basename => static run .basename [only .str] none .str true                                -- L339-347
  | .dirname => static run .dirname [only .str] none .str true                                  -- L355-363
  | .abspath => static run .abspath [only .str] none .str true                                  -- L370-378
  | .pathexpand => static run .pathexpand [only .str] none .str true                            -- L386-394
  -- internal/lang/funcs/number.go
  | .log => static run .log [only .num, only .num] none .num true                               -- L16-28
  | .pow => static run .pow [only .num, only .num] none .num true                               -- L45-57
  | .signum => static run .signum [only .num] none .num true                                    -- L75-83
  | .parseint => ⟨[only .dyn, only .num], none, true, mparseintType, mparseintImpl run, true⟩   -- L101-121
  -- internal/lang/funcs/string.go
  | .startswith => static run .startswith [{ ty := .str, allowUnk := true }, only .str] none .bool true   -- L16-29
  | .endswith => static run .endswith [only .str, only .str] none .bool true                    -- L66-78
  | .replace => static run .replace [only .str, only .str, only .str] none .str true            -- L93-109
  | .strcontains => static run .strcontains [only .str, only .str] none .bool false             -- L132-143

end Verif.Typed
