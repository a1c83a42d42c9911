import Verif.Model.HclDecode
/-!
# Conversions between JSON, YAML and HCL

Model of `convert/convert.go` and of `cmd/fmtconvert/main.go`.  `encoding/json` and `yaml.v3` are external:
they are the parameter `Codec`.
-/
namespace Verif.Hcl

/-- `encoding/json` and `yaml.v3`.  The decoders decode into an empty `map[string]interface{}`; the result
is that map (or a nil map, for the JSON text `null`). -/
structure Codec where
  jsonDec : Bytes → Except Unit GV
  jsonEnc : GV → Except Unit Bytes
  yamlDec : Bytes → Except Unit GV
  yamlEnc : GV → Except Unit Bytes

variable (c : Codec) (ext : Ext)

/-- `dethcl.Marshal`; a nil slice is an empty text. -/
def hclEnc (v : GV) : Out Bytes := (Out.ofExcept (marshal v)).map fun o => o.getD []

/-- `dethcl.Unmarshal` into an empty map. -/
def hclDec (raw : Bytes) : Out GV := (unmarshalMap ext raw []).map .map

/-- convert/convert.go L11-17 -/
def jsonToYaml (raw : Bytes) : Out Bytes := (Out.ofExcept (c.jsonDec raw)).bind fun obj => .ofExcept (c.yamlEnc obj)
/-- convert/convert.go L20-27 -/
def yamlToJson (raw : Bytes) : Out Bytes := (Out.ofExcept (c.yamlDec raw)).bind fun obj => .ofExcept (c.jsonEnc obj)
/-- convert/convert.go L30-36 -/
def jsonToHcl (raw : Bytes) : Out Bytes := (Out.ofExcept (c.jsonDec raw)).bind fun obj => hclEnc obj
/-- convert/convert.go L39-45 -/
def hclToJson (raw : Bytes) : Out Bytes := (hclDec ext raw).bind fun obj => .ofExcept (c.jsonEnc obj)
/-- convert/convert.go L48-55 -/
def yamlToHcl (raw : Bytes) : Out Bytes := (Out.ofExcept (c.yamlDec raw)).bind fun obj => hclEnc obj
/-- convert/convert.go L58-64 -/
def hclToYaml (raw : Bytes) : Out Bytes := (hclDec ext raw).bind fun obj => .ofExcept (c.yamlEnc obj)

/-- What the command does: print a text and exit with 0, print an error and exit with -1, or crash. -/
inductive CmdOut where
  | done (stdout : Bytes)
  | fail
  | crash
  | unsupported
deriving DecidableEq

/-- cmd/fmtconvert/main.go L79-85 -/
def finish : Out Bytes → CmdOut
  | .ok raw => .done (raw ++ [10])
  | .err => .fail
  | .panic => .crash
  | .unsupported => .unsupported

/-- cmd/fmtconvert/main.go L26-86 `main`, given the values of the flags, the first argument (empty if there
is none) and the file system. -/
def fmtconvert (readFile : Bytes → Except Unit Bytes) (src dst file : Bytes) : CmdOut :=
  if src = dst then .fail                                                -- L27-30
  else if file = [] then .fail                                           -- L32-35
  else match readFile file with                                          -- L37-41
    | .error _ => .fail
    | .ok raw =>
      if src = b "json" then                                             -- L44-53
        if dst = b "yaml" then finish (jsonToYaml c raw)
        else if dst = b "hcl" then finish (jsonToHcl c raw)
        else .fail
      else if src = b "yaml" then                                        -- L54-63
        if dst = b "json" then finish (yamlToJson c raw)
        else if dst = b "hcl" then finish (yamlToHcl c raw)
        else .fail
      else if src = b "hcl" then                                         -- L64-73
        if dst = b "json" then finish (hclToJson c ext raw)
        else if dst = b "yaml" then finish (hclToYaml c ext raw)
        else .fail
      else .fail                                                         -- L74-76

end Verif.Hcl
