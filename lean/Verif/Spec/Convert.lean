import Verif.Model.Convert
/-!
# What the conversions between formats should do
-/
namespace Verif.Hcl
open Det (insertK ltB)

/-- A JSON value; the members of an object are listed in the order of their names. -/
inductive Json where
  | null
  | bool (v : Bool)
  | num (q : Rat)
  | str (s : Bytes)
  | arr (l : List Json)
  | obj (m : List (Bytes × Json))

mutual
/-- The JSON value that Go data stands for. -/
def GV.json : GV → Json
  | .nil => .null
  | .nilList => .null
  | .nilMap => .null
  | .str s => .str s
  | .bool v => .bool v
  | .int n => .num n
  | .flt q => .num q
  | .list l => .arr (jsonL l)
  | .map m => .obj (jsonM m)
def jsonL : List GV → List Json
  | [] => []
  | v :: l => v.json :: jsonL l
def jsonM : List (Bytes × GV) → List (Bytes × Json)
  | [] => []
  | (k, v) :: m => insertK ltB k v.json (jsonM m)
end

mutual
/-- No empty list. -/
def noEmpty : GV → Prop
  | .list l => l ≠ [] ∧ noEmptyL l
  | .map m => noEmptyM m
  | _ => True
def noEmptyL : List GV → Prop
  | [] => True
  | v :: l => noEmpty v ∧ noEmptyL l
def noEmptyM : List (Bytes × GV) → Prop
  | [] => True
  | (_, v) :: m => noEmpty v ∧ noEmptyM m
end

/-- The formats. -/
inductive Format where
  | json | yaml | hcl
deriving DecidableEq

def Format.name : Format → Bytes
  | .json => b "json"
  | .yaml => b "yaml"
  | .hcl => b "hcl"

/-- Reading a text of the format. -/
def Format.read (c : Codec) (ext : Ext) : Format → Bytes → Out GV
  | .json, t => .ofExcept (c.jsonDec t)
  | .yaml, t => .ofExcept (c.yamlDec t)
  | .hcl, t => hclDec ext t

/-- Writing a text of the format. -/
def Format.write (c : Codec) : Format → GV → Out Bytes
  | .json, v => .ofExcept (c.jsonEnc v)
  | .yaml, v => .ofExcept (c.yamlEnc v)
  | .hcl, v => hclEnc v

end Verif.Hcl
