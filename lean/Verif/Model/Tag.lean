import Verif.Model.HclStruct
/-!
# Model of the reading of struct tags: `tag2`, and `reflect.StructTag` as `gohcl` uses it

`dethcl` reads struct tags in two ways: on its own (`tag2`, dethcl/util.go L25-37), and through `gohcl`
(dethcl/unmarshal.go L524, dethcl/marshal.go L142), which asks `reflect.StructTag.Get("hcl")`.

Simplifications: `strings.Fields` splits at ASCII white space only; `strconv.Unquote` is a parameter.
-/
namespace Verif.HclS

/-- dethcl/util.go L26-35, with the panic of L28: `tag[5 : len(tag)-1]` for the word `hcl:"`. -/
def tagLoopP : List Bytes → Except Fail (Bytes × Bytes)
  | [] => .ok ([], [])                                                                     -- L36
  | t :: ts =>
    if 5 ≤ t.length ∧ lower (t.take 5) = b "hcl:\"" then                                   -- L27
      if t.length = 5 then .error .panic
      else .ok (splitTag ((t.drop 5).dropLast))                                            -- L28-33
    else tagLoopP ts

/-- dethcl/util.go L25-37 `tag2`, with its panic. -/
def tag2P (tag : Bytes) : Except Fail (Bytes × Bytes) := tagLoopP (fieldsLoop [] tag)

/-- External `reflect.StructTag.Lookup`: the characters of a key. -/
def keyChar (c : UInt8) : Bool := 32 < c && c ≠ 58 && c ≠ 34 && c ≠ 0x7f

/-- External `reflect.StructTag.Lookup`: a quoted value behind its first quote: the text up to the closing quote and the rest;
`none`: no closing quote. -/
def scanQuoted : Bytes → Option (Bytes × Bytes)
  | [] => none
  | [c] => if c = 34 then some ([], []) else none
  | c :: d :: r =>
    if c = 34 then some ([], d :: r)
    else if c = 92 then (scanQuoted r).map fun x => (c :: d :: x.1, x.2)
    else (scanQuoted (d :: r)).map fun x => (c :: x.1, x.2)

/-- External `reflect.StructTag.Lookup`: at most the given number of rounds of its loop.  `unq` is `strconv.Unquote` of the text
between the quotes. -/
def lookupN (unq : Bytes → Option Bytes) (key : Bytes) : Nat → Bytes → Option Bytes
  | 0, _ => none
  | n + 1, tag =>
    let t := tag.dropWhile (· = 32)
    match t.dropWhile keyChar with
    | 58 :: 34 :: r =>
      if t.takeWhile keyChar = [] then none
      else match scanQuoted r with
        | none => none
        | some (v, rest) => if t.takeWhile keyChar = key then unq v else lookupN unq key n rest
    | _ => none

/-- External `reflect.StructTag.Get`; every round takes at least one byte. -/
def tagGet (unq : Bytes → Option Bytes) (tag key : Bytes) : Bytes := (lookupN unq key (tag.length + 1) tag).getD []

/-- External `gohcl`, `getFieldTags`: the name and the kind of a field are the parts of the tag before and behind its first comma. -/
def gohclTag (unq : Bytes → Option Bytes) (tag : Bytes) : Bytes × Bytes := splitTag (tagGet unq tag (b "hcl"))

end Verif.HclS
