import Verif.Model.Cty
/-!
# `Marshal` of generic data to HCL text

Model of `dethcl/encoding.go` (L11-191) and `dethcl/marshal.go` L19-43 for data built from strings,
booleans, numbers, nil, `[]interface{}` and `map[string]interface{}`.

* Each Go map is listed in the order in which `range` visits it; every map is visited once by the code
  that writes text, so all runs are covered by all orders of the lists (`isHashAll` visits a second time;
  its result does not depend on the order).
* The parameter `equal` of the Go functions is left out: it is passed along and never used (encoding.go
  L79-87 is a comment).
* The Go functions call one another on the same value; here each is a function on the value that calls the
  others on its parts: `encV` is `marshalLevel`/`encoding`, `encLine` is `loopHash`, `encShort` is the branch
  dethcl/encoding.go L142-151, `encMap`, `encHash` and `encList` are the loops over members.
* `fmt.Sprintf("%f")` and `"%d"` are external.
-/

namespace Verif.Hcl

/-- Decimal digits, with fuel. -/
def natTextN : Nat → Nat → Bytes
  | 0, _ => []
  | f + 1, n => if n < 10 then [48 + n.toUInt8] else natTextN f (n / 10) ++ [48 + (n % 10).toUInt8]

/-- Decimal digits of a natural number. -/
def natText (n : Nat) : Bytes := natTextN (n + 1) n

/-- `fmt.Sprintf("%d", n)` (external). -/
def intText (n : Int) : Bytes := if n < 0 then 45 :: natText n.natAbs else natText n.natAbs

/-- Decimal digits padded with zeros to six places. -/
def pad6 (n : Nat) : Bytes := List.replicate (6 - (natText n).length) 48 ++ natText n

/-- `fmt.Sprintf("%f", q)` (external): six decimals, rounded to nearest, ties to even. -/
def fltText (q : Rat) : Bytes :=
  let r := (roundEven (q * 1000000)).natAbs
  (if q < 0 then [45] else []) ++ natText (r / 1000000) ++ 46 :: pad6 (r % 1000000)

/-- dethcl/encoding.go L29-53: the scalar cases of `shortDirect` (`none` for other values). -/
def scalarText : GV → Option (Except Unit Bytes)
  | .str s => some (.ok (34 :: s ++ [34]))                          -- L31-32
  | .bool v => some (.ok (if v then b "true" else b "false"))       -- L33-34
  | .int n => some (.ok (intText n))                                -- L35-36
  | .flt q => some (match ctyNumberToNative q with                  -- L37-51
    | .ok (.int n) => .ok (intText n)
    | .ok (.flt r) => .ok (fltText r)
    | _ => .error ())
  | _ => none

/-- The keyname of list elements, dethcl/encoding.go L142, L167. -/
def nmr : Bytes := b "NMRBRCKTNDTRMND"

/-- Two spaces per level. -/
def indent (n : Nat) : Bytes := List.replicate (2 * n) 32

/-- `strings.Join`. -/
def joinB (sep : Bytes) : List Bytes → Bytes
  | [] => []
  | [x] => x
  | x :: y :: xs => x ++ sep ++ joinB sep (y :: xs)

/-- dethcl/encoding.go L159-163 -/
def mapText (level : Nat) (arr : List Bytes) : Bytes :=
  if level = 0 then
    10 :: indent (level + 1) ++ joinB (10 :: indent (level + 1)) arr ++ 10 :: indent level
  else
    123 :: 10 :: indent (level + 1) ++ joinB (10 :: indent (level + 1)) arr ++ 10 :: indent level ++ [125]

/-- dethcl/encoding.go L177 -/
def listText (level : Nat) (arr : List Bytes) : Bytes :=
  91 :: 10 :: indent (level + 1) ++ joinB (44 :: 10 :: indent (level + 1)) arr ++ 10 :: indent level ++ [93]

/-- The type assertion to `map[string]interface{}`. -/
def GV.isMap : GV → Bool
  | .map _ => true
  | .nilMap => true
  | _ => false

/-- dethcl/encoding.go L11-27 `isHashAll` and L61-63: whether the map is written as labelled blocks. -/
def hashAll (depth : Nat) (m : List (Bytes × GV)) : Bool :=
  !m.isEmpty && m.all (fun e => e.2.isMap) && decide (depth < 2)

/-- dethcl/encoding.go L106-110 `matchlast`: the last word of the keyname is the text. -/
def matchlast (keyname name : Bytes) : Bool := (keyname.reverse.takeWhile (· ≠ 32)).reverse = name

/-- Whether a scalar is the zero value of its type, dethcl/marshal.go L32. -/
def GV.zeroScalar : GV → Bool
  | .str s => s.isEmpty
  | .bool v => !v
  | .int n => n = 0
  | .flt q => q = 0
  | _ => false

/-- `fmt.Sprintf("%s = %s", ...)` -/
def assign (name text : Bytes) : Bytes := name ++ 32 :: 61 :: 32 :: text

mutual
/-- dethcl/marshal.go L30-43 `marshalLevel`, dethcl/encoding.go L112-190 `encoding`; `none` is a nil byte slice. -/
def encV (level : Nat) (keyname : Option Bytes) : GV → Except Unit (Option Bytes)
  | .nil => .ok none                                                       -- dethcl/encoding.go L114-116
  | .nilList => .ok none                                                   -- dethcl/marshal.go L32-34
  | .nilMap => .ok none
  | .map m => (encMap level keyname m).map fun arr => some (mapText level arr)
  | .list l => (encList level l).map fun arr => some (listText level arr)
  | .str s => if (GV.str s).zeroScalar then .ok none else ((scalarText (.str s)).getD (.error ())).map some
  | .bool v => if (GV.bool v).zeroScalar then .ok none else ((scalarText (.bool v)).getD (.error ())).map some
  | .int n => if (GV.int n).zeroScalar then .ok none else ((scalarText (.int n)).getD (.error ())).map some
  | .flt q => if (GV.flt q).zeroScalar then .ok none else ((scalarText (.flt q)).getD (.error ())).map some
/-- dethcl/encoding.go L166-176: the elements of a list. -/
def encList (level : Nat) : List GV → Except Unit (List Bytes)
  | [] => .ok []
  | v :: l => (encV (level + 1) (some nmr) v).bind fun o =>
      (encList level l).map fun arr => o.getD (b "[]") :: arr
/-- dethcl/encoding.go L127-158: the lines of a map. -/
def encMap (level : Nat) (keyname : Option Bytes) : List (Bytes × GV) → Except Unit (List Bytes)
  | [] => .ok []
  | (k, v) :: m =>
    (if v.isNil then .ok [assign k (b "null()")]                           -- L134-141
      else if keyname = some nmr then encShort k level v                   -- L142-151
      else encLine k 0 level keyname v).bind fun x =>                      -- L152-157
    (encMap level keyname m).map fun arr => x ++ arr
/-- dethcl/encoding.go L143-151 with L29-57 `shortDirect`. -/
def encShort (name : Bytes) (level : Nat) : GV → Except Unit (List Bytes)
  | .nil => .ok [assign name []]
  | .nilList => .ok [assign name []]
  | .nilMap => .ok [assign name []]
  | .map m => (encMap (level + 1) none m).map fun arr => [assign name (mapText (level + 1) arr)]
  | .list l => (encList (level + 1) l).map fun arr => [assign name (listText (level + 1) arr)]
  | .str s => ((scalarText (.str s)).getD (.error ())).map fun t => [assign name t]
  | .bool v => ((scalarText (.bool v)).getD (.error ())).map fun t => [assign name t]
  | .int n => ((scalarText (.int n)).getD (.error ())).map fun t => [assign name t]
  | .flt q => ((scalarText (.flt q)).getD (.error ())).map fun t => [assign name t]
/-- dethcl/encoding.go L59-104 `loopHash` (what it appends to `arr`). -/
def encLine (name : Bytes) (depth level : Nat) (keyname : Option Bytes) : GV → Except Unit (List Bytes)
  | .map m =>
    if hashAll depth m then encHash name depth level m                     -- L65-72
    else (encMap (level + 1) (some name) m).map fun arr =>                 -- L73-88
      [name ++ 32 :: mapText (level + 1) arr]
  | .nilMap => .ok [name ++ [32]]
  | .nil => .ok [assign name []]
  | .nilList => .ok [assign name []]                                       -- L90, L100
  | .list l => (encList (level + 1) l).map fun arr =>                      -- L90-101
      match keyname with
      | some k => if matchlast k (listText (level + 1) arr) then [] else [assign name (listText (level + 1) arr)]
      | none => [assign name (listText (level + 1) arr)]
  | .str s => ((scalarText (.str s)).getD (.error ())).map fun t => [assign name t]
  | .bool v => ((scalarText (.bool v)).getD (.error ())).map fun t => [assign name t]
  | .int n => ((scalarText (.int n)).getD (.error ())).map fun t => [assign name t]
  | .flt q => ((scalarText (.flt q)).getD (.error ())).map fun t => [assign name t]
/-- dethcl/encoding.go L66-72: the loop over the members, each with its key as a further label. -/
def encHash (name : Bytes) (depth level : Nat) : List (Bytes × GV) → Except Unit (List Bytes)
  | [] => .ok []
  | (k, v) :: m =>
    (encLine (name ++ 32 :: 34 :: k ++ [34]) (depth + 1) level none v).bind fun x =>
    (encHash name depth level m).map fun arr => x ++ arr
end

/-- dethcl/marshal.go L19-28 `Marshal`; `none` is a nil byte slice. -/
def marshal (v : GV) : Except Unit (Option Bytes) := encV 0 none v

end Verif.Hcl
