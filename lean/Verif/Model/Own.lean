import Verif.Model.HclStructPrint
/-!
# Types with their own MarshalHCL

Model of `dethcl/marshal.go` L52-71: what `marshal` makes of the text that the method `MarshalHCL` of a type gives.  The method
is a parameter: a text or an error.
-/
namespace Verif.HclS
open Hcl (indent)

/-- dethcl/marshal.go L58-70: the text of the method in a block; at level 0 it is the document. -/
def ownText (bs : Bytes) (level : Nat) : Bytes :=
  let str := if level > 0 then (if isBlank bs then [10] else 10 :: bs ++ [10]) else bs     -- L58-65
  let str := indentLines (indent level) str                                                -- L66
  if level > 0 then 123 :: indent (level + 1) ++ str ++ [125] else str                     -- L67-69

/-- dethcl/marshal.go L30-57 for such a type: a zero value is not written, and the method is not called. -/
def ownLevel (zero : Bool) (own : Except Fail Bytes) (level : Nat) : Except Fail Bytes :=
  if zero then .ok []                                                                      -- L32-34
  else own.map fun bs => ownText bs level                                                  -- L52-56

/-- dethcl/unmarshal.go L532-540 `getBlockBytes`: what is between the braces of a block whose text this is. -/
def between (t : Bytes) : Bytes := (t.drop 1).dropLast

end Verif.HclS
