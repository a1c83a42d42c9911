import Verif.Check.HclStructDemo
import Verif.Spec.HclStructGeneric
/-!
# The decoders and the encoder of generic data, for the examples about structs

An instance of `GenericDec` and `GenericEnc` by the models of `Verif.Hcl`, and a struct type with generic fields.
-/

namespace Verif.HclS.GenDemo
open Verif.Tree (Heap)
open Hcl (Cty GV)
open Demo (fld)

mutual
/-- The generic data with a code. -/
def uncode : Val → Option GV
  | .str s => some (.str s)
  | .leaf 0 => some .nil
  | .leaf 1 => some (.bool true)
  | .leaf 2 => some (.bool false)
  | .leaf 3 => some .nilList
  | .leaf 4 => some .nilMap
  | .leaf (n + 5) => if n % 2 = 0 then (Encodable.decode (n / 2)).map .int else (Encodable.decode (n / 2)).map .flt
  | .slice l => (uncodeL l).map .list
  | .map m => (uncodeM m).map .map
  | .ref _ _ | .inst _ _ | .map2 _ => none
def uncodeL : List Val → Option (List GV)
  | [] => some []
  | v :: l => (uncode v).bind fun v => (uncodeL l).map fun l => v :: l
def uncodeM : List (Bytes × Val) → Option (List (Bytes × GV))
  | [] => some []
  | (k, v) :: m => (uncode v).bind fun v => (uncodeM m).map fun m => (k, v) :: m
end

mutual
/-- The parsed document, without source texts. -/
def toDoc : Body → Hcl.Body
  | .mk as bs => .mk (toAttrs as) (toBlocks bs)
def toBlocks : List (Bytes × List Bytes × Body) → List (Bytes × List Bytes × Hcl.Body)
  | [] => []
  | (k, ls, x) :: r => (k, ls, toDoc x) :: toBlocks r
def toAttrs : List (Bytes × Attr) → List (Bytes × Hcl.Expr)
  | [] => []
  | (k, a) :: r => (k, a.expr) :: toAttrs r
end

/-- The outcome of a decoder, without change to the tree of variables. -/
def give {α : Type} (h : Heap Cty) (f : α → Val) : Hcl.Out α → Except Fail (Val × Heap Cty)
  | .ok v => .ok (f v, h)
  | .err => .error .err
  | .panic => .error .panic
  | .unsupported => .error .unsupported

def hx : Hcl.Ext := ⟨id, fun _ => .err, fun _ l => l⟩

def ext : Ext where
  nfc := id
  eval _ _ := .error .err
  leaf := Demo.ext.leaf
  zero
    | .str => .str []
    | _ => .leaf 0
  dynAttr s h _ src := if s then give h codeList (Hcl.decodeSlice hx src) else give h (fun m => code (.map m)) (Hcl.decodeMap hx src)
  dynBlock s h _ body :=
    if s then .error .err
    else match body with
      | .mk [] [] => .error .panic
      | body => give h (fun m => code (.map m)) (Hcl.decodeBody hx [] (toDoc body))
  parse _ := none
  ord _ l := l

def fName := fld "Name" "name,optional" .str
def fTags := fld "Tags" "tags" (.slice .any)
def fConf := fld "Conf" "conf" (.map .str .any)

/-- `Conf`: a name, a list and a map of generic data. -/
def env : Env where
  struct
    | 0 => ⟨b "main.Conf", [fName, fTags, fConf], [(b "Name", .str), (b "Tags", fTags.ty), (b "Conf", fConf.ty)]⟩
    | n + 1 => ⟨b "main.T" ++ List.replicate n 120, [], []⟩
  impl _ _ := false
  name _ := b "?"

def pe : PExt where
  anon _ := false
  expr _ v := match v with | .str s => 34 :: s ++ [34] | _ => b "null"
  pad _ _ := 0
  enc v k := match uncode v with
    | some g => match Hcl.encV k none g with
      | .ok (some t) => .ok t
      | _ => .error .err
    | none => .error .err
  raw _ := []
  ord _ l := l
  ord2 _ l := l
  embedded := 0

end Verif.HclS.GenDemo
