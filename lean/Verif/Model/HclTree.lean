import Verif.Model.HclStruct
import Verif.Model.HclDecode
/-!
# Generic decoding with the tree of variables

Model of `dethcl/mapslice.go` and of `dethcl/unmarshal.go` L26-87 for a target `*map[string]interface{}` or `*[]interface{}`, like
`Model/HclDecode`, but with the tree: nodes are made for lists, objects and blocks, the other values are stored as items, and
references are looked up in the tree.

Simplifications: as in `Model/HclDecode` (the tree apart); references with dots do not occur as keys of objects; the state of the tree after a
failure is not represented.
-/

namespace Verif.HclS
open Tree (Heap CV)
open Hcl (Cty Expr GV mkList ctyToNative dedupB keyE trimSpace parseX parseConfig Out)
open Det (insertK ltB)

/-- What is done with the tree: a result and the new tree, or a failure. -/
abbrev Act (α : Type) := Heap Cty → Except Fail (α × Heap Cty)

def Act.pure {α : Type} (a : α) : Act α := fun h => .ok (a, h)

def Act.fail {α : Type} (e : Fail) : Act α := fun _ => .error e

def Act.bind {α β : Type} (x : Act α) (f : α → Act β) : Act β := fun h =>
  match x h with
  | .error e => .error e
  | .ok (a, h') => f a h'

def Act.map {α β : Type} (g : α → β) (x : Act α) : Act β := x.bind fun a => .pure (g a)

/-- An outcome of `Model/HclDecode`. -/
def outE {α : Type} : Out α → Except Fail α
  | .ok a => .ok a
  | .err => .error .err
  | .panic => .error .panic
  | .unsupported => .error .unsupported

def Act.ofOut {α : Type} (o : Out α) : Act α := fun h => (outE o).map fun a => (a, h)

/-- The same parameters for `Model/HclDecode`; without variables. -/
def Ext.plain (ext : Ext) : Hcl.Ext where
  nfc := ext.nfc
  eval e := match ext.eval [] e with
    | .ok v => .ok v
    | .error .err => .err
    | .error .panic => .panic
    | .error _ => .unsupported
  ord := ext.ord

/-- A number in decimal, `fmt.Sprintf("%d", ...)`; the first number bounds the digits. -/
def decimalN : Nat → Nat → Bytes
  | 0, _ => []
  | f + 1, n => if n < 10 then [UInt8.ofNat (48 + n)] else decimalN f (n / 10) ++ [UInt8.ofNat (48 + n % 10)]

def decimal (n : Nat) : Bytes := decimalN (n + 1) n

/-- `node.AddNode(name)`. -/
def nodeAt (node : Nat) (name : Bytes) : Act Nat := fun h =>
  match Tree.addNode h node name with
  | none => .error .panic
  | some (h', c) => .ok (c, h')

/-- dethcl/mapslice.go L192-204: an expression is evaluated with all the variables and stored under its key. -/
def scalarT (ext : Ext) (root node : Nat) (key : Bytes) (e : Expr) : Act GV := fun h =>
  match Tree.variables h root with
  | none => .error .panic
  | some vars =>
    match evalE ext vars e with
    | .error x => .error x
    | .ok cv =>
      match Tree.addItem h node key cv with
      | none => .error .panic
      | some h' =>
        match ctyToNative cv with
        | .error _ => .error .err
        | .ok v => .ok (v, h')

mutual
/-- dethcl/mapslice.go L173-205 `expressionToNative`. -/
def nativeT (ext : Ext) (root node : Nat) (key : Bytes) : Expr → Act GV
  | .tuple l => (nodeAt node key).bind fun sub => (nativeTL ext root sub 0 l).map mkList                 -- L175-179
  | .object m => (nodeAt node key).bind fun sub => (nativeTO ext root sub m []).map .map                 -- L180-184
  | .call n => if n = b "null" then .pure .nil else scalarT ext root node key (.call n)                  -- L185-188
  | .str s => scalarT ext root node key (.str s)
  | .num q => scalarT ext root node key (.num q)
  | .ident n => scalarT ext root node key (.ident n)
  | .neg e => scalarT ext root node key (.neg e)
/-- dethcl/mapslice.go L13-32 `decodeSlice`: the elements in order, from the given number. -/
def nativeTL (ext : Ext) (root node i : Nat) : List Expr → Act (List GV)
  | [] => .pure []
  | e :: l => (nativeT ext root node (decimal i) e).bind fun v => (nativeTL ext root node (i + 1) l).map fun vs => v :: vs
/-- dethcl/mapslice.go L147-171 `decodeObjectConsExpr`: the members in order. -/
def nativeTO (ext : Ext) (root node : Nat) : List (Expr × Expr) → List (Bytes × GV) → Act (List (Bytes × GV))
  | [], obj => .pure obj
  | (k, e) :: m, obj =>
    (Act.ofOut (keyE ext.plain k)).bind fun key =>
    (nativeT ext root node key e).bind fun v => nativeTO ext root node m (insertK ltB key v obj)
end

/-- The loop `for key := range ... { object[key] = ... }` over the keys of a map, in the given order. -/
def assignT (val : Bytes → Act GV) : List Bytes → List (Bytes × GV) → Act (List (Bytes × GV))
  | [], obj => .pure obj
  | k :: ks, obj => (val k).bind fun v => assignT val ks (insertK ltB k v obj)

/-- Blocks: type, labels, and what decoding of the body does at a node. -/
abbrev Acts := List (Bytes × List Bytes × (Nat → Act GV))

/-- dethcl/mapslice.go L62-66: the blocks without labels of one type. -/
def zerosT (bs : Acts) (key : Bytes) : List (Nat → Act GV) :=
  (bs.filter fun x => x.1 = key && x.2.1.length = 0).map fun x => x.2.2

/-- dethcl/mapslice.go L69-76: the blocks with one label of one type. -/
def onesT (bs : Acts) (key : Bytes) : List (Bytes × (Nat → Act GV)) :=
  (bs.filter fun x => x.1 = key && x.2.1.length = 1).map fun x => (x.2.1.headD [], x.2.2)

/-- dethcl/mapslice.go L77-87: the blocks with two labels of one type, and those among them with one first label. -/
def twosT (bs : Acts) (key : Bytes) : List (Bytes × Bytes × (Nat → Act GV)) :=
  (bs.filter fun x => x.1 = key && x.2.1.length = 2).map fun x => (x.2.1.headD [], x.2.1.tail.headD [], x.2.2)

def twosOfT (bs : Acts) (key l : Bytes) : List (Bytes × (Nat → Act GV)) :=
  ((twosT bs key).filter fun x => x.1 = l).map Prod.snd

/-- The types of the blocks with `n` labels. -/
def typesOfT (bs : Acts) (n : Nat) : List Bytes :=
  dedupB ((bs.filter fun x => x.2.1.length = n).map Prod.fst)

/-- The last block with the label, or an error (not reached). -/
def lastT (l : List (Bytes × (Nat → Act GV))) (k : Bytes) (node : Nat) : Act GV :=
  match (l.filter fun e => e.1 = k).getLast? with
  | some e => e.2 node
  | none => .fail .err

/-- dethcl/mapslice.go L97-104: the blocks one after the other, each at the node of its number. -/
def seqT (kn : Nat) : Nat → List (Nat → Act GV) → Act (List GV)
  | _, [] => .pure []
  | i, f :: l => ((nodeAt kn (decimal i)).bind f).bind fun v => (seqT kn (i + 1) l).map fun vs => v :: vs

/-- dethcl/mapslice.go L94-109 -/
def zeroT (node : Nat) (bs : Acts) (key : Bytes) : Act GV :=
  (nodeAt node key).bind fun kn => (seqT kn 0 (zerosT bs key)).map fun vs =>
    match vs with
    | [v] => v
    | _ => .list vs

/-- The blocks with different labels, each at the node of its label: dethcl/mapslice.go L114-122, L131-138. -/
def labelsT (ext : Ext) (path : List Bytes) (kn : Nat) (l : List (Bytes × (Nat → Act GV))) : Act GV :=
  (assignT (fun k => (nodeAt kn k).bind (lastT l k)) (ext.ord path (dedupB (l.map Prod.fst))) []).map .map

/-- dethcl/mapslice.go L112-123 -/
def oneT (ext : Ext) (path : List Bytes) (node : Nat) (bs : Acts) (key : Bytes) : Act GV :=
  (nodeAt node key).bind fun kn => labelsT ext (path ++ [key]) kn (onesT bs key)

/-- dethcl/mapslice.go L126-141 -/
def twoT (ext : Ext) (path : List Bytes) (node : Nat) (bs : Acts) (key : Bytes) : Act GV :=
  (nodeAt node key).bind fun kn =>
    (assignT (fun l => (nodeAt kn l).bind fun kn2 => labelsT ext (path ++ [key, l]) kn2 (twosOfT bs key l))
      (ext.ord (path ++ [key]) (dedupB ((twosT bs key).map Prod.fst))) []).map .map

/-- dethcl/mapslice.go L57-145: the blocks of a body, after the attributes. -/
def blocksT (ext : Ext) (path : List Bytes) (node : Nat) (bs : Acts) (obj : List (Bytes × GV)) : Act (List (Bytes × GV)) :=
  if bs.any (fun x => decide (2 < x.2.1.length)) then .fail .err                                          -- L88-89
  else
    (assignT (zeroT node bs) (ext.ord (path ++ [b "0"]) (typesOfT bs 0)) obj).bind fun obj =>
    (assignT (oneT ext (path ++ [b "1"]) node bs) (ext.ord (path ++ [b "1"]) (typesOfT bs 1)) obj).bind fun obj =>
    assignT (twoT ext (path ++ [b "2"]) node bs) (ext.ord (path ++ [b "2"]) (typesOfT bs 2)) obj

/-- The value of an attribute by name. -/
def attrT (ext : Ext) (root node : Nat) (attrs : List (Bytes × Expr)) (k : Bytes) : Act GV :=
  match GoMap.get? attrs k with
  | some e => nativeT ext root node k e
  | none => .fail .err

mutual
/-- dethcl/mapslice.go L47-145 `decodeBody`, at a node. -/
def bodyT (ext : Ext) (root : Nat) (path : List Bytes) : Hcl.Body → Nat → Act (List (Bytes × GV))
  | .mk attrs blocks, node =>
    (assignT (attrT ext root node attrs) (ext.ord path (GoMap.keys attrs)) []).bind fun obj =>            -- L49-55
    blocksT ext path node (actsT ext root path 0 blocks) obj
/-- What is done for the blocks. -/
def actsT (ext : Ext) (root : Nat) (path : List Bytes) (i : Nat) : List (Bytes × List Bytes × Hcl.Body) → Acts
  | [] => []
  | (t, ls, body) :: r =>
    (t, ls, fun node => (bodyT ext root (path ++ List.replicate i 0 :: t :: ls) body node).map .map) :: actsT ext root path (i + 1) r
end

/-- dethcl/mapslice.go L34-45 `decodeMap` on text, at a node. -/
def mapT (ext : Ext) (root node : Nat) (bs : Bytes) : Act (List (Bytes × GV)) :=
  if trimSpace bs = [] then .fail .panic                                                                  -- L36 str[0]
  else if (trimSpace bs).head? = some 123 ∧ (trimSpace bs).getLast? = some 125 then
    (Act.ofOut (parseX bs)).bind fun e =>
      match e with
      | .object m => nativeTO ext root node m []
      | _ => .fail .err                                                                                   -- L153-156
  else (Act.ofOut (Out.ofParse (parseConfig bs))).bind fun body => bodyT ext root [] body node

/-- dethcl/mapslice.go L13-32 `decodeSlice` on text, at a node. -/
def sliceT (ext : Ext) (root node : Nat) (bs : Bytes) : Act (List GV) :=
  (Act.ofOut (parseX bs)).bind fun e =>
    match e with
    | .tuple l => nativeTL ext root node 0 l
    | _ => .fail .err

/-- dethcl/unmarshal.go L48-51, L62-78 `UnmarshalSpec` into a `*map[string]interface{}`, after parsing: the entries are added to the map.
`root` is the tree in `ref`, if there is one. -/
def unmarshalBody (ext : Ext) (h : Heap Cty) (root : Option Nat) (body : Hcl.Body) (target : List (Bytes × GV)) :
    Except Fail (List (Bytes × GV) × Heap Cty) :=
  ((bodyT ext (defaultTree h root).2 [] body (defaultTree h root).2).map fun obj =>
    obj.foldl (fun t e => insertK ltB e.1 e.2 t) target) (defaultTree h root).1

/-- dethcl/unmarshal.go L26-78 `UnmarshalSpec` into a `*map[string]interface{}`, from text. -/
def unmarshalMapT (ext : Ext) (h : Heap Cty) (root : Option Nat) (bs : Bytes) (target : List (Bytes × GV)) :
    Except Fail (List (Bytes × GV) × Heap Cty) :=
  ((mapT ext (defaultTree h root).2 (defaultTree h root).2 bs).map fun obj =>
    obj.foldl (fun t e => insertK ltB e.1 e.2 t) target) (defaultTree h root).1

/-- dethcl/unmarshal.go L79-86 `UnmarshalSpec` into a `*[]interface{}`: the elements are appended. -/
def unmarshalSliceT (ext : Ext) (h : Heap Cty) (root : Option Nat) (bs : Bytes) (target : List GV) : Except Fail (List GV × Heap Cty) :=
  ((sliceT ext (defaultTree h root).2 (defaultTree h root).2 bs).map fun l => target ++ l) (defaultTree h root).1

end Verif.HclS
