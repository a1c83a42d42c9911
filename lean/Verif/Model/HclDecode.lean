import Verif.Model.Det
import Verif.Model.HclPrint
import Verif.Model.HclSyntax
/-!
# `Unmarshal` of HCL text into generic data

Model of `dethcl/mapslice.go` and of `dethcl/unmarshal.go` L26-87 for a target `*map[string]interface{}` or
`*[]interface{}`.

Simplifications:
* the tree of variables (`node`, `ref[ATTRIBUTES]`) is not represented: the value of a variable, of a
  function call other than `null()` and of the negation of something other than a number is given by the
  parameter `eval` and does not depend on what was decoded before;
* lists and objects inside an expression are decoded from the syntax tree, where the code parses the
  source bytes of the expression again (dethcl/mapslice.go L173-183) as `x = ...`; `Model/HclAgain` does that, and
  `C157_map` and `C157_slice` prove that the result is the same;
* `strings.TrimSpace` is modelled for ASCII white space.

Go maps in the result are kept sorted by key, so that equal lists are equal maps; whenever the code ranges
over a map, the parameter `ord` gives the order, depending on the place in the document.
-/

namespace Verif.Hcl
open Det (insertK ltB)

/-- Outcome of decoding; `unsupported` if the text is outside the modelled part of HCL. -/
inductive Out (α : Type) where
  | ok (a : α)
  | err
  | panic
  | unsupported

def Out.bind {α β : Type} : Out α → (α → Out β) → Out β
  | .ok a, f => f a
  | .err, _ => .err
  | .panic, _ => .panic
  | .unsupported, _ => .unsupported

def Out.map {α β : Type} (f : α → β) (o : Out α) : Out β := o.bind fun a => .ok (f a)

def Out.ofExcept {α : Type} : Except Unit α → Out α
  | .ok a => .ok a
  | .error _ => .err

def Out.ofParse {α : Type} : Except Bad α → Out α
  | .ok a => .ok a
  | .error .invalid => .err
  | .error .unsupported => .unsupported

/-- External code. -/
structure Ext where
  /-- Unicode normalisation in `cty.StringVal`. -/
  nfc : Bytes → Bytes
  /-- Variables and functions. -/
  eval : Expr → Out Cty
  /-- Orders in which maps are visited. -/
  ord : List Bytes → List Bytes → List Bytes

variable (ext : Ext)

/-- The value of an expression that is not a list or object: utils/util.go L104-166 `ExpressionToCty`,
and `hclsyntax` for literals (external). -/
def evalE : Expr → Out Cty
  | .str s => .ok (.str (ext.nfc s))
  | .num q => .ok (.num q)
  | .ident n =>
    if n = b "true" then .ok (.bool true)
    else if n = b "false" then .ok (.bool false)
    else if n = b "null" then .ok .null
    else ext.eval (.ident n)
  | .neg e => match evalE e with
    | .ok (.num q) => .ok (.num (-q))
    | _ => ext.eval (.neg e)
  | .call n => if n = b "null" then .ok .null else ext.eval (.call n)   -- util.go L143-146
  | .tuple l => ext.eval (.tuple l)
  | .object m => ext.eval (.object m)

/-- Whether what follows a minus sign is a number; `hclsyntax` converts a string to one if it can (external). -/
def isNumLit : Expr → Bool
  | .num _ => true
  | .neg e => isNumLit e
  | .str s => match ext.eval (.neg (.str s)) with
    | .ok (.num _) => true
    | _ => false
  | _ => false

/-- dethcl/mapslice.go L160-168: the key of an object member, `ObjectConsKeyExpr.Value(nil)` (external: a bare
identifier is its own name; otherwise the value without variables) and `AsString`, which panics on a value
that is not a string. -/
def keyE : Expr → Out Bytes
  | .ident n => .ok n
  | .str s => .ok (ext.nfc s)
  | .num _ => .panic
  | .neg e => if isNumLit ext e then .panic else .err
  | .tuple _ => .panic
  | .object _ => .panic
  | .call _ => .err

mutual
/-- dethcl/mapslice.go L173-205 `expressionToNative`. -/
def nativeE : Expr → Out GV
  | .tuple l => (nativeL l).map mkList                                   -- L175-179
  | .object m => (nativeO m []).map .map                                 -- L180-184
  | .call n =>
    if n = b "null" then .ok .nil                                        -- L185-188
    else (evalE ext (.call n)).bind fun c => .ofExcept (ctyToNative c)
  | .str s => (evalE ext (.str s)).bind fun c => .ofExcept (ctyToNative c)      -- L192-204
  | .num q => (evalE ext (.num q)).bind fun c => .ofExcept (ctyToNative c)
  | .ident n => (evalE ext (.ident n)).bind fun c => .ofExcept (ctyToNative c)
  | .neg e => (evalE ext (.neg e)).bind fun c => .ofExcept (ctyToNative c)
/-- dethcl/mapslice.go L13-32 `decodeSlice`: the elements in order. -/
def nativeL : List Expr → Out (List GV)
  | [] => .ok []
  | e :: l => (nativeE e).bind fun v => (nativeL l).map fun vs => v :: vs
/-- dethcl/mapslice.go L147-171 `decodeObjectConsExpr`: the members in order. -/
def nativeO : List (Expr × Expr) → List (Bytes × GV) → Out (List (Bytes × GV))
  | [], obj => .ok obj
  | (k, e) :: m, obj =>
    (keyE ext k).bind fun key => (nativeE e).bind fun v => nativeO m (insertK ltB key v obj)
end

/-- The loop `for key := range ... { object[key] = ... }` over the keys of a map, in the given order. -/
def assignAll (val : Bytes → Out GV) : List Bytes → List (Bytes × GV) → Out (List (Bytes × GV))
  | [], obj => .ok obj
  | k :: ks, obj => (val k).bind fun v => assignAll val ks (insertK ltB k v obj)

/-- All the values, in order, or the first failure. -/
def seqOut : List (Out GV) → Out (List GV)
  | [] => .ok []
  | o :: l => o.bind fun v => (seqOut l).map fun vs => v :: vs

/-- Distinct keys in order of first appearance. -/
def dedupB : List Bytes → List Bytes
  | [] => []
  | k :: ks => k :: (dedupB ks).filter (· ≠ k)

/-- The last entry with the key, or an error (not reached). -/
def lastO (l : List (Bytes × Out GV)) (k : Bytes) : Out GV :=
  match (l.filter fun e => e.1 = k).getLast? with
  | some e => e.2
  | none => .err

/-- The results of decoding the blocks: type, labels, result of the body. -/
abbrev Blocks := List (Bytes × List Bytes × Out GV)

/-- dethcl/mapslice.go L62-66, L93-109: the blocks without labels of one type. -/
def zeros (bs : Blocks) (key : Bytes) : List (Out GV) :=
  (bs.filter fun x => x.1 = key && x.2.1.length = 0).map fun x => x.2.2

/-- dethcl/mapslice.go L69-76: the blocks with one label of one type. -/
def ones (bs : Blocks) (key : Bytes) : List (Bytes × Out GV) :=
  (bs.filter fun x => x.1 = key && x.2.1.length = 1).map fun x => (x.2.1.headD [], x.2.2)

/-- dethcl/mapslice.go L77-87: the blocks with two labels of one type, and among them those with one first
label. -/
def twos (bs : Blocks) (key : Bytes) : List (Bytes × Bytes × Out GV) :=
  (bs.filter fun x => x.1 = key && x.2.1.length = 2).map fun x => (x.2.1.headD [], x.2.1.tail.headD [], x.2.2)

def twosOf (bs : Blocks) (key l : Bytes) : List (Bytes × Out GV) :=
  ((twos bs key).filter fun x => x.1 = l).map Prod.snd

/-- The types of the blocks with `n` labels. -/
def typesOf (bs : Blocks) (n : Nat) : List Bytes :=
  dedupB ((bs.filter fun x => x.2.1.length = n).map Prod.fst)

/-- dethcl/mapslice.go L94-109 -/
def zeroVal (bs : Blocks) (key : Bytes) : Out GV :=
  (seqOut (zeros bs key)).map fun vs =>
    match vs with
    | [v] => v
    | _ => .list vs

/-- dethcl/mapslice.go L112-123 -/
def oneVal (path : List Bytes) (bs : Blocks) (key : Bytes) : Out GV :=
  (assignAll (lastO (ones bs key)) (ext.ord (path ++ [key]) (dedupB ((ones bs key).map Prod.fst))) []).map .map

/-- dethcl/mapslice.go L128-139 -/
def twoVal2 (path : List Bytes) (bs : Blocks) (key l : Bytes) : Out GV :=
  (assignAll (lastO (twosOf bs key l))
    (ext.ord (path ++ [key, l]) (dedupB ((twosOf bs key l).map Prod.fst))) []).map .map

/-- dethcl/mapslice.go L126-141 -/
def twoVal (path : List Bytes) (bs : Blocks) (key : Bytes) : Out GV :=
  (assignAll (twoVal2 ext path bs key)
    (ext.ord (path ++ [key]) (dedupB ((twos bs key).map Prod.fst))) []).map .map

/-- dethcl/mapslice.go L57-145: the blocks of a body, after the attributes. -/
def decodeBlocks (path : List Bytes) (bs : Blocks) (obj : List (Bytes × GV)) : Out (List (Bytes × GV)) :=
  if bs.any (fun x => decide (2 < x.2.1.length)) then .err                               -- L88-89
  else
    (assignAll (zeroVal bs) (ext.ord (path ++ [b "0"]) (typesOf bs 0)) obj).bind fun obj =>
    (assignAll (oneVal ext (path ++ [b "1"]) bs) (ext.ord (path ++ [b "1"]) (typesOf bs 1)) obj).bind fun obj =>
    assignAll (twoVal ext (path ++ [b "2"]) bs) (ext.ord (path ++ [b "2"]) (typesOf bs 2)) obj

/-- The value of an attribute by name. -/
def attrVal (attrs : List (Bytes × Expr)) (k : Bytes) : Out GV :=
  match GoMap.get? attrs k with
  | some e => nativeE ext e
  | none => .err

mutual
/-- dethcl/mapslice.go L47-145 `decodeBody`. -/
def decodeBody (path : List Bytes) : Body → Out (List (Bytes × GV))
  | .mk attrs blocks =>
    (assignAll (attrVal ext attrs) (ext.ord path (GoMap.keys attrs)) []).bind fun obj =>   -- L49-55
    decodeBlocks ext path (blockResults path 0 blocks) obj
/-- The results of the recursive calls (only those that the code makes are used). -/
def blockResults (path : List Bytes) (i : Nat) : List (Bytes × List Bytes × Body) → Blocks
  | [] => []
  | (t, ls, body) :: r =>
    (t, ls, (decodeBody (path ++ List.replicate i 0 :: t :: ls) body).map .map) :: blockResults path (i + 1) r
end

/-- ASCII white space. -/
def isSpace (c : UInt8) : Bool := c = 32 || (9 ≤ c && c ≤ 13)

/-- `strings.TrimSpace`. -/
def trimSpace (s : Bytes) : Bytes := ((s.dropWhile isSpace).reverse.dropWhile isSpace).reverse

/-- dethcl/mapslice.go L147-157 and L13-21: parse `x = ` and the text, and take the expression of `x`. -/
def parseX (bs : Bytes) : Out Expr :=
  (Out.ofParse (parseConfig (b "x = " ++ bs))).bind fun body =>
    match GoMap.get? body.attrs (b "x") with
    | some e => .ok e
    | none => .err

/-- dethcl/mapslice.go L34-45 `decodeMap` on text. -/
def decodeMap (bs : Bytes) : Out (List (Bytes × GV)) :=
  if trimSpace bs = [] then .panic                                             -- L36 str[0]
  else if (trimSpace bs).head? = some 123 ∧ (trimSpace bs).getLast? = some 125 then
    (parseX bs).bind fun e =>
      match e with
      | .object m => nativeO ext m []
      | _ => .err                                                              -- L153-156
  else (Out.ofParse (parseConfig bs)).bind fun body => decodeBody ext [] body

/-- dethcl/mapslice.go L13-32 `decodeSlice` on text. -/
def decodeSlice (bs : Bytes) : Out (List GV) :=
  (parseX bs).bind fun e =>
    match e with
    | .tuple l => nativeL ext l
    | _ => .err

/-- dethcl/unmarshal.go L26-78: `Unmarshal` into a `*map[string]interface{}`: the entries are added to the map. -/
def unmarshalMap (bs : Bytes) (target : List (Bytes × GV)) : Out (List (Bytes × GV)) :=
  (decodeMap ext bs).map fun obj => obj.foldl (fun t e => insertK ltB e.1 e.2 t) target

/-- dethcl/unmarshal.go L79-86: `Unmarshal` into a `*[]interface{}`: the elements are appended. -/
def unmarshalSlice (bs : Bytes) (target : List GV) : Out (List GV) :=
  (decodeSlice ext bs).map fun l => target ++ l

end Verif.Hcl
