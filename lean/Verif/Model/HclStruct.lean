import Verif.Model.Tree
import Verif.Model.Cty
import Verif.Model.HclSyntax
import Verif.Model.Det
/-!
# `Unmarshal` of HCL into a Go struct

Model of `dethcl/unmarshal.go` L48-698 for a target that is a pointer to a struct, with `dethcl/util.go` L11-37
and `utils/util.go` L104-166.

* Go types are `Ty`; struct types are numbers described by an `Env`.
* The state of a struct is the list of its exported fields, those promoted from embedded structs included;
  unexported fields are never touched by decoding, and `clone` leaves them zero.
* The tree of variables is the heap of `Model/Tree`; it and `ref` are threaded through, as both are changed.
* A reference such as `a.b.c` is an `Expr.ident` whose name contains the dots.
* A body is a syntax tree; an attribute also has its source text from behind the equal sign to its end.
* `gohcl.DecodeBody`, `reflect` and HCL evaluation are external, recalled from memory.  How a value becomes a
  Go value of ordinary type, how generic fields are decoded, how a text is parsed and how expressions other than
  literals, lists, objects and variables are evaluated are parameters (`Ext`).
* Go's random map iteration order is the parameter `Ext.ord`, indexed by the place in the document.

Simplifications:
* the bytes of a block are parsed again by the code (L538, L110); the model uses the body that is there (`Model/HclBlocks` does it, and `C158_tree` proves
  that the syntax tree is the same);
* no type implements `Unmarshaler` (see `Model/OwnStruct` for such types); the target is not a pointer to a pointer; pointers to embedded structs are
  nil; specifications do not name untagged struct fields; tags given to `gohcl` are of the kinds attribute and
  optional (otherwise `unsupported`);
* nested specifications are values: that the code adds fields to them while decoding is represented here for the
  specification of the outermost struct (`specAfter`) only, for the others see `Model/HclStructMem` and C164;
* the entries `attributes` and `functions` of `ref` are kept apart (`St.heap`, `Ext.eval`);
* `strings.Fields` and `strings.ToLower` are modelled for ASCII.
-/

namespace Verif.HclS
open Tree (Heap CV)
open Hcl (Cty Expr)
open Det (insertK ltB ltB2 KeyTy Cls CVal)

/-- Ways in which a call fails: an error, a panic, recursion that does not end (or is deeper than the bound), or
something that the model does not describe. -/
inductive Fail where
  | err | panic | hang | unsupported
  deriving DecidableEq

/-- Go types.  `any` is the empty interface, `iface` another interface type, `leaf` everything else. -/
inductive Ty where
  | str
  | leaf (id : Nat)
  | struct (id : Nat)
  | any
  | iface (id : Nat)
  | ptr (t : Ty)
  | slice (t : Ty)
  | map (k : KeyTy) (t : Ty)
  deriving DecidableEq

/-- A struct field: Go name, whether its first rune is upper case, the whole struct tag, the type. -/
structure Fld where
  name : Bytes
  upper : Bool
  rawTag : Bytes
  ty : Ty
  deriving DecidableEq

/-- A struct type: `reflect.Type.String()`, the declared fields, and the exported fields with promoted ones. -/
structure StructDecl where
  str : Bytes
  fields : List Fld
  promoted : List (Bytes × Ty)

/-- The declared types. `impl i c`: a pointer to struct type `c` implements interface `i`; `name`: the text of a
type that is not a struct or pointer. -/
structure Env where
  struct : Nat → StructDecl
  impl : Nat → Nat → Bool
  name : Ty → Bytes

/-- Go values: a string; another value of ordinary type; a pointer to a struct (in a pointer or interface
variable); a struct; a slice; a map with string keys; a map with pairs of strings as keys.  Maps are sorted by
key. -/
inductive Val where
  | str (s : Bytes)
  | leaf (x : Nat)
  | ref (cls : Nat) (fields : List (Bytes × Val))
  | inst (cls : Nat) (fields : List (Bytes × Val))
  | slice (l : List Val)
  | map (m : List (Bytes × Val))
  | map2 (m : List ((Bytes × Bytes) × Val))

/-- The state of a struct. -/
abbrev Fields := List (Bytes × Val)

/-- A value of `ref`: nil, a pointer to a struct, or something for which `clone` panics. -/
inductive Tmpl where
  | nil
  | ptr (cls : Nat) (content : Fields)
  | bad

/-- An attribute: the expression, and the source text behind the equal sign. -/
structure Attr where
  expr : Expr
  src : Bytes

/-- A body: attributes and blocks (type, labels, body). -/
inductive Body where
  | mk (attrs : List (Bytes × Attr)) (blocks : List (Bytes × List Bytes × Body))

def Body.attrs : Body → List (Bytes × Attr) | .mk a _ => a
def Body.blocks : Body → List (Bytes × List Bytes × Body) | .mk _ x => x

/-- What decoding changes besides the target: the tree of variables and `ref`. -/
structure St where
  heap : Heap Cty
  ref : GoMap Bytes Tmpl

/-- The variables of an expression. -/
abbrev Vars := List (Bytes × CV Cty)

/-- External behaviour. -/
structure Ext where
  /-- Unicode normalisation in `cty.StringVal` -/
  nfc : Bytes → Bytes
  /-- function calls other than `null()`, and negation of anything but a number -/
  eval : Vars → Expr → Except Fail Cty
  /-- `gohcl` decoding of a value into a field -/
  leaf : Fld → Cty → Except Fail Val
  /-- zero value of a type -/
  zero : Ty → Val
  /-- `decodeSlice` (true) or `decodeMap` (false) of the source text of an attribute, at a node -/
  dynAttr : Bool → Heap Cty → Nat → Bytes → Except Fail (Val × Heap Cty)
  /-- the same for the content of a block -/
  dynBlock : Bool → Heap Cty → Nat → Body → Except Fail (Val × Heap Cty)
  /-- `hclsyntax.ParseConfig` (`none`: errors) -/
  parse : Bytes → Option Body
  /-- iteration order of a map at a place of the document -/
  ord : List Bytes → List Bytes → List Bytes

/-! ## Small functions -/

/-- ASCII white space. -/
def isSpace (c : UInt8) : Bool := c = 32 || (9 ≤ c && c ≤ 13)

/-- The fields of a text; `cur` is the one that is being read. -/
def fieldsLoop (cur : Bytes) : Bytes → List Bytes
  | [] => if cur = [] then [] else [cur]
  | c :: r =>
    if isSpace c then (if cur = [] then fieldsLoop [] r else cur :: fieldsLoop [] r)
    else fieldsLoop (cur ++ [c]) r

/-- `strings.ToLower`. -/
def lower (s : Bytes) : Bytes := s.map fun c => if 65 ≤ c && c ≤ 90 then c + 32 else c

/-- dethcl/util.go L29-33: the text between the quotes, split at the first comma. -/
def splitTag (s : Bytes) : Bytes × Bytes := (s.takeWhile (· ≠ 44), (s.dropWhile (· ≠ 44)).drop 1)

/-- dethcl/util.go L26-35 -/
def tagLoop : List Bytes → Bytes × Bytes
  | [] => ([], [])
  | t :: ts =>
    if 5 ≤ t.length ∧ lower (t.take 5) = b "hcl:\"" then splitTag ((t.drop 5).dropLast)   -- L28 tag[5 : len(tag)-1]
    else tagLoop ts

/-- dethcl/util.go L25-37 `tag2`.  Simplification: for the tag `hcl:"` alone L28 panics, here it is empty. -/
def tag2 (tag : Bytes) : Bytes × Bytes := tagLoop (fieldsLoop [] tag)

def Fld.tag (f : Fld) : Bytes := (tag2 f.rawTag).1
def Fld.what (f : Fld) : Bytes := (tag2 f.rawTag).2

/-- The type behind a pointer: dethcl/unmarshal.go L574-576. -/
def Ty.deref : Ty → Ty
  | .ptr t => t
  | t => t

/-- `reflect.Type.String()`. -/
def Env.tyStr (env : Env) : Ty → Bytes
  | .struct c => (env.struct c).str
  | .ptr t => 42 :: env.tyStr t
  | t => env.name t

/-- `reflect.New(t).Interface()`. -/
def newOf (env : Env) (ext : Ext) : Ty → Tmpl
  | .struct c => .ptr c ((env.struct c).promoted.map fun f => (f.1, ext.zero f.2))
  | _ => .bad

/-! ## Expressions -/

mutual
/-- A variable as a value. -/
def toCty : CV Cty → Cty
  | .item v => v
  | .obj attrs => .object (toCtys attrs)
def toCtys : List (Bytes × CV Cty) → List (Bytes × Cty)
  | [] => []
  | (k, v) :: r => (k, toCty v) :: toCtys r
end

/-- Negation, given the value of the operand. -/
def negOf (ext : Ext) (vars : Vars) (e : Expr) : Except Fail Cty → Except Fail Cty
  | .ok (.num q) => .ok (.num (-q))
  | _ => ext.eval vars (.neg e)

/-- A function call; utils/util.go L143-146 is the call of `null`. -/
def callOf (ext : Ext) (vars : Vars) (n : Bytes) : Except Fail Cty :=
  if n = b "null" then .ok .null else ext.eval vars (.call n)

/-- The names of a reference `a.b.c`: the first one, and the others.  (In this model the name of `Expr.ident` may contain dots.) -/
def splitDots : Bytes → Bytes × List Bytes
  | [] => ([], [])
  | c :: r =>
    if c = 46 then ([], (splitDots r).1 :: (splitDots r).2)
    else (c :: (splitDots r).1, (splitDots r).2)

/-- The first name of a reference: a key word or a variable (external). -/
def rootOf (vars : Vars) (n : Bytes) : Except Fail Cty :=
  if n = b "true" then .ok (.bool true)
  else if n = b "false" then .ok (.bool false)
  else if n = b "null" then .ok .null
  else match GoMap.get? vars n with
    | some v => .ok (toCty v)
    | none => .error .err

/-- A number in digits. -/
def digits : Nat → Bytes → Option Nat
  | n, [] => some n
  | n, c :: r => if 48 ≤ c && c ≤ 57 then digits (10 * n + (c.toNat - 48)) r else none

/-- One further name of a reference: a member of an object, or an element of a list by number (external). -/
def memberOf (k : Bytes) : Cty → Option Cty
  | .object m => GoMap.get? m k
  | .tuple l => if k = [] then none else (digits 0 k).bind fun i => l[i]?
  | _ => none

/-- The other names of a reference. -/
def follow : List Bytes → Cty → Except Fail Cty
  | [], v => .ok v
  | k :: r, v =>
    match memberOf k v with
    | some w => follow r w
    | none => .error .err

mutual
/-- utils/util.go L104-166 `ExpressionToCty` with the given variables, and `hclsyntax` for literals and variables
(external). -/
def evalE (ext : Ext) (vars : Vars) : Expr → Except Fail Cty
  | .str s => .ok (.str (ext.nfc s))
  | .num q => .ok (.num q)
  | .ident n =>
    match rootOf vars (splitDots n).1 with
    | .error x => .error x
    | .ok v => follow (splitDots n).2 v
  | .neg e => negOf ext vars e (evalE ext vars e)
  | .call n => callOf ext vars n
  | .tuple l => (evalL ext vars l).map .tuple                                       -- L110-119
  | .object m => (evalO ext vars m []).map .object                                  -- L120-133
def evalL (ext : Ext) (vars : Vars) : List Expr → Except Fail (List Cty)
  | [] => .ok []
  | e :: l => match evalE ext vars e with
    | .error x => .error x
    | .ok v => (evalL ext vars l).map fun vs => v :: vs
def evalO (ext : Ext) (vars : Vars) : List (Expr × Expr) → List (Bytes × Cty) → Except Fail (List (Bytes × Cty))
  | [], acc => .ok acc
  | (k, e) :: m, acc => match evalK ext vars k with
    | .error x => .error x
    | .ok key => match evalE ext vars e with
      | .error x => .error x
      | .ok v => match key with
        | .str s => evalO ext vars m (insertK ltB s v acc)
        | _ => .error .panic                                                        -- L131 AsString
/-- The key of an object member (external: a bare identifier is its own name; references with dots, which are refused here, do not occur in
keys of the model).  The node of a key is not a call, a tuple or an
object for L109 and L143, so that calls have no functions (L161).  Simplification: a tuple or object as a key is evaluated like a value,
so that one that contains `null()` is a panic at L131 instead of an error. -/
def evalK (ext : Ext) (vars : Vars) : Expr → Except Fail Cty
  | .ident n => .ok (.str n)
  | .str s => .ok (.str (ext.nfc s))
  | .num q => .ok (.num q)
  | .neg e => negOf ext vars e (evalE ext vars e)
  | .call _ => .error .err
  | .tuple l => (evalL ext vars l).map .tuple
  | .object m => (evalO ext vars m []).map .object
end

/-- `cv.IsNull()`. -/
def isNull : Cty → Bool
  | .null => true
  | _ => false

/-- `cv.CanIterateElements()`. -/
def canIterate : Cty → Bool
  | .tuple _ => true
  | .object _ => true
  | _ => false

/-- dethcl/unmarshal.go L117-127: the attributes are evaluated one after the other, in the given order, each value
being stored as a variable for the following ones.  `root` is the tree of `ref[ATTRIBUTES]`. -/
def evalAttrs (ext : Ext) (root node : Nat) (attrs : List (Bytes × Attr)) :
    List Bytes → Heap Cty → Except Fail (List (Bytes × Cty) × Heap Cty)
  | [], h => .ok ([], h)
  | k :: ks, h =>
    match GoMap.get? attrs k, Tree.variables h root with
    | some a, some vars =>
      match evalE ext vars a.expr with
      | .error x => .error x
      | .ok cv =>
        match Tree.addItem h node k cv with
        | none => .error .panic
        | some h' =>
          match evalAttrs ext root node attrs ks h' with
          | .error x => .error x
          | .ok (vs, h'') => .ok ((k, cv) :: vs, h'')
    | _, _ => .error .panic

/-- dethcl/unmarshal.go L116, L122-124 -/
def nullKeys (vals : List (Bytes × Cty)) : List Bytes := (vals.filter fun e => isNull e.2).map Prod.fst

/-- dethcl/unmarshal.go L129-131 -/
def addBlockNodes (node : Nat) : List (Bytes × List Bytes × Body) → Heap Cty → Except Fail (Heap Cty)
  | [], h => .ok h
  | x :: r, h =>
    match Tree.addNodes h node x.1 x.2.1 with
    | none => .error .panic
    | some (h', _) => addBlockNodes node r h'

/-! ## The fields of the struct -/

/-- The results of `loopFields`, with the maps that it changes. -/
structure LF where
  labels : List Fld
  news : List Fld
  oris : List Fld
  decs : List Fld
  obj : List (Bytes × CVal)
  ref : GoMap Bytes Tmpl

/-- The classes for which `loopFields` makes a specification itself: a struct or pointer type (with its name, L614-621,
L625-631, L648-654), an interface (L633-635, L656-658), or something else. -/
inductive ElemKind where
  | cls (name : Bytes) (tmpl : Tmpl)
  | dyn
  | plain

def elemKind (env : Env) (ext : Ext) : Ty → ElemKind
  | .struct c => .cls (env.tyStr (.struct c)) (newOf env ext (.struct c))
  | .ptr t => .cls (env.tyStr (.ptr t)) (newOf env ext t)
  | .any => .dyn
  | .iface _ => .dyn
  | _ => .plain

/-- dethcl/unmarshal.go L616-622, L641-646, L664-669: the field gets a specification, and `ref` the class. -/
def LF.addOri (lf : LF) (f : Fld) (name : Bytes) (tmpl : Tmpl) (v : CVal) : LF :=
  { lf with oris := lf.oris ++ [f], obj := GoMap.set lf.obj f.name v, ref := GoMap.set lf.ref name tmpl }

/-- dethcl/unmarshal.go L624-646 and L648-669, given the specification for the class. -/
def LF.addElem (lf : LF) (f : Fld) (k : ElemKind) (v : Bytes → CVal) : LF :=
  match k with
  | .cls name tmpl => lf.addOri f name tmpl (v name)
  | .dyn => { lf with decs := lf.decs ++ [f] }
  | .plain => { lf with news := lf.news ++ [f] }

/-- dethcl/unmarshal.go L614-672: a field with a tag and without specification. -/
def LF.addTagged (env : Env) (ext : Ext) (lf : LF) (f : Fld) : LF :=
  match f.ty.deref with
  | .struct c => lf.addOri f (env.struct c).str (newOf env ext (.struct c)) (.single (.mk (env.struct c).str []))  -- L614-622
  | .map .str2 e =>                                                                 -- L623-646
    lf.addElem f (elemKind env ext e) fun s => .map2 [([], [([], .mk s [])])]
  | .slice e => lf.addElem f (elemKind env ext e) fun s => .list [.mk s []]         -- L647-669
  | .map _ e => lf.addElem f (elemKind env ext e) fun s => .list [.mk s []]
  | _ => { lf with news := lf.news ++ [f] }                                         -- L670-672

/-- A struct, possibly behind a pointer. -/
def Ty.structOf : Ty → Option Nat
  | .struct c => some c
  | .ptr (.struct c) => some c
  | _ => none

/-- dethcl/unmarshal.go L571-673: the loop of `loopFields`; `deep` is the recursive call. -/
def loopList (env : Env) (ext : Ext) (nulls : List Bytes) (deep : List Fld → LF → Except Fail LF) :
    List Fld → LF → Except Fail LF
  | [], lf => .ok lf
  | f :: fs, lf =>
    if !f.upper then loopList env ext nulls deep fs lf                              -- L578-580
    else if f.tag ∈ nulls then loopList env ext nulls deep fs lf                    -- L582-584
    else if lower f.what = b "label" then
      loopList env ext nulls deep fs { lf with labels := lf.labels ++ [f] }         -- L586-589
    else if f.tag = b "-" ∨ (b ",-").isSuffixOf f.tag then loopList env ext nulls deep fs lf  -- L590-592
    else if (GoMap.get? lf.obj f.name).isSome then                                  -- L593-596
      if f.tag = [] ∧ f.ty.structOf.isSome then .error .unsupported
      else loopList env ext nulls deep fs { lf with oris := lf.oris ++ [f] }
    else if f.tag = [] then
      match f.ty.structOf with
      | some c =>                                                                   -- L600-608
        match deep (env.struct c).fields lf with
        | .error x => .error x
        | .ok lf' => loopList env ext nulls deep fs lf'
      | none => loopList env ext nulls deep fs lf                                   -- L609-611
    else loopList env ext nulls deep fs (lf.addTagged env ext f)                    -- L614-672

/-- dethcl/unmarshal.go L566-675 `loopFields`; the number bounds the nesting of calls. -/
def loopFields (env : Env) (ext : Ext) (nulls : List Bytes) : Nat → List Fld → LF → Except Fail LF
  | 0 => loopList env ext nulls fun _ _ => .error .hang
  | n + 1 => loopList env ext nulls (loopFields env ext nulls n)

/-- dethcl/unmarshal.go L542-549 `getTagref`: whether a tag is among those of the fields. -/
def hasTag (fs : List Fld) (k : Bytes) : Bool := fs.any fun f => f.tag = k

/-! ## Attributes as blocks -/

/-- Where a match of `{[^}]+}` can start, at the given text: the text between the braces, and what follows.
(`regexp` is external: leftmost match, `[^}]+` takes everything up to the next closing brace.) -/
def matchObj : Bytes → Option (Bytes × Bytes)
  | 123 :: r =>
    match r.takeWhile (· ≠ 125), r.dropWhile (· ≠ 125) with
    | c :: inner, 125 :: rest => some (c :: inner, rest)
    | _, _ => none
  | _ => none

/-- All the matches from a place on; the number bounds how many bytes are looked at. -/
def piecesN : Nat → Bytes → List Bytes
  | 0, _ => []
  | n + 1, s =>
    match matchObj s with
    | some (inner, rest) => inner :: piecesN n rest
    | none => piecesN n s.tail

/-- dethcl/unmarshal.go L480-482: all the matches, without their braces. -/
def objectPieces (s : Bytes) : List Bytes := piecesN s.length s

/-- A block as it is decoded: its labels and what its bytes parse to (`none`: errors). -/
structure Blk where
  labels : List Bytes
  body : Option Body

/-- dethcl/unmarshal.go L478-495: the blocks made from an attribute; L478 skips one byte behind the equal sign. -/
def attrBlocks (ext : Ext) (src : Bytes) : List Blk :=
  (objectPieces (src.drop 1)).map fun s => ⟨[], ext.parse s⟩

/-! ## `refreshBody` -/

/-- Where an attribute goes: dethcl/unmarshal.go L458-507. -/
inductive Route where
  | null | dec | label | ori | plain
  deriving DecidableEq

def route (nulls : List Bytes) (lf : LF) (k : Bytes) : Route :=
  if k ∈ nulls then .null
  else if hasTag lf.decs k then .dec
  else if hasTag lf.labels k then .label
  else if hasTag lf.oris k then .ori
  else .plain

/-- The value of an attribute that goes to the given place. -/
def routed (nulls : List Bytes) (lf : LF) (vals : List (Bytes × Cty)) (r : Route) (k : Bytes) : Option Cty :=
  if route nulls lf k = r then GoMap.get? vals k else none

/-- dethcl/unmarshal.go L472-477, L496: the attributes that stand for blocks, in iteration order. -/
def oriAttrs (nulls : List Bytes) (lf : LF) (vals : List (Bytes × Cty)) (node : Nat) :
    List Bytes → Heap Cty → Except Fail (Heap Cty)
  | [], h => .ok h
  | k :: ks, h =>
    match routed nulls lf vals .ori k with
    | none => oriAttrs nulls lf vals node ks h
    | some cv =>
      if canIterate cv then
        match Tree.addNode h node k with
        | none => .error .panic
        | some (h', _) => oriAttrs nulls lf vals node ks h'
      else .error .err

/-- dethcl/unmarshal.go L490-494, L511-512: the blocks for a tag. -/
def oriBlocks (ext : Ext) (nulls : List Bytes) (lf : LF) (body : Body) (vals : List (Bytes × Cty)) (tag : Bytes) : List Blk :=
  (match routed nulls lf vals .ori tag, GoMap.get? body.attrs tag with
    | some _, some a => attrBlocks ext a.src
    | _, _ => []) ++
  (body.blocks.filter fun x => x.1 = tag).map fun x => ⟨x.2.1, some x.2.2⟩

/-- `gohcl` tags of the kinds attribute and optional. -/
def supported (f : Fld) : Bool := f.what = [] || f.what = b "attr" || f.what = b "optional"

/-- External `gohcl`: the fields one after the other.  A field whose tag comes again is left zero. -/
def decodeLeaves (ext : Ext) (val : Bytes → Option Cty) : List Fld → Except Fail (List Val)
  | [] => .ok []
  | f :: fs =>
    match val f.tag with
    | none => (decodeLeaves ext val fs).map fun vs => ext.zero f.ty :: vs
    | some cv =>
      if hasTag fs f.tag then (decodeLeaves ext val fs).map fun vs => ext.zero f.ty :: vs
      else
        match ext.leaf f cv with
        | .error x => .error x
        | .ok v => (decodeLeaves ext val fs).map fun vs => v :: vs

/-- External `gohcl.ImpliedBodySchema`: an attribute has to be there unless it is optional or its field is a pointer. -/
def required (f : Fld) : Bool :=
  f.what ≠ b "optional" && (match f.ty with
    | .ptr _ => false
    | _ => true)

/-- dethcl/unmarshal.go L515-527: `reflect.StructOf` panics on duplicate names; `gohcl.DecodeBody` (external)
complains about attributes and blocks that are not expected and about missing attributes that are `required`. -/
def gohclDecode (ext : Ext) (lf : LF) (body : Body) (val : Bytes → Option Cty) : Except Fail (List Val) :=
  if ¬ (lf.news.map Fld.name).Nodup then .error .panic
  else if lf.news.any fun f => !supported f then .error .unsupported
  else if body.attrs.any fun a => (val a.1).isSome && !hasTag lf.news a.1 then .error .err
  else if body.blocks.any fun x => !hasTag lf.oris x.1 && !hasTag lf.decs x.1 then .error .err
  else if lf.news.any fun f => required f && (val f.tag).isNone then .error .err
  else decodeLeaves ext val lf.news

/-! ## Storing into the target -/

/-- `oriTobe.Elem().FieldByName(name)` and `Set`: panics if there is no such field. -/
def setF (name : Bytes) (v : Val) : Fields → Except Fail Fields
  | [] => .error .panic
  | e :: r => if e.1 = name then .ok ((name, v) :: r) else (setF name v r).map fun r => e :: r

def getF (name : Bytes) (fs : Fields) : Except Fail Val :=
  match GoMap.get? fs name with
  | some v => .ok v
  | none => .error .panic

/-- Storing a pointer to a struct in a variable of the given type, L297-301, L344-348, L388-398, L421-425: panics if the
types do not match. -/
def store (env : Env) (ty : Ty) (cls : Nat) (fs : Fields) : Except Fail Val :=
  match ty with
  | .any => .ok (.ref cls fs)
  | .iface i => if env.impl i cls then .ok (.ref cls fs) else .error .panic
  | .ptr t => if t = .struct cls then .ok (.ref cls fs) else .error .panic
  | .struct c => if c = cls then .ok (.inst cls fs) else .error .panic
  | _ => .error .panic

/-- One assignment to the target. -/
abbrev Step := Fields → St → Except Fail (Fields × St)

/-- The target is changed in place: what was stored before a failure stays. -/
def runSteps : List Step → Fields → St → Fields × Except Fail St
  | [], fs, st => (fs, .ok st)
  | s :: r, fs, st =>
    match s fs st with
    | .ok (fs', st') => runSteps r fs' st'
    | .error e => (fs, .error e)

/-- dethcl/unmarshal.go L148-161: a label given as an attribute. -/
def labelAttrStep (val : Bytes → Option Cty) (f : Fld) : Step := fun fs st =>
  match val f.tag with
  | none => .ok (fs, st)
  | some (.str s) => if f.ty = .str then (setF f.name (.str s) fs).map fun fs => (fs, st) else .error .panic
  | some _ => .error .panic                                                         -- L158 AsString

/-- dethcl/unmarshal.go L166-173: a label of the block. -/
def labelStep (x : Fld × Bytes) : Step := fun fs st =>
  match getF x.1.name fs with
  | .error e => .error e
  | .ok (.str []) =>
    if x.1.ty = .str then (setF x.1.name (.str x.2) fs).map fun fs => (fs, st) else .error .panic
  | .ok _ => .ok (fs, st)

/-- dethcl/unmarshal.go L165-174 -/
def labelSteps (lf : LF) (labels : List Bytes) : List Step :=
  if labels.length = lf.labels.length then (lf.labels.zip labels).map labelStep else []

/-- dethcl/unmarshal.go L176-184 -/
def newStep (val : Bytes → Option Cty) (x : Fld × Val) : Step := fun fs st =>
  if (val x.1.tag).isSome then (setF x.1.name x.2 fs).map fun fs => (fs, st) else .ok (fs, st)

/-- dethcl/unmarshal.go L186-217: a field of generic type. -/
def decStep (ext : Ext) (nulls : List Bytes) (lf : LF) (body : Body) (vals : List (Bytes × Cty)) (node : Nat) (f : Fld) : Step := fun fs st =>
  let slice := match f.ty with | .slice _ => true | _ => false
  let res : Option (Except Fail (Val × Heap Cty)) :=
    match routed nulls lf vals .dec f.tag, GoMap.get? body.attrs f.tag with
    | some _, some a => some (ext.dynAttr slice st.heap node a.src)                 -- L190-191
    | _, _ =>
      match body.blocks.filter fun x => x.1 = f.tag && !hasTag lf.oris x.1 with
      | x :: _ => some (ext.dynBlock slice st.heap node x.2.2)                      -- L192-196
      | [] => none                                                                  -- L197-199
  match res with
  | none => .ok (fs, st)
  | some (.error e) => .error e
  | some (.ok (v, h)) =>
    if f.ty = .slice .any ∨ f.ty = .map .str .any then
      (setF f.name v fs).map fun fs => (fs, { st with heap := h })
    else .error .panic                                                              -- L209, L215

/-! ## Blocks -/

/-- The recursive call: place, state, node, class, content before, specified fields, labels and body; the content
afterwards and the state. -/
abbrev Rec := List Bytes → St → Nat → Nat → Fields → List (Bytes × CVal) → List Bytes → Body → Fields × Except Fail St

/-- dethcl/unmarshal.go L249, L265-282 and the like: one block is decoded with one class.  `check`: the
number of labels allowed.  The result is the class of the new struct and its content. -/
def decodeBlock (rec : Rec) (path : List Bytes) (st : St) (node : Nat) (tag : Bytes) (blk : Blk) (cls : Cls) (maxLabels : Option Nat) :
    Except Fail ((Nat × Fields) × St) :=
  match Tree.getNode st.heap node tag blk.labels with
  | none => .error .panic
  | some sub =>
    match GoMap.get? st.ref cls.name with
    | none => .error .err                                                           -- L266-268
    | some .nil => .error .err
    | some .bad => .error .panic                                                    -- L269 clone
    | some (.ptr c content) =>
      if maxLabels.any fun m => decide (m < blk.labels.length) then .error .err     -- L274-276, L334-336
      else
        match blk.body, sub with
        | none, _ => .error .err                                                    -- L110-113
        | some _, none => .error .panic                                             -- node is nil
        | some body, some sub =>
          match rec path st sub c content cls.fields blk.labels body with
          | (_, .error e) => .error e
          | (fs, .ok st') => .ok ((c, fs), st')

/-- dethcl/unmarshal.go L677-698 `getLabels`: the content of the label fields; only the fields declared in the struct
itself. -/
def labelFields (env : Env) (c : Nat) : List Fld := (env.struct c).fields.filter fun f => lower f.what = b "label"

def labelOf (fs : Fields) (f : Fld) : Bytes :=
  match GoMap.get? fs f.name with
  | some (.str s) => s
  | _ => b "<Value>"

/-- The first label, and the last of the others. -/
def getLabels (env : Env) (c : Nat) (fs : Fields) : Bytes × Bytes :=
  match (labelFields env c).map (labelOf fs) with
  | [] => ([], [])
  | k :: ks => (k, ks.getLastD [])

/-- dethcl/unmarshal.go L250-256, L283-293: the pair of keys of a block. -/
def map2Key (labels : List Bytes) (own : Bytes × Bytes) : Bytes × Bytes :=
  let k0 := labels.getD 0 []
  let k1 := labels.getD 1 []
  if k0 = [] then own
  else if k1 = [] then
    if own.2 ≠ [] then (k0, own.2)
    else if own.1 ≠ [] then (k0, own.1)
    else (k0, k1)
  else (k0, k1)

/-- Names the place of a block for `Ext.ord`, by its tag and the number of blocks that follow. -/
def place (path : List Bytes) (tag : Bytes) (blks : List Blk) : List Bytes := path ++ [tag, List.replicate blks.length 0]

/-- A specification without any class: L325, L265 dereference a nil pointer. -/
def orPanic {α : Type} : Option α → Except Fail α
  | some a => .ok a
  | none => .error .panic

/-- dethcl/unmarshal.go L309-312: the default class, the first in iteration order. -/
def firstOf (ord : List Bytes) (m : List (Bytes × Cls)) : Option Cls :=
  ord.head?.bind (GoMap.get? m)

/-- dethcl/unmarshal.go L316-349: a map with string keys. -/
def mapLoop (env : Env) (rec : Rec) (path : List Bytes) (node : Nat) (tag : Bytes) (kt : KeyTy) (ety : Ty) (m : List (Bytes × Cls)) (first : Option Cls) :
    List Blk → St → List (Bytes × Val) → Except Fail (List (Bytes × Val) × St)
  | [], st, acc => .ok (acc, st)
  | blk :: blks, st, acc =>
    match blk.labels with
    | [] => .error .panic                                                           -- L319
    | key :: _ =>
      match orPanic ((GoMap.get? m key).or first) with                                -- L320-323
      | .error e => .error e
      | .ok cls =>
        match decodeBlock rec (place path tag blks) st node tag blk cls (some 1) with
        | .error e => .error e
        | .ok ((c, fs), st') =>
          if kt = .str then
            match store env ety c fs with
            | .error e => .error e
            | .ok v => mapLoop env rec path node tag kt ety m first blks st' (insertK ltB key v acc)
          else .error .panic                                                        -- L345, L347

/-- dethcl/unmarshal.go L247-302: a map with pairs of strings as keys. -/
def map2Loop (env : Env) (rec : Rec) (path : List Bytes) (node : Nat) (tag : Bytes) (kt : KeyTy) (ety : Ty)
    (m : List (Bytes × List (Bytes × Cls))) (first : Option (List (Bytes × Cls))) (firstFirst : Option Cls) :
    List Blk → St → List ((Bytes × Bytes) × Val) → Except Fail (List ((Bytes × Bytes) × Val) × St)
  | [], st, acc => .ok (acc, st)
  | blk :: blks, st, acc =>
    match orPanic ((GoMap.get? ((GoMap.get? m (blk.labels.getD 0 [])).getD (first.getD []))
        (blk.labels.getD 1 [])).or firstFirst) with                                 -- L257-264
    | .error e => .error e
    | .ok cls =>
      match decodeBlock rec (place path tag blks) st node tag blk cls (some 2) with
      | .error e => .error e
      | .ok ((c, fs), st') =>
        if kt = .str2 then
          match store env ety c fs with
          | .error e => .error e
          | .ok v =>
            map2Loop env rec path node tag kt ety m first firstFirst blks st'
              (insertK ltB2 (map2Key blk.labels (getLabels env c fs)) v acc)
        else .error .panic

/-- dethcl/unmarshal.go L364-400 for a slice: the k-th block with the k-th class, or with the first. -/
def listLoop (env : Env) (rec : Rec) (path : List Bytes) (node : Nat) (tag : Bytes) (ety : Ty) (first : Cls) :
    List Cls → List Blk → St → Except Fail (List Val × St)
  | _, [], st => .ok ([], st)
  | cs, blk :: blks, st =>
    match decodeBlock rec (place path tag blks) st node tag blk (cs.headD first) none with
    | .error e => .error e
    | .ok ((c, fs), st') =>
      match store env ety c fs with
      | .error e => .error e
      | .ok v =>
        match listLoop env rec path node tag ety first cs.tail blks st' with
        | .error e => .error e
        | .ok (vs, st'') => .ok (v :: vs, st'')

/-- dethcl/unmarshal.go L364-400 for a map: every block with the first class. -/
def listMapLoop (env : Env) (rec : Rec) (path : List Bytes) (node : Nat) (tag : Bytes) (kt : KeyTy) (ety : Ty) (first : Cls) :
    List Blk → St → List (Bytes × Val) → Except Fail (List (Bytes × Val) × St)
  | [], st, acc => .ok (acc, st)
  | blk :: blks, st, acc =>
    match decodeBlock rec (place path tag blks) st node tag blk first none with
    | .error e => .error e
    | .ok ((c, fs), st') =>
      match blk.labels with
      | [] => .error .panic                                                         -- L387
      | key :: _ =>
        if kt = .str then
          match store env ety c fs with
          | .error e => .error e
          | .ok v => listMapLoop env rec path node tag kt ety first blks st' (insertK ltB key v acc)
        else .error .panic

/-- dethcl/unmarshal.go L231-426: the value of a field that is given by blocks (at least one); `none`: nothing is
stored. -/
def oriValue (env : Env) (ext : Ext) (rec : Rec) (path : List Bytes) (node : Nat) (tag : Bytes) (ty : Ty) (spec : CVal)
    (blks : List Blk) (st : St) : Except Fail (Option Val × St) :=
  match spec with
  | .map2 m =>
    match ty with
    | .map kt ety =>
      let first := (ext.ord (path ++ [tag]) (GoMap.keys m)).head?.bind (GoMap.get? m)         -- L236-243
      let firstFirst := first.bind fun x => firstOf (ext.ord (path ++ [tag, tag]) (GoMap.keys x)) x
      (map2Loop env rec path node tag kt ety m first firstFirst blks st []).map fun r => (some (.map2 r.1), r.2)
    | _ => .error .err                                                              -- L233-235
  | .map m =>
    match ty with
    | .map kt ety =>
      (mapLoop env rec path node tag kt ety m (firstOf (ext.ord (path ++ [tag]) (GoMap.keys m)) m) blks st []).map
        fun r => (some (.map r.1), r.2)
    | _ => .error .err                                                              -- L306-308
  | .list [] => .error .panic                                                       -- L354
  | .list (first :: cs) =>
    match ty with
    | .map kt ety => (listMapLoop env rec path node tag kt ety first blks st []).map fun r => (some (.map r.1), r.2)
    | .slice ety => (listLoop env rec path node tag ety first (first :: cs) blks st).map fun r => (some (.slice r.1), r.2)
    | _ => .error .panic                                                            -- L362
  | .single cls =>
    match blks with
    | [] => .error .panic
    | blk :: blks =>
      match decodeBlock rec (place path tag blks) st node tag blk cls none with                           -- L407-420
      | .error e => .error e
      | .ok ((c, fs), st') => (store env ty c fs).map fun v => (some v, st')
  | .none => .ok (none, st)

/-- dethcl/unmarshal.go L219-427: a field given by blocks. -/
def oriStep (env : Env) (ext : Ext) (rec : Rec) (nulls : List Bytes) (lf : LF) (body : Body) (vals : List (Bytes × Cty)) (path : List Bytes) (node : Nat) (f : Fld) :
    Step := fun fs st =>
  match oriBlocks ext nulls lf body vals f.tag with
  | [] => .ok (fs, st)                                                              -- L222-224
  | blk :: blks =>
    match oriValue env ext rec path node f.tag f.ty ((GoMap.get? lf.obj f.name).getD .none) (blk :: blks) st with
    | .error e => .error e
    | .ok (none, st') => .ok (fs, st')
    | .ok (some v, st') => (setF f.name v fs).map fun fs => (fs, st')

/-! ## The whole -/

/-- What is known before the target is changed. -/
structure Pre where
  vals : List (Bytes × Cty)
  lf : LF
  raw : List Val
  heap : Heap Cty

/-- dethcl/unmarshal.go L116-137, up to `loopFields`. -/
def prelude (env : Env) (ext : Ext) (n root : Nat) (st : St) (node cls : Nat) (obj : List (Bytes × CVal)) (path : List Bytes)
    (body : Body) : Except Fail (List (Bytes × Cty) × LF × Heap Cty) :=
  match evalAttrs ext root node body.attrs (ext.ord (path ++ [b "attributes"]) (GoMap.keys body.attrs)) st.heap with
  | .error e => .error e
  | .ok (vals, h) =>
    match addBlockNodes node body.blocks h with
    | .error e => .error e
    | .ok h =>
      match loopFields env ext (nullKeys vals) n (env.struct cls).fields ⟨[], [], [], [], obj, st.ref⟩ with
      | .error e => .error e
      | .ok lf => .ok (vals, lf, h)

/-- dethcl/unmarshal.go L116-140 -/
def prepare (env : Env) (ext : Ext) (n root : Nat) (st : St) (node cls : Nat) (obj : List (Bytes × CVal)) (path : List Bytes)
    (body : Body) : Except Fail Pre :=
  match prelude env ext n root st node cls obj path body with
  | .error e => .error e
  | .ok (vals, lf, h) =>
    match oriAttrs (nullKeys vals) lf vals node (ext.ord (path ++ [b "refresh"]) (GoMap.keys body.attrs)) h with
    | .error e => .error e
    | .ok h =>
      match gohclDecode ext lf body (routed (nullKeys vals) lf vals .plain) with
      | .error e => .error e
      | .ok raw => .ok ⟨vals, lf, raw, h⟩

/-- dethcl/unmarshal.go L146-427: the assignments in their order. -/
def steps (env : Env) (ext : Ext) (rec : Rec) (p : Pre) (node : Nat) (labels : List Bytes) (path : List Bytes) (body : Body) : List Step :=
  p.lf.labels.map (labelAttrStep (routed (nullKeys p.vals) p.lf p.vals .label)) ++
  labelSteps p.lf labels ++
  (p.lf.news.zip p.raw).map (newStep (routed (nullKeys p.vals) p.lf p.vals .plain)) ++
  p.lf.decs.map (decStep ext (nullKeys p.vals) p.lf body p.vals node) ++
  p.lf.oris.map (oriStep env ext rec (nullKeys p.vals) p.lf body p.vals path node)

/-- dethcl/unmarshal.go L61-432 `UnmarshalSpecTree` for a struct, after parsing; `rec` is the call for blocks (L433-439) and `n` bounds
the nesting of embedded structs. -/
def decodeStruct (env : Env) (ext : Ext) (root n : Nat) (rec : Rec) : Rec := fun path st node cls fs obj labels body =>
  match prepare env ext n root st node cls obj path body with
  | .error e => (fs, .error e)
  | .ok p => runSteps (steps env ext rec p node labels path body) fs ⟨p.heap, p.lf.ref⟩

/-- The same with the recursion.  The first number bounds the nesting of calls.  `path` only names the place for `Ext.ord`. -/
def decode (env : Env) (ext : Ext) (root : Nat) : Nat → Rec
  | 0, _, _, _, _, fs, _, _, _ => (fs, .error .hang)
  | n + 1, path, st, node, cls, fs, obj, labels, body =>
    decodeStruct env ext root n (decode env ext root n) path st node cls fs obj labels body

/-- utils/tree.go L32-53 `DefaultTreeFunctions`, the tree of variables: the one of `ref`, or a new one. -/
def defaultTree (h : Heap Cty) : Option Nat → Heap Cty × Nat
  | some root => (h, root)
  | none => Tree.newTree h Tree.VAR

/-- What a caller sees after `UnmarshalSpec`: the target, the outcome, `ref` with its tree, and the fields of the
specification. -/
structure After where
  target : Fields
  outcome : Except Fail Unit
  heap : Heap Cty
  root : Nat
  ref : GoMap Bytes Tmpl
  spec : Option (List (Bytes × CVal))

/-- The specification after the call: a field map that is not nil gets the new entries (dethcl/unmarshal.go L102-108, L621, L645, L668). -/
def specAfter (env : Env) (ext : Ext) (n root : Nat) (st : St) (cls : Nat) (spec : Option (List (Bytes × CVal))) (body : Body) :
    Option (List (Bytes × CVal)) :=
  spec.map fun obj =>
    match prelude env ext n root st root cls obj [] body with
    | .ok (_, lf, _) => lf.obj
    | .error _ => obj

/-- dethcl/unmarshal.go L48-51 `UnmarshalSpec` with a struct target; `body` is the parsed document (`none`: errors),
`root` the tree in `ref`, if there is one. On failure the state of `ref` is that before the call (simplification). -/
def unmarshalSpec (env : Env) (ext : Ext) (n : Nat) (body : Option Body) (cls : Nat) (target : Fields)
    (spec : Option (List (Bytes × CVal))) (st : St) (root : Option Nat) (labels : List Bytes) : After :=
  let (h, r) := defaultTree st.heap root
  match body with
  | none => ⟨target, .error .err, h, r, st.ref, spec⟩
  | some body =>
    match decode env ext r (n + 1) [] ⟨h, st.ref⟩ r cls target (spec.getD []) labels body with
    | (fs, .error e) => ⟨fs, .error e, h, r, st.ref, specAfter env ext n r ⟨h, st.ref⟩ cls spec body⟩
    | (fs, .ok st') => ⟨fs, .ok (), st'.heap, r, st'.ref, specAfter env ext n r ⟨h, st.ref⟩ cls spec body⟩

end Verif.HclS
