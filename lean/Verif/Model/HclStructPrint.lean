import Verif.Model.HclStruct
import Verif.Model.HclPrint
/-!
# `Marshal` of a Go struct to HCL text

Model of `dethcl/marshal.go` L19-430 with `dethcl/util.go` L25-43 for values of struct type and pointers to structs.

* Types and values are those of `Model/HclStruct`.  In variables of pointer, interface, slice and map type the value
  `leaf 0` is nil; in a variable of basic type it is the zero value.  A pointer to a value that is not a struct is
  another `leaf`.
* The number of a nested call counts down from the depth of the value, which is finite: pointers that lead back to
  themselves are not modelled.
* `gohcl.EncodeIntoBody` and `hclwrite` (external) write one line per attribute, in the order of the fields; how a value
  is written and how far the equal signs are moved to the right for alignment are parameters (`PExt`).  So are the text
  of generic data (`encoding`, see `Model/HclPrint`) and of pointers to basic values.
* Go's random map iteration order is the parameter `PExt.ord`, indexed by the place in the value.

Simplifications: no type implements `Marshaler` (see `Model/OwnStruct` for such types); pointers to embedded structs are nil; there are no pointers to pointers; tags given
to `gohcl` are of the kinds attribute, optional and label (otherwise `unsupported`); `strings.ToLower` is modelled for ASCII.
-/

namespace Verif.HclS
open Hcl (indent joinB)
open Det (KeyTy)

/-- External behaviour. -/
structure PExt where
  /-- whether a field is embedded -/
  anon : Fld → Bool
  /-- the expression `hclwrite` writes for a value of ordinary type -/
  expr : Fld → Val → Bytes
  /-- the spaces added behind a name to align the equal signs of these attributes -/
  pad : List (Bytes × Bytes) → Bytes → Nat
  /-- dethcl/encoding.go L112-190 `encoding` of generic data, at a level -/
  enc : Val → Nat → Except Fail Bytes
  /-- dethcl/marshal.go L80-93: the text for a basic value or a pointer to it -/
  raw : Val → Bytes
  /-- iteration order of a map at a place of the value -/
  ord : List Bytes → List Bytes → List Bytes
  ord2 : List Bytes → List (Bytes × Bytes) → List (Bytes × Bytes)
  /-- bounds how deep structs are embedded -/
  embedded : Nat

mutual
/-- `reflect.Value.IsZero` -/
def Val.isZero : Val → Bool
  | .str s => s.isEmpty
  | .leaf x => x = 0
  | .ref _ _ => false
  | .inst _ fs => allZero fs
  | .slice _ => false
  | .map _ => false
  | .map2 _ => false
def allZero : List (Bytes × Val) → Bool
  | [] => true
  | (_, v) :: r => v.isZero && allZero r
end

mutual
/-- How deep structs are nested. -/
def Val.depth : Val → Nat
  | .str _ => 0
  | .leaf _ => 0
  | .ref _ fs => depthF fs + 1
  | .inst _ fs => depthF fs + 1
  | .slice l => depthL l
  | .map m => depthF m
  | .map2 m => depthP m
def depthF : List (Bytes × Val) → Nat
  | [] => 0
  | (_, v) :: r => max v.depth (depthF r)
def depthL : List Val → Nat
  | [] => 0
  | v :: r => max v.depth (depthL r)
def depthP : List ((Bytes × Bytes) × Val) → Nat
  | [] => 0
  | (_, v) :: r => max v.depth (depthP r)
end

/-- A white space byte for dethcl/marshal.go L164 and L425. -/
def isBlankB (c : UInt8) : Bool := c = 32 || c = 9 || c = 10 || c = 13

/-- dethcl/marshal.go L423-430 `isBlanck` -/
def isBlank (s : Bytes) : Bool := s.all isBlankB

/-- dethcl/marshal.go L164 `strings.TrimRight(str, " \t\n\r")` -/
def trimRight (s : Bytes) : Bytes := (s.reverse.dropWhile isBlankB).reverse

/-- dethcl/marshal.go L146 `strings.ReplaceAll(str, "\n", "\n"+leading)` -/
def indentLines (leading : Bytes) : Bytes → Bytes
  | [] => []
  | c :: r => if c = 10 then 10 :: leading ++ indentLines leading r else c :: indentLines leading r

/-! ## The fields -/

/-- dethcl/marshal.go L175-179 `marshalField`; the tag of the field is the one that is used. -/
structure PFld where
  fld : Fld
  val : Val
  out : Bool

/-- dethcl/marshal.go L216-218, L278-280: a pointer to a slice or map is treated as the slice or map. -/
def Ty.coll : Ty → Ty
  | .ptr (.slice e) => .slice e
  | .ptr (.map k e) => .map k e
  | t => t

/-- The kinds of dethcl/marshal.go L233, L243. -/
def Ty.isComposite : Ty → Bool
  | .any | .iface _ | .map _ _ | .ptr _ | .slice _ | .struct _ => true
  | _ => false

/-- `reflect.Value.Len` of a slice or map. -/
def Val.len : Val → Nat
  | .slice l => l.length
  | .map m => m.length
  | .map2 m => m.length
  | _ => 0

/-- dethcl/marshal.go L223-251: whether the field is written by `getOutlier`; `none`: it is skipped. -/
def passOf (ty : Ty) (v : Val) : Option Bool :=
  match ty with
  | .any | .iface _ | .ptr _ | .struct _ => some true
  | .slice e => some (v.len = 0 || e.isComposite)
  | .map _ e => some (v.len = 0 || e.isComposite)
  | _ => if v.isZero then none else some false

/-- dethcl/marshal.go L252-258: the tag for a field without tag. -/
def withTag (f : Fld) (pass : Bool) : Fld :=
  if f.tag = [] then { f with rawTag := b "hcl:\"" ++ lower f.name ++ (if pass then b ",block\"" else b ",optional\"") } else f

/-- dethcl/marshal.go L215-259: a field that is not embedded. -/
def fieldEntry (f : Fld) (v : Val) : List PFld :=
  if f.ty.coll ≠ f.ty ∧ v.isZero then []                                            -- L219-221
  else match passOf f.ty.coll v with
    | none => []
    | some pass => [⟨withTag f pass, v, pass⟩]

/-- dethcl/marshal.go L183-260: the loop of `getFields`; `deep` is the recursive call.  The fields of an embedded struct
are among those of the struct. -/
def fieldList (env : Env) (pe : PExt) (fs : Fields) (deep : List Fld → Except Fail (List PFld)) : List Fld → Except Fail (List PFld)
  | [] => .ok []
  | f :: l =>
    if !f.upper then fieldList env pe fs deep l                                     -- L186-188
    else if f.tag = b "-" ∨ (b ",-").isSuffixOf f.tag then fieldList env pe fs deep l  -- L192-194
    else if pe.anon f ∧ f.tag = [] then
      match f.ty with
      | .ptr (.struct c) =>                                                         -- L198-203
        if (env.struct c).fields.any (fun g => g.upper) then .error .panic else fieldList env pe fs deep l
      | .struct c =>                                                                -- L204-209
        match deep (env.struct c).fields with
        | .error x => .error x
        | .ok r => (fieldList env pe fs deep l).map fun r' => r ++ r'
      | .ptr _ => .error .panic
      | _ => fieldList env pe fs deep l
    else
      match GoMap.get? fs f.name with
      | none => .error .unsupported
      | some v => (fieldList env pe fs deep l).map fun r => fieldEntry f v ++ r

/-- dethcl/marshal.go L181-262 `getFields`; the number bounds the nesting of calls. -/
def getFields (env : Env) (pe : PExt) (fs : Fields) : Nat → List Fld → Except Fail (List PFld)
  | 0 => fieldList env pe fs fun _ => .error .hang
  | n + 1 => fieldList env pe fs (getFields env pe fs n)

/-! ## Blocks -/

/-- dethcl/marshal.go L264-269 `marshalOut` -/
structure POut where
  tag : Bytes
  labels : List Bytes
  text : Bytes
  encode : Bool

/-- The recursive call: place, level, keyname, whether the struct is addressable, its class and content. -/
abbrev PRec := List Bytes → Nat → List Bytes → Bool → Nat → Fields → Except Fail Bytes

/-- dethcl/marshal.go L73-98: a pointer to a value that is no struct; `getFields` panics for pointers to collections (L183
`NumField`). -/
def pointerText (pe : PExt) (t : Ty) (v : Val) : Except Fail Bytes :=
  match t with
  | .str | .leaf _ =>
    match v with
    | .str _ | .leaf _ => .ok (pe.raw v)
    | _ => .error .unsupported
  | .struct _ => .error .unsupported
  | _ => .error .panic

/-- dethcl/marshal.go L30-43 `marshalLevel` for a value in a variable of the given type. -/
def levelText (pe : PExt) (rec : PRec) (path : List Bytes) (level : Nat) (ty : Ty) (v : Val) : Except Fail Bytes :=
  if v.isZero then .ok []                                                           -- L32-34
  else match v with
    | .ref c fs => rec path level [] true c fs
    | .inst c fs => rec path level [] false c fs
    | v => match ty with
      | .ptr t => pointerText pe t v
      | _ => pe.enc v level

/-- dethcl/marshal.go L289-292 and the like. -/
def outOf (f : Fld) (labels : List Bytes) (encode : Bool) (text : Bytes) : List POut :=
  if isBlank text then [] else [⟨f.tag, labels, text, encode⟩]

/-- dethcl/marshal.go L318-328, L363-373: whether elements are written one by one. -/
def isLoop (ety : Ty) (first : Val) : Bool :=
  match ety with
  | .ptr _ | .struct _ => true
  | .any | .iface _ => match first with
    | .ref _ _ | .inst _ _ => true
    | _ => false
  | _ => false

/-- dethcl/marshal.go L331-341: the elements of a slice. -/
def sliceOuts (pe : PExt) (rec : PRec) (path : List Bytes) (level : Nat) (f : Fld) (ety : Ty) : List Val → Except Fail (List POut)
  | [] => .ok []
  | v :: l =>
    match levelText pe rec (path ++ [f.name, List.replicate l.length 0]) (level + 1) ety v with
    | .error x => .error x
    | .ok t => (sliceOuts pe rec path level f ety l).map fun r => outOf f [] false t ++ r

/-- dethcl/marshal.go L395: `marshal` of a map element with the keys as keyname. -/
def elemText (env : Env) (pe : PExt) (rec : PRec) (path : List Bytes) (level : Nat) (keys : List Bytes) (ety : Ty) (v : Val) :
    Except Fail Bytes :=
  match v with
  | .ref c fs => rec path level keys true c fs
  | .inst c fs => rec path level keys false c fs
  | .leaf 0 =>
    match ety with
    | .ptr (.struct c) =>                                                           -- L189 with a nil pointer
      if (env.struct c).fields.any (fun g => g.upper) then .error .panic
      else .ok (b "{\n\n" ++ indent level ++ b "}")                                 -- L164-166 without fields
    | .ptr .str | .ptr (.leaf _) => .ok []                                          -- L85-93
    | .ptr _ => .error .panic                                                       -- L183 NumField
    | _ => .ok []                                                                   -- L46-48
  | .str _ => .ok (pe.raw v)
  | .leaf _ =>
    match ety with
    | .ptr t => pointerText pe t v
    | _ => .ok (pe.raw v)
  | _ => .error .panic                                                              -- L183 NumField

/-- dethcl/marshal.go L376-403: the elements of a map, with the labels for each of the keys. -/
def mapOuts {κ : Type} [DecidableEq κ] (env : Env) (pe : PExt) (rec : PRec) (path : List Bytes) (level : Nat) (f : Fld) (ety : Ty)
    (labelsOf : κ → List Bytes) (m : List (κ × Val)) : List κ → Except Fail (List POut)
  | [] => .ok []
  | k :: ks =>
    match GoMap.get? m k with
    | none => mapOuts env pe rec path level f ety labelsOf m ks
    | some v =>
      match elemText env pe rec (path ++ f.name :: labelsOf k) (level + 1) (labelsOf k) ety v with
      | .error x => .error x
      | .ok t => (mapOuts env pe rec path level f ety labelsOf m ks).map fun r => outOf f (labelsOf k) false t ++ r

/-- dethcl/marshal.go L381-387: the parts of a pair that are not empty. -/
def pairLabels (k : Bytes × Bytes) : List Bytes := [k.1, k.2].filter (· ≠ [])

/-- dethcl/marshal.go L412-415 -/
def Ty.isIface : Ty → Bool
  | .any | .iface _ => true
  | _ => false

/-- dethcl/marshal.go L271-421 `getOutlier` -/
def outlier (env : Env) (pe : PExt) (rec : PRec) (path : List Bytes) (level : Nat) (addr : Bool) (f : Fld) (v : Val) :
    Except Fail (List POut) :=
  match f.ty.coll with
  | .any | .iface _ | .ptr _ =>                                                     -- L283-292
    (levelText pe rec (path ++ [f.name]) (level + 1) f.ty v).map (outOf f [] false)
  | .struct _ =>                                                                    -- L293-307
    match v with
    | .inst c fs =>
      (if addr then rec (path ++ [f.name]) (level + 1) [] true c fs
        else levelText pe rec (path ++ [f.name]) (level + 1) f.ty v).map (outOf f [] false)
    | _ => .error .unsupported
  | .slice e =>
    match v with
    | .slice [] => .ok [⟨f.tag, [], b "[]", true⟩]                                  -- L314-316
    | .slice (x :: l) =>
      if isLoop e x then sliceOuts pe rec path level f e (x :: l)                   -- L330-341
      else (pe.enc v (level + 1)).map (outOf f [] true)                             -- L342-350
    | _ => .ok []                                                                   -- L309-311
  | .map _ e =>
    match v with
    | .map [] => .ok [⟨f.tag, [], b "{\n" ++ indent (level + 1) ++ b "}", false⟩]   -- L358-361
    | .map2 [] => .ok [⟨f.tag, [], b "{\n" ++ indent (level + 1) ++ b "}", false⟩]
    | .map m =>
      if isLoop e (((pe.ord (path ++ [f.name, f.name]) (GoMap.keys m)).head?.bind (GoMap.get? m)).getD (.leaf 0)) then
        mapOuts env pe rec path level f e (fun k => [k]) m (pe.ord (path ++ [f.name]) (GoMap.keys m))
      else (pe.enc v (level + 1)).map (outOf f [] (!e.isIface))                     -- L404-416
    | .map2 m =>
      if isLoop e (((pe.ord2 (path ++ [f.name, f.name]) (GoMap.keys m)).head?.bind (GoMap.get? m)).getD (.leaf 0)) then
        mapOuts env pe rec path level f e pairLabels m (pe.ord2 (path ++ [f.name]) (GoMap.keys m))
      else (pe.enc v (level + 1)).map (outOf f [] (!e.isIface))
    | _ => .ok []                                                                   -- L353-355
  | _ => .ok []

/-! ## The text of a struct -/

/-- dethcl/marshal.go L115-139: blocks and labels, in the order of the fields. -/
def collect (env : Env) (pe : PExt) (rec : PRec) (path : List Bytes) (level : Nat) (addr : Bool) (keyname : List Bytes) :
    List PFld → Except Fail (List POut × List Bytes)
  | [] => .ok ([], [])
  | p :: ps =>
    if p.out then
      match outlier env pe rec path level addr p.fld p.val with
      | .error x => .error x
      | .ok o => (collect env pe rec path level addr keyname ps).map fun r => (o ++ r.1, r.2)
    else if p.fld.what = b "label" then
      match p.fld.ty, p.val with
      | .str, .str s =>
        (collect env pe rec path level addr keyname ps).map fun r =>
          (r.1, if keyname.head? = some s then r.2 else s :: r.2)                   -- L130-132
      | _, _ => .error .panic                                                       -- L129
    else if p.fld.ty.coll ≠ p.fld.ty then .error .panic                             -- L136 a collection for a pointer to it
    else collect env pe rec path level addr keyname ps

/-- The fields for `gohcl`. -/
def plainOf (ps : List PFld) : List PFld := ps.filter fun p => !p.out && p.fld.what ≠ b "label"

/-- External `gohcl`: the attributes in the order of the fields; if a tag comes again, the last field has it. -/
def attrsOf (pe : PExt) : List PFld → List (Bytes × Bytes)
  | [] => []
  | p :: ps => if ps.any (fun q => q.fld.tag = p.fld.tag) then attrsOf pe ps else (p.fld.tag, pe.expr p.fld p.val) :: attrsOf pe ps

/-- External `hclwrite`: an attribute. -/
def attrLine (pad : Bytes → Nat) (a : Bytes × Bytes) : Bytes := a.1 ++ List.replicate (pad a.1) 32 ++ b " = " ++ a.2 ++ [10]

/-- dethcl/marshal.go L141-143: the attributes. -/
def attrText (pe : PExt) (attrs : List (Bytes × Bytes)) : Bytes := (attrs.map (attrLine (pe.pad attrs))).flatten

/-- Labels in quotes, with a space after each. -/
def labelText (labels : List Bytes) : Bytes :=
  match labels with
  | [] => []
  | l :: ls => 34 :: joinB (b "\" \"") (l :: ls) ++ b "\" "

/-- dethcl/marshal.go L149-159 -/
def outLine (o : POut) : Bytes := o.tag ++ 32 :: (if o.encode then b "= " else []) ++ labelText o.labels ++ o.text

/-- dethcl/marshal.go L145-164: what is between the braces. -/
def structText (pe : PExt) (level : Nat) (attrs : List (Bytes × Bytes)) (outs : List POut) : Bytes :=
  trimRight (indent (level + 1) ++ indentLines (indent (level + 1)) (attrText pe attrs) ++
    joinB (10 :: indent (level + 1)) (outs.map outLine))

/-- dethcl/marshal.go L165-170 -/
def wrapText (level : Nat) (labels : List Bytes) (s : Bytes) : Bytes :=
  if level = 0 then s else labelText labels ++ b "{\n" ++ s ++ 10 :: indent level ++ b "}"

/-- dethcl/marshal.go L45-173 `marshal` of a struct; `rec` is the call for the structs in its fields. -/
def marshalStruct (env : Env) (pe : PExt) (rec : PRec) : PRec := fun path level keyname addr c fs =>
  match getFields env pe fs pe.embedded (env.struct c).fields with
  | .error x => .error x
  | .ok ps =>
    match collect env pe rec path level addr keyname ps with
    | .error x => .error x
    | .ok (outs, labels) =>
      if ¬ ((ps.filter fun p => !p.out).map fun p => p.fld.name).Nodup then .error .panic      -- L110 StructOf
      else if (plainOf ps).any fun p => !supported p.fld then .error .unsupported
      else .ok (wrapText level labels (structText pe level (attrsOf pe (plainOf ps)) outs))

/-- The same with the recursion. -/
def marshalN (env : Env) (pe : PExt) : Nat → PRec
  | 0, _, _, _, _, _, _ => .error .hang
  | n + 1, path, level, keyname, addr, c, fs => marshalStruct env pe (marshalN env pe n) path level keyname addr c fs

/-- dethcl/marshal.go L19-28 `Marshal` of a struct or of a pointer to a struct. -/
def marshalVal (env : Env) (pe : PExt) (v : Val) : Except Fail Bytes :=
  levelText pe (marshalN env pe v.depth) [] 0 .any v

end Verif.HclS
