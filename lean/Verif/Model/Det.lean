import Verif.Model.Go
/-!
# Model of package `det`: `JsonUnmarshal` and type discovery

* Go types: `Ty`, with declared struct, interface and other defined types referred to by
  number and described by an `Env`, so that recursive types are finite data.
* `current` is a pointer to a struct of a declared type; its state is an `Inst`: the flat
  list of its fields, those of embedded structs included (promotion).
  Simplification: field names are distinct after promotion (where `reflect.StructOf` would
  see a duplicate the model panics, as it does).
* Documents are JSON trees (`none`: text that is not JSON, among others the empty text).
* `encoding/json` is external.  Its treatment of the fresh `reflect.StructOf` value
  (`rawDecode`) is modelled from memory of the package; how it decodes a value into a field of ordinary
  type, and into a whole struct when there is no specification, are parameters (`Ext`).
* Go's random map iteration order is the parameter `Ext.ord`, indexed by the place in the
  document, so that every iteration may use another order.
* Go maps in results are lists sorted by key, so that equality of lists is equality of maps.
* Errors carry no text.  `panic` and `hang` (type discovery that does not terminate) are
  explicit outcomes.
-/
namespace Verif.Det

/-- A JSON value; `atom` is a string, number or boolean (kept as its text). -/
inductive J where
  | null
  | atom (text : Bytes)
  | arr (l : List J)
  | obj (m : List (Bytes × J))

/-- A document: `none` is a text that is not valid JSON. -/
abbrev Doc := Option J

/-- Key types of maps. -/
inductive KeyTy where
  | str | str2 | other
  deriving DecidableEq

/-- Go types.  `struct`, `iface`: declared or literal struct and interface types; `named`:
any other defined type (`type T []X`); `leaf`: everything else (basic types, arrays, ...). -/
inductive Ty where
  | leaf (id : Nat)
  | struct (id : Nat)
  | iface (id : Nat)
  | ptr (t : Ty)
  | slice (t : Ty)
  | map (k : KeyTy) (t : Ty)
  | named (id : Nat)
  deriving DecidableEq

/-- A struct field: Go name, whether its first rune is upper case, the content of the
`json` tag, the type, and for an anonymous field of struct kind the fields of that struct. -/
inductive Fld where
  | mk (name : Bytes) (upper : Bool) (tag : Bytes) (ty : Ty) (embed : Option (List Fld))

def Fld.name : Fld → Bytes | .mk n _ _ _ _ => n
def Fld.upper : Fld → Bool | .mk _ u _ _ _ => u
def Fld.tag : Fld → Bytes | .mk _ _ t _ _ => t
def Fld.ty : Fld → Ty | .mk _ _ _ t _ => t
def Fld.embed : Fld → Option (List Fld) | .mk _ _ _ _ e => e

/-- A struct type: `Name()` (empty if it has none), the last element of `PkgPath()` (empty if
it has none) and the fields. -/
structure StructDecl where
  name : Bytes
  pkg : Bytes
  fields : List Fld

/-- An interface type: `Name()` and which struct types implement it by their pointer type. -/
structure IfaceDecl where
  name : Bytes
  impl : Nat → Bool

/-- The declared types. -/
structure Env where
  struct : Nat → StructDecl
  iface : Nat → IfaceDecl
  /-- underlying types; those are never `named` themselves -/
  under : Nat → Ty

/-- The type as seen through `Kind()` and `Elem()`. -/
def Env.resolve (env : Env) : Ty → Ty
  | .named i => env.under i
  | t => t

/-- Go values.  `leaf` is any value produced by `encoding/json` (or zero); `ref` a pointer to
a struct (in a pointer or interface variable); `inst` a struct; maps are sorted by key. -/
inductive Val where
  | leaf (x : Nat)
  | ref (cls : Nat) (fields : List (Bytes × Val))
  | inst (cls : Nat) (fields : List (Bytes × Val))
  | slice (l : List Val)
  | map (m : List (Bytes × Val))
  | map2 (m : List ((Bytes × Bytes) × Val))

/-- The state of a struct: its type and its promoted fields. -/
structure Inst where
  cls : Nat
  fields : List (Bytes × Val)

mutual
/-- `schema.Struct` (external, of the shape of utils/determined.pb.go L23-30): a class name
and the specified fields.  A nil or empty field map is `[]`.  Simplification: the pointers
inside lists and maps are not nil. -/
inductive Cls where
  | mk (name : Bytes) (fields : List (Bytes × CVal))
/-- `schema.Value`; `none`: a nil `Value` or one without content. -/
inductive CVal where
  | none
  | single (s : Cls)
  | list (l : List Cls)
  | map (m : List (Bytes × Cls))
  | map2 (m : List (Bytes × List (Bytes × Cls)))
end

def Cls.name : Cls → Bytes | .mk n _ => n
def Cls.fields : Cls → List (Bytes × CVal) | .mk _ f => f

/-- A template in the registry: nil, a pointer to a struct (with its content), or a value
whose type has no `Elem` (`clone` panics). Simplification: pointers to other types are left
out. -/
inductive Tmpl where
  | nil
  | ptr (cls : Nat) (content : List (Bytes × Val))
  | bad

/-- A value of the `ref` argument: `[]any` implementations (their dynamic types, `none` for a
nil element) or a template. -/
inductive RefV where
  | impls (l : List (Option Ty))
  | tmpl (t : Tmpl)

/-- The `ref` argument. -/
abbrev Ref := GoMap Bytes RefV
/-- The merged registry (L43-52 of det/unmarshal.go). -/
abbrev Reg := GoMap Bytes Tmpl

/-- External behaviour. -/
structure Ext where
  /-- zero value of a field of that type -/
  zero : Ty → Val
  /-- `encoding/json` decoding of one value into a field (its tag options included) that
  has a current value; `none`: error -/
  leaf : Fld → Val → J → Option Val
  /-- `json.Unmarshal` of a valid document into a struct: the fields afterwards and whether an error is returned -/
  plain : Inst → J → List (Bytes × Val) × Bool
  /-- the key folding of `encoding/json` -/
  fold : Bytes → Bytes
  /-- whether `reflect.StructOf` accepts these fields (apart from duplicates) -/
  structOf : List Fld → Bool
  /-- iteration order of a map at a place of the document -/
  ord : List Bytes → List Bytes → List Bytes

/-- Results of the internal steps. -/
inductive Out (α : Type) where
  | ok (a : α)
  | err
  | panic
  | hang

def Out.bind {α β : Type} : Out α → (α → Out β) → Out β
  | .ok a, f => f a
  | .err, _ => .err
  | .panic, _ => .panic
  | .hang, _ => .hang

/-- Result of `JsonUnmarshal`: it returns, with the target in the given state and an error or
not; or it panics; or it does not return. -/
inductive Res where
  | ret (target : Inst) (err : Bool)
  | panic
  | hang

/-- External `json.Unmarshal(dat, current)`: the text is checked before anything is stored. -/
def plainUnmarshal (ext : Ext) (tgt : Inst) : Doc → Res
  | none => .ret tgt true
  | some j => .ret ⟨tgt.cls, (ext.plain tgt j).1⟩ (ext.plain tgt j).2

/-! ## Type discovery -/

/-- det/collect.go L28-31: one pointer is followed. -/
def Env.deref (env : Env) (t : Ty) : Ty := match env.resolve t with | .ptr e => e | _ => t

/-- det/collect.go L58-70: a struct type is registered under its name and, if it has a package
path, under the qualified name. -/
def register (env : Env) (zero : Nat → List (Bytes × Val)) (ref : Reg) (c : Nat) : Reg :=
  let ref := GoMap.set ref (env.struct c).name (.ptr c (zero c))
  if (env.struct c).pkg = [] then ref
  else GoMap.set ref ((env.struct c).pkg ++ 46 :: (env.struct c).name) (.ptr c (zero c))

/-- det/collect.go L24-76 `collectStructTypes`; `none`: more than the given number of nested
calls.  `zero` is the fresh content of a struct type. -/
def collectN (env : Env) (zero : Nat → List (Bytes × Val)) (impls : GoMap Bytes (List (Option Ty))) :
    Nat → Ty → Reg → Option Reg
  | 0, _, _ => none
  | fuel + 1, t, ref =>
    match env.resolve (env.deref t) with
    | .iface i =>                                                        -- L34-41
      match GoMap.get? impls (env.iface i).name with
      | some l => l.foldlM (fun ref ot =>
          match ot with
          | some t => collectN env zero impls fuel t ref
          | none => some ref) ref                                        -- L25-27
      | none => some ref
    | .map _ e => collectN env zero impls fuel e ref                     -- L44-47
    | .slice e => collectN env zero impls fuel e ref                     -- L50-53
    | .struct c =>
      if (env.struct c).name = [] ∨ (GoMap.get? ref (env.struct c).name).isSome then some ref  -- L60-63
      else (env.struct c).fields.foldlM (fun ref f => collectN env zero impls fuel f.ty ref)
        (register env zero ref c)                                        -- L64-75
    | _ => some ref                                                      -- L55-57

mutual
/-- det/util.go L55-95: what one field of the struct contributes. -/
def Fld.loop : Fld → List Fld
  | .mk n u tag ty e =>
    if !u then []                                                        -- L57-59
    else if tag = b "-" ∨ (b ",-").isSuffixOf tag then []                -- L60-63
    else if tag = [] then loopEmbed (.mk n u tag ty e) e                 -- L64-74
    else [.mk n u tag ty e]                                              -- L75-95
/-- det/util.go L64-74: an untagged anonymous struct contributes its own fields. -/
def loopEmbed (f : Fld) : Option (List Fld) → List Fld
  | none => [f]
  | some deep => loopFields deep
/-- det/util.go L51-98 `loopFields` flattened over embedded structs: the fields of the struct
built by `reflect.StructOf`, each with its original declaration (`origTypes`; the changed
types are in `rawKind`). -/
def loopFields : List Fld → List Fld
  | [] => []
  | f :: fs => f.loop ++ loopFields fs
end

mutual
/-- The promoted fields that one field contributes. -/
def Fld.flat : Fld → List (Bytes × Ty)
  | .mk n _ tag ty e => if tag = [] then flatEmbed n ty e else [(n, ty)]
def flatEmbed (n : Bytes) (ty : Ty) : Option (List Fld) → List (Bytes × Ty)
  | none => [(n, ty)]
  | some deep => flatFields deep
/-- The names of all promoted fields with their types (for fresh instances).  An embedded struct
with a tag is one field, as for `loopFields`. -/
def flatFields : List Fld → List (Bytes × Ty)
  | [] => []
  | f :: fs => f.flat ++ flatFields fs
end

/-- A fresh zero struct (`reflect.New(t)`). -/
def fresh (env : Env) (ext : Ext) (c : Nat) : List (Bytes × Val) :=
  (flatFields (env.struct c).fields).map fun f => (f.1, ext.zero f.2)

/-! ## Decoding the raw struct with `encoding/json` -/

/-- The types given to specified fields, det/util.go L76-91. -/
inductive RawKind where
  | msg | list | map | map2 | val
  deriving DecidableEq

/-- det/util.go L75-95: the type of the field in the raw struct. -/
def rawKind (env : Env) (objectMap : List (Bytes × CVal)) (f : Fld) : RawKind :=
  match GoMap.get? objectMap f.name with
  | none => .val
  | some (.map2 _) => .map2
  | some (.map _) => .map
  | some (.list _) => match env.resolve f.ty with | .map _ _ => .map | _ => .list
  | some _ => .msg

/-- A field value of the raw struct: `json.RawMessage` (`none`: never set), `[]RawMessage`,
`map[string]RawMessage`, `map[string]map[string]RawMessage`, or an ordinary value.  Nil and
empty slices and maps are not distinguished (L119, L147, L241 only use their length and keys). -/
inductive Raw where
  | msg (d : Doc)
  | list (l : List J)
  | map (m : GoMap Bytes J)
  | map2 (m : GoMap Bytes (GoMap Bytes J))
  | val (v : Val)

/-- The zero raw field. -/
def rawZero (ext : Ext) (k : RawKind) (f : Fld) : Raw :=
  match k with
  | .msg => .msg none
  | .list => .list []
  | .map => .map []
  | .map2 => .map2 []
  | .val => .val (ext.zero f.ty)

/-- External `encoding/json`: the members of an object are stored into a map in order. -/
def mergeMembers {α : Type} (m : GoMap Bytes α) (l : List (Bytes × α)) : GoMap Bytes α :=
  l.foldl (fun m e => GoMap.set m e.1 e.2) m

/-- External `encoding/json`: decode into `map[string]json.RawMessage`. -/
def innerMap : J → Option (GoMap Bytes J)
  | .null => some []
  | .obj m => some (mergeMembers [] m)
  | _ => none

/-- External `encoding/json`: decode a member into the raw field (`none`: error). -/
def rawSet (ext : Ext) (f : Fld) : Raw → J → Option Raw
  | .msg _, j => some (.msg (some j))
  | .list _, .null => some (.list [])
  | .list _, .arr l => some (.list l)
  | .list _, _ => none
  | .map _, .null => some (.map [])
  | .map m, .obj l => some (.map (mergeMembers m l))
  | .map _, _ => none
  | .map2 _, .null => some (.map2 [])
  | .map2 m, .obj l =>
    (l.mapM fun e => (innerMap e.2).map fun x => (e.1, x)).map fun l => .map2 (mergeMembers m l)
  | .map2 _, _ => none
  | .val v, j => (ext.leaf f v j).map .val

/-- External `encoding/json`: the JSON name of a field: the tag up to the comma, or the Go
name. (Invalid tag names are left out.) -/
def Fld.key (f : Fld) : Bytes :=
  match f.tag.takeWhile (· ≠ 44) with
  | [] => f.name
  | k => k

/-- External `encoding/json`: the field an object key is decoded into: the exact name, else
the first that is equal after folding.  Simplification: two fields with the same JSON name
(which `encoding/json` both ignores) are left out. -/
def findField (ext : Ext) (fs : List Fld) (key : Bytes) : Option Nat :=
  match fs.findIdx? (fun f => f.key = key) with
  | some i => some i
  | none => fs.findIdx? (fun f => ext.fold f.key = ext.fold key)

/-- External `encoding/json`: one member of the object.  Unknown keys are skipped. -/
def rawMember (ext : Ext) (fs : List Fld) (raws : List Raw) (e : Bytes × J) : Option (List Raw) :=
  match findField ext fs e.1 with
  | none => some raws
  | some i =>
    match fs[i]?, raws[i]? with
    | some f, some r => (rawSet ext f r e.2).map fun r' => raws.set i r'
    | _, _ => some raws

/-- det/unmarshal.go L60-65: `json.Unmarshal(dat, raw)` into the fresh raw struct. -/
def rawDecode (ext : Ext) (kind : Fld → RawKind) (fs : List Fld) : Doc → Option (List Raw)
  | none => none
  | some .null => some (fs.map fun f => rawZero ext (kind f) f)
  | some (.obj m) => m.foldlM (rawMember ext fs) (fs.map fun f => rawZero ext (kind f) f)
  | some _ => none

/-! ## The handlers -/

/-- Byte-wise lexicographic order (Go string comparison). -/
def ltB : Bytes → Bytes → Bool
  | [], [] => false
  | [], _ :: _ => true
  | _ :: _, [] => false
  | x :: xs, y :: ys => x < y || (x = y && ltB xs ys)

/-- Store into a sorted map. -/
def insertK {κ α : Type} [DecidableEq κ] (lt : κ → κ → Bool) (k : κ) (v : α) : List (κ × α) → List (κ × α)
  | [] => [(k, v)]
  | (k', v') :: m =>
    if k = k' then (k, v) :: m
    else if lt k k' then (k, v) :: (k', v') :: m
    else (k', v') :: insertK lt k v m

/-- Order of two-label keys. -/
def ltB2 (x y : Bytes × Bytes) : Bool := ltB x.1 y.1 || (x.1 = y.1 && ltB x.2 y.2)

/-- det/util.go L24-35 `getFirstFromMap`: the entry of the smallest key. -/
def getFirst {α : Type} : List (Bytes × α) → Option α
  | [] => none
  | (k, v) :: m =>
    some (m.foldl (fun best e => if ltB e.1 best.1 then e else best) (k, v)).2

/-- Whether a `*C` can be stored in a variable of that type (`reflect.Value.Set`,
`SetMapIndex`). -/
def assignable (env : Env) (t : Ty) (c : Nat) : Bool :=
  match env.resolve t with
  | .ptr (.struct c') => c == c'
  | .iface i => (env.iface i).impl c
  | _ => false

section handlers

/-- det/util.go L15-21 `getRef`, L47-49 `clone`, and the recursive call that fills the fresh
instance (det/unmarshal.go L129-136, L179-186, L202-209, L270-278). -/
def element (env : Env) (ext : Ext) (reg : Reg) (rec : List Bytes → Inst → Cls → Doc → Res)
    (path : List Bytes) (s : Cls) (d : Doc) : Out Inst :=
  match GoMap.get? reg s.name with
  | none => .err
  | some .nil => .err
  | some .bad => .panic
  | some (.ptr c _) =>
    match rec path ⟨c, fresh env ext c⟩ s d with
    | .ret i false => .ok i
    | .ret _ true => .err
    | .panic => .panic
    | .hang => .hang

variable (env : Env) (ord : List Bytes → List Bytes → List Bytes)
-- `element` with its first arguments: a fresh instance filled from a document
variable (el : List Bytes → Cls → Doc → Out Inst)

/-- Storing `reflect.ValueOf(trial)` into a variable of type `t`. -/
def store (t : Ty) (i : Inst) : Out Val :=
  if assignable env t i.cls then .ok (.ref i.cls i.fields) else .panic

/-- Path element of a list index (only to index the iteration orders). -/
def idxPath (k : Nat) : Bytes := List.replicate k 0

/-- det/unmarshal.go L119-138: the loop of `handleMapStruct` over the keys. -/
def mapLoop (path : List Bytes) (kt : KeyTy) (et : Ty) (specs : List (Bytes × Cls)) (first : Cls)
    (raw : GoMap Bytes J) : List Bytes → List (Bytes × Val) → Out (List (Bytes × Val))
  | [], fMap => .ok fMap
  | key :: keys, fMap =>
    let nextStruct := (GoMap.get? specs key).getD first                   -- L125-128
    (el (path ++ [key]) nextStruct (GoMap.get? raw key)).bind fun i =>
    (store env et i).bind fun v =>
    if kt ≠ .str then .panic                                              -- L137
    else mapLoop path kt et specs first raw keys (insertK ltB key v fMap)

/-- det/unmarshal.go L110-141 `handleMapStruct`. -/
def handleMapStruct (path : List Bytes) (fieldType : Ty) (specs : List (Bytes × Cls))
    (raw : GoMap Bytes J) : Out Val :=
  match getFirst specs with
  | none => .err                                                          -- L112-114
  | some first =>
    match env.resolve fieldType with
    | .map kt et =>
      (mapLoop env el path kt et specs first raw (ord path raw.keys) []).bind
        fun m => .ok (.map m)
    | _ => .panic                                                         -- L121 MakeMap

/-- det/unmarshal.go L165-192: the slice case of the loop of `handleListOrMapStruct`; `k` is
the next index. -/
def sliceLoop (path : List Bytes) (et : Ty) (specs : List Cls) (first : Cls) :
    Nat → List J → Out (List Val)
  | _, [] => .ok []
  | k, j :: js =>
    let nextStruct := (specs[k]?).getD first                              -- L174-177
    (el (path ++ [idxPath k]) nextStruct (some j)).bind fun i =>
    (store env et i).bind fun v =>
    (sliceLoop path et specs first (k + 1) js).bind fun vs => .ok (v :: vs)

/-- det/unmarshal.go L165-192: the map case of the same loop. -/
def listMapLoop (path : List Bytes) (kt : KeyTy) (et : Ty) (specs : List Cls) (first : Cls)
    (raw : GoMap Bytes J) : Nat → List Bytes → List (Bytes × Val) → Out (List (Bytes × Val))
  | _, [], fMap => .ok fMap
  | k, key :: keys, fMap =>
    let nextStruct := (specs[k]?).getD first
    (el (path ++ [key]) nextStruct (GoMap.get? raw key)).bind fun i =>
    (store env et i).bind fun v =>
    if kt ≠ .str then .panic
    else listMapLoop path kt et specs first raw (k + 1) keys (insertK ltB key v fMap)

/-- det/unmarshal.go L146-199 `handleListOrMapStruct`. -/
def handleListOrMapStruct (path : List Bytes) (fieldType : Ty) (specs : List Cls) (raw : Raw) :
    Out Val :=
  match specs with
  | [] => .err                                                            -- L151-153
  | first :: _ =>
    match env.resolve fieldType, raw with
    | .map kt et, .map m =>
      (listMapLoop env el path kt et specs first m 0 (ord path m.keys) []).bind
        fun m => .ok (.map m)
    | .slice et, .list l =>
      (sliceLoop env el path et specs first 0 l).bind fun l => .ok (.slice l)
    | _, _ => .panic                                                      -- L162 MakeSlice

/-- det/unmarshal.go L201-216 `handleSingleStruct`. -/
def handleSingleStruct (path : List Bytes) (fieldType : Ty) (s : Cls) (d : Doc) : Out Val :=
  (el path s d).bind fun i =>
  match env.resolve fieldType with
  | .ptr _ => store env fieldType i                                       -- L210-211
  | .iface _ => store env fieldType i
  | .struct c => if c = i.cls then .ok (.inst i.cls i.fields) else .panic -- L213
  | _ => .panic

/-- det/unmarshal.go L259-283: the inner loop of `handleMap2Struct`. -/
def map2Inner (path : List Bytes) (kt : KeyTy) (et : Ty) (inner : List (Bytes × Cls))
    (firstStruct : Cls) (key0 : Bytes) (raw : GoMap Bytes J) :
    List Bytes → List ((Bytes × Bytes) × Val) → Out (List ((Bytes × Bytes) × Val))
  | [], fMap => .ok fMap
  | key1 :: keys, fMap =>
    let nextStruct := (GoMap.get? inner key1).getD firstStruct            -- L265-268
    (el (path ++ [key1]) nextStruct (GoMap.get? raw key1)).bind fun i =>
    (store env et i).bind fun v =>
    if kt ≠ .str2 then .panic                                             -- L282
    else map2Inner path kt et inner firstStruct key0 raw keys (insertK ltB2 (key0, key1) v fMap)

/-- det/unmarshal.go L241-284: the outer loop of `handleMap2Struct`. -/
def map2Outer (path : List Bytes) (kt : KeyTy) (et : Ty) (specs : List (Bytes × List (Bytes × Cls)))
    (firstMap : List (Bytes × Cls)) (firstStruct : Cls) (raw : GoMap Bytes (GoMap Bytes J)) :
    List Bytes → List ((Bytes × Bytes) × Val) → Out (List ((Bytes × Bytes) × Val))
  | [], fMap => .ok fMap
  | key0 :: keys, fMap =>
    let inner := (GoMap.get? specs key0).getD firstMap                    -- L246-251
    let innerRaw := (GoMap.get? raw key0).getD []
    (map2Inner env el (path ++ [key0]) kt et inner firstStruct key0 innerRaw
      (ord (path ++ [key0]) innerRaw.keys) fMap).bind fun fMap =>
    map2Outer path kt et specs firstMap firstStruct raw keys fMap

/-- det/unmarshal.go L221-288 `handleMap2Struct`. -/
def handleMap2Struct (path : List Bytes) (fieldType : Ty) (specs : List (Bytes × List (Bytes × Cls)))
    (raw : GoMap Bytes (GoMap Bytes J)) : Out Val :=
  match getFirst specs with
  | none => .err                                                          -- L223-225
  | some firstMap =>
    match getFirst firstMap with
    | none => .err                                                        -- L232-235
    | some firstStruct =>
      match env.resolve fieldType with
      | .map kt et =>
        (map2Outer env ord el path kt et specs firstMap firstStruct raw
          (ord path raw.keys) []).bind fun m => .ok (.map2 m)
      | _ => .panic                                                       -- L238 MakeMap

/-- det/unmarshal.go L75-102: what is stored into one field (`none`: nothing). -/
def fieldValue (path : List Bytes) (objectMap : List (Bytes × CVal)) (f : Fld) (raw : Raw) :
    Out (Option Val) :=
  let path := path ++ [f.name]
  match GoMap.get? objectMap f.name, raw with
  | none, .val v => .ok (some v)                                          -- L81-85
  | some (.map2 x), .map2 m => (handleMap2Struct env ord el path f.ty x m).bind fun v => .ok (some v)
  | some (.map x), .map m => (handleMapStruct env ord el path f.ty x m).bind fun v => .ok (some v)
  | some (.list x), raw => (handleListOrMapStruct env ord el path f.ty x raw).bind fun v => .ok (some v)
  | some (.single x), .msg d => (handleSingleStruct env el path f.ty x d).bind fun v => .ok (some v)
  | some .none, _ => .ok none
  | _, _ => .panic                                                        -- not reached (`rawKind`)

/-- det/unmarshal.go L72-103: the loop over the fields; every field is stored into the target
at once. -/
def fieldLoop (path : List Bytes) (objectMap : List (Bytes × CVal)) :
    List (Fld × Raw) → Inst → Res
  | [], tgt => .ret tgt false
  | (f, raw) :: rest, tgt =>
    match fieldValue env ord el path objectMap f raw with
    | .ok (some v) => fieldLoop path objectMap rest ⟨tgt.cls, GoMap.set tgt.fields f.name v⟩
    | .ok none => fieldLoop path objectMap rest tgt
    | .err => .ret tgt true
    | .panic => .panic
    | .hang => .hang

end handlers

/-- det/unmarshal.go L36-41: the `[]any` entries of `ref`. -/
def implementations (ref : Ref) : GoMap Bytes (List (Option Ty)) :=
  ref.filterMap fun e => match e.2 with | .impls l => some (e.1, l) | .tmpl _ => none

/-- det/unmarshal.go L43-52: discovered types, overridden by the templates in `ref`. -/
def mergeReg (env : Env) (ext : Ext) (fuel : Nat) (ref : Ref) (c : Nat) : Option Reg :=
  (collectN env (fresh env ext) (implementations ref) fuel (.ptr (.struct c)) []).map fun auto =>
    ref.foldl (fun reg e => match e.2 with | .tmpl t => GoMap.set reg e.1 t | .impls _ => reg) auto

/-- The registry passed on as the `ref` of nested calls. -/
def Reg.toRef (reg : Reg) : Ref := reg.map fun e => (e.1, .tmpl e.2)

/-- det/unmarshal.go L26-108 `JsonUnmarshal` with a specification, its recursive call being a
parameter; `fuel` only bounds type discovery. -/
def jsonUnmarshalStep (env : Env) (ext : Ext) (fuel : Nat)
    (rec : Ref → List Bytes → Inst → Cls → Doc → Res)
    (ref : Ref) (path : List Bytes) (tgt : Inst) (spec : Cls) (dat : Doc) : Res :=
  if spec.fields = [] then plainUnmarshal ext tgt dat  -- L30-33
  else
    match mergeReg env ext fuel ref tgt.cls with
    | none => .hang
    | some reg =>
      let fs := loopFields (env.struct tgt.cls).fields                     -- L54-58
      if ¬ (fs.map Fld.name).Nodup ∨ ext.structOf fs = false then .panic   -- L60
      else
        match rawDecode ext (rawKind env spec.fields) fs dat with
        | none => .ret tgt true                                            -- L62-65
        | some raws =>
          fieldLoop env ext.ord (element env ext reg (rec reg.toRef)) path spec.fields (fs.zip raws) tgt

mutual
/-- Nesting depth of a specification (bounds the recursion; not in the code). -/
def Cls.depth : Cls → Nat
  | .mk _ fs => depthF fs + 1
def CVal.depth : CVal → Nat
  | .none => 0
  | .single s => s.depth
  | .list l => depthL l
  | .map m => depthM m
  | .map2 m => depthM2 m
def depthF : List (Bytes × CVal) → Nat
  | [] => 0
  | (_, v) :: l => max v.depth (depthF l)
def depthL : List Cls → Nat
  | [] => 0
  | s :: l => max s.depth (depthL l)
def depthM : List (Bytes × Cls) → Nat
  | [] => 0
  | (_, s) :: l => max s.depth (depthM l)
def depthM2 : List (Bytes × List (Bytes × Cls)) → Nat
  | [] => 0
  | (_, m) :: l => max (depthM m) (depthM2 l)
end

/-- `JsonUnmarshal` with the recursion cut after `n` nested calls. -/
def jsonUnmarshalN (env : Env) (ext : Ext) (fuel : Nat) :
    Nat → Ref → List Bytes → Inst → Cls → Doc → Res
  | 0, _, _, _, _, _ => .hang
  | n + 1, ref, path, tgt, spec, dat =>
    jsonUnmarshalStep env ext fuel (jsonUnmarshalN env ext fuel n) ref path tgt spec dat

/-- det/unmarshal.go L26-108 `JsonUnmarshal` for a non-nil spec (`Lemmas/Det` shows that the
bound on the nesting is never reached). -/
def decode (env : Env) (ext : Ext) (fuel : Nat) (ref : Ref) (path : List Bytes) (tgt : Inst)
    (spec : Cls) (dat : Doc) : Res :=
  jsonUnmarshalN env ext fuel spec.depth ref path tgt spec dat

/-- det/unmarshal.go L26-108 `JsonUnmarshal`. -/
def jsonUnmarshal (env : Env) (ext : Ext) (fuel : Nat) (ref : Ref) (tgt : Inst)
    (spec : Option Cls) (dat : Doc) : Res :=
  match spec with
  | none => plainUnmarshal ext tgt dat               -- L27-29
  | some s => decode env ext fuel ref [] tgt s dat

end Verif.Det
