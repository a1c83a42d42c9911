import Verif.Model.Funcs
/-!
# Types of the results of functions on collections

Model of the `Type` and `Impl` functions of `internal/lang/funcs/collection.go` and of `MakeToFunc` and `TypeFunc` in `conversion.go`, on values with types.
`Model/Funcs` has the same functions without types; their loops are used here.

External code, modelled as recalled (it is not on the machine): `function.Function.Call` and `ReturnTypeForValues`, `cty.Type.TestConformance`,
`cty.ListVal`.  `convert` and `stdlib.Equal` are parameters.

Simplifications: no marks; no infinities; a conversion does not give more elements; attributes of object types are in a fixed order.
-/
namespace Verif.Typed
open Funcs (K Res BF)

/-- `cty.Type` -/
inductive Ty where
  | bool
  | num
  | str
  /-- `cty.DynamicPseudoType` -/
  | dyn
  | list (e : Ty)
  | set (e : Ty)
  | map (e : Ty)
  | obj (as : List (Bytes × Ty))
  | tup (es : List Ty)
  /-- `types.TypeType`, internal/lang/types/type_type.go -/
  | typ

/-- `cty.Value` without marks; `unk .dyn` is `cty.DynamicVal`. -/
inductive V where
  | unk (t : Ty)
  | null (t : Ty)
  | bool (x : Bool)
  | num (x : BF)
  | str (s : Bytes)
  | list (e : Ty) (l : List V)
  | set (e : Ty) (l : List V)
  | map (e : Ty) (m : List (Bytes × V))
  | tup (l : List V)
  | obj (m : List (Bytes × V))
  /-- a capsule with a type in it -/
  | typ (t : Ty)

mutual
/-- `cty.Value.Type` -/
def V.ty : V → Ty
  | .unk t => t
  | .null t => t
  | .bool _ => .bool
  | .num _ => .num
  | .str _ => .str
  | .list e _ => .list e
  | .set e _ => .set e
  | .map e _ => .map e
  | .tup l => .tup (tysL l)
  | .obj m => .obj (tysO m)
  | .typ _ => .typ
termination_by structural v => v
def tysL : List V → List Ty
  | [] => []
  | v :: l => v.ty :: tysL l
termination_by structural l => l
def tysO : List (Bytes × V) → List (Bytes × Ty)
  | [] => []
  | e :: m => tysP e :: tysO m
termination_by structural m => m
def tysP : Bytes × V → Bytes × Ty
  | (k, v) => (k, v.ty)
termination_by structural p => p
end

mutual
/-- `cty.Type.TestConformance` (with `d`) and `cty.Type.Equals`: whether the second type fits the first one. -/
def cmp (d : Bool) : Ty → Ty → Bool
  | .dyn, g => match g with
    | .dyn => true
    | _ => d
  | .bool, .bool => true
  | .num, .num => true
  | .str, .str => true
  | .list w, .list g => cmp d w g
  | .set w, .set g => cmp d w g
  | .map w, .map g => cmp d w g
  | .obj ws, .obj gs => cmpO d ws gs
  | .tup ws, .tup gs => cmpL d ws gs
  | .typ, .typ => true
  | _, _ => false
termination_by structural w => w
def cmpL (d : Bool) : List Ty → List Ty → Bool
  | [], [] => true
  | w :: ws, g :: gs => cmp d w g && cmpL d ws gs
  | _, _ => false
termination_by structural w => w
def cmpO (d : Bool) : List (Bytes × Ty) → List (Bytes × Ty) → Bool
  | [], [] => true
  | w :: ws, g :: gs => cmpP d w g && cmpO d ws gs
  | _, _ => false
termination_by structural w => w
def cmpP (d : Bool) : Bytes × Ty → Bytes × Ty → Bool
  | (k, w), (k', g) => decide (k = k') && cmp d w g
termination_by structural w => w
end

mutual
/-- `cty.Value.IsWhollyKnown` -/
def V.whole : V → Bool
  | .unk _ => false
  | .list _ l => wholeL l
  | .set _ l => wholeL l
  | .map _ m => wholeO m
  | .tup l => wholeL l
  | .obj m => wholeO m
  | _ => true
termination_by structural v => v
def wholeL : List V → Bool
  | [] => true
  | v :: l => v.whole && wholeL l
termination_by structural l => l
def wholeO : List (Bytes × V) → Bool
  | [] => true
  | e :: m => wholeP e && wholeO m
termination_by structural m => m
def wholeP : Bytes × V → Bool
  | (_, v) => v.whole
termination_by structural p => p
end

/-- `cty.Value.IsKnown` -/
def V.known : V → Bool
  | .unk _ => false
  | _ => true

/-- `cty.Value.IsNull` -/
def V.isNull : V → Bool
  | .null _ => true
  | _ => false

/-- `cty.Value.ElementIterator`; it panics for other values (`none`). -/
def V.elems : V → Option (List V)
  | .list _ l => some l
  | .set _ l => some l
  | .tup l => some l
  | .map _ m => some (m.map (·.2))
  | .obj m => some (m.map (·.2))
  | _ => none

/-- `cty.NumberIntVal` -/
def int (n : Nat) : V := .num ⟨n, 64⟩

/-- One turn of the loop of `cty.ListVal`: the element type so far, and the next value. -/
def joinTy (acc : Option Ty) (v : V) : Option Ty :=
  match acc with
  | none => none
  | some .dyn => some v.ty
  | some e => if cmp false .dyn v.ty || cmp false e v.ty then some e else none

/-- `cty.ListVal`; it panics for no values and for values of different types (`none`). -/
def listVal (l : List V) : Option V :=
  match l with
  | [] => none
  | l => (l.foldl joinTy (some .dyn)).map fun e => .list e l

/-- External functions: `convert.Convert`, `convert.GetConversionUnsafe` (whether there is one), `convert.UnifyUnsafe`, `stdlib.Equal`,
`stdlib.Strlen`. -/
structure Ext where
  conv : V → Ty → Option V
  canConv : Ty → Ty → Bool
  unify : List Ty → Option Ty
  equal : V → V → Option V
  strlen : Bytes → Nat

/-- `function.Parameter` -/
structure Param where
  ty : Ty
  allowNull : Bool := false
  allowUnk : Bool := false
  allowDyn : Bool := false

/-- `function.Spec`; `none` is an error or a panic, which `Call` turns into an error.  `notNull`: `RefineResult` is `refineNotNull`. -/
structure FSpec where
  params : List Param
  var : Option Param
  type : List V → Option Ty
  impl : List V → Ty → Option V
  notNull : Bool

/-- What one argument means for the types. -/
inductive Chk where
  | err
  | dyn
  | ok
deriving DecidableEq

/-- `ReturnTypeForValues`, one argument. -/
def checkArg (p : Param) (v : V) : Chk :=
  if v.isNull && !p.allowNull then .err
  else match v.ty with
    | .dyn => if p.allowDyn then .ok else .dyn
    | t => if cmp true p.ty t then .ok else .err

/-- `ReturnTypeForValues`, the loops over the arguments. -/
def checkArgs : List Param → Option Param → List V → Chk
  | _, _, [] => .ok
  | p :: ps, var, v :: vs => match checkArg p v with
    | .ok => checkArgs ps var vs
    | c => c
  | [], some p, v :: vs => match checkArg p v with
    | .ok => checkArgs [] (some p) vs
    | c => c
  | [], none, _ :: _ => .ok

/-- `ReturnTypeForValues`, the number of arguments. -/
def arity (f : FSpec) (n : Nat) : Bool :=
  match f.var with
  | none => n == f.params.length
  | some _ => decide (f.params.length ≤ n)

/-- `ReturnTypeForValues`, and whether some argument has no type that the function can use. -/
def returnType (f : FSpec) (args : List V) : Option (Ty × Bool) :=
  if arity f args.length then
    match checkArgs f.params f.var args with
    | .err => none
    | .dyn => some (.dyn, true)
    | .ok => (f.type args).map fun t => (t, false)
  else none

/-- `Call`: whether some argument is unknown that must not be. -/
def blocked : List Param → Option Param → List V → Bool
  | _, _, [] => false
  | p :: ps, var, v :: vs => (!v.known && !p.allowUnk) || blocked ps var vs
  | [], some p, v :: vs => (!v.known && !p.allowUnk) || blocked [] (some p) vs
  | [], none, _ :: _ => false

/-- How a call ends; `broken`: the value does not have the type that was announced; `panic`: a null value is refined as not null. -/
inductive Out where
  | ok (v : V)
  | err
  | broken
  | panic

/-- `function.Function.Call` -/
def call (f : FSpec) (args : List V) : Out :=
  match returnType f args with
  | none => .err
  | some (t, true) => .ok (.unk t)
  | some (t, false) =>
    if blocked f.params f.var args then .ok (.unk t)
    else match f.impl args t with
      | none => .err
      | some v => if cmp true t v.ty then if f.notNull && v.isNull then .panic else .ok v else .broken

/-- A result of `Model/Funcs` as a value. -/
def ofRes {α : Type} (t : Ty) (f : α → V) : Res α → Option V
  | .error _ => none
  | .ok .unk => some (.unk t)
  | .ok .null => some (.null t)
  | .ok (.val a) => some (f a)

/-! ## The functions -/

/-- internal/lang/funcs/collection.go L29-37 -/
def lengthType : List V → Option Ty
  | [v] => match v.ty with
    | .str | .tup _ | .obj _ | .list _ | .map _ | .set _ | .dyn => some .num
    | _ => none
  | _ => none

/-- internal/lang/funcs/collection.go L39-63 -/
def lengthImpl (x : Ext) : List V → Ty → Option V
  | [v], _ => match v.ty with
    | .dyn => some (.unk .num)                                        -- L44-45
    | .tup es => some (int es.length)                                 -- L46-48
    | .obj as => some (int as.length)                                 -- L49-51
    | .str => match v with                                            -- L52-56
      | .str s => some (int (x.strlen s))
      | _ => some (.unk .num)
    | .list _ | .set _ | .map _ => match v with                       -- L57-58
      | .list _ l => some (int l.length)
      | .map _ m => some (int m.length)
      | .set _ l => if l.length = 1 || wholeL l then some (int l.length) else some (.unk .num)
      | _ => some (.unk .num)
    | _ => none
  | _, _ => none

/-- A boolean as in `Model/Funcs`. -/
def boolK : V → K Bool
  | .bool x => .val x
  | .null _ => .null
  | _ => .unk

/-- internal/lang/funcs/collection.go L77-93 -/
def allTrueImpl : List V → Ty → Option V
  | [.list _ l], t => ofRes t .bool (.ok (Funcs.allTrueLoop true (l.map boolK)))
  | _, _ => none

/-- internal/lang/funcs/collection.go L107-128 -/
def anyTrueImpl : List V → Ty → Option V
  | [.list _ l], t => ofRes t .bool (.ok (Funcs.anyTrueLoop false false (l.map boolK)))
  | _, _ => none

/-- internal/lang/funcs/collection.go L144-154 -/
def coalesceType (x : Ext) (args : List V) : Option Ty := x.unify (args.map V.ty)

/-- internal/lang/funcs/collection.go L166: the empty string, if the result is a string. -/
def isEmpty : Ty → V → Bool
  | .str, .str s => s.isEmpty
  | _, _ => false

/-- internal/lang/funcs/collection.go L159-165: the error of `Convert` is dropped; the nil value is known and null. -/
def converted (x : Ext) (t : Ty) (v : V) : K V :=
  match x.conv v t with
  | none => .null
  | some (.unk _) => .unk
  | some (.null _) => .null
  | some v => .val v

/-- internal/lang/funcs/collection.go L156-173 -/
def coalesceImpl (x : Ext) (args : List V) (t : Ty) : Option V :=
  ofRes t id (Funcs.coalesce (isEmpty t) (args.map (converted x t)))

/-- What `stdlib.Equal` answers. -/
def eqK (x : Ext) (a c : V) : Res Bool :=
  match x.equal a c with
  | none => .error ()
  | some (.bool r) => .ok (.val r)
  | some (.unk _) => .ok .unk
  | some _ => .ok .null

/-- internal/lang/funcs/collection.go L190-218 -/
def indexImpl (x : Ext) : List V → Ty → Option V
  | [.list _ l, v], _ => if l.length = 0 then none else ofRes .num int (Funcs.indexLoop (eqK x) v 0 l)
  | [.tup l, v], _ => if l.length = 0 then none else ofRes .num int (Funcs.indexLoop (eqK x) v 0 l)
  | _, _ => none

/-- internal/lang/funcs/collection.go L243-277 -/
def lookupType (x : Ext) : List V → Option Ty
  | m :: k :: rest =>
    if rest.length ≤ 1 then                                           -- L244-246
      match m.ty with
      | .obj as => match k with
        | .str s => match GoMap.get? as s with                        -- L258-265
          | some t => some t
          | none => match rest with
            | [d] => some d.ty
            | _ => none
        | .unk _ => some .dyn                                         -- L252-254
        | _ => none
      | .map e => match rest with                                     -- L266-273
        | [d] => (x.conv d e).map fun _ => e
        | _ => some e
      | _ => none                                                     -- L274-275
    else none
  | _ => none

/-- internal/lang/funcs/collection.go L314-323 -/
def lookupDefault (x : Ext) (t : Ty) : List V → Option V
  | [d] => x.conv d t
  | _ => none

/-- internal/lang/funcs/collection.go L278-324 -/
def lookupImpl (x : Ext) : List V → Ty → Option V
  | .obj m :: .str s :: rest, t => match GoMap.get? m s with          -- L306-309
    | some v => some v
    | none => lookupDefault x t rest
  | .map _ m :: .str s :: rest, t => match GoMap.get? m s with        -- L310-312
    | some v => some v
    | none => lookupDefault x t rest
  | _, _ => none

/-- internal/lang/funcs/collection.go L345-353 -/
def matchkeysType (x : Ext) : List V → Option Ty
  | [v, k, s] => (x.unify [k.ty, s.ty]).map fun _ => v.ty
  | _ => none

/-- internal/lang/funcs/collection.go L404-408 -/
def collected (e : Ty) (out : List V) : Option V :=
  match out with
  | [] => some (.list e [])
  | out => listVal out

/-- internal/lang/funcs/collection.go L355-409 -/
def matchkeysImpl (x : Ext) : List V → Ty → Option V
  | [.list _ values, .list ek keys, .list es search], .list e =>
    if values.length ≠ keys.length then none                          -- L360-362
    else match x.unify [.list ek, .list es] with                      -- L370
      | none => none
      | some ty => match x.conv (.list es search) ty with             -- L372
        | none => none
        | some sv => match sv.elems with
          | none => none
          | some ss =>
            if ss.length = 0 then some (.list e [])                   -- L375-377
            else if !wholeL values then some (.unk (.list e))         -- L379-381
            else match x.conv (.list ek keys) ty with                 -- L371
              | none => none
              | some kv =>
                if !kv.whole then some (.unk (.list e))               -- L379-381
                else match kv.elems with
                  | none => none
                  | some ks => match Funcs.matchLoop (eqK x) ss [] values ks with
                    | .ok (.val out) => collected e out
                    | _ => none
  | _, _ => none

/-- internal/lang/funcs/collection.go L421-438 -/
def oneType : List V → Option Ty
  | [v] => match v.ty with
    | .list e => some e
    | .set e => some e
    | .tup [] => some .dyn
    | .tup [t] => some t
    | _ => none
  | _ => none

/-- internal/lang/funcs/collection.go L439-486 -/
def oneImpl : List V → Ty → Option V
  | [.list _ l], t => match l with
    | [] => some (.null t)
    | [v] => some v
    | _ => none
  | [.set _ l], t =>
    if l.length = 1 || wholeL l then match l with
      | [] => some (.null t)
      | [v] => some v
      | _ => none
    else some (.unk t)                                                -- L449-451
  | [.tup l], t => match l with
    | [] => some (.null t)
    | [v] => some v
    | _ => none
  | _, _ => none

/-- `cty.Value.Add` -/
def add : V → V → Option V
  | .num a, .num c => some (.num (a.add c))
  | .null _, _ => none
  | _, .null _ => none
  | .num _, .unk _ => some (.unk .num)
  | .unk _, .num _ => some (.unk .num)
  | .unk _, .unk _ => some (.unk .num)
  | _, _ => none

/-- internal/lang/funcs/collection.go L544-553 -/
def sumLoop (x : Ext) (s : V) : List V → Option V
  | [] => some s
  | v :: l =>
    if v.isNull then none
    else (x.conv v .num).bind fun v => (add s v).bind fun s => sumLoop x s l

/-- internal/lang/funcs/collection.go L506-556 -/
def sumList (x : Ext) (l : List V) : Option V :=
  match l with
  | [] => none                                                        -- L506-508
  | v :: l =>
    if !wholeL (v :: l) then some (.unk .num)                         -- L517-519
    else if v.isNull then none                                        -- L537-539
    else (x.conv v .num).bind fun s => sumLoop x s l

/-- internal/lang/funcs/collection.go L500-557 -/
def sumImpl (x : Ext) : List V → Ty → Option V
  | [.list _ l], _ => sumList x l
  | [.set _ l], _ => sumList x l
  | [.tup l], _ => sumList x l
  | _, _ => none

/-- A string, and a list of strings, as in `Model/Funcs`. -/
def strK : V → K Bytes
  | .str s => .val s
  | .null _ => .null
  | _ => .unk

def strsK : V → K (List (K Bytes))
  | .list _ l => .val (l.map strK)
  | .null _ => .null
  | _ => .unk

/-- internal/lang/funcs/collection.go L570-612 -/
def transposeImpl : List V → Ty → Option V
  | [.map _ m], t =>
    if !wholeO m then some (.unk t)                                   -- L572-574
    else (Funcs.transposeLoop (m.map fun e => (e.1, strsK e.2)) []).map fun out =>
      .map (.list .str) (out.map fun e => (e.1, .list .str (e.2.map .str)))
  | _, _ => none

/-- internal/lang/funcs/conversion.go L42-61 -/
def toType (x : Ext) (w : Ty) : List V → Option Ty
  | [v] => if cmp false w v.ty || x.canConv v.ty w then some w else none
  | _ => none

/-- internal/lang/funcs/conversion.go L62-98 -/
def toImpl (x : Ext) : List V → Ty → Option V
  | [v], t => x.conv v t
  | _, _ => none

/-- internal/lang/funcs/conversion.go L116-119, without the mark. -/
def typImpl : List V → Ty → Option V
  | [v], _ => some (.typ v.ty)
  | _, _ => none

/-- The functions. -/
inductive Fn where
  | length | allTrue | anyTrue | coalesce | index | lookup | matchkeys | one | sum | transpose | list | map
  /-- `MakeToFunc` -/
  | to (w : Ty)
  /-- `TypeFunc` -/
  | typ

/-- A parameter that takes anything. -/
def anyParam : Param := { ty := .dyn, allowNull := true, allowUnk := true, allowDyn := true }

/-- The specifications of the functions, internal/lang/funcs/collection.go and conversion.go L25-41, L105-115. -/
def Fn.spec (x : Ext) : Fn → FSpec
  | .length => ⟨[{ ty := .dyn, allowUnk := true, allowDyn := true }], none, lengthType, lengthImpl x, true⟩
  | .allTrue => ⟨[{ ty := .list .bool }], none, fun _ => some .bool, allTrueImpl, true⟩
  | .anyTrue => ⟨[{ ty := .list .bool }], none, fun _ => some .bool, anyTrueImpl, true⟩
  | .coalesce => ⟨[], some anyParam, coalesceType x, coalesceImpl x, true⟩
  | .index => ⟨[{ ty := .dyn }, { ty := .dyn }], none, fun _ => some .num, indexImpl x, true⟩
  | .lookup => ⟨[{ ty := .dyn }, { ty := .str }], some anyParam, lookupType x, lookupImpl x, false⟩
  | .matchkeys => ⟨[{ ty := .list .dyn }, { ty := .list .dyn }, { ty := .list .dyn }], none, matchkeysType x, matchkeysImpl x, true⟩
  | .one => ⟨[{ ty := .dyn }], none, oneType, oneImpl, false⟩
  | .sum => ⟨[{ ty := .dyn }], none, fun _ => some .num, sumImpl x, true⟩
  | .transpose => ⟨[{ ty := .map (.list .str) }], none, fun _ => some (.map (.list .str)), transposeImpl, true⟩
  | .list => ⟨[], some anyParam, fun _ => none, fun _ _ => none, false⟩
  | .map => ⟨[], some anyParam, fun _ => none, fun _ _ => none, false⟩
  | .to w => ⟨[{ ty := .dyn, allowNull := true, allowDyn := true }], none, toType x w, toImpl x, false⟩
  | .typ => ⟨[anyParam], none, fun _ => some .typ, typImpl, false⟩

end Verif.Typed
