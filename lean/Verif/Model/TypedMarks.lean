import Verif.Model.Typed
/-!
# Marks in functions on collections

Model of the same functions as `Model/Typed` (`internal/lang/funcs/collection.go`, `MakeToFunc` and `TypeFunc` in `conversion.go`) and of `sensitive.go`,
on values with marks at any depth.

Most functions never see a mark: `function.Function.Call` takes them off and puts them on the result.  `LengthFunc`, `LookupFunc`, `MakeToFunc`,
`SensitiveFunc` and `NonsensitiveFunc` set `AllowMarked` and deal with them on their own.

External code, modelled as recalled (it is not on the machine): `function.Function.Call`, `cty.Value.Unmark`, `UnmarkDeep`, `WithMarks`, `GetAttr`, `Index`,
`HasIndex`, `Length`.  `convert.Convert` of values with marks is a parameter.

Simplifications: those of `Model/Typed` except for marks; an error has no text (C102 and C22 are about the texts).
-/
namespace Verif.Typed
open Funcs (Mark sensitiveMark)

/-- `cty.Value` with marks.  `leaf`: nothing inside of the value has marks of its own; so it is for the elements of a set. -/
inductive MV where
  | leaf (ms : List Mark) (v : V)
  | list (ms : List Mark) (e : Ty) (l : List MV)
  | map (ms : List Mark) (e : Ty) (m : List (Bytes × MV))
  | tup (ms : List Mark) (l : List MV)
  | obj (ms : List Mark) (m : List (Bytes × MV))

/-- `cty.Value.Marks` -/
def MV.marks : MV → List Mark
  | .leaf ms _ => ms
  | .list ms _ _ => ms
  | .map ms _ _ => ms
  | .tup ms _ => ms
  | .obj ms _ => ms

/-- The value with other marks in place of its own. -/
def MV.setMarks (ms : List Mark) : MV → MV
  | .leaf _ v => .leaf ms v
  | .list _ e l => .list ms e l
  | .map _ e m => .map ms e m
  | .tup _ l => .tup ms l
  | .obj _ m => .obj ms m

/-- `cty.Value.WithMarks` -/
def MV.withMarks (v : MV) (ms : List Mark) : MV := v.setMarks (v.marks ++ ms)

/-- `cty.Value.Unmark`: the value without its own marks. -/
def MV.unmark (v : MV) : MV := v.setMarks []

mutual
/-- `cty.Value.UnmarkDeep`, the value. -/
def MV.strip : MV → V
  | .leaf _ v => v
  | .list _ e l => .list e (stripL l)
  | .map _ e m => .map e (stripO m)
  | .tup _ l => .tup (stripL l)
  | .obj _ m => .obj (stripO m)
termination_by structural v => v
def stripL : List MV → List V
  | [] => []
  | v :: l => v.strip :: stripL l
termination_by structural l => l
def stripO : List (Bytes × MV) → List (Bytes × V)
  | [] => []
  | e :: m => stripP e :: stripO m
termination_by structural m => m
def stripP : Bytes × MV → Bytes × V
  | (k, v) => (k, v.strip)
termination_by structural p => p
end

mutual
/-- `cty.Value.UnmarkDeep`, the marks. -/
def MV.deep : MV → List Mark
  | .leaf ms _ => ms
  | .list ms _ l => ms ++ deepL l
  | .map ms _ m => ms ++ deepO m
  | .tup ms l => ms ++ deepL l
  | .obj ms m => ms ++ deepO m
termination_by structural v => v
def deepL : List MV → List Mark
  | [] => []
  | v :: l => v.deep ++ deepL l
termination_by structural l => l
def deepO : List (Bytes × MV) → List Mark
  | [] => []
  | e :: m => deepP e ++ deepO m
termination_by structural m => m
def deepP : Bytes × MV → List Mark
  | (_, v) => v.deep
termination_by structural p => p
end

/-- `cty.Value.Type` -/
def MV.ty (v : MV) : Ty := v.strip.ty

/-- `cty.Value.GetAttr` of an object and `Index` of a map without marks of its own, with `HasAttribute` and `HasIndex` (`none`). -/
def MV.get (v : MV) (k : Bytes) : Option MV :=
  match v with
  | .leaf _ (.obj m) => (GoMap.get? m k).map (.leaf [])
  | .leaf _ (.map _ m) => (GoMap.get? m k).map (.leaf [])
  | .map _ _ m => GoMap.get? m k
  | .obj _ m => GoMap.get? m k
  | _ => none

/-- `cty.Value.AsString`; it panics for marked values and for other values (`none`). -/
def MV.asString : MV → Option Bytes
  | .leaf [] (.str s) => some s
  | _ => none

/-- `convert.Convert` of a value with marks. -/
abbrev MConv := MV → Ty → Option MV

/-- `function.Spec` with marks; `marked`: the parameters have `AllowMarked`. -/
structure MSpec where
  params : List Param
  var : Option Param
  marked : Bool
  type : List MV → Option Ty
  impl : List MV → Ty → Option MV
  notNull : Bool

/-- How a call ends, as `Out`. -/
inductive MOut where
  | ok (v : MV)
  | err
  | broken
  | panic

/-- The values without the marks. -/
def strips (args : List MV) : List V := args.map MV.strip

/-- The arguments that `Type` and `Impl` see. -/
def seen (f : MSpec) (args : List MV) : List MV := if f.marked then args else (strips args).map (.leaf [])

/-- The marks that `Call` puts on the result. -/
def resultMarks (f : MSpec) (args : List MV) : List Mark := if f.marked then [] else args.flatMap MV.deep

/-- `ReturnTypeForValues`, the number of arguments. -/
def marity (f : MSpec) (n : Nat) : Bool :=
  match f.var with
  | none => n == f.params.length
  | some _ => decide (f.params.length ≤ n)

/-- `ReturnTypeForValues` -/
def mreturnType (f : MSpec) (args : List MV) : Option (Ty × Bool) :=
  if marity f args.length then
    match checkArgs f.params f.var (strips args) with
    | .err => none
    | .dyn => some (.dyn, true)
    | .ok => (f.type (seen f args)).map fun t => (t, false)
  else none

/-- `function.Function.Call`.  For an argument whose type is not known the result has no marks; for one that is unknown it has the marks of those arguments
whose parameters do not have `AllowMarked`. -/
def mcall (f : MSpec) (args : List MV) : MOut :=
  match mreturnType f args with
  | none => .err
  | some (t, true) => .ok (.leaf [] (.unk t))
  | some (t, false) =>
    if blocked f.params f.var (strips args) then .ok (.leaf (resultMarks f args) (.unk t))
    else match f.impl (seen f args) t with
      | none => .err
      | some r =>
        let v := r.withMarks (resultMarks f args)
        if cmp true t v.ty then if f.notNull && v.strip.isNull then .panic else .ok v else .broken

/-! ## The functions that set `AllowMarked` -/

/-- internal/lang/funcs/collection.go L29-37 -/
def mlengthType : List MV → Option Ty
  | [v] => match v.ty with
    | .str | .tup _ | .obj _ | .list _ | .map _ | .set _ | .dyn => some .num
    | _ => none
  | _ => none

/-- `cty.Value.Length`: the result has the marks of the collection. -/
def mlength (v : MV) : MV :=
  match v.strip with
  | .list _ l => .leaf v.marks (int l.length)
  | .map _ m => .leaf v.marks (int m.length)
  | .set _ l => if l.length = 1 || wholeL l then .leaf v.marks (int l.length) else .leaf v.marks (.unk .num)
  | _ => .leaf v.marks (.unk .num)

/-- `stdlib.Strlen`: the marks are put on the result by `Call`. -/
def mstrlen (x : Ext) (v : MV) : MV :=
  match v.strip with
  | .str s => .leaf v.deep (int (x.strlen s))
  | _ => .leaf v.deep (.unk .num)

/-- internal/lang/funcs/collection.go L39-63 -/
def mlengthImpl (x : Ext) : List MV → Ty → Option MV
  | [v], _ =>
    let marks := v.marks                                              -- L42
    match v.ty with
    | .dyn => some ((MV.leaf [] (.unk .num)).withMarks marks)         -- L44-45
    | .tup es => some ((MV.leaf [] (int es.length)).withMarks marks)  -- L46-48
    | .obj as => some ((MV.leaf [] (int as.length)).withMarks marks)  -- L49-51
    | .str => some (mstrlen x v)                                      -- L52-56
    | .list _ | .set _ | .map _ => some (mlength v)                   -- L57-58
    | _ => none
  | _, _ => none

/-- internal/lang/funcs/collection.go L243-277 -/
def mlookupType (conv : MConv) : List MV → Option Ty
  | m :: k :: rest =>
    if rest.length ≤ 1 then                                           -- L244-246
      match m.ty with
      | .obj as =>
        if !k.strip.known then some .dyn                              -- L252-254
        else match k.unmark.asString with                             -- L256-257
          | some s => match GoMap.get? as s with                      -- L258-265
            | some t => some t
            | none => match rest with
              | [d] => some d.ty
              | _ => none
          | none => none
      | .map e => match rest with                                     -- L266-273
        | [d] => (conv d e).map fun _ => e
        | _ => some e
      | _ => none                                                     -- L274-275
    else none
  | _ => none

/-- internal/lang/funcs/collection.go L314-323: the default value keeps its marks. -/
def mlookupDefault (conv : MConv) (t : Ty) (markses : List Mark) : List MV → Option MV
  | [d] => (conv d t).map fun d => d.withMarks markses
  | _ => none

/-- internal/lang/funcs/collection.go L278-324 -/
def mlookupImpl (conv : MConv) : List MV → Ty → Option MV
  | m :: k :: rest, t =>
    let markses := m.marks ++ k.marks                                 -- L289-297
    let mapVar := m.unmark
    match k.unmark.asString with                                      -- L298
    | none => none
    | some s =>
      if !mapVar.strip.known then some ((MV.leaf [] (.unk t)).withMarks markses)   -- L300-302
      else match mapVar.strip with
        | .obj _ | .map _ _ => match mapVar.get s with                -- L304-312
          | some v => some (v.withMarks markses)
          | none => mlookupDefault conv t markses rest
        | _ => none
  | _, _ => none

/-- internal/lang/funcs/conversion.go L42-61 -/
def mtoType (x : Ext) (w : Ty) : List MV → Option Ty
  | [v] => if cmp false w v.ty || x.canConv v.ty w then some w else none
  | _ => none

/-- internal/lang/funcs/conversion.go L62-98 -/
def mtoImpl (conv : MConv) : List MV → Ty → Option MV
  | [v], t => conv v t
  | _, _ => none

/-- internal/lang/funcs/sensitive.go L25-29, L49-53 -/
def mkeepType : List MV → Option Ty
  | [v] => some v.ty
  | _ => none

/-- internal/lang/funcs/sensitive.go L30-33 -/
def msensitiveImpl : List MV → Ty → Option MV
  | [v], _ => some (v.unmark.withMarks [sensitiveMark])
  | _, _ => none

/-- internal/lang/funcs/sensitive.go L54-58 -/
def mnonsensitiveImpl : List MV → Ty → Option MV
  | [v], _ => some (v.unmark.withMarks (v.marks.filter (· ≠ sensitiveMark)))
  | _, _ => none

/-- internal/lang/marks/marks.go L45 `marks.TypeType` -/
def typeTypeMark : Mark := b "TypeType"

/-- internal/lang/funcs/conversion.go L116-119 -/
def mtypImpl : List MV → Ty → Option MV
  | [v], _ => some ((MV.leaf [] (.typ v.ty)).withMarks [typeTypeMark])
  | _, _ => none

/-! ## The others -/

/-- A function that sees no marks. -/
def plain (f : FSpec) : MSpec :=
  ⟨f.params, f.var, false, fun args => f.type (strips args), fun args t => (f.impl (strips args) t).map (.leaf []), f.notNull⟩

/-- The functions. -/
inductive MFn where
  | fn (f : Fn)
  | sensitive
  | nonsensitive

/-- The specifications of the functions, internal/lang/funcs/collection.go, conversion.go L25-41, L105-115, and sensitive.go L15-24, L39-48. -/
def MFn.spec (x : Ext) (conv : MConv) : MFn → MSpec
  | .fn .length => ⟨[{ ty := .dyn, allowUnk := true, allowDyn := true }], none, true, mlengthType, mlengthImpl x, true⟩
  | .fn .lookup => ⟨[{ ty := .dyn }, { ty := .str }], some anyParam, true, mlookupType conv, mlookupImpl conv, false⟩
  | .fn (.to w) => ⟨[{ ty := .dyn, allowNull := true, allowDyn := true }], none, true, mtoType x w, mtoImpl conv, false⟩
  | .fn .typ => ⟨[anyParam], none, false, fun _ => some .typ, mtypImpl, false⟩
  | .fn f => plain (f.spec x)
  | .sensitive => ⟨[anyParam], none, true, mkeepType, msensitiveImpl, false⟩
  | .nonsensitive => ⟨[anyParam], none, true, mkeepType, mnonsensitiveImpl, false⟩

end Verif.Typed
