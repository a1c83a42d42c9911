import Verif.Model.Own
import Verif.Model.HclStruct
/-!
# Types with their own MarshalHCL and UnmarshalHCL inside of structs

Model of `dethcl/marshal.go` and `dethcl/unmarshal.go` for structs some of whose types have the methods.  The methods are parameters:
any functions of the content of the struct.  Not modelled: methods that panic on a nil pointer in a map, methods of types that are not
structs, and methods with other effects than on their struct.  `UnmarshalHCL` gets the text of the block; here it gets what this text
is parsed to (a text that is not HCL is an error).
-/
namespace Verif.HclS
open Tree (Heap)
open Hcl (Cty)
open Det (Cls CVal)

/-- The methods of the struct types. -/
structure Methods where
  /-- `MarshalHCL`, for a pointer (`true`) or for a value; methods with pointer receivers are not in the method set of values. -/
  marshal : Bool → Nat → Option (Fields → Except Fail Bytes)
  /-- `UnmarshalHCL`, which is always called with a pointer: from the content before, the labels and the block, the content afterwards. -/
  unmarshal : Nat → Option (Fields → List Bytes → Body → Except Fail Fields)

/-- No methods. -/
def Methods.none : Methods := ⟨fun _ _ => .none, fun _ => .none⟩

/-- dethcl/unmarshal.go L434-440 `plusUnmarshalSpecTree`: the method, if there is one. -/
def plusRec (ms : Methods) (rec : Rec) : Rec := fun path st node c content obj labels body =>
  match ms.unmarshal c with
  | some u =>
    match u content labels body with
    | .ok fs => (fs, .ok st)
    | .error e => (content, .error e)
  | none => rec path st node c content obj labels body

/-- dethcl/unmarshal.go L61-432 `UnmarshalSpecTree` for a struct, with the recursion through `plusUnmarshalSpecTree`. -/
def decodeOwn (ms : Methods) (env : Env) (ext : Ext) (root : Nat) : Nat → Rec
  | 0, _, _, _, _, fs, _, _, _ => (fs, .error .hang)
  | n + 1, path, st, node, cls, fs, obj, labels, body =>
    decodeStruct env ext root n (plusRec ms (decodeOwn ms env ext root n)) path st node cls fs obj labels body

/-- What a caller sees: the target and the outcome. -/
structure Done where
  target : Fields
  outcome : Except Fail Unit

/-- The outcome without the state. -/
def Done.of (r : Fields × Except Fail St) : Done := ⟨r.1, r.2.map fun _ => ()⟩

/-- dethcl/unmarshal.go L48-51 `UnmarshalSpec` with a struct target: its own method is not called. -/
def unmarshalSpecOwn (ms : Methods) (env : Env) (ext : Ext) (n : Nat) (body : Option Body) (cls : Nat) (target : Fields)
    (spec : Option (List (Bytes × CVal))) (st : St) (root : Option Nat) (labels : List Bytes) : Done :=
  match body with
  | none => ⟨target, .error .err⟩
  | some body =>
    .of (decodeOwn ms env ext (defaultTree st.heap root).2 (n + 1) [] ⟨(defaultTree st.heap root).1, st.ref⟩ (defaultTree st.heap root).2
      cls target (spec.getD []) labels body)

/-- dethcl/unmarshal.go L26-39 `Unmarshal` with a pointer to a struct: its own method, or `UnmarshalSpec` without specification. -/
def unmarshalOwn (ms : Methods) (env : Env) (ext : Ext) (n : Nat) (body : Option Body) (cls : Nat) (target : Fields) (labels : List Bytes) : Done :=
  match ms.unmarshal cls, body with
  | some u, some body =>
    match u target labels body with
    | .ok fs => ⟨fs, .ok ()⟩
    | .error e => ⟨target, .error e⟩
  | some _, none => ⟨target, .error .err⟩
  | none, body => unmarshalSpecOwn ms env ext n body cls target none ⟨[], []⟩ none labels

/-- dethcl/marshal.go L52-71: the method, if there is one. -/
def plusPRec (ms : Methods) (rec : PRec) : PRec := fun path level keyname addr c fs =>
  match ms.marshal addr c with
  | some m => (m fs).map fun bs => ownText bs level
  | none => rec path level keyname addr c fs

/-- dethcl/marshal.go L45-173 `marshal` of a struct. -/
def marshalOwnN (ms : Methods) (env : Env) (pe : PExt) : Nat → PRec
  | 0, _, _, _, _, _, _ => .error .hang
  | n + 1, path, level, keyname, addr, c, fs => plusPRec ms (marshalStruct env pe (marshalOwnN ms env pe n)) path level keyname addr c fs

/-- dethcl/marshal.go L19-28 `Marshal` of a struct or of a pointer to a struct. -/
def marshalOwn (ms : Methods) (env : Env) (pe : PExt) (v : Val) : Except Fail Bytes :=
  levelText pe (marshalOwnN ms env pe v.depth) [] 0 .any v

/-! ## Without methods this is the model of `Model/HclStruct` and `Model/HclStructPrint` -/

theorem plusRec_none (rec : Rec) : plusRec .none rec = rec := rfl

theorem decodeOwn_none (env : Env) (ext : Ext) (root : Nat) : ∀ n, decodeOwn .none env ext root n = decode env ext root n
  | 0 => rfl
  | n + 1 => by
    funext path st node cls fs obj labels body
    simp only [decodeOwn, decode, plusRec_none, decodeOwn_none env ext root n]

theorem marshalOwnN_none (env : Env) (pe : PExt) : ∀ n, marshalOwnN .none env pe n = marshalN env pe n
  | 0 => rfl
  | n + 1 => by
    funext path level keyname addr c fs
    simp only [marshalOwnN, marshalN, ← marshalOwnN_none env pe n]
    rfl

end Verif.HclS
