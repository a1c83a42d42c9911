import Verif.Model.HclStruct
/-!
# `Unmarshal` of HCL into a Go struct with nested specifications in memory

In Go the specifications of nested structs are pointers, and decoding a block adds entries to the field map of its specification (dethcl/unmarshal.go L102-108,
L621, L645, L668), so that later blocks and later calls find them.  `Model/HclStruct` takes nested specifications for values.  Here the field map that a call finds
is what the memory holds at that moment: `mem` is any function of the place in the document, the state, the struct type and the field map as the caller made it.
Which field maps can be there is said in `Spec/HclStructMem`.
-/
namespace Verif.HclS
open Hcl (Cty)
open Tree (Heap)
open Det (CVal)

/-- The field map that a call finds: place, state, struct type and the field map as it was made. -/
abbrev SpecMem := List Bytes → St → Nat → List (Bytes × CVal) → List (Bytes × CVal)

/-- dethcl/unmarshal.go L61-432, as `decode`, with the field map found in memory (L103-105). -/
def decodeMem (env : Env) (ext : Ext) (mem : SpecMem) (root : Nat) : Nat → Rec
  | 0, _, _, _, _, fs, _, _, _ => (fs, .error .hang)
  | n + 1, path, st, node, cls, fs, obj, labels, body =>
    decodeStruct env ext root n (decodeMem env ext mem root n) path st node cls fs (mem path st cls obj) labels body

/-- dethcl/unmarshal.go L48-51 `UnmarshalSpec`, as `unmarshalSpec`: target, outcome and state afterwards. -/
def unmarshalMem (env : Env) (ext : Ext) (mem : SpecMem) (n : Nat) (body : Option Body) (cls : Nat) (target : Fields)
    (spec : Option (List (Bytes × CVal))) (st : St) (root : Option Nat) (labels : List Bytes) : Fields × Except Fail St :=
  let (h, r) := defaultTree st.heap root
  match body with
  | none => (target, .error .err)
  | some body => decodeMem env ext mem r (n + 1) [] ⟨h, st.ref⟩ r cls target (spec.getD []) labels body

end Verif.HclS
