import Verif.Model.Det
/-!
# Specifications in memory

A `*schema.Struct` (external, of the shape of utils/determined.pb.go L23-30) is a pointer, so a specification may be shared or refer to itself, which is what a
recursive Go type asks for.  `Model/Det` takes trees.  Here specifications are the structs of a memory that refer to each other by address.

`JsonUnmarshal` (det/unmarshal.go L26-288) compares no pointers and reads the fields of a struct only in the call that decodes with it, so that `n` nested calls see
the first `n` levels, `Graph.spec g n a`.
-/
namespace Verif.Det

/-- `schema.Value` in memory, see `CVal`. -/
inductive GVal where
  | none
  | single (a : Nat)
  | list (l : List Nat)
  | map (m : List (Bytes × Nat))
  | map2 (m : List (Bytes × List (Bytes × Nat)))

/-- `schema.Struct` in memory, see `Cls`. -/
structure GStruct where
  name : Bytes
  fields : List (Bytes × GVal)

/-- The structs by address. -/
abbrev Graph := Nat → GStruct

/-- A value with its pointers followed by `s`. -/
def GVal.view (s : Nat → Cls) : GVal → CVal
  | .none => .none
  | .single a => .single (s a)
  | .list l => .list (l.map s)
  | .map m => .map (m.map fun e => (e.1, s e.2))
  | .map2 m => .map2 (m.map fun e => (e.1, e.2.map fun e => (e.1, s e.2)))

/-- What `n` nested calls see of the struct at an address: its first `n` levels. -/
def Graph.spec (g : Graph) : Nat → Nat → Cls
  | 0, a => .mk (g a).name []
  | n + 1, a => .mk (g a).name ((g a).fields.map fun e => (e.1, e.2.view (g.spec n)))

/-- det/unmarshal.go L26-108 `JsonUnmarshal` with the specification at an address, cut (`hang`) after `n` nested calls. -/
def unmarshalAt (env : Env) (ext : Ext) (fuel : Nat) (g : Graph) (n : Nat) (ref : Ref) (path : List Bytes) (tgt : Inst) (a : Nat) (dat : Doc) : Res :=
  jsonUnmarshalN env ext fuel n ref path tgt (g.spec n a) dat

end Verif.Det
