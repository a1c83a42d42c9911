import Verif.Model.Go
/-!
# The copies of the templates

Model of the two functions `clone`, which make the structs that blocks and objects are decoded into:
`dethcl/util.go` L11-23 and `det/util.go` L47-49.  What matters here is which memory the copy shares with the
template, so this model has addresses; the other models of the decoders use plain values.

Simplified: types are left out.  A scalar is a number and 0 is its zero value; whatever Go reaches through a
reference (a pointer, a map, the array of a slice, the dynamic value of an interface that holds one of these) is a
cell of the memory; a slice is a reference to its array, without offset, length and capacity; a map is a cell whose
fields are its entries.
-/
namespace Verif.Clone

/-- A Go value. -/
inductive W where
  /-- A string, number or boolean; 0 is the zero value. -/
  | scalar (n : Nat)
  | nil
  /-- A pointer, map, slice or an interface with one of them. -/
  | ref (a : Nat)
  /-- A struct or array by value, or the entries of a map.  The flag says whether the name of the field is
  exported. -/
  | fields (fs : List (Bytes × Bool × W))

/-- The memory: the cell of an address. -/
abbrev Mem := List W

mutual
/-- `reflect.New`: the zero value of the type of a value. -/
def zero : W → W
  | .scalar _ => .scalar 0
  | .nil => .nil
  | .ref _ => .nil
  | .fields fs => .fields (zeroL fs)
def zeroL : List (Bytes × Bool × W) → List (Bytes × Bool × W)
  | [] => []
  | (n, e, w) :: r => (n, e, zero w) :: zeroL r
end

/-- dethcl/util.go L15-20: the fields that can be set are copied; a field whose name is not exported cannot be set
and keeps its zero value. -/
def copyFields : List (Bytes × Bool × W) → List (Bytes × Bool × W)
  | [] => []
  | (n, e, w) :: r => (n, e, if e then w else zero w) :: copyFields r

/-- dethcl/util.go L11-23 `clone` of the template at an address; the new memory and the address of the copy.  `none`:
`reflect` panics (the template is no pointer to a struct). -/
def cloneHcl (m : Mem) (a : Nat) : Option (Mem × Nat) :=
  match m[a]? with
  | some (.fields fs) => some (m ++ [.fields (copyFields fs)], m.length)
  | _ => none

/-- det/util.go L47-49 `clone`: a new zero value, of any type. -/
def cloneDet (m : Mem) (a : Nat) : Option (Mem × Nat) :=
  match m[a]? with
  | some w => some (m ++ [zero w], m.length)
  | none => none

/-- Several structs of one template: the elements of a list or map of blocks (dethcl/unmarshal.go L269, L329, L376). -/
def cloneMany (clone : Mem → Nat → Option (Mem × Nat)) (a : Nat) : Nat → Mem → Option (Mem × List Nat)
  | 0, m => some (m, [])
  | n + 1, m =>
    match clone m a with
    | none => none
    | some (m₁, c) => (cloneMany clone a n m₁).map fun p => (p.1, c :: p.2)

end Verif.Clone
