import Verif.Model.Spec
/-!
# `utils/common.go` in memory

`Model/Spec` takes the arguments of `NewStruct` for trees.  In Go a `map[string]interface{}` is a reference and may be shared or contain itself, and a `*Struct` is
a pointer that goes into the result as it is.  Here both have addresses.

Simplifications: slices, and maps of other types than `map[string]interface{}`, are data; a `*MapStruct` is not nil.
-/
namespace Verif.SpecHeap
open Spec (SpecErr SVal SPair Struct Value)

/-- A `*Struct`; `none` is nil. -/
abbrev Ptr := Option Nat

/-- utils/determined.pb.go L78-92 `Value`. -/
inductive RVal where
  | single (p : Ptr)
  | list (l : List Ptr)
  | map (m : List (Bytes × Ptr))
  | map2 (m : List (Bytes × List (Bytes × Ptr)))

/-- utils/determined.pb.go L23-30 `Struct`. -/
structure Cell where
  name : Bytes
  fields : Option (List (Bytes × RVal))

/-- The structs by address. -/
abbrev Heap := List Cell

/-- The second component of a `[2]interface{}`: nil, the map at an address, anything else. -/
inductive Body where
  | nil
  | hash (a : Nat)
  | other

/-- A `[2]interface{}` as far as utils/common.go L127-142 looks at it: the first component (`none`: not a string) and the second. -/
structure Pair where
  name : Option Bytes
  body : Body

/-- The argument of `NewValue`, see `Spec.SVal`; `bad` is of any other type, or nil. -/
inductive MVal where
  | str (s : Bytes)
  | pair (p : Pair)
  | strs (l : List Bytes)
  | pairs (l : List Pair)
  | mapStr (m : List (Bytes × Bytes))
  | mapPair (m : List (Bytes × Pair))
  | map2Str (m : List ((Bytes × Bytes) × Bytes))
  | map2Pair (m : List ((Bytes × Bytes) × Pair))
  | ptr (p : Ptr)
  | ptrs (l : List Ptr)
  | mapPtr (m : List (Bytes × Ptr))
  | map2Ptr (m : List (Bytes × List (Bytes × Ptr)))
  | bad

/-- The maps by address, their entries in the order of iteration. -/
abbrev Maps := Nat → List (Bytes × MVal)

/-- How a call ends. -/
inductive Out (α : Type) where
  | ok (a : α) (h : Heap)
  | err (e : SpecErr)
  | overflow

/-- Code that allocates structs. -/
abbrev M (α : Type) := Heap → Out α

def ret {α : Type} (a : α) : M α := fun h => .ok a h
def fail {α : Type} (e : SpecErr) : M α := fun _ => .err e

def andThen {α β : Type} (x : M α) (f : α → M β) : M β := fun h =>
  match x h with
  | .ok a h' => f a h'
  | .err e => .err e
  | .overflow => .overflow

/-- A new struct. -/
def alloc (c : Cell) : M Ptr := fun h => .ok (some h.length) (h ++ [c])

/-- A loop that ends with the first error, see `Spec.collectM`. -/
def loop {α β : Type} (f : α → M β) : List α → M (List β)
  | [] => ret []
  | x :: l => andThen (f x) fun y => andThen (loop f l) fun ys => ret (y :: ys)

section
variable (maps : Maps) (nv : MVal → M RVal)

/-- utils/common.go L115-122 -/
def field (e : Bytes × MVal) : M (Bytes × RVal) :=
  if utf8Valid e.1 then andThen (nv e.2) fun r => ret (e.1, r) else fail .badUtf8

/-- utils/common.go L107-125 `NewStruct`.  The struct is allocated after its fields (L108 does it before): until the end nobody else has the pointer. -/
def newStruct (name : Bytes) : Option Nat → M Ptr
  | none => alloc ⟨name, none⟩
  | some a => andThen (loop (field nv) (maps a)) fun fs => alloc ⟨name, some fs⟩

/-- utils/common.go L127-142 -/
def newSingle (p : Pair) : M Ptr :=
  match p.name, p.body with
  | some name, .nil => newStruct maps nv name none
  | some name, .hash a => newStruct maps nv name (some a)
  | some _, .other => fail .secondNotMap
  | none, _ => fail .classNotString

/-- utils/common.go L160-163 -/
def entry (e : Bytes × Pair) : M (Bytes × Ptr) := andThen (newSingle maps nv e.2) fun p => ret (e.1, p)

/-- utils/common.go L168-179 -/
def newMap2 (acc : List (Bytes × List (Bytes × Ptr))) : List ((Bytes × Bytes) × Pair) → M (List (Bytes × List (Bytes × Ptr)))
  | [] => ret acc
  | (i, u) :: v => andThen (loop (entry maps nv) [(i.2, u)]) fun ms => newMap2 (GoMap.set acc i.1 ms) v

/-- A class without second component. -/
def plain (s : Bytes) : Pair := ⟨some s, .nil⟩

/-- utils/common.go L26-102 `NewValue`, its recursive call a parameter. -/
def step : MVal → M RVal
  | .str t => andThen (newSingle maps nv (plain t)) fun p => ret (.single p)                                                -- L59-61
  | .pair p => andThen (newSingle maps nv p) fun p => ret (.single p)                                                       -- L62-63
  | .strs l => andThen (loop (newSingle maps nv) (l.map plain)) fun l => ret (.list l)                                      -- L64-69
  | .pairs l => andThen (loop (newSingle maps nv) l) fun l => ret (.list l)                                                 -- L70-71
  | .mapStr m => andThen (loop (entry maps nv) (m.map fun e => (e.1, plain e.2))) fun m => ret (.map m)                     -- L72-77
  | .mapPair m => andThen (loop (entry maps nv) m) fun m => ret (.map m)                                                    -- L78-79
  | .map2Str m => andThen (newMap2 maps nv [] (m.map fun e => (e.1, plain e.2))) fun m => ret (.map2 m)                     -- L80-85
  | .map2Pair m => andThen (newMap2 maps nv [] m) fun m => ret (.map2 m)                                                    -- L86-87
  | .ptr p => ret (.single p)                                                                                               -- L88-98
  | .ptrs l => ret (.list l)
  | .mapPtr m => ret (.map m)
  | .map2Ptr m => ret (.map2 m)
  | .bad => fail .invalidType                                                                                               -- L99-101

end

/-- `NewValue` on a stack with room for `n` nested calls. -/
def newValue (maps : Maps) : Nat → MVal → M RVal
  | 0, _ => fun _ => .overflow
  | n + 1, v => step maps (newValue maps n) v

/-- utils/common.go L107-125: the exported `NewStruct` with the map at an address. -/
def NewStruct (maps : Maps) (n : Nat) (name : Bytes) (a : Nat) : M Ptr := newStruct maps (newValue maps n) name (some a)

end Verif.SpecHeap
