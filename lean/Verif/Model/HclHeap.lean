import Verif.Model.HclPrint
/-!
# `Marshal` of generic data in memory

Model of `dethcl/encoding.go` L11-191 and `dethcl/marshal.go` L19-43 for the same data as `Model/HclPrint`, with the maps and slices in memory: a map or slice may be
contained in itself, or be at several places.

* The functions of the code call one another; how many calls may be nested is bounded by the stack (`overflow`: Go ends the program, and the panic cannot be recovered).
  A call of `marshalLevel` with its `encoding`, and a call of `loopHash`, count as one each; the real frames differ by constant factors.
* A map may be visited several times, each time in another order: `ord` gives the order by the place of the map in the value.
* As in `Model/HclPrint` the parameter `equal` is left out.
-/
namespace Verif.HclHeap
open Hcl

/-- A value; maps and slices are addresses. -/
inductive HV where
  | nil
  | nilList
  | nilMap
  | str (s : Bytes)
  | bool (v : Bool)
  | int (n : Int)
  | flt (q : Rat)
  | list (a : Nat)
  | map (a : Nat)
  deriving DecidableEq

/-- The memory. -/
structure Mem where
  lists : Nat → List HV
  maps : Nat → List (Bytes × HV)

/-- The order in which `range` visits a map, by the place. -/
abbrev Ord := List Nat → Nat → List (Bytes × HV)

/-- How a call ends. -/
inductive Out (α : Type) where
  | ok (x : α)
  | err
  | overflow
  deriving DecidableEq

def Out.bind {α β : Type} (o : Out α) (f : α → Out β) : Out β :=
  match o with
  | .ok x => f x
  | .err => .err
  | .overflow => .overflow

def Out.map {α β : Type} (f : α → β) (o : Out α) : Out β := o.bind fun x => .ok (f x)

/-- The result of a call that does not use the stack. -/
def ofExcept {α : Type} : Except Unit α → Out α
  | .ok x => .ok x
  | .error _ => .err

/-- The basic values. -/
def HV.scalar : HV → Option GV
  | .str s => some (.str s)
  | .bool v => some (.bool v)
  | .int n => some (.int n)
  | .flt q => some (.flt q)
  | _ => none

/-- The type assertion to `map[string]interface{}`. -/
def HV.isMap : HV → Bool
  | .map _ | .nilMap => true
  | _ => false

/-- The two functions that call one another: `marshalLevel` and `loopHash`. -/
structure Calls where
  level : List Nat → Nat → Option Bytes → HV → Out (Option Bytes)
  loop : List Nat → Bytes → Nat → Nat → Option Bytes → HV → Out (List Bytes)

/-- dethcl/encoding.go L29-53: `shortDirect` of a basic value. -/
def short (g : GV) : Out Bytes := ofExcept ((scalarText g).getD (.error ()))

/-- dethcl/encoding.go L143-151 with L29-57 `shortDirect`. -/
def shortLine (c : Calls) (path : List Nat) (name : Bytes) (level : Nat) (v : HV) : Out (List Bytes) :=
  match v.scalar with
  | some g => (short g).map fun t => [assign name t]
  | none => (c.level path (level + 1) none v).map fun o => [assign name (o.getD [])]

/-- dethcl/encoding.go L166-176: the elements of a list, from number `i`. -/
def elems (c : Calls) (path : List Nat) (level : Nat) : Nat → List HV → Out (List Bytes)
  | _, [] => .ok []
  | i, v :: l => (c.level (i :: path) (level + 1) (some nmr) v).bind fun o => (elems c path level (i + 1) l).map fun arr => o.getD (b "[]") :: arr

/-- dethcl/encoding.go L127-158: the lines of a map. -/
def lines (c : Calls) (path : List Nat) (level : Nat) (keyname : Option Bytes) : Nat → List (Bytes × HV) → Out (List Bytes)
  | _, [] => .ok []
  | i, (k, v) :: m =>
    (if v = .nil then .ok [assign k (b "null()")]                          -- L134-141
      else if keyname = some nmr then shortLine c (i :: path) k level v    -- L142-151
      else c.loop (i :: path) k 0 level keyname v).bind fun x =>           -- L152-157
    (lines c path level keyname (i + 1) m).map fun arr => x ++ arr

/-- dethcl/encoding.go L66-72: the members of a map of maps, each with its key as a further label. -/
def labels (c : Calls) (path : List Nat) (name : Bytes) (depth level : Nat) : Nat → List (Bytes × HV) → Out (List Bytes)
  | _, [] => .ok []
  | i, (k, v) :: m =>
    (c.loop (i :: path) (name ++ 32 :: 34 :: k ++ [34]) (depth + 1) level none v).bind fun x =>
    (labels c path name depth level (i + 1) m).map fun arr => x ++ arr

/-- dethcl/encoding.go L11-27 `isHashAll` and L61-63. -/
def allMaps (mem : Mem) (depth a : Nat) : Bool := !(mem.maps a).isEmpty && (mem.maps a).all (fun e => e.2.isMap) && decide (depth < 2)

/-- dethcl/marshal.go L30-43 `marshalLevel`, dethcl/encoding.go L112-190 `encoding`. -/
def levelBody (mem : Mem) (ord : Ord) (c : Calls) (path : List Nat) (level : Nat) (keyname : Option Bytes) (v : HV) : Out (Option Bytes) :=
  match v with
  | .map a => (lines c path level keyname 0 (ord path a)).map fun arr => some (mapText level arr)
  | .list a => (elems c path level 0 (mem.lists a)).map fun arr => some (listText level arr)
  | v =>
    match v.scalar with
    | some g => if g.zeroScalar then .ok none else (short g).map some      -- marshal.go L32-34
    | none => .ok none

/-- dethcl/encoding.go L59-104 `loopHash`. -/
def loopBody (mem : Mem) (ord : Ord) (c : Calls) (path : List Nat) (name : Bytes) (depth level : Nat) (keyname : Option Bytes) (v : HV) : Out (List Bytes) :=
  match v with
  | .map a =>
    if allMaps mem depth a then labels c path name depth level 0 (ord path a)                                       -- L65-72
    else (c.level path (level + 1) (some name) v).map fun o => [name ++ 32 :: o.getD []]                              -- L73-88
  | .nilMap => (c.level path (level + 1) (some name) v).map fun o => [name ++ 32 :: o.getD []]
  | v =>
    match v.scalar with
    | some g => (short g).map fun t => [assign name t]                                                              -- L97-98
    | none => (c.level path (level + 1) none v).map fun o =>                                                          -- L90-101
      match o, keyname with
      | some t, some k => if matchlast k t then [] else [assign name t]
      | o, _ => [assign name (o.getD [])]

/-- The functions with room for `n` nested calls. -/
def calls (mem : Mem) (ord : Ord) : Nat → Calls
  | 0 => ⟨fun _ _ _ _ => .overflow, fun _ _ _ _ _ _ => .overflow⟩
  | n + 1 => ⟨levelBody mem ord (calls mem ord n), loopBody mem ord (calls mem ord n)⟩

/-- dethcl/marshal.go L19-28 `Marshal` with room for `n` nested calls. -/
def marshal (mem : Mem) (ord : Ord) (n : Nat) (v : HV) : Out (Option Bytes) := (calls mem ord n).level [] 0 none v

end Verif.HclHeap
