import Verif.Model.SpecHeap
/-!
# What descriptions and specifications in memory stand for
-/
namespace Verif.SpecHeap
open Spec (SVal SPair Struct Value)

def RVal.view (s : Ptr → Struct) : RVal → Value
  | .single p => .single (s p)
  | .list l => .list (l.map s)
  | .map m => .map (m.map fun e => (e.1, s e.2))
  | .map2 m => .map2 (m.map fun e => (e.1, e.2.map fun e => (e.1, s e.2)))

/-- The struct at a pointer, written out to a depth; nil is shown as its getters show it (utils/determined.pb.go L64-76). -/
def readS (h : Heap) : Nat → Ptr → Struct
  | 0, _ => .mk [] none
  | n + 1, p =>
    match p.bind (h[·]?) with
    | none => .mk [] none
    | some c => .mk c.name (c.fields.map fun fs => fs.map fun e => (e.1, e.2.view (readS h n)))

def readV (h : Heap) (n : Nat) (r : RVal) : Value := r.view (readS h n)

def Pair.view (maps : Maps) (sub : MVal → SVal) (p : Pair) : SPair :=
  .mk (match p.name with | some s => .str s | none => .other [])
    (match p.body with
      | .nil => .nil
      | .hash a => .hash ((maps a).map fun e => (e.1, sub e.2))
      | .other => .other [])

/-- A description as a tree, written out to a depth. -/
def tree (maps : Maps) (h : Heap) : Nat → MVal → SVal
  | 0, _ => .other []
  | n + 1, v =>
    let pair := Pair.view maps (tree maps h n)
    let st := readS h (n + 1)
    match v with
    | .str s => .str s
    | .pair p => .pair (pair p)
    | .strs l => .strs l
    | .pairs l => .pairs (l.map pair)
    | .mapStr m => .mapStr m
    | .mapPair m => .mapPair (m.map fun e => (e.1, pair e.2))
    | .map2Str m => .map2Str m
    | .map2Pair m => .map2Pair (m.map fun e => (e.1, pair e.2))
    | .ptr p => .struct (st p)
    | .ptrs l => .structs (l.map st)
    | .mapPtr m => .mapStruct (m.map fun e => (e.1, st e.2))
    | .map2Ptr m => .map2Struct (m.map fun e => (e.1, e.2.map fun e => (e.1, st e.2)))
    | .bad => .other []

def Pair.maps (p : Pair) : List Nat :=
  match p.body with
  | .hash a => [a]
  | _ => []

/-- The maps that a description contains. -/
def MVal.maps : MVal → List Nat
  | .pair p => p.maps
  | .pairs l => l.flatMap Pair.maps
  | .mapPair m => m.flatMap fun e => e.2.maps
  | .map2Pair m => m.flatMap fun e => e.2.maps
  | _ => []

/-- The structs that a description contains. -/
def MVal.pointers : MVal → List Ptr
  | .ptr p => [p]
  | .ptrs l => l
  | .mapPtr m => m.map Prod.snd
  | .map2Ptr m => m.flatMap fun e => e.2.map Prod.snd
  | _ => []

/-- `v'` is one of the descriptions in a map of `v`. -/
def Inside (maps : Maps) (v' v : MVal) : Prop := ∃ a ∈ v.maps, ∃ e ∈ maps a, e.2 = v'

/-- `v'` is `v` or somewhere inside of it. -/
inductive Reach (maps : Maps) (v : MVal) : MVal → Prop where
  | refl : Reach maps v v
  | step {v1 v2} : Reach maps v v1 → Inside maps v2 v1 → Reach maps v v2

/-- No endless way into `v`: its maps contain themselves nowhere. -/
def NoCycle (maps : Maps) (v : MVal) : Prop := Acc (Inside maps) v

def RVal.pointers : RVal → List Ptr
  | .single p => [p]
  | .list l => l
  | .map m => m.map Prod.snd
  | .map2 m => m.flatMap fun e => e.2.map Prod.snd

def Cell.pointers (c : Cell) : List Ptr := (c.fields.getD []).flatMap fun e => e.2.pointers

/-- Nil or the address of a struct. -/
def Valid (n : Nat) (p : Ptr) : Prop := ∀ a, p = some a → a < n

/-- Every pointer in memory is nil or the address of a struct. -/
def Closed (h : Heap) : Prop := ∀ c ∈ h, ∀ p ∈ c.pointers, Valid h.length p

end Verif.SpecHeap
