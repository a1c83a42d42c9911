import Verif.Model.TreeAll
import Verif.Model.Tree
/-!
# `Variables` while nodes are added and deleted (`utils/tree.go`)

The goroutines of `Model/TreeAll` also call `AddItem`, `DeleteItem` and `Variables`.  This joins `Model/TreeAll` (all calls that change the tree,
with the cells of the arrays) and `Model/TreeVars` (`Variables`, without `DeleteNode`).

Simplifications: those of `Model/TreeAll` (slice headers read and written at once, sequentially consistent memory).
External: `sync.Map` as documented: `Store` and `Delete` happen at once; `Range` visits no key twice, and shows for every key the value, or its
absence, of some moment while it runs, in any order.  `cty.ObjectVal` takes a snapshot of the map.
-/
namespace Verif.TreeWatch
open TreeAll (upd Call)
open Tree (CV VAR)

variable {V : Type}

/-- A running call of `Variables`: the receiver, the header `arr`, `len` read by the loop of L163, the next index, and the map `hash`.
`range`: in `Data.Range` the keys that were there when it began and were not yet visited, and the keys visited. -/
structure Frame (V : Type) where
  self : Nat
  arr : Nat
  len : Nat
  idx : Nat
  hash : List (Bytes × CV V)
  range : Option (List Bytes × List Bytes)

/-- Where a goroutine is: not in `Variables`; inside, with the calls, innermost first; or it read a cell that does not exist. -/
inductive At (V : Type) where
  | out
  | inside (frames : List (Frame V))
  | panic

/-- Shared memory, where the goroutines are with respect to `Variables`, and the results of `Variables` that each goroutine was given, with
the receiver, the last one first. -/
structure St (V : Type) where
  tree : TreeAll.St
  data : Nat → List (Bytes × V)
  vars : Nat → At V
  log : Nat → List (Nat × List (Bytes × CV V))

/-- What happens next: goroutine `t` does a step of, or begins, a call of `AddNodes`, `GetNode`, `FindNode` or `DeleteNode` (`fresh` is the choice of
`append`); calls `AddItem` or `DeleteItem`; begins `Variables`; goes on in `Variables`, where `key` is the key that `Range` visits, `none`: it
ends. -/
inductive Ev (V : Type) where
  | tree (t : Nat) (c : Call) (fresh : Bool)
  | store (t self : Nat) (k : Bytes) (v : V)
  | delete (t self : Nat) (k : Bytes)
  | begin (t self : Nat)
  | go (t : Nat) (key : Option Bytes)

/-- utils/tree.go L161-163: a call of `Variables` begins; the header of `Downs` is read. -/
def St.enter (s : St V) (self : Nat) : Frame V := ⟨self, (s.tree.node self).arr, (s.tree.node self).len, 0, [], none⟩

/-- utils/tree.go L175-179: what a call returns. -/
def St.result (s : St V) (f : Frame V) : List (Bytes × CV V) :=
  if (s.tree.node f.self).name = VAR then GoMap.set f.hash VAR (.obj f.hash) else f.hash

/-- utils/tree.go L168-173: `Range` visits a key; the value of that moment is stored.  A key that was deleted is left out. -/
def St.visit (s : St V) (f : Frame V) (todo seen : List Bytes) (k : Bytes) : Frame V :=
  { f with
    hash :=
      match GoMap.get? (s.data f.self) k with
      | some v => if k ≠ VAR then GoMap.set f.hash k (.item v) else f.hash
      | none => f.hash
    range := some (todo.filter (· ≠ k), k :: seen) }

/-- A goroutine is somewhere else in `Variables`. -/
def St.goto (s : St V) (t : Nat) (fs : List (Frame V)) : St V := { s with vars := upd s.vars t (.inside fs) }

/-- utils/tree.go L164-166: the innermost call returns, to the loop of the call outside or to the caller. -/
def St.leave (s : St V) (t : Nat) (f : Frame V) : List (Frame V) → St V
  | [] => { s with vars := upd s.vars t .out, log := upd s.log t ((f.self, s.result f) :: s.log t) }
  | p :: fs => s.goto t ({ p with hash := GoMap.set p.hash (s.tree.node f.self).name (.obj (s.result f)) } :: fs)

/-- utils/tree.go L161-180 `Variables`, one step. -/
def St.varStep (s : St V) (t : Nat) (key : Option Bytes) : List (Frame V) → Option (St V)
  | [] => none
  | f :: fs =>
    match f.range with
    | none =>
      if f.idx < f.len then
        match ((s.tree.node f.self).cells f.arr)[f.idx]? with                                                -- L163
        | none => some { s with vars := upd s.vars t .panic }
        | some d => some (s.goto t (s.enter d :: { f with idx := f.idx + 1 } :: fs))                         -- L164
      else some (s.goto t ({ f with range := some (GoMap.keys (s.data f.self), []) } :: fs))                 -- L168
    | some (todo, seen) =>
      match key with
      | some k => if k ∈ seen then none else some (s.goto t (s.visit f todo seen k :: fs))                  -- L168-173
      | none => if todo = [] then some (s.leave t f fs) else none

/-- One step.  `none`: this cannot happen now. -/
def St.step (s : St V) : Ev V → Option (St V)
  | .tree t c fresh =>
    match s.vars t with
    | .out => (s.tree.step t c fresh).map fun tree => { s with tree := tree }
    | _ => none
  | .store t self k v =>                                                                                     -- L126-128
    match s.vars t, s.tree.pc t with
    | .out, .idle => if self < s.tree.next then some { s with data := upd s.data self (GoMap.set (s.data self) k v) } else none
    | _, _ => none
  | .delete t self k =>                                                                                      -- L131-133
    match s.vars t, s.tree.pc t with
    | .out, .idle => if self < s.tree.next then some { s with data := upd s.data self (GoMap.del (s.data self) k) } else none
    | _, _ => none
  | .begin t self =>
    match s.vars t, s.tree.pc t with
    | .out, .idle => if self < s.tree.next then some (s.goto t [s.enter self]) else none
    | _, _ => none
  | .go t key =>
    match s.vars t with
    | .inside fs => s.varStep t key fs
    | _ => none

/-- An execution. -/
def St.run (s : St V) : List (Ev V) → Option (St V)
  | [] => some s
  | e :: es => (s.step e).bind fun s' => s'.run es

/-- States in which nothing runs. -/
structure St.Init (s : St V) : Prop where
  tree : s.tree.Init
  idle : ∀ t, s.vars t = .out
  log : ∀ t, s.log t = []

end Verif.TreeWatch
