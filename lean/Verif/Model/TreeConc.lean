import Verif.Model.Go
/-!
# Concurrent model of `AddNode`, `DeleteNode`, `GetNode` on one node (`utils/tree.go`)

Any number of goroutines run one call each on the same receiver.  The receiver's `Downs`
is a slice: a header (array, length) pointing into shared memory; `append` writes in
place when the capacity allows it and otherwise moves to a fresh array of arbitrary larger
capacity; `DeleteNode` shifts the cells of the array in place.  Every read or write of a
shared cell or header is one step; `grep` holds a snapshot of the header while scanning.

Simplifications: reading or writing the three-word slice header is one step (Go permits
torn headers, which would only add behaviours); memory is sequentially consistent; only
direct children are modelled (`GetNode` with one name); names are immutable.
-/
namespace Verif.TreeConc

/-- The calls a goroutine can make on the shared node. -/
inductive Call where
  | add (name : Bytes)
  | del (name : Bytes)
  | get (name : Bytes)
  deriving DecidableEq

/-- The name argument. -/
def Call.name : Call → Bytes
  | .add n => n
  | .del n => n
  | .get n => n

/-- Program counters of a goroutine. -/
inductive PC where
  | start (c : Call)
  /-- inside `grep` (L79-86), with the slice header taken at L57/L93 and the next index -/
  | scan (c : Call) (arr len idx : Nat)
  /-- before `mu.Lock()` (L62, L110) -/
  | wantLock (c : Call)
  /-- after `mu.Lock()` -/
  | locked (c : Call)
  /-- L64: cell written, header not yet -/
  | appended (c : Call) (child arr len : Nat)
  /-- L116: about to copy cell `j+1` to cell `j` -/
  | shifting (c : Call) (j : Nat)
  /-- before `mu.Unlock()` -/
  | unlock (c : Call) (r : Option Nat)
  | done (c : Call) (r : Option Nat)
  /-- nil dereference -/
  | panic (c : Call)
  deriving DecidableEq

/-- Shared memory and the goroutines. -/
structure St where
  /-- names of the allocated nodes -/
  name : Nat → Bytes
  next : Nat
  /-- cells of the allocated arrays -/
  mem : Nat → Nat → Option Nat
  cap : Nat → Nat
  nextArr : Nat
  /-- `self.Downs` -/
  arr : Nat
  len : Nat
  /-- `self.mu` -/
  lock : Option Nat
  pc : Nat → PC

/-- Function update. -/
def upd {α : Type} (f : Nat → α) (k : Nat) (v : α) : Nat → α := fun i => if i = k then v else f i

/-- Move goroutine `t` to a program counter. -/
def St.goto (s : St) (t : Nat) (p : PC) : St := { s with pc := upd s.pc t p }

/-- utils/tree.go L111-112: the index of the first child of that name (holding the lock). -/
def St.findIdx (s : St) (n : Bytes) : Option Nat :=
  (List.range s.len).find? fun k => (s.mem s.arr k).map s.name == some n

/-- L62-65 of utils/tree.go up to the store of the cell: allocate the child, `append`
writing in place or into a fresh array with `extra` spare capacity. -/
def St.append (s : St) (t : Nat) (c : Call) (extra : Nat) : St :=
  let s1 := { s with name := upd s.name s.next c.name, next := s.next + 1 }
  if s.len < s.cap s.arr then
    { s1 with
      mem := upd s.mem s.arr (upd (s.mem s.arr) s.len (some s.next))
      pc := upd s.pc t (.appended c s.next s.arr (s.len + 1)) }
  else
    { s1 with
      mem := upd s.mem s.nextArr
        (fun k => if k < s.len then s.mem s.arr k else if k = s.len then some s.next else none)
      cap := upd s.cap s.nextArr (s.len + 1 + extra)
      nextArr := s.nextArr + 1
      pc := upd s.pc t (.appended c s.next s.nextArr (s.len + 1)) }

/-- One step of goroutine `t` (it stays where it is when blocked or finished).  `extra` is
the spare capacity chosen by the runtime if this step reallocates. -/
def St.step (s : St) (t extra : Nat) : St :=
  match s.pc t with
  | .start (.del m) => s.goto t (.wantLock (.del m))
  | .start c => s.goto t (.scan c s.arr s.len 0)               -- L57, L93
  | .scan c arr len idx =>
    if idx < len then
      match s.mem arr idx with                                   -- L80-84
      | none => s.goto t (.panic c)
      | some d =>
        if s.name d = c.name then s.goto t (.done c (some d))
        else s.goto t (.scan c arr len (idx + 1))
    else
      match c with
      | .add n => s.goto t (.wantLock (.add n))
      | c => s.goto t (.done c none)                             -- L94-96
  | .wantLock c =>
    if s.lock = none then { s with lock := some t, pc := upd s.pc t (.locked c) } else s
  | .locked (.add n) => s.append t (.add n) extra                -- L63-64
  | .locked (.del m) =>
    match s.findIdx m with                                       -- L111-112
    | none => s.goto t (.unlock (.del m) none)
    | some i => s.goto t (.shifting (.del m) i)
  | .locked c => s.goto t (.unlock c none)                       -- not reached
  | .appended c child arr len =>
    { s with arr := arr, len := len, pc := upd s.pc t (.unlock c (some child)) }  -- L64
  | .shifting c j =>
    if j + 1 < s.len then
      { s with mem := upd s.mem s.arr (upd (s.mem s.arr) j (s.mem s.arr (j + 1)))
               pc := upd s.pc t (.shifting c (j + 1)) }
    else { s with len := s.len - 1, pc := upd s.pc t (.unlock c none) }  -- L114, L116
  | .unlock c r => { s with lock := none, pc := upd s.pc t (.done c r) }
  | .done _ _ => s
  | .panic _ => s

/-- An execution: any schedule of goroutines, with the allocator's choices. -/
def St.run (s : St) : List (Nat × Nat) → St
  | [] => s
  | (t, e) :: rest => (s.step t e).run rest

/-- The children seen through the current header. -/
def St.child (s : St) (k : Nat) : Option Nat := if k < s.len then s.mem s.arr k else none

/-- Initial states: some children, free lock, every goroutine about to make its call. -/
structure St.Init (s : St) : Prop where
  cells : ∀ k, k < s.len → ∃ d, s.mem s.arr k = some d ∧ d < s.next
  arr_lt : s.arr < s.nextArr
  free : s.lock = none
  pcs : ∀ t, ∃ c, s.pc t = .start c

end Verif.TreeConc
