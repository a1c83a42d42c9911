import Verif.Model.Go
/-!
# Concurrent additions anywhere in a tree (`utils/tree.go`)

Any number of goroutines make any number of calls of `AddNode`, `AddNodes`, `GetNode` and `FindNode`, one after the
other, each on any existing node.  Every read of a `Downs` slice, lock operation and write of shared memory is one step.

Simplifications: a goroutine reads a slice at once, its header and cells: without `DeleteNode` the cells below the length
of a header are never written again (`append` writes behind them or into a new array); `Model/TreeConc` has the
cells and `DeleteNode`, for one node.  Memory is sequentially consistent and headers are not torn.  `Name` is never
written after `NewTree`, so comparing names is no step of its own.  Data (`sync.Map`) and `Variables` are not represented.
-/
namespace Verif.TreeMany

/-- utils/tree.go L18-24 `Tree`; nodes are addressed by numbers; `lock` is the goroutine that holds `mu`. -/
structure Node where
  name : Bytes
  up : Option Nat
  downs : List Nat
  lock : Option Nat

/-- A call, with its receiver.  `AddNode(name)` is `AddNodes(name)` with no further names. -/
inductive Call where
  | add (self : Nat) (tag : Bytes) (names : List Bytes)
  | get (self : Nat) (tag : Bytes) (names : List Bytes)
  | find (self : Nat) (names : List Bytes)
  deriving DecidableEq

/-- The receiver. -/
def Call.self : Call → Nat
  | .add s _ _ => s
  | .get s _ _ => s
  | .find s _ => s

/-- Where a goroutine is. -/
inductive PC where
  | idle
  /-- before `grep` of L57, in `AddNode(names.head)` on `cur` -/
  | scan (c : Call) (cur : Nat) (n : Bytes) (rest : List Bytes)
  /-- before `mu.Lock()`, L62 -/
  | want (c : Call) (cur : Nat) (n : Bytes) (rest : List Bytes)
  /-- after `mu.Lock()`, before L63 -/
  | locked (c : Call) (cur : Nat) (n : Bytes) (rest : List Bytes)
  /-- after L64, before `child.Up = self`, L65 -/
  | linked (c : Call) (cur child : Nat) (rest : List Bytes)
  /-- before `mu.Unlock()`, L66 -/
  | unlock (c : Call) (cur child : Nat) (rest : List Bytes)
  /-- before `grep` of L93 or L99, in `GetNode` -/
  | get (c : Call) (cur : Nat) (n : Bytes) (rest : List Bytes)
  /-- in `FindNode`: the loops that are running, innermost first, each with the children left and the names -/
  | find (c : Call) (frames : List (List Nat × List Bytes))

/-- Shared memory, the goroutines, and for each goroutine the calls that have returned, the last one first. -/
structure St where
  node : Nat → Node
  next : Nat
  pc : Nat → PC
  log : Nat → List (Call × Option Nat)

/-- Function update. -/
def upd {α : Type} (f : Nat → α) (k : Nat) (v : α) : Nat → α := fun i => if i = k then v else f i

/-- Goroutine `t` goes on somewhere else. -/
def St.goto (s : St) (t : Nat) (p : PC) : St := { s with pc := upd s.pc t p }

/-- The call of goroutine `t` returns. -/
def St.ret (s : St) (t : Nat) (c : Call) (r : Option Nat) : St :=
  { s with pc := upd s.pc t .idle, log := upd s.log t ((c, r) :: s.log t) }

/-- A node is changed. -/
def St.set (s : St) (a : Nat) (n : Node) : St := { s with node := upd s.node a n }

/-- utils/tree.go L79-86 `grep` -/
def St.grep (s : St) (a : Nat) (n : Bytes) : Option Nat := (s.node a).downs.find? fun d => decide ((s.node d).name = n)

/-- utils/tree.go L71-77 `AddNodes`: after one level, with the node of this level. -/
def St.added (s : St) (t : Nat) (c : Call) (node : Nat) : List Bytes → St
  | [] => s.ret t c (some node)
  | n :: rest => s.goto t (.scan c node n rest)

/-- utils/tree.go L89-106 `GetNode`: after `grep`. -/
def St.got (s : St) (t : Nat) (c : Call) (rest : List Bytes) : Option Nat → St
  | none => s.ret t c none                                       -- L94-96, L100-102
  | some d =>
    match rest with
    | [] => s.ret t c (some d)                                   -- L105
    | n :: rest => s.goto t (.get c d n rest)                    -- L98-99

/-- The first step of a call. -/
def St.begin (s : St) (t : Nat) (c : Call) : St :=
  match c with
  | .add self tag names => s.goto t (.scan c self tag names)
  | .get self tag names =>
    if tag = [] then s.ret t c (some self)                       -- L90-92
    else s.goto t (.get c self tag names)
  | .find self names =>
    if names = [] then s.ret t c none                            -- L137-139
    else s.goto t (.find c [((s.node self).downs, names)])       -- L143

/-- utils/tree.go L27-29 `NewTree`. -/
def newNode (n : Bytes) : Node := ⟨n, none, [], none⟩

/-- utils/tree.go L63-64: the node is made and appended. -/
def St.link (s : St) (cur : Nat) (n : Bytes) : St :=
  { s with
    node := upd (upd s.node s.next (newNode n)) cur { s.node cur with downs := (s.node cur).downs ++ [s.next] }
    next := s.next + 1 }

/-- utils/tree.go L136-158 `FindNode`, one turn of the innermost loop. -/
def St.findStep (s : St) (t : Nat) (c : Call) : List (List Nat × List Bytes) → St
  | [] => s.ret t c none
  | ([], _) :: fs => s.goto t (.find c fs)                       -- L157: nil for the loop outside
  | (_ :: _, []) :: fs => s.goto t (.find c fs)                  -- L137-139, not reached
  | (d :: ds, n :: ns) :: fs =>
    if (s.node d).name = n then                                  -- L144
      if ns = [] then s.ret t c (some d)                         -- L145-147
      else s.goto t (.find c (((s.node d).downs, ns) :: fs))     -- L148
    else s.goto t (.find c (((s.node d).downs, n :: ns) :: (ds, n :: ns) :: fs))  -- L150-153

/-- One step of goroutine `t`; when it is idle it begins the given call, on an existing node.  `none`: it cannot go on. -/
def St.step (s : St) (t : Nat) (c : Call) : Option St :=
  match s.pc t with
  | .idle => if c.self < s.next then some (s.begin t c) else none
  | .scan c cur n rest =>
    match s.grep cur n with                                      -- L57
    | some d => some (s.added t c d rest)                        -- L58-60
    | none => some (s.goto t (.want c cur n rest))
  | .want c cur n rest =>                                        -- L62
    match (s.node cur).lock with
    | none => some ((s.set cur { s.node cur with lock := some t }).goto t (.locked c cur n rest))
    | some _ => none
  | .locked c cur n rest => some ((s.link cur n).goto t (.linked c cur s.next rest))
  | .linked c cur child rest =>                                  -- L65
    some ((s.set child { s.node child with up := some cur }).goto t (.unlock c cur child rest))
  | .unlock c cur child rest => some ((s.set cur { s.node cur with lock := none }).added t c child rest)  -- L66-67
  | .get c cur n rest => some (s.got t c rest (s.grep cur n))
  | .find c fs => some (s.findStep t c fs)

/-- An execution: which goroutine goes on, and which call it begins if it is idle. -/
def St.run (s : St) : List (Nat × Call) → Option St
  | [] => some s
  | (t, c) :: l => (s.step t c).bind fun s' => s'.run l

/-- States in which nothing runs: finitely many nodes, each below at most one other and listed once there, made after it
and pointing up to it. -/
structure St.Init (s : St) : Prop where
  low : ∀ p c, c ∈ (s.node p).downs → p < c ∧ c < s.next
  nodup : ∀ p, (s.node p).downs.Nodup
  one : ∀ p q c, c ∈ (s.node p).downs → c ∈ (s.node q).downs → p = q
  up : ∀ p c, c ∈ (s.node p).downs → (s.node c).up = some p
  free : ∀ a, (s.node a).lock = none
  idle : ∀ t, s.pc t = .idle
  log : ∀ t, s.log t = []

end Verif.TreeMany
