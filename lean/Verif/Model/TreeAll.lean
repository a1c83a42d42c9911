import Verif.Model.Go
/-!
# Additions and deletions anywhere in a tree, by many goroutines (`utils/tree.go`)

Any number of goroutines make any number of calls of `AddNode`, `AddNodes`, `DeleteNode`, `GetNode` and `FindNode`, one after the other, each
on any existing node.  Every read or write of a cell of an array, of a slice header, of `Up`, and every lock operation is one step.
This joins `Model/TreeConc` (one node, with its cells) and `Model/TreeMany` (whole trees, without `DeleteNode`).

Simplifications: a slice header is read and written at once; memory is sequentially consistent; `Name` is never written after `NewTree`, so
comparing names is no step of its own.  Whether `append` writes into the array or into a new one depends on the capacity in Go; here both
can always happen.  Data (`sync.Map`) and `Variables` are not represented.
-/
namespace Verif.TreeAll

/-- utils/tree.go L18-24 `Tree`; nodes are addressed by numbers; `lock` is the goroutine that holds `mu`.  `Downs` is the header `arr`,
`len`.  The arrays that were ever behind it are numbered, `made` of them; `cells` are the cells written so far.  (Slices are not passed from
one node to another, so an array belongs to one node.) -/
structure Node where
  name : Bytes
  up : Option Nat
  cells : Nat → List Nat
  made : Nat
  arr : Nat
  len : Nat
  lock : Option Nat

/-- The children seen through the header. -/
def Node.downs (n : Node) : List Nat := (n.cells n.arr).take n.len

/-- A call, with its receiver.  `AddNode(name)` is `AddNodes(name)` with no further names. -/
inductive Call where
  | add (self : Nat) (tag : Bytes) (names : List Bytes)
  | get (self : Nat) (tag : Bytes) (names : List Bytes)
  | find (self : Nat) (names : List Bytes)
  | del (self : Nat) (name : Bytes)
  deriving DecidableEq

/-- The receiver. -/
def Call.self : Call → Nat
  | .add s _ _ => s
  | .get s _ _ => s
  | .find s _ => s
  | .del s _ => s

/-- A running loop of `FindNode`: the node, the header that was read, the next index, and the names. -/
structure Frame where
  node : Nat
  arr : Nat
  len : Nat
  idx : Nat
  names : List Bytes

/-- Where a goroutine is. -/
inductive PC where
  | idle
  /-- before `grep(self.Downs, n)`, L57, L93, L99 -/
  | look (c : Call) (cur : Nat) (n : Bytes) (rest : List Bytes)
  /-- in `grep`, L80, with the header that was read and the next index -/
  | scan (c : Call) (cur : Nat) (n : Bytes) (rest : List Bytes) (arr len idx : Nat)
  /-- before `mu.Lock()`, L62, L110 -/
  | want (c : Call) (cur : Nat) (n : Bytes) (rest : List Bytes)
  /-- after `mu.Lock()` -/
  | locked (c : Call) (cur : Nat) (n : Bytes) (rest : List Bytes)
  /-- L64: the cell is written, the header not yet -/
  | appended (c : Call) (cur child arr : Nat) (rest : List Bytes)
  /-- before `child.Up = self`, L65 -/
  | linked (c : Call) (cur child : Nat) (rest : List Bytes)
  /-- L116: about to copy cell `j + 1` to cell `j`, or to write the header -/
  | shift (c : Call) (cur j : Nat)
  /-- before `mu.Unlock()`, L66, L118, L122 -/
  | unlock (c : Call) (cur : Nat) (r : Option Nat) (rest : List Bytes)
  /-- in `FindNode`, about to read the header of `d`, L143; the loops outside, innermost first -/
  | enter (c : Call) (d : Nat) (names : List Bytes) (frames : List Frame)
  /-- in the loop of `FindNode` -/
  | find (c : Call) (frames : List Frame)
  /-- a cell behind the end of an array, or a nil pointer -/
  | panic (c : Call)

/-- Shared memory, the goroutines, and for each goroutine the calls that have returned, the last one first. -/
structure St where
  node : Nat → Node
  next : Nat
  pc : Nat → PC
  log : Nat → List (Call × Option Nat)

/-- Function update. -/
def upd {α : Type} (f : Nat → α) (k : Nat) (v : α) : Nat → α := fun i => if i = k then v else f i

/-- Goroutine `t` goes on somewhere else. -/
def St.goto (s : St) (t : Nat) (p : PC) : St := { s with pc := upd s.pc t p }

/-- The call of goroutine `t` returns. -/
def St.ret (s : St) (t : Nat) (c : Call) (r : Option Nat) : St :=
  { s with pc := upd s.pc t .idle, log := upd s.log t ((c, r) :: s.log t) }

/-- A node is changed. -/
def St.set (s : St) (a : Nat) (n : Node) : St := { s with node := upd s.node a n }

/-- utils/tree.go L73-76 and L98-105: `AddNodes` and `GetNode` go on with the child that was found or added. -/
def St.hit (s : St) (t : Nat) (c : Call) (d : Nat) : List Bytes → St
  | [] => s.ret t c (some d)
  | n :: rest => s.goto t (.look c d n rest)

/-- utils/tree.go L57-62, L94-96, L100-102: there is no child of the name. -/
def St.miss (s : St) (t : Nat) (c : Call) (cur : Nat) (n : Bytes) (rest : List Bytes) : St :=
  match c with
  | .add _ _ _ => s.goto t (.want c cur n rest)
  | _ => s.ret t c none

/-- The first step of a call. -/
def St.begin (s : St) (t : Nat) (c : Call) : St :=
  match c with
  | .add self tag names => s.goto t (.look c self tag names)
  | .get self tag names =>
    if tag = [] then s.ret t c (some self)                       -- L90-92
    else s.goto t (.look c self tag names)
  | .find self names =>
    if names = [] then s.ret t c none                            -- L137-139
    else s.goto t (.enter c self names [])
  | .del self name => s.goto t (.want c self name [])

/-- utils/tree.go L27-29 `NewTree`; the nil slice is an array without cells. -/
def newNode (n : Bytes) : Node := ⟨n, none, fun _ => [], 1, 0, 0, none⟩

/-- utils/tree.go L64 `append` up to the write of the cell: in the same array or, if `fresh`, in a new one. -/
def Node.append (n : Node) (child : Nat) (fresh : Bool) : Node :=
  if fresh then { n with cells := upd n.cells n.made (n.downs ++ [child]), made := n.made + 1 }
  else { n with cells := upd n.cells n.arr (n.downs ++ child :: (n.cells n.arr).drop (n.len + 1)) }

/-- The array into which `append` writes. -/
def Node.target (n : Node) (fresh : Bool) : Nat := if fresh then n.made else n.arr

/-- utils/tree.go L63-64: the node is made and its cell written. -/
def St.append (s : St) (t : Nat) (c : Call) (cur : Nat) (n : Bytes) (rest : List Bytes) (fresh : Bool) : St :=
  { s with
    node := upd (upd s.node s.next (newNode n)) cur ((s.node cur).append s.next fresh)
    next := s.next + 1
    pc := upd s.pc t (.appended c cur s.next ((s.node cur).target fresh) rest) }

/-- utils/tree.go L111-112, holding the lock: the index of the first child of that name. -/
def St.index (s : St) (cur : Nat) (n : Bytes) : Option Nat := (s.node cur).downs.findIdx? fun d => decide ((s.node d).name = n)

/-- utils/tree.go L113-117, one step: a cell is copied, or the header is written. -/
def St.shift (s : St) (t : Nat) (c : Call) (cur j : Nat) : St :=
  let n := s.node cur
  if j + 1 < n.len then
    (s.set cur { n with cells := upd n.cells n.arr ((n.cells n.arr).set j ((n.cells n.arr).getD (j + 1) 0)) }).goto t (.shift c cur (j + 1))
  else (s.set cur { n with len := n.len - 1 }).goto t (.unlock c cur none [])

/-- utils/tree.go L136-158 `FindNode`, one turn of the innermost loop. -/
def St.findStep (s : St) (t : Nat) (c : Call) : List Frame → St
  | [] => s.ret t c none
  | f :: fs =>
    if f.idx < f.len then
      match ((s.node f.node).cells f.arr)[f.idx]? with
      | none => s.goto t (.panic c)
      | some d =>
        match f.names with
        | [] => s.goto t (.find c fs)                                              -- L137-139, not reached
        | n :: ns =>
          if (s.node d).name = n then                                              -- L144
            if ns = [] then s.ret t c (some d)                                     -- L145-147
            else s.goto t (.enter c d ns fs)                                       -- L148
          else s.goto t (.enter c d (n :: ns) ({ f with idx := f.idx + 1 } :: fs)) -- L150-153
    else s.goto t (.find c fs)                                                     -- L157: nil for the loop outside

/-- One step of goroutine `t`; when it is idle it begins the given call, on an existing node; `fresh` is the choice of `append`.  `none`: it
cannot go on. -/
def St.step (s : St) (t : Nat) (c : Call) (fresh : Bool) : Option St :=
  match s.pc t with
  | .idle => if c.self < s.next then some (s.begin t c) else none
  | .look c cur n rest => some (s.goto t (.scan c cur n rest (s.node cur).arr (s.node cur).len 0))
  | .scan c cur n rest arr len idx =>                                              -- L79-86
    if idx < len then
      match ((s.node cur).cells arr)[idx]? with
      | none => some (s.goto t (.panic c))
      | some d =>
        if (s.node d).name = n then some (s.hit t c d rest)
        else some (s.goto t (.scan c cur n rest arr len (idx + 1)))
    else some (s.miss t c cur n rest)
  | .want c cur n rest =>                                                          -- L62, L110
    match (s.node cur).lock with
    | none => some ((s.set cur { s.node cur with lock := some t }).goto t (.locked c cur n rest))
    | some _ => none
  | .locked (.del self name) cur n rest =>
    match s.index cur n with                                                       -- L111-112
    | none => some (s.goto t (.unlock (.del self name) cur none rest))
    | some j => some (s.goto t (.shift (.del self name) cur j))
  | .locked c cur n rest => some (s.append t c cur n rest fresh)
  | .appended c cur child arr rest =>                                              -- L64, the header
    some ((s.set cur { s.node cur with arr := arr, len := (s.node cur).len + 1 }).goto t (.linked c cur child rest))
  | .linked c cur child rest =>                                                    -- L65
    some ((s.set child { s.node child with up := some cur }).goto t (.unlock c cur (some child) rest))
  | .shift c cur j => some (s.shift t c cur j)
  | .unlock c cur r rest =>                                                        -- L66-67, L118-119, L122
    let s' := s.set cur { s.node cur with lock := none }
    match r with
    | none => some (s'.ret t c none)
    | some d => some (s'.hit t c d rest)
  | .enter c d names fs => some (s.goto t (.find c (⟨d, (s.node d).arr, (s.node d).len, 0, names⟩ :: fs)))
  | .find c fs => some (s.findStep t c fs)
  | .panic _ => none

/-- An execution: which goroutine goes on, which call it begins if it is idle, and the choice of `append`. -/
def St.run (s : St) : List (Nat × Call × Bool) → Option St
  | [] => some s
  | (t, c, f) :: l => (s.step t c f).bind fun s' => s'.run l

/-- States in which nothing runs: cells hold nodes made after the node they belong to, which point up to it; no child is listed twice. -/
structure St.Init (s : St) : Prop where
  kid : ∀ p k c, c ∈ (s.node p).cells k → p < c ∧ c < s.next ∧ (s.node c).up = some p
  arr : ∀ p, (s.node p).arr < (s.node p).made
  len : ∀ p, (s.node p).len ≤ ((s.node p).cells (s.node p).arr).length
  nodup : ∀ p, (s.node p).downs.Nodup
  free : ∀ a, (s.node a).lock = none
  idle : ∀ t, s.pc t = .idle
  log : ∀ t, s.log t = []

end Verif.TreeAll
