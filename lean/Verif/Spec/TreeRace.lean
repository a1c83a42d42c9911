import Verif.Spec.TreeAll
/-!
# Data races

Which memory the steps of `Model/TreeAll` read and write, and when two accesses are ordered by the Go memory model: the steps of one goroutine
are in order, and each `Unlock` of a mutex comes before each later `Lock` of it.  (Other means by which a program may order its calls are not
represented.)
-/
namespace Verif.TreeAll

/-- Memory that goroutines share: `Downs`, a cell of an array behind it, `Name`, `Up` of a node. -/
inductive Loc where
  | head (p : Nat)
  | cell (p arr k : Nat)
  | name (p : Nat)
  | up (p : Nat)

/-- The node it belongs to. -/
def Loc.node : Loc → Nat
  | .head p => p
  | .cell p _ _ => p
  | .name p => p
  | .up p => p

/-- What is in it. -/
inductive Word where
  | head (arr len : Nat)
  | cell (v : Option Nat)
  | name (n : Bytes)
  | up (u : Option Nat)

/-- The content of memory. -/
def St.word (s : St) : Loc → Word
  | .head p => .head (s.node p).arr (s.node p).len
  | .cell p arr k => .cell ((s.node p).cells arr)[k]?
  | .name p => .name (s.node p).name
  | .up p => .up (s.node p).up

/-- What the next step of goroutine `t` reads; `fresh` is the choice of `append`.  The loop of `DeleteNode` under the lock is one step. -/
def St.reads (s : St) (t : Nat) (fresh : Bool) (a : Loc) : Prop :=
  match s.pc t with
  | .look _ cur _ _ => a = .head cur
  | .scan _ cur _ _ arr len idx => idx < len ∧ (a = .cell cur arr idx ∨ ∃ d, ((s.node cur).cells arr)[idx]? = some d ∧ a = .name d)
  | .locked (.del _ _) cur _ _ =>
    a = .head cur ∨ (∃ k, k < (s.node cur).len ∧ a = .cell cur (s.node cur).arr k) ∨ ∃ d ∈ (s.node cur).downs, a = .name d
  | .locked _ cur _ _ => a = .head cur ∨ fresh = true ∧ ∃ k, k < (s.node cur).len ∧ a = .cell cur (s.node cur).arr k
  | .appended _ cur _ _ _ => a = .head cur
  | .shift _ cur j => a = .head cur ∨ j + 1 < (s.node cur).len ∧ a = .cell cur (s.node cur).arr (j + 1)
  | .enter _ d _ _ => a = .head d
  | .find _ (f :: _) =>
    f.idx < f.len ∧ (a = .cell f.node f.arr f.idx ∨ ∃ d, ((s.node f.node).cells f.arr)[f.idx]? = some d ∧ a = .name d)
  | _ => False

/-- The next step of goroutine `t` is `NewTree` in `AddNode`. -/
def St.makes (s : St) (t : Nat) : Prop :=
  match s.pc t with
  | .locked (.del _ _) _ _ _ => False
  | .locked _ _ _ _ => True
  | _ => False

/-- What the next step of goroutine `t` writes.  A new node and a new array are written as a whole. -/
def St.writes (s : St) (t : Nat) (fresh : Bool) (a : Loc) : Prop :=
  match s.pc t with
  | .locked (.del _ _) _ _ _ => False
  | .locked _ cur _ _ => a.node = s.next ∨
      if fresh = true then ∃ k, a = .cell cur (s.node cur).made k else a = .cell cur (s.node cur).arr (s.node cur).len
  | .appended _ cur _ _ _ => a = .head cur
  | .linked _ _ child _ => a = .up child
  | .shift _ cur j => if j + 1 < (s.node cur).len then a = .cell cur (s.node cur).arr j else a = .head cur
  | _ => False

/-- Step `i` of the execution is made by goroutine `t` in state `si`, with the choice `f`. -/
def Ev (s : St) (l : List (Nat × Call × Bool)) (i : Nat) (si : St) (t : Nat) (f : Bool) : Prop :=
  s.run (l.take i) = some si ∧ ∃ c, l[i]? = some (t, c, f)

/-- Goroutine `t` is about to call `mu.Lock()` of node `p`. -/
def Locks (s : St) (t p : Nat) : Prop := ∃ c n rest, s.pc t = .want c p n rest
/-- Goroutine `t` is about to call `mu.Unlock()` of node `p`. -/
def Unlocks (s : St) (t p : Nat) : Prop := ∃ c r rest, s.pc t = .unlock c p r rest

/-- Step `i` happens before step `j`. -/
inductive HB (s : St) (l : List (Nat × Call × Bool)) : Nat → Nat → Prop
  | po {i j t : Nat} {si sj : St} {f g : Bool} : i < j → Ev s l i si t f → Ev s l j sj t g → HB s l i j
  | sync {i j t u p : Nat} {si sj : St} {f g : Bool} : i < j → Ev s l i si t f → Unlocks si t p → Ev s l j sj u g → Locks sj u p → HB s l i j
  | trans {i j k : Nat} : HB s l i j → HB s l j k → HB s l i k

/-- The accesses of steps `i < j` to memory `a` conflict and are not ordered; `ti`, `si`, `fi` and `tj`, `sj`, `fj` are the goroutines, states and
choices of these steps. -/
structure Race (s : St) (l : List (Nat × Call × Bool)) (a : Loc) (i j : Nat) (si sj : St) (ti tj : Nat) (fi fj : Bool) : Prop where
  lt : i < j
  ei : Ev s l i si ti fi
  ej : Ev s l j sj tj fj
  conflict : si.writes ti fi a ∧ (sj.reads tj fj a ∨ sj.writes tj fj a) ∨ si.reads ti fi a ∧ sj.writes tj fj a
  open_ : ¬ HB s l i j

/-- The goroutine has a lock. -/
def HasLock (s : St) (t p : Nat) : Prop := (s.node p).lock = some t

/-- Two states that agree in what is not shared data: where goroutine `t` is, what it has returned, how many nodes and arrays there are, and the locks. -/
structure Alike (s s' : St) (t : Nat) : Prop where
  pc : s'.pc t = s.pc t
  log : s'.log t = s.log t
  next : s'.next = s.next
  made : ∀ a, (s'.node a).made = (s.node a).made
  lock : ∀ a, (s'.node a).lock = (s.node a).lock

end Verif.TreeAll
