import Verif.Model.TreeAll
/-!
# Notions for trees that change while they are read
-/
namespace Verif.TreeAll

/-- From `x` one comes to `a` through `Up`; the names of the nodes that are left, from the top. -/
inductive UpPath (s : St) : Nat → List Bytes → Nat → Prop
  | here (a : Nat) : UpPath s a [] a
  | down {a d x : Nat} {l : List Bytes} : (s.node d).up = some a → UpPath s d l x → UpPath s a ((s.node d).name :: l) x

/-- `x` is below `a`. -/
inductive Below (s : St) : Nat → Nat → Prop
  | child {a d : Nat} : d ∈ (s.node a).downs → Below s a d
  | down {a d x : Nat} : d ∈ (s.node a).downs → Below s d x → Below s a x

/-- Goroutine `t` is inside of `AddNode` on node `p`, with the lock. -/
def InAdd (s : St) (t p : Nat) : Prop :=
  ∃ c child arr rest, s.pc t = .appended c p child arr rest ∨ s.pc t = .linked c p child rest

/-- `DeleteNode(n)` on node `p` is running and has not yet changed the header. -/
def Deleting (s : St) (t p : Nat) (n : Bytes) : Prop :=
  ∃ rest j, s.pc t = .want (.del p n) p n rest ∨ s.pc t = .locked (.del p n) p n rest ∨ s.pc t = .shift (.del p n) p j

/-- The number of calls of `DeleteNode(n)` on node `p` that begin in the execution. -/
def begun (p : Nat) (n : Bytes) : St → List (Nat × Call × Bool) → Nat
  | _, [] => 0
  | s, (t, c, f) :: l =>
    (match s.pc t with
      | .idle => if c = .del p n then 1 else 0
      | _ => 0) +
    match s.step t c f with
    | none => 0
    | some s' => begun p n s' l

/-- `DeleteNode(n)` on node `p` is running in `s`, or is called in the execution `l`. -/
def Deletes (s : St) (l : List (Nat × Call × Bool)) (p : Nat) (n : Bytes) : Prop := (∃ t, Deleting s t p n) ∨ 0 < begun p n s l

/-- A `DeleteNode` on node `p` is moving the children. -/
def Shifting (s : St) (p : Nat) : Prop := ∃ t c j, s.pc t = .shift c p j

/-- `d` is the first child of its name of node `p`. -/
def FirstOf (s : St) (p d : Nat) : Prop :=
  ∃ before after, (s.node p).downs = before ++ d :: after ∧ ∀ e ∈ before, (s.node e).name ≠ (s.node d).name

/-- From node `a` one comes to `x` through nodes that are the first children of the given names, and in the execution `l` no `DeleteNode` names
one of these nodes or a sibling before it. -/
inductive Lasting (s : St) (l : List (Nat × Call × Bool)) : Nat → List Bytes → Nat → Prop
  | here (a : Nat) : Lasting s l a [] a
  | down {a d x : Nat} {before after : List Nat} {ns : List Bytes} : ¬ Shifting s a → (s.node a).downs = before ++ d :: after →
      (∀ e ∈ before, (s.node e).name ≠ (s.node d).name) → (∀ e ∈ before ++ [d], ¬ Deletes s l a (s.node e).name) →
      Lasting s l d ns x → Lasting s l a ((s.node d).name :: ns) x

/-- Goroutine `t` begins the call `c` in state `s`, and after the further steps `l` it has returned `r` (and possibly made further calls). -/
def Returns (s : St) (t : Nat) (c : Call) (f : Bool) (l : List (Nat × Call × Bool)) (s' : St) (r : Option Nat) : Prop :=
  s.pc t = .idle ∧ s.run ((t, c, f) :: l) = some s' ∧ ∃ later, s'.log t = later ++ (c, r) :: s.log t

/-- The call that a goroutine is in. -/
def PC.call : PC → Option Call
  | .idle => none
  | .look c _ _ _ | .scan c _ _ _ _ _ _ | .want c _ _ _ | .locked c _ _ _ | .appended c _ _ _ _ | .linked c _ _ _ | .shift c _ _
  | .unlock c _ _ _ | .enter c _ _ _ | .find c _ | .panic c => some c

/-- Between the two states goroutine `t` has ended the call it was in, if any, and has begun no other. -/
def Ended (s s' : St) (t : Nat) : Prop :=
  s'.pc t = .idle ∧ match (s.pc t).call with
    | none => s'.log t = s.log t
    | some c => ∃ r, s'.log t = (c, r) :: s.log t

end Verif.TreeAll
