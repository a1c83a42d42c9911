import Verif.Model.TreeWatch
import Verif.Spec.TreeAll
import Verif.Spec.Tree
/-!
# What `Variables` is to show while nodes are added and deleted
-/
namespace Verif.TreeWatch
open TreeAll (Call Shifting Deletes)
open Tree (CV VAR)

variable {V : Type}

/-- The event changes the item `k` of node `a`. -/
def Ev.touches (a : Nat) (k : Bytes) : Ev V → Prop
  | .store _ a' k' _ | .delete _ a' k' => a' = a ∧ k' = k
  | _ => False

/-- Item `k` of node `a` is `v` in state `s` and is not changed by the events. -/
def Stays (s : St V) (es : List (Ev V)) (a : Nat) (k : Bytes) (v : Option V) : Prop :=
  GoMap.get? (s.data a) k = v ∧ ∀ e ∈ es, ¬ e.touches a k

/-- The calls that change the tree. -/
def treeSteps : List (Ev V) → List (Nat × Call × Bool)
  | [] => []
  | .tree t c f :: es => (t, c, f) :: treeSteps es
  | _ :: es => treeSteps es

/-- An `AddNode` on node `p` is adding `c`. -/
def Adding (s : TreeAll.St) (p c : Nat) : Prop :=
  ∃ t k rest, (∃ arr, s.pc t = .appended k p c arr rest) ∨ s.pc t = .linked k p c rest

/-- At some moment of this execution, `d` was a child of `a`, or was being added. -/
def WasChild (s : St V) (es : List (Ev V)) (a d : Nat) : Prop :=
  ∃ es1 es2 s1, es = es1 ++ es2 ∧ s.run es1 = some s1 ∧ (d ∈ (s1.tree.node a).downs ∨ Adding s1.tree a d)

/-- At some moment of this execution, item `k` of node `x` was `v`. -/
def Was (s : St V) (es : List (Ev V)) (x : Nat) (k : Bytes) (v : V) : Prop :=
  ∃ es1 es2 s1, es = es1 ++ es2 ∧ s.run es1 = some s1 ∧ GoMap.get? (s1.data x) k = some v

/-- Node `d` is a child of `a` in state `s`, and in the execution `es` to `s'` no `DeleteNode` names it, nothing else is a child of the same name, no
item has that name, and it is not the reserved name `var` below a node called `var`. -/
structure Plain (s s' : St V) (es : List (Ev V)) (a d : Nat) : Prop where
  still : ¬ Shifting s.tree a
  kept : ¬ Deletes s.tree (treeSteps es) a (s.tree.node d).name
  only : ∀ e, WasChild s es a e → (s'.tree.node e).name = (s.tree.node d).name → e = d
  noItem : Stays s es a (s.tree.node d).name none
  noVar : ¬ ((s.tree.node a).name = VAR ∧ (s.tree.node d).name = VAR)

/-- From node `a` the names lead to node `x` in state `s`, and up to state `s'` nothing hides this path. -/
inductive Open (s s' : St V) (es : List (Ev V)) : Nat → List Bytes → Nat → Prop
  | here (x : Nat) : Open s s' es x [] x
  | down {a d x : Nat} {l : List Bytes} : d ∈ (s.tree.node a).downs → Plain s s' es a d → Open s s' es d l x →
      Open s s' es a ((s.tree.node d).name :: l) x

/-- The same, and no `DeleteNode` names a sibling before a node of the path. -/
inductive Clear (s s' : St V) (es : List (Ev V)) : Nat → List Bytes → Nat → Prop
  | here (x : Nat) : Clear s s' es x [] x
  | down {a d x : Nat} {l : List Bytes} {before after : List Nat} : (s.tree.node a).downs = before ++ d :: after →
      (∀ e ∈ before, ¬ Deletes s.tree (treeSteps es) a (s.tree.node e).name) →
      Plain s s' es a d → Clear s s' es d l x → Clear s s' es a ((s.tree.node d).name :: l) x

/-- The names lead from `a` to `x` through nodes that were children at some moment of the execution from `s` to `s'`, where a node called `var` can
also be named from within by this name. -/
inductive Reach (s s' : St V) (es : List (Ev V)) : Nat → List Bytes → Nat → Prop
  | here (a : Nat) : Reach s s' es a [] a
  | down {a d x : Nat} {l : List Bytes} : WasChild s es a d → Reach s s' es d l x → Reach s s' es a ((s'.tree.node d).name :: l) x
  | self {a x : Nat} {l : List Bytes} : (s'.tree.node a).name = VAR → Reach s s' es a l x → Reach s s' es a (VAR :: l) x

/-- In state `s` goroutine `t` begins `Variables` on node `a`, and after the events `es` it has been given `r` (and possibly has done other
things since). -/
def Returns (s : St V) (t a : Nat) (es : List (Ev V)) (s' : St V) (r : List (Bytes × CV V)) : Prop :=
  s.run (.begin t a :: es) = some s' ∧ ∃ later, s'.log t = later ++ (a, r) :: s.log t

end Verif.TreeWatch
