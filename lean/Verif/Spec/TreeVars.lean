import Verif.Model.TreeVars
import Verif.Spec.TreeMany
import Verif.Spec.Tree
/-!
# What `Variables` is to show
-/
namespace Verif.TreeVars
open Tree (CV VAR)

variable {V : Type}

/-- The event changes the item `k` of node `a`. -/
def Ev.touches (a : Nat) (k : Bytes) : Ev V → Prop
  | .store _ a' k' _ | .delete _ a' k' => a' = a ∧ k' = k
  | _ => False

/-- Item `k` of node `a` is `v` in state `s` and is not changed by the events. -/
def Stays (s : St V) (es : List (Ev V)) (a : Nat) (k : Bytes) (v : Option V) : Prop :=
  GoMap.get? (s.data a) k = v ∧ ∀ e ∈ es, ¬ e.touches a k

/-- From node `a` the names lead to node `x` in state `s`, and up to state `s'` nothing hides this path: no other child of the same
name, no item of that name, and not the reserved name `var` below a node called `var`. -/
inductive Clear (s s' : St V) (es : List (Ev V)) : Nat → List Bytes → Nat → Prop
  | here (x : Nat) : Clear s s' es x [] x
  | down {a d x : Nat} {l : List Bytes} : d ∈ (s.tree.node a).downs →
      (∀ e ∈ (s'.tree.node a).downs, (s'.tree.node e).name = (s.tree.node d).name → e = d) →
      Stays s es a (s.tree.node d).name none →
      ¬ ((s.tree.node a).name = VAR ∧ (s.tree.node d).name = VAR) →
      Clear s s' es d l x → Clear s s' es a ((s.tree.node d).name :: l) x

/-- The names lead from `a` to `x`, where a node called `var` can also be named from within by this name. -/
inductive Reach (s : TreeMany.St) : Nat → List Bytes → Nat → Prop
  | here (a : Nat) : Reach s a [] a
  | down {a d x : Nat} {l : List Bytes} : d ∈ (s.node a).downs → Reach s d l x → Reach s a ((s.node d).name :: l) x
  | self {a x : Nat} {l : List Bytes} : (s.node a).name = VAR → Reach s a l x → Reach s a (VAR :: l) x

/-- In state `s` goroutine `t` begins `Variables` on node `a`, and after the events `es` it has been given `r` (and possibly has
done other things since). -/
def Returns (s : St V) (t a : Nat) (es : List (Ev V)) (s' : St V) (r : List (Bytes × CV V)) : Prop :=
  s.run (.begin t a :: es) = some s' ∧ ∃ later, s'.log t = later ++ (a, r) :: s.log t

/-- At some moment of this execution, item `k` of node `x` was `v`. -/
def Was (s : St V) (es : List (Ev V)) (x : Nat) (k : Bytes) (v : V) : Prop :=
  ∃ es1 es2 s1, es = es1 ++ es2 ∧ s.run es1 = some s1 ∧ GoMap.get? (s1.data x) k = some v

end Verif.TreeVars
