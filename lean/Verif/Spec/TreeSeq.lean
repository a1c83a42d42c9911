import Verif.Model.Tree
import Verif.Spec.TreeAll
/-!
# The tree as one goroutine sees it

Relates `Model/TreeAll` (every read and write is a step) to `Model/Tree` (a call is one function).
-/
namespace Verif.TreeAll

/-- A node without its arrays and its lock. -/
def Node.view (n : Node) : Tree.Node Unit := ⟨n.name, [], n.up, n.downs⟩

/-- The nodes made so far. -/
def St.heap (s : St) : Tree.Heap Unit := (List.range s.next).map fun a => (s.node a).view

/-- What the call does according to `Model/Tree`: the nodes afterwards and the result. -/
def Call.seq (h : Tree.Heap Unit) : Call → Option (Tree.Heap Unit × Option Nat)
  | .add self tag names => (Tree.addNodes h self tag names).map fun x => (x.1, some x.2)
  | .get self tag names => (Tree.getNode h self tag names).map fun r => (h, r)
  | .find self names => (Tree.findNode h self names).map fun r => (h, r)
  | .del self name => (Tree.deleteNode h self name).map fun h' => (h', none)

/-- Calls made one after the other, the last one first, return these results and lead from the nodes `h` to the nodes `h'`. -/
inductive History (h : Tree.Heap Unit) : List (Call × Option Nat) → Tree.Heap Unit → Prop
  | none : History h [] h
  | call {l : List (Call × Option Nat)} {h1 h2 : Tree.Heap Unit} {c : Call} {r : Option Nat} :
      History h l h1 → c.seq h1 = some (h2, r) → History h ((c, r) :: l) h2

end Verif.TreeAll
