import Verif.Spec.TreeSeq
/-!
# The changes that calls on a tree make, one at a time
-/
namespace Verif.TreeAll

/-- A change of a tree: a new child behind the others, or the removal of the first child of a name. -/
inductive Eff where
  | app (p : Nat) (n : Bytes)
  | cut (p : Nat) (n : Bytes)
  deriving DecidableEq

/-- The change made at once.  `app` is `AddNode` without looking whether there is such a child. -/
def Eff.run (h : Tree.Heap Unit) : Eff → Option (Tree.Heap Unit)
  | .app p n => if p < h.length then some ((h.modify p fun nd => { nd with downs := nd.downs ++ [h.length] }) ++ [⟨n, [], some p, []⟩]) else none
  | .cut p n => Tree.deleteNode h p n

/-- Changes one after the other. -/
def runEffs (h : Tree.Heap Unit) : List Eff → Option (Tree.Heap Unit)
  | [] => some h
  | e :: es => (e.run h).bind fun h' => runEffs h' es

/-- The change that goroutine `t` begins to make: it has just got the lock. -/
def St.effect (s : St) (t : Nat) : Option Eff :=
  match s.pc t with
  | .locked (.del _ _) p n _ => some (.cut p n)
  | .locked _ p n _ => some (.app p n)
  | _ => none

/-- The changes of an execution, with the goroutines that make them, in the order in which they get the locks. -/
def effects : St → List (Nat × Call × Bool) → List (Nat × Eff)
  | _, [] => []
  | s, (t, c, f) :: l =>
    (match s.effect t with
      | some e => [(t, e)]
      | none => []) ++
    match s.step t c f with
    | none => []
    | some s' => effects s' l

/-- The removals among the changes of goroutine `t`. -/
def cuts (t : Nat) (l : List (Nat × Eff)) : List (Nat × Bytes) :=
  l.filterMap fun x => match x with
    | (u, .cut p n) => if u = t then some (p, n) else none
    | _ => none

/-- The calls of `DeleteNode` among calls. -/
def dels (l : List (Call × Option Nat)) : List (Nat × Bytes) :=
  l.filterMap fun x => match x.1 with
    | .del p n => some (p, n)
    | _ => none

/-- The same change by a call of `Model/Tree`. -/
def Eff.op : Eff → Tree.Op Unit
  | .app p n => .addNode p n
  | .cut p n => .deleteNode p n

/-- Node `p` has a child of the name. -/
def HasChild (h : Tree.Heap Unit) (p : Nat) (n : Bytes) : Prop :=
  ∃ nd d nd', h[p]? = some nd ∧ d ∈ nd.downs ∧ h[d]? = some nd' ∧ nd'.name = n

/-- No child is added beside one of the same name. -/
def Apart (h : Tree.Heap Unit) (es : List Eff) : Prop :=
  ∀ pre p n post, es = pre ++ .app p n :: post → ∀ h', runEffs h pre = some h' → ¬ HasChild h' p n

end Verif.TreeAll
