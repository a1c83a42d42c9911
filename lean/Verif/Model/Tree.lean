import Verif.Model.Go
/-!
# Sequential model of `utils/tree.go`

A heap of nodes; a `*Tree` is an index into the heap.  `Option` results: `none` is the
Go panic of dereferencing a pointer that points nowhere (never produced by the API).
The mutex is irrelevant for a single goroutine and is modelled in `Model/TreeConc`.
-/
namespace Verif.Tree

/-- utils/tree.go L18-24 `Tree`.  `V` is the type of stored `cty.Value`s; `data` is the
`sync.Map` (only used with string keys and `cty.Value` values by this file). -/
structure Node (V : Type) where
  name : Bytes
  data : GoMap Bytes V
  up : Option Nat
  downs : List Nat

/-- All nodes ever allocated, including detached ones. -/
abbrev Heap (V : Type) := List (Node V)

variable {V : Type}

/-- utils/tree.go L12 `VAR`. -/
def VAR : Bytes := b "var"

/-- utils/tree.go L27-29 `NewTree`. -/
def newTree (h : Heap V) (name : Bytes) : Heap V × Nat :=
  (h ++ [{ name := name, data := [], up := none, downs := [] }], h.length)

/-- utils/tree.go L79-86 `grep`: the first of `downs` with the given name. Outer `none`:
dangling pointer; inner `none`: nil result. -/
def grep (h : Heap V) : List Nat → Bytes → Option (Option Nat)
  | [], _ => some none
  | d :: ds, name =>
    match h[d]? with
    | none => none
    | some nd => if nd.name = name then some (some d) else grep h ds name

/-- utils/tree.go L56-68 `AddNode` (sequential). -/
def addNode (h : Heap V) (self : Nat) (name : Bytes) : Option (Heap V × Nat) :=
  match h[self]? with
  | none => none
  | some nd =>
    match grep h nd.downs name with
    | none => none
    | some (some first) => some (h, first)           -- L57-60
    | some none =>
      let (h1, child) := newTree h name              -- L63
      let h2 := h1.set self { nd with downs := nd.downs ++ [child] }  -- L64
      -- L65 child.Up = self
      some (h2.set child { name := name, data := [], up := some self, downs := [] }, child)

/-- utils/tree.go L73-75: the loop of `AddNodes`. -/
def addNodesLoop (h : Heap V) (node : Nat) : List Bytes → Option (Heap V × Nat)
  | [] => some (h, node)
  | n :: ns =>
    match addNode h node n with
    | none => none
    | some (h', node') => addNodesLoop h' node' ns

/-- utils/tree.go L71-77 `AddNodes`. -/
def addNodes (h : Heap V) (self : Nat) (tag : Bytes) (names : List Bytes) :
    Option (Heap V × Nat) :=
  match addNode h self tag with
  | none => none
  | some (h', node) => addNodesLoop h' node names

/-- utils/tree.go L98-103: the loop of `GetNode`. -/
def getNodeLoop (h : Heap V) (down : Nat) : List Bytes → Option (Option Nat)
  | [] => some (some down)
  | n :: ns =>
    match h[down]? with
    | none => none
    | some nd =>
      match grep h nd.downs n with
      | none => none
      | some none => some none
      | some (some d) => getNodeLoop h d ns

/-- utils/tree.go L89-106 `GetNode`. -/
def getNode (h : Heap V) (self : Nat) (tag : Bytes) (names : List Bytes) :
    Option (Option Nat) :=
  if tag = [] then some (some self)                  -- L90-92
  else
    match h[self]? with
    | none => none
    | some nd =>
      match grep h nd.downs tag with
      | none => none
      | some none => some none
      | some (some d) => getNodeLoop h d names

/-- utils/tree.go L111-121: the loop of `DeleteNode` over the children: the list with the
first match removed (L113-117: both branches remove exactly index `i`). The mutation of
the backing array seen by other goroutines is in `Model/TreeConc`. -/
def removeFirst (h : Heap V) : List Nat → Bytes → Option (List Nat)
  | [], _ => some []
  | d :: ds, name =>
    match h[d]? with
    | none => none
    | some nd =>
      if nd.name = name then some ds
      else
        match removeFirst h ds name with
        | none => none
        | some r => some (d :: r)

/-- utils/tree.go L109-123 `DeleteNode`. The removed child keeps its `Up`. -/
def deleteNode (h : Heap V) (self : Nat) (name : Bytes) : Option (Heap V) :=
  match h[self]? with
  | none => none
  | some nd =>
    match removeFirst h nd.downs name with
    | none => none
    | some ds => some (h.set self { nd with downs := ds })

/-- utils/tree.go L126-128 `AddItem`. -/
def addItem (h : Heap V) (self : Nat) (k : Bytes) (v : V) : Option (Heap V) :=
  match h[self]? with
  | none => none
  | some nd => some (h.set self { nd with data := GoMap.set nd.data k v })

/-- utils/tree.go L131-133 `DeleteItem`. -/
def deleteItem (h : Heap V) (self : Nat) (k : Bytes) : Option (Heap V) :=
  match h[self]? with
  | none => none
  | some nd => some (h.set self { nd with data := GoMap.del nd.data k })

mutual
/-- utils/tree.go L136-158 `FindNode`. The first argument bounds the depth of the
recursion; `none` also stands for running out of it (excluded for reachable heaps by
`findNode_total`). -/
def findNodeN : Nat → Heap V → Nat → List Bytes → Option (Option Nat)
  | _, _, _, [] => some none                          -- L137-139
  | 0, _, _, _ => none
  | fuel + 1, h, self, n :: ns =>
    match h[self]? with
    | none => none
    | some nd => findLoop fuel h nd.downs n ns
/-- utils/tree.go L143-157: the loop of `FindNode`. -/
def findLoop : Nat → Heap V → List Nat → Bytes → List Bytes → Option (Option Nat)
  | _, _, [], _, _ => some none
  | fuel, h, item :: items, n, ns =>
    match h[item]? with
    | none => none
    | some nd =>
      if nd.name = n then                             -- L144
        match ns with
        | [] => some (some item)                      -- L145-147
        | _ :: _ => findNodeN fuel h item ns          -- L148
      else
        match findNodeN fuel h item (n :: ns) with    -- L150
        | none => none
        | some (some d) => some (some d)              -- L151-153
        | some none => findLoop fuel h items n ns
end

/-- utils/tree.go L136-158 `FindNode`: the heap size bounds the depth of any tree in it. -/
def findNode (h : Heap V) (self : Nat) (names : List Bytes) : Option (Option Nat) :=
  findNodeN (h.length + 1) h self names

/-- The values in the result of `Variables`: a stored `cty.Value`, or
`cty.ObjectVal(attributes)`. -/
inductive CV (V : Type) where
  | item (v : V)
  | obj (attrs : List (Bytes × CV V))

/-- utils/tree.go L168-173: `Data.Range` storing every item except the reserved key. -/
def storeItems (hash : List (Bytes × CV V)) : GoMap Bytes V → List (Bytes × CV V)
  | [] => hash
  | (k, v) :: data =>
    storeItems (if k ≠ VAR then GoMap.set hash k (.item v) else hash) data

/-- utils/tree.go L163-167; `deep` is the recursive call. -/
def varLoop (deep : Nat → Option (List (Bytes × CV V))) (h : Heap V) :
    List Nat → List (Bytes × CV V) → Option (List (Bytes × CV V))
  | [], hash => some hash
  | d :: ds, hash =>
    match h[d]?, deep d with
    | some nd, some vs => varLoop deep h ds (GoMap.set hash nd.name (.obj vs))
    | _, _ => none

/-- utils/tree.go L161-180 `Variables`; first argument as in `findNodeN`.
(`down.Variables()` is never nil, so the test of L164 always holds.)
External: `cty.ObjectVal` takes a snapshot of the map. -/
def variablesN : Nat → Heap V → Nat → Option (List (Bytes × CV V))
  | 0, _, _ => none
  | fuel + 1, h, self =>
    match h[self]? with
    | none => none
    | some nd =>
      match varLoop (variablesN fuel h) h nd.downs [] with  -- L163-167
      | none => none
      | some hash1 =>
        let hash2 := storeItems hash1 nd.data         -- L168-173
        if nd.name = VAR then                         -- L175-177
          some (GoMap.set hash2 VAR (.obj hash2))
        else some hash2

/-- utils/tree.go L161-180 `Variables`. -/
def variables (h : Heap V) (self : Nat) : Option (List (Bytes × CV V)) :=
  variablesN (h.length + 1) h self

/-- The operations a client can perform; handles are results of earlier operations
(or any node reachable from them). -/
inductive Op (V : Type) where
  | newTree (name : Bytes)
  | addNode (self : Nat) (name : Bytes)
  | addNodes (self : Nat) (tag : Bytes) (names : List Bytes)
  | deleteNode (self : Nat) (name : Bytes)
  | addItem (self : Nat) (k : Bytes) (v : V)
  | deleteItem (self : Nat) (k : Bytes)

/-- The effect of an operation on the heap (`none`: panic). -/
def Op.run (h : Heap V) : Op V → Option (Heap V)
  | .newTree n => some (Tree.newTree h n).1
  | .addNode s n => (Tree.addNode h s n).map Prod.fst
  | .addNodes s t ns => (Tree.addNodes h s t ns).map Prod.fst
  | .deleteNode s n => Tree.deleteNode h s n
  | .addItem s k v => Tree.addItem h s k v
  | .deleteItem s k => Tree.deleteItem h s k

/-- A sequence of operations. -/
def runAll (h : Heap V) : List (Op V) → Option (Heap V)
  | [] => some h
  | o :: os =>
    match o.run h with
    | none => none
    | some h' => runAll h' os

/-- Heaps reachable by a history of client operations. -/
def Reachable (h : Heap V) : Prop := ∃ ops : List (Op V), runAll [] ops = some h

end Verif.Tree
