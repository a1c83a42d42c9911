import Verif.Model.Tree
/-!
# What a reader of the tree can observe (specification vocabulary)
-/
namespace Verif.Tree
variable {V : Type}

/-- `c` is one of the children (`Downs`) of `i`. -/
def Edge (h : Heap V) (i c : Nat) : Prop := ∃ nd, h[i]? = some nd ∧ c ∈ nd.downs

/-- The node `c` exists and is called `n`. -/
def Named (h : Heap V) (c : Nat) (n : Bytes) : Prop := ∃ nd, h[c]? = some nd ∧ nd.name = n

/-- `c` is a child of `i` called `n`. -/
def Child (h : Heap V) (i : Nat) (n : Bytes) (c : Nat) : Prop := Edge h i c ∧ Named h c n

/-- Following the child names `ns` from `i` one reaches `j`. -/
inductive Walk (h : Heap V) : Nat → List Bytes → Nat → Prop
  | nil (i) : Walk h i [] i
  | cons {i n c ns j} : Child h i n c → Walk h c ns j → Walk h i (n :: ns) j

/-- `j` is strictly below `i`. -/
inductive Below (h : Heap V) : Nat → Nat → Prop
  | child {i c} : Edge h i c → Below h i c
  | deeper {i c j} : Edge h i c → Below h c j → Below h i j

/-- `j` lies below `i` on a downward path on which the names occur in order, the last one
being the name of `j` (other nodes may lie in between). -/
inductive Occurs (h : Heap V) : Nat → List Bytes → Nat → Prop
  | last {i n j} : Below h i j → Named h j n → Occurs h i [n] j
  | step {i n m n' ns j} : Below h i m → Named h m n → Occurs h m (n' :: ns) j →
      Occurs h i (n :: n' :: ns) j

/-- The item stored under key `k` in node `i`. -/
def Stored (h : Heap V) (i : Nat) (k : Bytes) (v : V) : Prop :=
  ∃ nd, h[i]? = some nd ∧ GoMap.get? nd.data k = some v

/-- The name of a node, if it exists. -/
def nameOf (h : Heap V) (i : Nat) : Option Bytes := h[i]?.map (·.name)

/-- Invariant of reachable heaps: children come later and point back, siblings have different names, keys are unique. -/
structure Inv (h : Heap V) : Prop where
  down : ∀ (i : Nat) (nd : Node V), h[i]? = some nd → ∀ d ∈ nd.downs,
    i < d ∧ ∃ nd', h[d]? = some nd' ∧ nd'.up = some i
  names : ∀ (i : Nat) (nd : Node V), h[i]? = some nd → (nd.downs.map (nameOf h)).Nodup
  dataNodup : ∀ (i : Nat) (nd : Node V), h[i]? = some nd → (nd.data.map Prod.fst).Nodup

/-- Reading an attribute path `a.b.c` in an evaluation context. -/
def evalPath : List (Bytes × CV V) → List Bytes → Bytes → Option (CV V)
  | ctx, [], k => GoMap.get? ctx k
  | ctx, a :: as, k =>
    match GoMap.get? ctx a with
    | some (.obj attrs) => evalPath attrs as k
    | _ => none

end Verif.Tree
