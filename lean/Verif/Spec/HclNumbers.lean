import Verif.Spec.HclText
/-!
# Numbers in generic data
-/
namespace Verif.Hcl

mutual
/-- The data with every number as a floating point number, as `encoding/json` gives it. -/
def GV.floats : GV → GV
  | .int n => .flt n
  | .list l => .list (floatsL l)
  | .map m => .map (floatsM m)
  | v => v
def floatsL : List GV → List GV
  | [] => []
  | v :: l => v.floats :: floatsL l
def floatsM : List (Bytes × GV) → List (Bytes × GV)
  | [] => []
  | (k, v) :: m => (k, v.floats) :: floatsM m
end

/-- `x` is the data or a part of it. -/
inductive Occurs (x : GV) : GV → Prop where
  | here : Occurs x x
  | elem {v : GV} {l : List GV} (h : v ∈ l) (o : Occurs x v) : Occurs x (.list l)
  | member {k : Bytes} {v : GV} {m : List (Bytes × GV)} (h : (k, v) ∈ m) (o : Occurs x v) : Occurs x (.map m)

/-- All integers are of 64 bits with sign. -/
def Ints64 (v : GV) : Prop := ∀ n : Int, Occurs (.int n) v → IsInt64 n

/-- A negative number with a fraction, or a whole number of more than 64 bits. -/
def BadFloat (q : Rat) : Prop := ¬ IsWhole q ∧ q < 0 ∨ IsWhole q ∧ ¬ IsInt64 q

end Verif.Hcl
