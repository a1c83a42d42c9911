import Verif.Model.DetGraph
/-! # Specifications in memory: what the theorems speak about -/
namespace Verif.Det

mutual
/-- How deep arrays and objects are nested in a document. -/
def J.depth : J → Nat
  | .null => 0
  | .atom _ => 0
  | .arr l => depthJs l + 1
  | .obj m => depthMs m + 1
def depthJs : List J → Nat
  | [] => 0
  | j :: l => max j.depth (depthJs l)
def depthMs : List (Bytes × J) → Nat
  | [] => 0
  | (_, j) :: l => max j.depth (depthMs l)
end

/-- How many nested calls a document can need: one for each level, one for the document and one for a member that is missing. -/
def Doc.calls : Doc → Nat
  | none => 1
  | some j => j.depth + 2

/-- All documents in a raw field are `P`. -/
def RawIn (P : Doc → Prop) : Raw → Prop
  | .msg d => P d
  | .list l => ∀ j ∈ l, P (some j)
  | .map m => (∀ e ∈ m, P (some e.2)) ∧ ∀ k, P (GoMap.get? m k)
  | .map2 m => (∀ e ∈ m, ∀ e' ∈ e.2, P (some e'.2)) ∧ ∀ k k', P (GoMap.get? ((GoMap.get? m k).getD []) k')
  | .val _ => True

/-- The struct at `a` is in memory what the tree `s` is. -/
def Stands (g : Graph) (a : Nat) (s : Cls) : Prop := ∃ n, ∀ m, n ≤ m → g.spec m a = s

end Verif.Det
