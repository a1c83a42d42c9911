import Verif.Model.HclHeap
/-!
# What values in memory stand for
-/
namespace Verif.HclHeap
open Hcl

/-- A value is a member of a map or slice. -/
inductive Part (mem : Mem) : HV → HV → Prop
  | list {a : Nat} {x : HV} : x ∈ mem.lists a → Part mem x (.list a)
  | map {a : Nat} {k : Bytes} {x : HV} : (k, x) ∈ mem.maps a → Part mem x (.map a)

/-- Members of members, and so on. -/
inductive Inside (mem : Mem) : HV → HV → Prop
  | one {x y : HV} : Part mem x y → Inside mem x y
  | more {x y z : HV} : Part mem x y → Inside mem y z → Inside mem x z

/-- At most `d` maps and slices are nested. -/
def Nested (mem : Mem) : Nat → HV → Prop
  | 0, v => (∀ a, v ≠ .list a) ∧ ∀ a, v ≠ .map a
  | d + 1, v => ∀ x, Part mem x v → Nested mem d x

mutual
/-- A value without addresses that the value stands for; each map is listed in some order, at each place. -/
inductive Unfolds (mem : Mem) : HV → GV → Prop
  | nil : Unfolds mem .nil .nil
  | nilList : Unfolds mem .nilList .nilList
  | nilMap : Unfolds mem .nilMap .nilMap
  | str (s : Bytes) : Unfolds mem (.str s) (.str s)
  | bool (v : Bool) : Unfolds mem (.bool v) (.bool v)
  | int (n : Int) : Unfolds mem (.int n) (.int n)
  | flt (q : Rat) : Unfolds mem (.flt q) (.flt q)
  | list {a : Nat} {l : List GV} : UnfoldsL mem (mem.lists a) l → Unfolds mem (.list a) (.list l)
  | map {a : Nat} {e : List (Bytes × HV)} {m : List (Bytes × GV)} : e.Perm (mem.maps a) → UnfoldsM mem e m → Unfolds mem (.map a) (.map m)
inductive UnfoldsL (mem : Mem) : List HV → List GV → Prop
  | nil : UnfoldsL mem [] []
  | cons {h : HV} {v : GV} {hs : List HV} {vs : List GV} : Unfolds mem h v → UnfoldsL mem hs vs → UnfoldsL mem (h :: hs) (v :: vs)
inductive UnfoldsM (mem : Mem) : List (Bytes × HV) → List (Bytes × GV) → Prop
  | nil : UnfoldsM mem [] []
  | cons {k : Bytes} {h : HV} {v : GV} {hs : List (Bytes × HV)} {vs : List (Bytes × GV)} :
      Unfolds mem h v → UnfoldsM mem hs vs → UnfoldsM mem ((k, h) :: hs) ((k, v) :: vs)
end

/-- The orders are orders of the members. -/
def Orders (mem : Mem) (ord : Ord) : Prop := ∀ p a, (ord p a).Perm (mem.maps a)

end Verif.HclHeap
