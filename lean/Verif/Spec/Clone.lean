import Verif.Model.Clone
/-!
# What sharing memory means
-/
namespace Verif.Clone

mutual
/-- The references in a value. -/
def refs : W → List Nat
  | .scalar _ => []
  | .nil => []
  | .ref a => [a]
  | .fields fs => refsL fs
def refsL : List (Bytes × Bool × W) → List Nat
  | [] => []
  | (_, _, w) :: r => refs w ++ refsL r
end

mutual
/-- The zero value of a type. -/
def IsZero : W → Prop
  | .scalar n => n = 0
  | .nil => True
  | .ref _ => False
  | .fields fs => IsZeroL fs
def IsZeroL : List (Bytes × Bool × W) → Prop
  | [] => True
  | (_, _, w) :: r => IsZero w ∧ IsZeroL r
end

/-- Whoever holds `a` can reach `c`. -/
inductive Reach (m : Mem) : Nat → Nat → Prop
  | here (a : Nat) : Reach m a a
  | step {a b c : Nat} {w : W} : m[a]? = some w → b ∈ refs w → Reach m b c → Reach m a c

/-- No reference dangles. -/
def Sound (m : Mem) : Prop := ∀ w ∈ m, ∀ a ∈ refs w, a < m.length

/-- What a program can do with the references it holds: it follows one, it makes a new cell, it writes to a cell.
The values it writes hold only references that it has. -/
inductive Act : Mem × List Nat → Mem × List Nat → Prop
  | load {m : Mem} {ks : List Nat} {a b : Nat} {w : W} :
    a ∈ ks → m[a]? = some w → b ∈ refs w → Act (m, ks) (m, b :: ks)
  | new {m : Mem} {ks : List Nat} {w : W} :
    (∀ b ∈ refs w, b ∈ ks) → Act (m, ks) (m ++ [w], m.length :: ks)
  | store {m : Mem} {ks : List Nat} {a : Nat} {w : W} :
    a ∈ ks → (∀ b ∈ refs w, b ∈ ks) → Act (m, ks) (m.set a w, ks)

/-- Any number of actions. -/
inductive Acts : Mem × List Nat → Mem × List Nat → Prop
  | done (s : Mem × List Nat) : Acts s s
  | more {s t u : Mem × List Nat} : Act s t → Acts t u → Acts s u

/-- What a decoder does: it makes new cells and writes to cells that are new (those from address `lo` on).  It does not
follow references.  The values it writes may hold any reference. -/
inductive Fills (lo : Nat) : Mem → Mem → Prop
  | done (m : Mem) : Fills lo m m
  | new {m m' : Mem} (w : W) : Fills lo (m ++ [w]) m' → Fills lo m m'
  | store {m m' : Mem} {a : Nat} (w : W) : lo ≤ a → Fills lo (m.set a w) m' → Fills lo m m'

/-- Nothing that is done with `c` alone, however long, changes anything that `a` reaches. -/
def Independent (m : Mem) (c a : Nat) : Prop :=
  ∀ m' ks, Acts (m, [c]) (m', ks) → ∀ d, Reach m a d → m'[d]? = m[d]?

/-- The exported fields hold no references. -/
def Plain (m : Mem) (a : Nat) : Prop :=
  ∃ fs, m[a]? = some (.fields fs) ∧ ∀ f ∈ fs, f.2.1 = true → refs f.2.2 = []

end Verif.Clone
