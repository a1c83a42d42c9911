import Verif.Model.TreeMany
/-!
# Paths in a tree
-/
namespace Verif.TreeMany

/-- From node `a` one comes to node `x` through children of the given names. -/
inductive Path (s : St) : Nat → List Bytes → Nat → Prop
  | here (a : Nat) : Path s a [] a
  | down {a d x : Nat} {l : List Bytes} : d ∈ (s.node a).downs → Path s d l x → Path s a ((s.node d).name :: l) x

/-- The same, always through the first child of the name. -/
inductive First (s : St) : Nat → List Bytes → Nat → Prop
  | here (a : Nat) : First s a [] a
  | down {a d x : Nat} {before after : List Nat} {l : List Bytes} : (s.node a).downs = before ++ d :: after →
      (∀ e ∈ before, (s.node e).name ≠ (s.node d).name) → First s d l x → First s a ((s.node d).name :: l) x

/-- Node `x` is below node `a`. -/
def Below (s : St) (a x : Nat) : Prop := ∃ l, l ≠ [] ∧ Path s a l x

/-- No two children of one node have the same name. -/
def Distinct (s : St) : Prop :=
  ∀ p c d, c ∈ (s.node p).downs → d ∈ (s.node p).downs → (s.node c).name = (s.node d).name → c = d

/-- Goroutine `t` has seen no child `n` of node `p` and is about to add one. -/
def Adding (s : St) (t p : Nat) (n : Bytes) : Prop :=
  ∃ c rest, s.pc t = .want c p n rest ∨ s.pc t = .locked c p n rest

/-- No two goroutines are about to add the same child. -/
def Apart (s : St) : Prop := ∀ t u p n, Adding s t p n → Adding s u p n → t = u

/-- An execution in which never two goroutines are about to add the same child. -/
inductive RunApart : St → List (Nat × Call) → St → Prop
  | done {s : St} : Apart s → RunApart s [] s
  | step {s s' s'' : St} {t : Nat} {c : Call} {l : List (Nat × Call)} :
      Apart s → s.step t c = some s' → RunApart s' l s'' → RunApart s ((t, c) :: l) s''

/-- Goroutine `t` has begun the call `c` in state `s`, and after the steps `l` it has returned `r` (and possibly made further
calls). -/
def Returns (s : St) (t : Nat) (c : Call) (l : List (Nat × Call)) (s' : St) (r : Option Nat) : Prop :=
  s.pc t = .idle ∧ s.run ((t, c) :: l) = some s' ∧ ∃ later, s'.log t = later ++ (c, r) :: s.log t

end Verif.TreeMany
