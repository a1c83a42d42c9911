import Verif.Model.HclDecode
set_option linter.unusedSimpArgs false
/-! Decidable equality of the values, expressions and bodies, for the examples. -/
namespace Verif.Hcl

mutual
def GV.beq : GV → GV → Bool
  | .nil, .nil => true
  | .str a, .str c => decide (a = c)
  | .bool a, .bool c => decide (a = c)
  | .int a, .int c => decide (a = c)
  | .flt a, .flt c => decide (a = c)
  | .list a, .list c => beqGL a c
  | .map a, .map c => beqGM a c
  | .nilList, .nilList => true
  | .nilMap, .nilMap => true
  | _, _ => false
def beqGL : List GV → List GV → Bool
  | [], [] => true
  | v :: l, v' :: l' => v.beq v' && beqGL l l'
  | _, _ => false
def beqGM : List (Bytes × GV) → List (Bytes × GV) → Bool
  | [], [] => true
  | (k, v) :: l, (k', v') :: l' => decide (k = k') && v.beq v' && beqGM l l'
  | _, _ => false
end

mutual
theorem GV.beq_iff : ∀ a c : GV, a.beq c = true ↔ a = c
  | .nil, c => by cases c <;> simp [GV.beq]
  | .str _, c => by cases c <;> simp [GV.beq]
  | .bool _, c => by cases c <;> simp [GV.beq]
  | .int _, c => by cases c <;> simp [GV.beq]
  | .flt _, c => by cases c <;> simp [GV.beq]
  | .list l, c => by cases c <;> simp [GV.beq, beqGL_iff l]
  | .map m, c => by cases c <;> simp [GV.beq, beqGM_iff m]
  | .nilList, c => by cases c <;> simp [GV.beq]
  | .nilMap, c => by cases c <;> simp [GV.beq]
theorem beqGL_iff : ∀ a c : List GV, beqGL a c = true ↔ a = c
  | [], c => by cases c <;> simp [beqGL]
  | v :: l, c => by cases c <;> simp [beqGL, GV.beq_iff v, beqGL_iff l]
theorem beqGM_iff : ∀ a c : List (Bytes × GV), beqGM a c = true ↔ a = c
  | [], c => by cases c <;> simp [beqGM]
  | (k, v) :: l, c => by
    cases c with
    | nil => simp [beqGM]
    | cons e c => obtain ⟨k', v'⟩ := e; simp [beqGM, GV.beq_iff v, beqGM_iff l, and_assoc]
end

instance : DecidableEq GV := fun a c => decidable_of_iff _ (GV.beq_iff a c)

mutual
def Expr.beq : Expr → Expr → Bool
  | .str a, .str c => decide (a = c)
  | .num a, .num c => decide (a = c)
  | .ident a, .ident c => decide (a = c)
  | .neg a, .neg c => a.beq c
  | .call a, .call c => decide (a = c)
  | .tuple a, .tuple c => beqEL a c
  | .object a, .object c => beqEO a c
  | _, _ => false
def beqEL : List Expr → List Expr → Bool
  | [], [] => true
  | v :: l, v' :: l' => v.beq v' && beqEL l l'
  | _, _ => false
def beqEO : List (Expr × Expr) → List (Expr × Expr) → Bool
  | [], [] => true
  | (k, v) :: l, (k', v') :: l' => k.beq k' && v.beq v' && beqEO l l'
  | _, _ => false
end

mutual
theorem Expr.beq_iff : ∀ a c : Expr, a.beq c = true ↔ a = c
  | .str _, c => by cases c <;> simp [Expr.beq]
  | .num _, c => by cases c <;> simp [Expr.beq]
  | .ident _, c => by cases c <;> simp [Expr.beq]
  | .neg e, c => by cases c <;> simp [Expr.beq, Expr.beq_iff e]
  | .call _, c => by cases c <;> simp [Expr.beq]
  | .tuple l, c => by cases c <;> simp [Expr.beq, beqEL_iff l]
  | .object m, c => by cases c <;> simp [Expr.beq, beqEO_iff m]
theorem beqEL_iff : ∀ a c : List Expr, beqEL a c = true ↔ a = c
  | [], c => by cases c <;> simp [beqEL]
  | v :: l, c => by cases c <;> simp [beqEL, Expr.beq_iff v, beqEL_iff l]
theorem beqEO_iff : ∀ a c : List (Expr × Expr), beqEO a c = true ↔ a = c
  | [], c => by cases c <;> simp [beqEO]
  | (k, v) :: l, c => by
    cases c with
    | nil => simp [beqEO]
    | cons e c => obtain ⟨k', v'⟩ := e; simp [beqEO, Expr.beq_iff k, Expr.beq_iff v, beqEO_iff l, and_assoc]
end

instance : DecidableEq Expr := fun a c => decidable_of_iff _ (Expr.beq_iff a c)

mutual
def Body.beq : Body → Body → Bool
  | .mk a l, .mk a' l' => decide (a = a') && beqB l l'
def beqB : List (Bytes × List Bytes × Body) → List (Bytes × List Bytes × Body) → Bool
  | [], [] => true
  | (k, ls, v) :: l, (k', ls', v') :: l' => decide (k = k') && decide (ls = ls') && v.beq v' && beqB l l'
  | _, _ => false
end

mutual
theorem Body.beq_iff : ∀ a c : Body, a.beq c = true ↔ a = c
  | .mk a l, c => by cases c; simp [Body.beq, beqB_iff l]
theorem beqB_iff : ∀ a c : List (Bytes × List Bytes × Body), beqB a c = true ↔ a = c
  | [], c => by cases c <;> simp [beqB]
  | (k, ls, v) :: l, c => by
    cases c with
    | nil => simp [beqB]
    | cons e c => obtain ⟨k', ls', v'⟩ := e; simp [beqB, Body.beq_iff v, beqB_iff l, and_assoc]
end

instance : DecidableEq Body := fun a c => decidable_of_iff _ (Body.beq_iff a c)
deriving instance DecidableEq for Out

end Verif.Hcl
