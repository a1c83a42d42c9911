import Verif.Model.Cty
/-! Decidability of being null. -/
namespace Verif.Hcl

instance (c : Cty) : Decidable (c = .null) :=
  match c with
  | .null => .isTrue rfl
  | .str _ => .isFalse (by simp)
  | .num _ => .isFalse (by simp)
  | .bool _ => .isFalse (by simp)
  | .tuple _ => .isFalse (by simp)
  | .object _ => .isFalse (by simp)

end Verif.Hcl
