import Verif.Model.TemplateArgs
import Verif.Spec.TypedMarks
/-!
# What is asked of templatefile for null, unknown and marked arguments
-/
namespace Verif.Typed
open Funcs (Mark)

/-- A value is a map or an object with these members. -/
inductive VarsOf : V → List (Bytes × V) → Prop
  | map (e : Ty) (m : List (Bytes × V)) : VarsOf (.map e m) m
  | obj (m : List (Bytes × V)) : VarsOf (.obj m) m

/-- The text of the template and the members of `vars` give this value. -/
def Renders (T : Tmpl) (s : Bytes) (vars : V) (r : MV) : Prop := ∃ x m, T.load s = some x ∧ VarsOf vars m ∧ T.eval x m = some r

end Verif.Typed
