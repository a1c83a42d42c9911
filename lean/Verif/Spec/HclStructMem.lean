import Verif.Model.HclStructMem
import Verif.Spec.HclStructDeep
/-!
# What the memory of nested specifications can hold
-/
namespace Verif.HclS
open Det (CVal)

/-- The field map that was made, and perhaps entries that decoding a struct of the type makes by itself; what these name is in `ref`. -/
def Holds1 (env : Env) (ext : Ext) (N cls : Nat) (ref : GoMap Bytes Tmpl) (obj found : List (Bytes × CVal)) : Prop :=
  (∀ k v, GoMap.get? obj k = some v → GoMap.get? found k = some v) ∧
  ∀ k v, GoMap.get? found k = some v → GoMap.get? obj k = some v ∨ SelfMade env ext (whole env N (env.struct cls).fields) ref k v

/-- At every call the memory holds such a field map. -/
def Honest (env : Env) (ext : Ext) (N : Nat) (mem : SpecMem) : Prop :=
  ∀ path st cls obj, Holds1 env ext N cls st.ref obj (mem path st cls obj)

end Verif.HclS
