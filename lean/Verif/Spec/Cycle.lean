import Verif.Spec.Convert
/-!
# Going to another format and back
-/
namespace Verif.Hcl

mutual
/-- Neither nil slices nor nil maps: a decoder of JSON or YAML gives `nil` for null. -/
def untyped : GV → Prop
  | .nilList => False
  | .nilMap => False
  | .list l => untypedL l
  | .map m => untypedM m
  | _ => True
def untypedL : List GV → Prop
  | [] => True
  | v :: l => untyped v ∧ untypedL l
def untypedM : List (Bytes × GV) → Prop
  | [] => True
  | (_, v) :: m => untyped v ∧ untypedM m
end

mutual
/-- Every map in the data has distinct keys, as every Go map does. -/
def distinct : GV → Prop
  | .list l => distinctL l
  | .map m => (m.map Prod.fst).Nodup ∧ distinctM m
  | _ => True
def distinctL : List GV → Prop
  | [] => True
  | v :: l => distinct v ∧ distinctL l
def distinctM : List (Bytes × GV) → Prop
  | [] => True
  | (_, v) :: m => distinct v ∧ distinctM m
end

end Verif.Hcl
