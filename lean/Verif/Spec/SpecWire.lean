import Verif.Spec.SpecGrammar
/-!
# The strings of a specification

`Struct` and `Value` are protobuf messages: a message that is sent consists of class names, field names and labels, which have to be UTF-8 (proto3; `proto.Marshal` is external).
-/
namespace Verif.Spec

mutual
/-- All strings of a message. -/
def Struct.All (P : Bytes → Prop) : Struct → Prop
  | .mk c none => P c
  | .mk c (some fs) => P c ∧ Value.AllF P fs
/-- See `Struct.All`. -/
def Value.All (P : Bytes → Prop) : Value → Prop
  | .single s => s.All P
  | .list l => Struct.AllL P l
  | .map m => Struct.AllM P m
  | .map2 m => Struct.AllM2 P m
/-- See `Struct.All`. -/
def Struct.AllL (P : Bytes → Prop) : List Struct → Prop
  | [] => True
  | s :: l => s.All P ∧ Struct.AllL P l
/-- See `Struct.All`; keys are labels. -/
def Struct.AllM (P : Bytes → Prop) : List (Bytes × Struct) → Prop
  | [] => True
  | (k, s) :: l => P k ∧ s.All P ∧ Struct.AllM P l
/-- See `Struct.All`; keys are first labels. -/
def Struct.AllM2 (P : Bytes → Prop) : List (Bytes × List (Bytes × Struct)) → Prop
  | [] => True
  | (k, m) :: l => P k ∧ Struct.AllM P m ∧ Struct.AllM2 P l
/-- See `Struct.All`; keys are field names. -/
def Value.AllF (P : Bytes → Prop) : List (Bytes × Value) → Prop
  | [] => True
  | (k, v) :: l => P k ∧ v.All P ∧ Value.AllF P l
end

mutual
/-- The class names and labels of a description, and all strings of messages in it; not the field names of maps. -/
def SVal.Names (P : Bytes → Prop) : SVal → Prop
  | .str c => P c
  | .pair p => p.Names P
  | .strs l => ∀ c ∈ l, P c
  | .pairs l => SPair.NamesL P l
  | .mapStr m => ∀ e ∈ m, P e.1 ∧ P e.2
  | .mapPair m => SPair.NamesM P m
  | .map2Str m => ∀ e ∈ m, P e.1.1 ∧ P e.1.2 ∧ P e.2
  | .map2Pair m => SPair.NamesM2 P m
  | .struct s => s.All P
  | .structs l => Struct.AllL P l
  | .mapStruct m => Struct.AllM P m
  | .map2Struct m => Struct.AllM2 P m
  | .hash m => SVal.NamesF P m
  | .nil => True
  | .other _ => True
/-- See `SVal.Names`. -/
def SPair.Names (P : Bytes → Prop) : SPair → Prop
  | .mk a c => a.Names P ∧ c.Names P
/-- See `SVal.Names`. -/
def SPair.NamesL (P : Bytes → Prop) : List SPair → Prop
  | [] => True
  | p :: l => p.Names P ∧ SPair.NamesL P l
/-- See `SVal.Names`. -/
def SPair.NamesM (P : Bytes → Prop) : List (Bytes × SPair) → Prop
  | [] => True
  | (k, p) :: l => P k ∧ p.Names P ∧ SPair.NamesM P l
/-- See `SVal.Names`. -/
def SPair.NamesM2 (P : Bytes → Prop) : List ((Bytes × Bytes) × SPair) → Prop
  | [] => True
  | (k, p) :: l => P k.1 ∧ P k.2 ∧ p.Names P ∧ SPair.NamesM2 P l
/-- See `SVal.Names`. -/
def SVal.NamesF (P : Bytes → Prop) : List (Bytes × SVal) → Prop
  | [] => True
  | (_, v) :: l => v.Names P ∧ SVal.NamesF P l
end

end Verif.Spec
