import Verif.Model.HclStruct
/-!
# The classes that a specification names
-/
namespace Verif.HclS
open Det (Cls CVal)

/-- The classes of one entry of a specification. -/
def classesOf : CVal → List Cls
  | .none => []
  | .single a => [a]
  | .list l => l
  | .map m => m.map Prod.snd
  | .map2 m => m.flatMap fun x => x.2.map Prod.snd

/-- The names in a class, at all levels. -/
inductive Within : Cls → Bytes → Prop where
  | self (a : Cls) : Within a a.name
  | field {a : Cls} {k : Bytes} {v : CVal} {c : Cls} {x : Bytes} (hk : GoMap.get? a.fields k = some v) (hc : c ∈ classesOf v) (hx : Within c x) : Within a x

/-- The names of classes in the fields of a specification, at all levels. -/
def NamesIn (obj : List (Bytes × CVal)) (x : Bytes) : Prop := ∃ k v c, GoMap.get? obj k = some v ∧ c ∈ classesOf v ∧ Within c x

end Verif.HclS
