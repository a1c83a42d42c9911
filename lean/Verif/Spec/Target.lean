import Verif.Model.Target
/-! # What it means to add a document to a target -/
namespace Verif.Hcl

/-- The entries of the text: what an empty map gets. -/
def Entries (ext : Ext) (t : Bytes) (d : List (Bytes × GV)) : Prop := unmarshalMap ext t [] = .ok d

/-- The elements of the text: what an empty slice gets. -/
def Elements (ext : Ext) (t : Bytes) (d : List GV) : Prop := unmarshalSlice ext t [] = .ok d

/-- The entries of the text are set in the map and the others stay; the elements of the text are appended to the slice. -/
inductive Adds (ext : Ext) (t : Bytes) : Target → Target → Prop
  | map {m m' d} : Entries ext t d → (∀ k, GoMap.get? m' k = (GoMap.get? d k).or (GoMap.get? m k)) → Adds ext t (.map (some m)) (.map (some m'))
  | nil : Entries ext t [] → Adds ext t (.map .none) (.map .none)
  | slice {l d} : Elements ext t d → Adds ext t (.slice l) (.slice (l ++ d))

end Verif.Hcl
