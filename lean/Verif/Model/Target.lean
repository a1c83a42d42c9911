import Verif.Model.HclDecode
/-!
# The targets of `Unmarshal` that are not structs

Model of `dethcl/unmarshal.go` L26-87 and L90-100 for every target that is not a pointer to a struct or to a pointer to a struct, and whose type has no
method `UnmarshalHCL`.
-/
namespace Verif.Hcl
open Det (insertK ltB)

/-- What `current` is, and what it points to. -/
inductive Target where
  /-- A nil interface. -/
  | none
  /-- Anything that is not a pointer. -/
  | value (id : Nat)
  /-- A nil pointer, not to a struct. -/
  | nilPtr
  /-- `*map[string]interface{}`; the map may be nil. -/
  | map (m : Option (List (Bytes × GV)))
  /-- `*[]interface{}`. -/
  | slice (l : List GV)
  /-- A pointer to a map of another type, such as `*map[string]string`, with some content. -/
  | otherMap (id : Nat)
  /-- A pointer to a slice of another type. -/
  | otherSlice (id : Nat)
  /-- A pointer to anything else, such as a string. -/
  | other (id : Nat)


/-- dethcl/unmarshal.go L75-77: the loop over the decoded map. -/
def addEntries (m : Option (List (Bytes × GV))) (obj : List (Bytes × GV)) : Out (Option (List (Bytes × GV))) :=
  match m, obj with
  | .none, [] => .ok .none
  | .none, _ :: _ => .panic                                                          -- assignment to an entry of a nil map
  | some m, obj => .ok (some (obj.foldl (fun t e => insertK ltB e.1 e.2 t) m))

/-- dethcl/unmarshal.go L26-100 `Unmarshal`: the target afterwards, or how the call fails (the target is as before). -/
def unmarshalTo (ext : Ext) (bs : Bytes) : Target → Out Target
  | .none => .ok .none                                                               -- L27-29
  | .value _ => .err                                                                 -- L31-33
  | .nilPtr => .err                                                                  -- L66 kind Invalid, L98-100
  | .map m => (decodeMap ext bs).bind fun obj => (addEntries m obj).map .map         -- L69-78
  | .otherMap _ => (decodeMap ext bs).bind fun _ => .panic                           -- L70-74 type assertion
  | .slice l => (unmarshalSlice ext bs l).map .slice                                 -- L79-86
  | .otherSlice _ => (decodeSlice ext bs).bind fun _ => .panic                       -- L80-84
  | .other _ => .err                                                                 -- L98-100

end Verif.Hcl
