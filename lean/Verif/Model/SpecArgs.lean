import Verif.Model.Spec
/-!
# The variable arguments of `NewStruct`

`Model/Spec` has `NewStruct` as this repository calls it, with no map or with one.  Here are all the calls that a
client can make.
-/
namespace Verif.Spec

/-- How a call of `NewStruct` ends. -/
inductive Call where
  | done (s : Struct)
  | fail (e : SpecErr)
  | panic

/-- A result as the end of a call. -/
def Call.of : Except SpecErr Struct → Call
  | .ok s => .done s
  | .error e => .fail e

/-- utils/common.go L107-125 `NewStruct(name, v...)`.  `v` is the slice of the variable arguments: `none` is the nil
slice, which a call without them has; an element `none` is a nil map. -/
def newStructArgs (name : Bytes) : Option (List (Option (List (Bytes × SVal)))) → Call
  | none => .done (.mk name none)                                 -- L109-111
  | some [] => .panic                                             -- L114: v[0] of a slice that is empty but not nil
  | some (m :: _) => Call.of (NewStruct name (some (m.getD [])))  -- L113-124; `range` over a nil map does nothing
end Verif.Spec
