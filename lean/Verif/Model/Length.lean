import Verif.Model.Funcs
/-!
# length

Model of `internal/lang/funcs/collection.go` L19-64 `LengthFunc`.

External code: `cty.Value.Length` and `function.Call`, from their documentation; the number of characters of a string
(`stdlib.Strlen`) is the parameter `chars`.  Elements are of any type `ε`; `whole` is `IsWhollyKnown`.
-/
namespace Verif.Length
open Verif.Funcs

/-- A value by its type.  For a tuple and an object the type says how many parts there are, even of an unknown value. -/
inductive LV (ε : Type) where
  /-- `cty.DynamicPseudoType`: unknown or, with `true`, null -/
  | dyn (null : Bool)
  | str (v : K Bytes)
  | tuple (types : Nat) (v : K (List ε))
  | object (attrs : List Bytes) (v : K (GoMap Bytes ε))
  | list (v : K (List ε))
  | map (v : K (GoMap Bytes ε))
  /-- the elements as they are stored; not wholly known elements are never merged -/
  | set (v : K (List ε))
  /-- a number, a boolean or a capsule -/
  | other (v : K Unit)

/-- `IsNull` -/
def K.isNull {α : Type} : K α → Bool
  | .null => true
  | _ => false

/-- `IsNull` -/
def LV.isNull {ε : Type} : LV ε → Bool
  | .dyn n => n
  | .str v => K.isNull v
  | .tuple _ v => K.isNull v
  | .object _ v => K.isNull v
  | .list v => K.isNull v
  | .map v => K.isNull v
  | .set v => K.isNull v
  | .other v => K.isNull v

/-- `cty.Value.Length` of a list or a map -/
def lengthK {α : Type} : K (List α) → K Nat
  | .val l => .val l.length
  | _ => .unk

/-- `cty.Value.Length` of a set -/
def lengthSet {ε : Type} (whole : ε → Bool) : K (List ε) → K Nat
  | .val l => if l.length = 1 || l.all whole then .val l.length else .unk
  | _ => .unk

/-- `stdlib.Strlen` -/
def strlen (chars : Bytes → Nat) : K Bytes → K Nat
  | .val s => .val (chars s)
  | _ => .unk

/-- internal/lang/funcs/collection.go L19-64 `LengthFunc` -/
def length {ε : Type} (chars : Bytes → Nat) (whole : ε → Bool) (x : Marked (LV ε)) : Except Unit (Marked (K Nat)) :=
  if x.v.isNull then .error ()                                     -- `function.Call`: no `AllowNull`
  else
    match x.v with
    | .dyn _ => .ok ⟨.unk, x.marks⟩                                -- L44-45
    | .tuple n _ => .ok ⟨.val n, x.marks⟩                          -- L46-48
    | .object as _ => .ok ⟨.val as.length, x.marks⟩                -- L49-51
    | .str v => .ok ⟨strlen chars v, x.marks⟩                      -- L52-56
    | .list v => .ok ⟨lengthK v, x.marks⟩                          -- L57-58
    | .map v => .ok ⟨lengthK v, x.marks⟩
    | .set v => .ok ⟨lengthSet whole v, x.marks⟩
    | .other _ => .error ()                                        -- L33-35

end Verif.Length
