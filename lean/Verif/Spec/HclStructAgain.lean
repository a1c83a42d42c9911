import Verif.Spec.HclStruct
/-!
# When a specification can be used again
-/
namespace Verif.HclS

/-- The exported fields of a struct type at all levels: untagged structs together with their own fields. -/
def wholeList (env : Env) (deep : List Fld → List Fld) : List Fld → List Fld
  | [] => []
  | f :: fs =>
    (if f.upper = false then []
     else f :: (if f.tag = [] then
        match f.ty.structOf with
        | some c => deep (env.struct c).fields
        | none => []
      else [])) ++ wholeList env deep fs

def whole (env : Env) : Nat → List Fld → List Fld
  | 0 => wholeList env fun _ => []
  | n + 1 => wholeList env (whole env n)

/-- Fields of any two levels with the same name are the same. -/
def NamesOnce (env : Env) (n c : Nat) : Prop :=
  ∀ f ∈ whole env n (env.struct c).fields, ∀ g ∈ whole env n (env.struct c).fields, f.name = g.name → f = g

/-- What the specification, `ref` and its tree can be after any number of successful calls that all use them, for documents of one type. -/
inductive Used (env : Env) (ext : Ext) (n cls : Nat) (spec : Option (List (Bytes × Det.CVal))) (st : St) (root : Option Nat) :
    Option (List (Bytes × Det.CVal)) → St → Option Nat → Prop where
  | start : Used env ext n cls spec st root spec st root
  | call {spec1 st1 root1 a} (body : Option Body) (target : Fields) (labels : List Bytes) :
      Used env ext n cls spec st root spec1 st1 root1 → a = unmarshalSpec env ext n body cls target spec1 st1 root1 labels → a.outcome = .ok () →
      Used env ext n cls spec st root a.spec ⟨a.heap, a.ref⟩ (some a.root)

end Verif.HclS
