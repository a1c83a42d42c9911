import Verif.Lemmas.HclStructAgain
/-!
# Specifications that decoding has filled at all levels
-/
namespace Verif.HclS
open Det (Cls CVal)

/-- Two entries of the same form with related classes at the same places. -/
def SpecV (R : Cls → Cls → Prop) : CVal → CVal → Prop
  | .none, .none => True
  | .single a, .single a' => R a a'
  | .list l, .list l' => List.Forall₂ R l l'
  | .map m, .map m' => List.Forall₂ (fun x y => x.1 = y.1 ∧ R x.2 y.2) m m'
  | .map2 m, .map2 m' => List.Forall₂ (fun x y => x.1 = y.1 ∧ List.Forall₂ (fun x y => x.1 = y.1 ∧ R x.2 y.2) x.2 y.2) m m'
  | _, _ => False

/-- The second has the entries of the first, up to `V`, and perhaps others that decoding a struct of one of the types makes by itself; what these name is in `ref`. -/
def FilledIn (env : Env) (ext : Ext) (N : Nat) (ref : GoMap Bytes Tmpl) (V : CVal → CVal → Prop) (types : Nat → Prop) (obj obj' : List (Bytes × CVal)) : Prop :=
  (∀ k v, GoMap.get? obj k = some v → ∃ v', GoMap.get? obj' k = some v' ∧ V v v') ∧
  ∀ k v', GoMap.get? obj' k = some v' → (GoMap.get? obj k).isSome ∨ ∀ c, types c → SelfMade env ext (whole env N (env.struct c).fields) ref k v'

/-- The types that a class name can stand for: by `ref`, or as the name of a type. -/
def Types (env : Env) (ext : Ext) (ref : GoMap Bytes Tmpl) (name : Bytes) (c : Nat) : Prop :=
  ∃ content, GoMap.get? ref name = some (.ptr c content) ∨ TypeEntry env ext name (.ptr c content)

/-- A class and the same one filled, down to a depth. -/
def DeepC (env : Env) (ext : Ext) (N : Nat) (ref : GoMap Bytes Tmpl) : Nat → Cls → Cls → Prop
  | 0, a, a' => a.name = a'.name
  | n + 1, a, a' => a.name = a'.name ∧ FilledIn env ext N ref (SpecV (DeepC env ext N ref n)) (Types env ext ref a.name) a.fields a'.fields

/-- The fields of a specification for a struct type, and the same ones filled at all levels. -/
def DeepFilled (env : Env) (ext : Ext) (N : Nat) (ref : GoMap Bytes Tmpl) (n cls : Nat) : List (Bytes × CVal) → List (Bytes × CVal) → Prop :=
  FilledIn env ext N ref (SpecV (DeepC env ext N ref n)) (· = cls)

end Verif.HclS
