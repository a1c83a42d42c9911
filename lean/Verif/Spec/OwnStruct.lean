import Verif.Model.OwnStruct
import Verif.Spec.HclStructIfacePrint
/-!
# Documents for structs with types that have their own MarshalHCL and UnmarshalHCL
-/
namespace Verif.HclS
open Hcl (Expr IsIdent SafeStr)
open Det (Cls CVal)

/-- A block with its labels writes the struct out: if its type has `UnmarshalHCL`, this is for the method to say, called on a new
struct; otherwise like `Displays`. -/
def DisplaysOwn (ms : Methods) (env : Env) (emb : Nat) (ext : Ext) (ref : GoMap Bytes Tmpl) :
    Nat → List (Bytes × CVal) → List Bytes → Body → Nat → Fields → Prop
  | 0, _, _, _, _, _ => False
  | n + 1, obj, labels, body, c, fs =>
    match ms.unmarshal c with
    | some u => u (newFields env ext c) labels body = .ok fs
    | none => DisplaysBy env emb ext ref (DisplaysOwn ms env emb ext ref n) obj body c fs ∧ LabelsAre (env.flat emb c) fs labels

/-- The labels of its own that are written for a struct: none, if its type has `MarshalHCL`. -/
def writtenOwn (ms : Methods) (env : Env) (emb : Nat) (ptr : Bool) (c : Nat) (fs : Fields) (key : Option Bytes) : List Bytes :=
  if (ms.marshal ptr c).isSome then [] else writtenLabels (env.flat emb c) fs key

/-- A struct that is written, as a block with the given labels, and read back; `ptr` tells whether it is met as a pointer.  If its type
has `MarshalHCL`, the text of the method is a document that writes the struct out.  If it has only `UnmarshalHCL`, the method
understands the usual documents for the struct. -/
def FitsOwn (S : Bytes → Expr → Prop) (ms : Methods) (env : Env) (emb : Nat) (pe : PExt) (ext : Ext) (ref : GoMap Bytes Tmpl) :
    Nat → Bool → List (Bytes × CVal) → List Bytes → Nat → Fields → Prop
  | 0, _, _, _, _, _ => False
  | n + 1, ptr, obj, labels, c, fs =>
    match ms.marshal ptr c with
    | some m => ∃ text doc, m fs = .ok text ∧ Hcl.parseConfig text = .ok doc ∧
        ∀ body, Reads S doc body → DisplaysOwn ms env emb ext ref (n + 1) obj labels body c fs
    | none => FitsBy (AnyGood S pe ext) env emb pe ext ref (writtenOwn ms env emb) (FitsOwn S ms env emb pe ext ref n) obj c fs ∧
        match ms.unmarshal c with
        | some u => ∀ body, DisplaysBy env emb ext ref (DisplaysOwn ms env emb ext ref n) obj body c fs → u (newFields env ext c) labels body = .ok fs
        | none => LabelsAre (env.flat emb c) fs labels

end Verif.HclS
