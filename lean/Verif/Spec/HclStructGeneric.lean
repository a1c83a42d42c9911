import Verif.Spec.HclStructIfacePrint
import Verif.Spec.HclText
import Verif.Model.HclDecode
import Verif.Model.HclPrint
import Mathlib.Data.Rat.Encodable
/-!
# Generic data in fields of structs

The model of structs leaves the decoding and writing of generic data open (`Ext.dynAttr`, `Ext.dynBlock`, `PExt.enc`); the
models of `decodeSlice`, `decodeMap` and `encoding` have their own type of data.  `code` is the same data as the content of
a field, and `Generic` says that the open functions are those of these models.
-/

namespace Verif.HclS
open Verif.Tree (Heap)
open Hcl (Cty Expr GV)

/-- The number of a basic value that is not a string. -/
def leafNo : GV → Nat
  | .bool v => if v then 1 else 2
  | .nilList => 3
  | .nilMap => 4
  | .int n => 5 + 2 * Encodable.encode n
  | .flt q => 6 + 2 * Encodable.encode q
  | _ => 0

mutual
/-- Generic data as the content of a variable of type `any`. -/
def code : GV → Val
  | .str s => .str s
  | .list l => .slice (codeL l)
  | .map m => .map (codeM m)
  | .nil => .leaf 0
  | .bool v => .leaf (leafNo (.bool v))
  | .int n => .leaf (leafNo (.int n))
  | .flt q => .leaf (leafNo (.flt q))
  | .nilList => .leaf (leafNo .nilList)
  | .nilMap => .leaf (leafNo .nilMap)
def codeL : List GV → List Val
  | [] => []
  | v :: l => code v :: codeL l
def codeM : List (Bytes × GV) → List (Bytes × Val)
  | [] => []
  | (k, v) :: m => (k, code v) :: codeM m
end

/-- The result of `decodeSlice` as the content of a field: without elements it is nil (dethcl/mapslice.go L23). -/
def codeList (l : List GV) : Val := if l = [] then .leaf 0 else .slice (codeL l)

/-- A source text of the expression, if there is one. -/
def SourceOf (src : Bytes) (e : Expr) : Prop := (∃ s, Hcl.parseX s = .ok e) → Hcl.parseX src = .ok e

mutual
/-- A body of literals. -/
inductive LitBody : Hcl.Body → Prop
  | mk {as bs} : (∀ a ∈ as, Lit a.2) → LitBlocks bs → LitBody (.mk as bs)
inductive LitBlocks : List (Bytes × List Bytes × Hcl.Body) → Prop
  | nil : LitBlocks []
  | cons {k ls x bs} : LitBody x → LitBlocks bs → LitBlocks ((k, ls, x) :: bs)
end

/-- Generic data in fields is decoded by `decodeSlice` and `decodeMap` (dethcl/mapslice.go), as modelled in `Verif.Hcl`, whatever is
in the tree of variables, if it consists of literals; the content of an empty block makes dethcl/mapslice.go L36 panic. -/
structure GenericDec (ext : Ext) (hx : Hcl.Ext) : Prop where
  slice : ∀ src e l, Hcl.parseX src = .ok e → Lit e → Hcl.decodeSlice hx src = .ok l →
    GivesAny (fun h n => ext.dynAttr true h n src) (codeList l)
  object : ∀ src e m, Hcl.parseX src = .ok e → Lit e → Hcl.decodeMap hx src = .ok m →
    GivesAny (fun h n => ext.dynAttr false h n src) (code (.map m))
  block : ∀ doc body m, Reads SourceOf doc body → LitBody doc → doc ≠ .mk [] [] → Hcl.decodeBody hx [] doc = .ok m →
    GivesAny (fun h n => ext.dynBlock false h n body) (code (.map m))
  empty : ∀ h n, ext.dynBlock false h n (.mk [] []) = .error .panic

mutual
/-- The same data, with the members of the maps in another order. -/
inductive Reord : GV → GV → Prop
  | same {v} : Reord v v
  | list {l l'} : ReordL l l' → Reord (.list l) (.list l')
  | map {m m'} : ReordM m m' → Reord (.map m) (.map m')
inductive ReordL : List GV → List GV → Prop
  | nil : ReordL [] []
  | cons {v w l l'} : Reord v w → ReordL l l' → ReordL (v :: l) (w :: l')
inductive ReordM : List (Bytes × GV) → List (Bytes × GV) → Prop
  | nil : ReordM [] []
  | cons {k v w m m'} : Reord v w → ReordM m m' → ReordM ((k, v) :: m) ((k, w) :: m')
  | swap {x y m} : ReordM (x :: y :: m) (y :: x :: m)
  | trans {m m' m''} : ReordM m m' → ReordM m' m'' → ReordM m m''
end

/-- Generic data in fields is written by `encoding` (dethcl/encoding.go L112-190), as modelled in `Verif.Hcl`, with maps in some order
(L131). -/
def GenericEnc (pe : PExt) : Prop :=
  ∀ v k, ∃ w, Reord v w ∧ ∀ t, Hcl.encV k none w = .ok (some t) → pe.enc (code v) k = .ok t

/-- Data in a field of type `[]any` or `map[string]any` that is written and read back: not empty, with the text of an HCL value, and the same
when it is decoded. -/
def AnyBack (nfc : Bytes → Bytes) (ty : Ty) (v : Val) : Prop :=
  v = .leaf 0 ∨
  match ty with
  | .slice _ => ∃ l, v = code (.list l) ∧ l ≠ [] ∧ Hcl.okElems l ∧ Hcl.exactL nfc l ∧ Hcl.canonL l = l
  | _ => ∃ m, v = code (.map m) ∧ m ≠ [] ∧ Hcl.okBody m ∧ Hcl.exactM nfc m ∧ Hcl.uniformM m ∧ Hcl.canonM m = m

/-- Like `Fits`, with `AnyBack` for generic fields. -/
def FitsData (nfc : Bytes → Bytes) (env : Env) (emb : Nat) (pe : PExt) (ext : Ext) (ref : GoMap Bytes Tmpl) : Nat → List (Bytes × Det.CVal) → Nat → Fields → Prop
  | 0, _, _, _ => False
  | n + 1, obj, c, fs => FitsBy (fun f v => AnyBack nfc f.ty v) env emb pe ext ref (fun _ c => writtenLabels (env.flat emb c))
      (fun _ obj labels c fs => FitsData nfc env emb pe ext ref n obj c fs ∧ LabelsAre (env.flat emb c) fs labels) obj c fs

end Verif.HclS
