import Verif.Spec.HclStructPrint
import Verif.Spec.HclStructIface
/-!
# Structs with interfaces that can be written and, with a specification, read back

`Fits` is `Writable` with a specification: the classes that it gives to the blocks are those of the structs in the fields.
-/

namespace Verif.HclS
open Hcl (Expr IsIdent SafeStr)
open Det (ltB ltB2 KeyTy Cls CVal)

/-- The zero values of interfaces, too. -/
structure ZeroOkI (ext : Ext) : Prop extends ZeroOk ext where
  any : ext.zero .any = .leaf 0
  iface : ∀ i, ext.zero (.iface i) = .leaf 0

/-- Whether `Marshal` meets the struct as a pointer (`true`) or as a value; pointers are never met as values. -/
def Passed : Val → Bool → Prop
  | .ref _ _, ptr => ptr = true
  | _, _ => True

section
variable (env : Env) (ext : Ext) (ref : GoMap Bytes Tmpl) (own : Bool → Nat → Fields → Option Bytes → List Bytes)
  (good : Bool → List (Bytes × CVal) → List Bytes → Nat → Fields → Prop)

/-- The struct is written as the `k`-th block of the field; the block begins with the keys as labels, followed by `own`, the
labels of the struct.  These are the labels that decoding expects, and the class for this block is that of the struct. -/
def BlockFits (ty e : Ty) (spec : Option CVal) (ok : List Bytes → Nat → Prop) (k : Nat) (keys : List Bytes) (v : Val) : Prop :=
  ∃ c fs obj ls, ClassIs env ext ref ty e k (keys ++ ls) spec c obj ∧ ok (keys ++ ls) c ∧ Holds env e c fs v ∧
    (∀ l ∈ keys ++ ls, SafeStr l) ∧ ∀ ptr, Passed v ptr → own ptr c fs keys.head? = ls ∧ good ptr obj (keys ++ ls) c fs

/-- The value of a field for blocks: nil, or a struct, or a collection that is not empty, without nil or zero structs in slices. -/
def BlocksFit (ty : Ty) (spec : Option CVal) (v : Val) : Prop :=
  match ty with
  | .struct c => (v.Zero → v = ext.zero (.struct c)) ∧ BlockFits env ext ref own good ty ty spec (fun _ _ => True) 0 [] v
  | .ptr (.struct _) | .any | .iface _ => v = .leaf 0 ∨ BlockFits env ext ref own good ty ty spec (fun _ _ => True) 0 [] v
  | .slice e => v = .leaf 0 ∨ ∃ l, l ≠ [] ∧ v = .slice l ∧
      ∀ x ∈ l.zipIdx, ¬ x.1.Zero ∧ BlockFits env ext ref own good ty e spec (fun _ _ => True) x.2 [] x.1
  | .map .str e => v = .leaf 0 ∨ ∃ m, m ≠ [] ∧ v = .map m ∧ m.Pairwise (fun x y => ltB x.1 y.1 = true) ∧
      ∀ x ∈ m, BlockFits env ext ref own good ty e spec (fun _ _ => True) 0 [x.1] x.2
  | .map .str2 e => v = .leaf 0 ∨ ∃ m, m ≠ [] ∧ v = .map2 m ∧ m.Pairwise (fun x y => ltB2 x.1 y.1 = true) ∧
      ∀ x ∈ m, BlockFits env ext ref own good ty e spec (PairOf env x.1) 0 (pairLabels x.1) x.2
  | _ => False

end

/-- The text, behind a name, is a block without labels, and does not end in white space. -/
structure BlockIs (t : Bytes) (doc : Hcl.Body) : Prop where
  item : ∀ tag, IsIdent tag → Hcl.ItemOk (tag ++ 32 :: t) (.block tag [] doc)
  last : ∃ s c, t = s ++ [c] ∧ isBlankB c = false

/-- The value of a generic field: nil, or a collection that is not empty, without structs.  The text of `encoding` is an attribute, for a
slice, or a block, for a map, and decoding it as generic data gives the value. -/
def AnyGood (S : Bytes → Expr → Prop) (pe : PExt) (ext : Ext) (f : Fld) (v : Val) : Prop :=
  v = .leaf 0 ∨
  match f.ty with
  | .slice _ => ∃ x l, v = .slice (x :: l) ∧ x.isStruct = false ∧
      ∀ k, ∃ t e cv, pe.enc v (k + 1) = .ok t ∧ TextIs t e ∧ Lit e ∧ evalE ext [] e = .ok cv ∧ cv ≠ .null ∧
        ∀ src, S src e → GivesAny (fun h n => ext.dynAttr true h n src) v
  | _ => ∃ x m, v = .map (x :: m) ∧ (∀ y ∈ x :: m, y.2.isStruct = false) ∧
      ∀ k, ∃ t doc, pe.enc v (k + 1) = .ok t ∧ BlockIs t doc ∧ ∀ body, Reads S doc body → GivesAny (fun h n => ext.dynBlock false h n body) v

/-- A struct that is written and, with the specification of its fields, read back; `good` tells which structs in its fields are
written as blocks with which labels and read back, `own` the labels of their own that are written, and `any` which generic data is read back. -/
def FitsBy (any : Fld → Val → Prop) (env : Env) (emb : Nat) (pe : PExt) (ext : Ext) (ref : GoMap Bytes Tmpl)
    (own : Bool → Nat → Fields → Option Bytes → List Bytes) (good : Bool → List (Bytes × CVal) → List Bytes → Nat → Fields → Prop) (obj : List (Bytes × CVal)) (c : Nat) (fs : Fields) : Prop :=
  Orderly env emb obj c ∧ (emb ≤ pe.embedded ∧ ∀ g ∈ embeddedIn env emb (env.struct c).fields, pe.anon g = true) ∧
  fs.map Prod.fst = (env.flat emb c).fields.map Fld.name ∧
  (∀ f ∈ (env.flat emb c).fields, IsIdent f.tag ∧ (LabelFld f → f.what = b "label")) ∧
  ∀ f ∈ (env.flat emb c).fields, ∃ v, GoMap.get? fs f.name = some v ∧
    (LabelFld f → ∃ s, v = .str s) ∧ (FreeFld obj f → PlainGood pe ext f v) ∧
    (SpecFld obj f → BlocksFit env ext ref own good f.ty (GoMap.get? obj f.name) v) ∧ (AnyFld obj f → any f v)

/-- The number bounds the nesting. -/
def Fits (S : Bytes → Expr → Prop) (env : Env) (emb : Nat) (pe : PExt) (ext : Ext) (ref : GoMap Bytes Tmpl) : Nat → List (Bytes × CVal) → Nat → Fields → Prop
  | 0, _, _, _ => False
  | n + 1, obj, c, fs => FitsBy (AnyGood S pe ext) env emb pe ext ref (fun _ c => writtenLabels (env.flat emb c))
      (fun _ obj labels c fs => Fits S env emb pe ext ref n obj c fs ∧ LabelsAre (env.flat emb c) fs labels) obj c fs

/-- What is written for the value is a document, and a new struct into which it is decoded with the specification and the given
labels has the given content. -/
def ReadsBackAs (S : Bytes → Expr → Prop) (env : Env) (pe : PExt) (ext : Ext) (m : Nat) (v : Val) (obj : List (Bytes × CVal)) (labels : List Bytes) (st : St)
    (root : Option Nat) (c : Nat) (fs : Fields) : Prop :=
  ∃ text doc, marshalVal env pe v = .ok text ∧ Hcl.parseConfig text = .ok doc ∧ ∀ body, Reads S doc body →
    let after := unmarshalSpec env ext m (some body) c (newFields env ext c) (some obj) st root labels
    after.outcome = .ok () ∧ after.target = fs

end Verif.HclS
