import Mathlib.Data.List.Forall2
import Verif.Spec.HclStruct
/-!
# Documents that write a struct out

`Shows` relates a document to a struct: every attribute and every block is a field or an element of it, and
every field is there or zero.  It does not mention decoding.
-/

namespace Verif.HclS
open Det (ltB ltB2 KeyTy)

/-- A type whose fields are given by attributes. -/
def Ty.isPlain : Ty → Bool
  | .str | .leaf _ | .ptr .str | .ptr (.leaf _) => true
  | .slice .str | .slice (.leaf _) | .slice (.slice _) | .slice (.map _ _) => true
  | .map _ .str | .map _ (.leaf _) | .map _ (.slice _) | .map _ (.map _ _) => true
  | _ => false

/-- A type whose fields are given by blocks: a struct, or a collection of structs, or of pointers to structs. -/
def Ty.isBlock : Ty → Bool
  | .struct _ | .ptr (.struct _) => true
  | .slice (.struct _) | .slice (.ptr (.struct _)) => true
  | .map .str (.struct _) | .map .str (.ptr (.struct _)) => true
  | .map .str2 (.struct _) | .map .str2 (.ptr (.struct _)) => true
  | _ => false

/-- A string field for a label. -/
structure LabelFld (f : Fld) : Prop where
  upper : f.upper = true
  what : lower f.what = b "label"
  ty : f.ty = .str

/-- A field given by an attribute. -/
structure PlainFld (f : Fld) : Prop where
  decodes : Decodes f
  what : f.what = [] ∨ f.what = b "attr" ∨ f.what = b "optional"
  ty : f.ty.isPlain = true

/-- A field whose attribute may be missing: it is optional or a pointer. -/
def Fld.mayLack (f : Fld) : Prop := f.what = b "optional" ∨ ∃ t, f.ty = .ptr t

/-- A field given by blocks. -/
structure BlockFld (f : Fld) : Prop where
  decodes : Decodes f
  ty : f.ty.isBlock = true

/-- The struct type of an embedded struct: an exported field of struct type without tag. -/
def Fld.embeds (f : Fld) : Option Nat :=
  if f.upper = true ∧ f.tag = [] ∧ lower f.what ≠ b "label" then
    match f.ty with
    | .struct c => some c
    | _ => none
  else none

/-- The fields with those of embedded structs in their place; the number bounds the embedding. -/
def flatten (env : Env) : Nat → List Fld → List Fld
  | 0, l => l
  | n + 1, l => l.flatMap fun f =>
    match f.embeds with
    | some c => flatten env n (env.struct c).fields
    | none => [f]

/-- The embedded structs. -/
def embeddedIn (env : Env) : Nat → List Fld → List Fld
  | 0, _ => []
  | n + 1, l => l.flatMap fun f =>
    match f.embeds with
    | some c => f :: embeddedIn env n (env.struct c).fields
    | none => []

/-- The type with the fields of embedded structs in their place.  As the state of a struct has the fields of embedded structs,
`promoted` does not have the embedded structs themselves. -/
def Env.flat (env : Env) (emb c : Nat) : StructDecl := { env.struct c with fields := flatten env emb (env.struct c).fields }

/-- A struct type all of whose fields, those of embedded structs included, are of these kinds, with different names and tags, and
with different names than the embedded structs. -/
structure Regular (env : Env) (emb c : Nat) : Prop where
  kinds : ∀ f ∈ (env.flat emb c).fields, LabelFld f ∨ PlainFld f ∨ BlockFld f
  names : ((env.flat emb c).fields.map Fld.name).Nodup
  tags : ((env.flat emb c).fields.map Fld.tag).Nodup
  promoted : (env.flat emb c).promoted = (env.flat emb c).fields.map fun f => (f.name, f.ty)
  apart : ∀ g ∈ embeddedIn env emb (env.struct c).fields, g.name ∉ (env.flat emb c).fields.map Fld.name

/-- The content of the label fields is the given labels; if there are more or fewer labels than fields, it is empty. -/
def LabelsAre (d : StructDecl) (fs : Fields) (labels : List Bytes) : Prop :=
  let own := d.fields.filter fun f => lower f.what = b "label"
  (labels.length = own.length → own.map (fun f => GoMap.get? fs f.name) = labels.map fun s => some (.str s)) ∧
  (labels.length ≠ own.length → ∀ f ∈ own, GoMap.get? fs f.name = some (.str []))

section
variable (env : Env) (emb : Nat) (ext : Ext) (shows : Body → Nat → Fields → Prop)

/-- The attribute with the field's tag has the value; a missing attribute is one that may be missing and means zero. -/
def AttrShows (body : Body) (f : Fld) (v : Val) : Prop :=
  match GoMap.get? body.attrs f.tag with
  | none => f.mayLack ∧ v = ext.zero f.ty
  | some a => Lit a.expr ∧ ∃ cv, evalE ext [] a.expr = .ok cv ∧ cv ≠ .null ∧ ext.leaf f cv = .ok v

/-- The block shows the struct in a variable of the type. -/
def BlockShows (ty : Ty) (blk : List Bytes × Body) (v : Val) : Prop :=
  ∃ c fs, ty.structOf = some c ∧ Holds env ty c fs v ∧ shows blk.2 c fs ∧ LabelsAre (env.flat emb c) fs blk.1

/-- The labels for a pair of keys. -/
def PairLabels (ty : Ty) (labels : List Bytes) (k : Bytes × Bytes) : Prop :=
  k.1 ≠ [] ∧ ((k.2 ≠ [] ∧ labels = [k.1, k.2]) ∨
    (k.2 = [] ∧ labels = [k.1] ∧ ∀ c, ty.structOf = some c → ∀ f ∈ (env.struct c).fields, lower f.what ≠ b "label"))

/-- The blocks, in source order, show the value of the field; without blocks it is zero. -/
def BlocksShow (ty : Ty) (blks : List (List Bytes × Body)) (v : Val) : Prop :=
  (blks = [] ∧ v = ext.zero ty) ∨
  (blks ≠ [] ∧ match ty with
    | .slice e => ∃ l, v = .slice l ∧ List.Forall₂ (BlockShows env emb shows e) blks l
    | .map .str e => ∃ m l, v = .map m ∧ m.Pairwise (fun x y => ltB x.1 y.1 = true) ∧ l.Perm m ∧
        List.Forall₂ (fun blk x => blk.1.head? = some x.1 ∧ BlockShows env emb shows e blk x.2) blks l
    | .map .str2 e => ∃ m l, v = .map2 m ∧ m.Pairwise (fun x y => ltB2 x.1 y.1 = true) ∧ l.Perm m ∧
        List.Forall₂ (fun blk x => PairLabels env e blk.1 x.1 ∧ BlockShows env emb shows e blk x.2) blks l
    | ty => ∃ blk, blks = [blk] ∧ BlockShows env emb shows ty blk v)

/-- The field has the value that the document shows. -/
structure FieldShows (body : Body) (f : Fld) (v : Val) : Prop where
  label : LabelFld f → ∃ s, v = .str s
  plain : PlainFld f → AttrShows ext body f v
  block : BlockFld f → BlocksShow env emb ext shows f.ty (blocksOf body f.tag) v

end

/-- The document writes the struct of class `c` with content `fs` out; the number bounds how deep blocks are nested. -/
def Shows (env : Env) (emb : Nat) (ext : Ext) : Nat → Body → Nat → Fields → Prop
  | 0, _, _, _ => False
  | n + 1, body, c, fs =>
    Regular env emb c ∧
    fs.map Prod.fst = (env.flat emb c).fields.map Fld.name ∧
    (∀ a ∈ body.attrs, ∃ f ∈ (env.flat emb c).fields, PlainFld f ∧ f.tag = a.1) ∧
    (body.attrs.map Prod.fst).Nodup ∧
    (∀ x ∈ body.blocks, ∃ f ∈ (env.flat emb c).fields, BlockFld f ∧ f.tag = x.1) ∧
    ∀ f ∈ (env.flat emb c).fields, ∃ v, GoMap.get? fs f.name = some v ∧ FieldShows env emb ext (Shows env emb ext n) body f v

/-- The new struct of a class. -/
def newFields (env : Env) (ext : Ext) (c : Nat) : Fields := (env.struct c).promoted.map fun f => (f.1, ext.zero f.2)

end Verif.HclS
