import Verif.Spec.HclStructDoc
/-!
# Documents for structs with interfaces

`Displays` relates a document and a specification to a struct, like `Shows`, but the classes of blocks may be given by the
specification, so that fields of interface type are possible.  It does not mention decoding.
-/

namespace Verif.HclS
open Tree (Heap)
open Hcl (Cty)
open Det (ltB ltB2 KeyTy Cls CVal)

/-- The class that a specification gives to the `k`-th block of a field; `ls` are the labels of the block.  A map of classes
that does not have the label gives a class only if all its classes are equal. -/
inductive Given : CVal → Ty → Nat → List Bytes → Cls → Prop
  | single {cls ty k ls} : (∀ e, ty ≠ .slice e) → (∀ kt e, ty ≠ .map kt e) → Given (.single cls) ty k ls cls
  | nth {cs e k ls cls} : cs[k]? = some cls → Given (.list cs) (.slice e) k ls cls
  | beyond {cls cs e k ls} : cs.length < k → Given (.list (cls :: cs)) (.slice e) k ls cls
  | first {cls cs e k ls} : Given (.list (cls :: cs)) (.map .str e) k ls cls
  | key {m e k key cls} : GoMap.get? m key = some cls → Given (.map m) (.map .str e) k [key] cls
  | other {m e k key cls} : m ≠ [] → (∀ x ∈ m, x.2 = cls) → Given (.map m) (.map .str e) k [key] cls
  | pair {m e k ls m1 cls} : GoMap.get? m (ls.getD 0 []) = some m1 → GoMap.get? m1 (ls.getD 1 []) = some cls →
      Given (.map2 m) (.map .str2 e) k ls cls
  | otherPair {m e k ls cls} : m ≠ [] → (∀ x ∈ m, x.2 ≠ [] ∧ ∀ y ∈ x.2, y.2 = cls) → Given (.map2 m) (.map .str2 e) k ls cls

/-- The name stands for a new struct of the class. -/
def Stands (env : Env) (ext : Ext) (ref : GoMap Bytes Tmpl) (name : Bytes) (c : Nat) : Prop :=
  GoMap.get? ref name = some (.ptr c (newFields env ext c))

/-- The struct type for a block of a field of type `ty` with elements of type `e`, and the specification of its fields: without
specification the struct type of the element, otherwise that of the class. -/
inductive ClassIs (env : Env) (ext : Ext) (ref : GoMap Bytes Tmpl) (ty e : Ty) (k : Nat) (ls : List Bytes) :
    Option CVal → Nat → List (Bytes × CVal) → Prop
  | own {c} : e.structOf = some c → ClassIs env ext ref ty e k ls none c []
  | given {spec cls c} : Given spec ty k ls cls → Stands env ext ref cls.name c → ClassIs env ext ref ty e k ls (some spec) c cls.fields

/-- A field given by blocks: it has a specification, or it is a struct or a collection of structs. -/
structure SpecFld (obj : List (Bytes × CVal)) (f : Fld) : Prop where
  decodes : Decodes f
  ty : (GoMap.get? obj f.name).isSome = true ∨ f.ty.isBlock = true

/-- A field given by an attribute. -/
def FreeFld (obj : List (Bytes × CVal)) (f : Fld) : Prop := PlainFld f ∧ GoMap.get? obj f.name = none

/-- A field of type `map[string]any` or `[]any` without specification. -/
structure AnyFld (obj : List (Bytes × CVal)) (f : Fld) : Prop where
  decodes : Decodes f
  ty : f.ty = .slice .any ∨ f.ty = .map .str .any
  free : GoMap.get? obj f.name = none

/-- Like `Regular`, with generic fields; embedded structs have no specification. -/
structure Orderly (env : Env) (emb : Nat) (obj : List (Bytes × CVal)) (c : Nat) : Prop where
  kinds : ∀ f ∈ (env.flat emb c).fields, LabelFld f ∨ FreeFld obj f ∨ SpecFld obj f ∨ AnyFld obj f
  names : ((env.flat emb c).fields.map Fld.name).Nodup
  tags : ((env.flat emb c).fields.map Fld.tag).Nodup
  promoted : (env.flat emb c).promoted = (env.flat emb c).fields.map fun f => (f.name, f.ty)
  apart : ∀ g ∈ embeddedIn env emb (env.struct c).fields, g.name ∉ (env.flat emb c).fields.map Fld.name
  free : ∀ g ∈ embeddedIn env emb (env.struct c).fields, GoMap.get? obj g.name = none

section
variable (env : Env) (ext : Ext) (ref : GoMap Bytes Tmpl)
  (shows : List (Bytes × CVal) → List Bytes → Body → Nat → Fields → Prop)

/-- The `k`-th block of the field shows the struct, as one of the class for this block; `ok` is asked of the labels and the class. -/
def BlockDisplays (ty e : Ty) (spec : Option CVal) (ok : List Bytes → Nat → Prop) (k : Nat) (blk : List Bytes × Body) (v : Val) : Prop :=
  ∃ c fs obj, ClassIs env ext ref ty e k blk.1 spec c obj ∧ ok blk.1 c ∧ Holds env e c fs v ∧ shows obj blk.1 blk.2 c fs

/-- The labels for a pair of keys. -/
def PairOf (k : Bytes × Bytes) (labels : List Bytes) (c : Nat) : Prop :=
  k.1 ≠ [] ∧ ((k.2 ≠ [] ∧ labels = [k.1, k.2]) ∨
    (k.2 = [] ∧ labels = [k.1] ∧ ∀ f ∈ (env.struct c).fields, lower f.what ≠ b "label"))

/-- The blocks, in source order, show the value of the field; without blocks it is zero. -/
def BlocksDisplay (ty : Ty) (spec : Option CVal) (blks : List (List Bytes × Body)) (v : Val) : Prop :=
  (blks = [] ∧ v = ext.zero ty) ∨
  (blks ≠ [] ∧ match ty with
    | .slice e => ∃ l, v = .slice l ∧
        List.Forall₂ (fun blk x => BlockDisplays env ext ref shows ty e spec (fun _ _ => True) blk.2 blk.1 x) blks.zipIdx l
    | .map .str e => ∃ m l, v = .map m ∧ m.Pairwise (fun x y => ltB x.1 y.1 = true) ∧ l.Perm m ∧
        List.Forall₂ (fun blk x => BlockDisplays env ext ref shows ty e spec (fun ls _ => ls.head? = some x.1) 0 blk x.2) blks l
    | .map .str2 e => ∃ m l, v = .map2 m ∧ m.Pairwise (fun x y => ltB2 x.1 y.1 = true) ∧ l.Perm m ∧
        List.Forall₂ (fun blk x => BlockDisplays env ext ref shows ty e spec (PairOf env x.1) 0 blk x.2) blks l
    | ty => ∃ blk, blks = [blk] ∧ BlockDisplays env ext ref shows ty ty spec (fun _ _ => True) 0 blk v)

/-- Decoding as generic data, at any node of any tree of variables, gives the value; the tree only grows. -/
def GivesAny (decode : Heap Cty → Nat → Except Fail (Val × Heap Cty)) (v : Val) : Prop :=
  ∀ h n, Tree.Inv h → n < h.length → ∃ h', decode h n = .ok (v, h') ∧ Tree.Inv h' ∧ Tree.Le h h'

/-- The type is a slice. -/
def Ty.isSlice : Ty → Bool
  | .slice _ => true
  | _ => false

/-- The attribute or the block, which is only one and has no labels, is decoded to the value as a list, for a slice, or else as a map;
without both it is zero. -/
def AnyShows (body : Body) (f : Fld) (v : Val) : Prop :=
  match GoMap.get? body.attrs f.tag, blocksOf body f.tag with
  | some a, [] => Lit a.expr ∧ (∃ cv, evalE ext [] a.expr = .ok cv ∧ cv ≠ .null) ∧ GivesAny (fun h n => ext.dynAttr f.ty.isSlice h n a.src) v
  | none, [([], blk)] => GivesAny (fun h n => ext.dynBlock f.ty.isSlice h n blk) v
  | none, [] => v = ext.zero f.ty
  | _, _ => False

/-- The field has the value that the document shows. -/
structure FieldDisplays (obj : List (Bytes × CVal)) (body : Body) (f : Fld) (v : Val) : Prop where
  label : LabelFld f → ∃ s, v = .str s
  plain : FreeFld obj f → AttrShows ext body f v
  block : SpecFld obj f → BlocksDisplay env ext ref shows f.ty (GoMap.get? obj f.name) (blocksOf body f.tag) v
  generic : AnyFld obj f → AnyShows ext body f v

end

/-- The document writes the struct out; `shows` tells which blocks, with their labels, write which structs out. -/
def DisplaysBy (env : Env) (emb : Nat) (ext : Ext) (ref : GoMap Bytes Tmpl)
    (shows : List (Bytes × CVal) → List Bytes → Body → Nat → Fields → Prop) (obj : List (Bytes × CVal)) (body : Body) (c : Nat) (fs : Fields) : Prop :=
  Orderly env emb obj c ∧
  fs.map Prod.fst = (env.flat emb c).fields.map Fld.name ∧
  (∀ a ∈ body.attrs, ∃ f ∈ (env.flat emb c).fields, (FreeFld obj f ∨ AnyFld obj f) ∧ f.tag = a.1) ∧
  (body.attrs.map Prod.fst).Nodup ∧
  (∀ x ∈ body.blocks, ∃ f ∈ (env.flat emb c).fields, (SpecFld obj f ∨ AnyFld obj f) ∧ f.tag = x.1) ∧
  ∀ f ∈ (env.flat emb c).fields, ∃ v, GoMap.get? fs f.name = some v ∧ FieldDisplays env ext ref shows obj body f v

/-- With the labels, too. -/
def AndLabels (env : Env) (emb : Nat) (shows : List (Bytes × CVal) → Body → Nat → Fields → Prop) (obj : List (Bytes × CVal)) (labels : List Bytes)
    (body : Body) (c : Nat) (fs : Fields) : Prop :=
  shows obj body c fs ∧ LabelsAre (env.flat emb c) fs labels

/-- With the specification `obj` of its fields, the document writes the struct of class `c` with content `fs` out; `ref` is the map
of the caller from names of classes to templates. -/
def Displays (env : Env) (emb : Nat) (ext : Ext) (ref : GoMap Bytes Tmpl) : Nat → List (Bytes × CVal) → Body → Nat → Fields → Prop
  | 0, _, _, _, _ => False
  | n + 1, obj, body, c, fs => DisplaysBy env emb ext ref (AndLabels env emb (Displays env emb ext ref n)) obj body c fs

end Verif.HclS
