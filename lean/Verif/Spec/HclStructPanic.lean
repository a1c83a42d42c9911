import Verif.Spec.HclStruct
/-!
# When decoding HCL into a struct must not panic

Conditions on the types, on the specification with its classes, and on the document.
-/

namespace Verif.HclS
open Tree (Heap)
open Hcl (Cty Expr)
open Det (Cls CVal KeyTy)

/-- Keys of objects are names or quoted texts. -/
inductive Keyed : Expr → Prop where
  | str {s} : Keyed (.str s)
  | num {q} : Keyed (.num q)
  | ident {n} : Keyed (.ident n)
  | neg {e} : Keyed (.neg e)
  | call {n} : Keyed (.call n)
  | tuple {l} : (∀ e ∈ l, Keyed e) → Keyed (.tuple l)
  | object {m} : (∀ e ∈ m, LitKey e.1) → (∀ e ∈ m, Keyed e.2) → Keyed (.object m)

/-- What is external does not panic (for generic fields see `Fine`). -/
structure Quiet (ext : Ext) : Prop where
  eval : ∀ vars e, ext.eval vars e ≠ .error .panic
  leaf : ∀ f v, ext.leaf f v ≠ .error .panic

/-- A field of the struct, or of one of its structs without tag. -/
def FieldOf (env : Env) (c : Nat) (f : Fld) : Prop := ∃ n, f ∈ flat env n (env.struct c).fields

def IsLabel (f : Fld) : Prop := lower f.what = b "label"

/-- Neither a label nor left out. -/
structure Active (f : Fld) : Prop where
  notLabel : ¬ IsLabel f
  notDash : f.tag ≠ b "-"

/-- A struct type, or a pointer to one, with its name. -/
inductive ElemClass (env : Env) : Ty → Bytes → Nat → Prop where
  | struct {c} : ElemClass env (.struct c) (env.struct c).str c
  | ptr {c} : ElemClass env (.ptr (.struct c)) (42 :: (env.struct c).str) c

/-- The type alone says which class the blocks of a field become: the name of the class, the struct type, and the
specification that stands for it. -/
inductive Own (env : Env) : Ty → Bytes → Nat → CVal → Prop where
  | struct {c} : Own env (.struct c) (env.struct c).str c (.single (.mk (env.struct c).str []))
  | ptr {c} : Own env (.ptr (.struct c)) (env.struct c).str c (.single (.mk (env.struct c).str []))
  | slice {e s c} : ElemClass env e s c → Own env (.slice e) s c (.list [.mk s []])
  | map {k e s c} : k ≠ .str2 → ElemClass env e s c → Own env (.map k e) s c (.list [.mk s []])
  | map2 {e s c} : ElemClass env e s c → Own env (.map .str2 e) s c (.map2 [([], [([], .mk s [])])])

/-- The specification of a field: the given one, or that of its type. -/
inductive SpecOf (env : Env) (obj : List (Bytes × CVal)) (f : Fld) : CVal → Prop where
  | given {v} : GoMap.get? obj f.name = some v → SpecOf env obj f v
  | own {s c v} : GoMap.get? obj f.name = none → Own env f.ty s c v → SpecOf env obj f v

/-- Elements of slices and maps that need no specification: structs, pointers to structs, and what is neither a pointer nor
an interface. -/
inductive Elem : Ty → Prop where
  | struct {c} : Elem (.struct c)
  | ptr {c} : Elem (.ptr (.struct c))
  | str : Elem .str
  | leaf {i} : Elem (.leaf i)
  | slice {t} : Elem (.slice t)
  | map {k t} : Elem (.map k t)

/-- Slices and maps of anything. -/
def Generic (t : Ty) : Prop := t = .slice .any ∨ t = .map .str .any

/-- Types of fields that need no specification. -/
inductive Usual : Ty → Prop where
  | str : Usual .str
  | leaf {i} : Usual (.leaf i)
  | struct {c} : Usual (.struct c)
  | any : Usual .any
  | iface {i} : Usual (.iface i)
  | ptr {t} : (∀ e, t ≠ .slice e) → (∀ k e, t ≠ .map k e) → Usual (.ptr t)
  | slice {e} : Elem e → Usual (.slice e)
  | map {k e} : Elem e → Usual (.map k e)
  | generic {t} : Generic t → Usual t

/-- Struct types that decoding can deal with; `names` says which struct type a class name stands for. -/
structure TypesOk (env : Env) (names : Bytes → Option Nat) : Prop where
  /-- no two fields of the same name -/
  distinct : ∀ n c, DistinctNames env n c
  /-- the fields of structs without tag are promoted -/
  here : ∀ c f, FieldOf env c f → IsLabel f ∨ Active f → f.name ∈ (env.struct c).promoted.map Prod.fst
  /-- labels are strings -/
  label : ∀ c f, FieldOf env c f → IsLabel f → f.ty = .str
  /-- type names stand for the types -/
  named : ∀ c f, FieldOf env c f → ∀ s c' v, Own env f.ty s c' v → names s = some c'

/-- The struct has its fields. -/
def HasFields (env : Env) (c : Nat) (fs : Fields) : Prop := ∀ k ∈ (env.struct c).promoted.map Prod.fst, k ∈ GoMap.keys fs

/-- The classes are nil or pointers to structs, of the types that their names stand for. -/
def RefOk (env : Env) (names : Bytes → Option Nat) (ref : GoMap Bytes Tmpl) : Prop :=
  ∀ s t, GoMap.get? ref s = some t → t = .nil ∨ ∃ c content, t = .ptr c content ∧ names s = some c ∧ HasFields env c content

/-- A struct of class `c` can be stored in a variable of the type. -/
def Storable (env : Env) (ty : Ty) (c : Nat) : Prop := ∀ fs, ∃ v, Holds env ty c fs v

/-- A block of the document for the tag: written as a block, or an object in an attribute. -/
inductive BlockFor (ext : Ext) (attrs : List (Bytes × Attr)) (blocks : List (Bytes × List Bytes × Body)) (tag : Bytes) : Blk → Prop where
  | block {labels body} : (tag, labels, body) ∈ blocks → BlockFor ext attrs blocks tag ⟨labels, some body⟩
  | attr {a blk} : GoMap.get? attrs tag = some a → blk ∈ attrBlocks ext a.src → BlockFor ext attrs blocks tag blk

/-- The type, the specification and the number of labels go together: there is a class; a list is for a slice or a map, a map
needs a label.  (A map of classes for a field that is not a map is an error.) -/
inductive Shape : Ty → CVal → List Bytes → Prop where
  | none {t ls} : Shape t .none ls
  | single {t c ls} : Shape t (.single c) ls
  | slice {e c l ls} : Shape (.slice e) (.list (c :: l)) ls
  | listMap {e c l x ls} : Shape (.map .str e) (.list (c :: l)) (x :: ls)
  | map {e m x ls} : m ≠ [] → Shape (.map .str e) (.map m) (x :: ls)
  | notMap {t m ls} : (∀ k e, t ≠ .map k e) → Shape t (.map m) ls
  | map2 {e m ls} : m ≠ [] → (∀ x ∈ m, x.2 ≠ []) → Shape (.map .str2 e) (.map2 m) ls
  | notMap2 {t m ls} : (∀ k e, t ≠ .map k e) → Shape t (.map2 m) ls

/-- A block with these labels may be decoded as the class, to be stored in a variable of the second type.  In a map of classes
the label decides, or else any class may be taken. -/
inductive Into : Ty → CVal → List Bytes → Ty → Cls → Prop where
  | single {t c ls} : Into t (.single c) ls t c
  | slice {e l c ls} : c ∈ l → Into (.slice e) (.list l) ls e c
  | listMap {k e c l ls} : Into (.map k e) (.list (c :: l)) ls e c
  | map {k e m x ls c} : GoMap.get? m x = some c → Into (.map k e) (.map m) (x :: ls) e c
  | mapOther {k e m x ls y c} : GoMap.get? m x = none → (y, c) ∈ m → Into (.map k e) (.map m) (x :: ls) e c
  | map2 {k e m ls x c} : x ∈ m → c ∈ x.2 → Into (.map k e) (.map2 m) ls e c.2

/-- A document that can be decoded into struct type `c` with the given specification, without panic. -/
inductive Fine (env : Env) (ext : Ext) (names : Bytes → Option Nat) : Nat → List (Bytes × CVal) → Body → Prop where
  | mk {c obj attrs blocks}
      (keyed : ∀ a ∈ attrs, Keyed a.2.expr)
      (label : ∀ f, FieldOf env c f → IsLabel f → ∀ a, GoMap.get? attrs f.tag = some a →
        ∀ vars v, evalE ext vars a.expr = .ok v → v = .null ∨ ∃ s, v = .str s)
      (usual : ∀ f, FieldOf env c f → Active f → f.tag ≠ [] → GoMap.get? obj f.name = none → Usual f.ty)
      (dynAttr : ∀ f, FieldOf env c f → Generic f.ty → ∀ a, GoMap.get? attrs f.tag = some a →
        ∀ s h n, Tree.Inv h → n < h.length → ext.dynAttr s h n a.src ≠ .error .panic)
      (dynBlock : ∀ f, FieldOf env c f → Generic f.ty → ∀ x ∈ blocks, x.1 = f.tag →
        ∀ s h n, Tree.Inv h → n < h.length → ext.dynBlock s h n x.2.2 ≠ .error .panic)
      (shape : ∀ f v blk, FieldOf env c f → Active f → SpecOf env obj f v → BlockFor ext attrs blocks f.tag blk →
        Shape f.ty v blk.labels)
      (storable : ∀ f v blk ety cls c', FieldOf env c f → Active f → SpecOf env obj f v → BlockFor ext attrs blocks f.tag blk →
        Into f.ty v blk.labels ety cls → names cls.name = some c' → Storable env ety c')
      (inner : ∀ f v blk ety cls c' body, FieldOf env c f → Active f → SpecOf env obj f v → BlockFor ext attrs blocks f.tag blk →
        Into f.ty v blk.labels ety cls → names cls.name = some c' → blk.body = some body → Fine env ext names c' cls.fields body) :
      Fine env ext names c obj (.mk attrs blocks)

end Verif.HclS
