import Verif.Model.HclStructPrint
import Verif.Spec.HclStructDoc
import Verif.Lemmas.HclParse
/-!
# Structs that can be written and read back

`Writable` describes structs by their fields only.  The text of an attribute is external (`hclwrite`): it is asked to be
the text of an expression (`Hcl.ExprOk`) whose value decodes to the content of the field.
-/

namespace Verif.HclS
open Hcl (Expr ExprOk IsIdent SafeStr indent)
open Det (ltB ltB2 KeyTy)

mutual
/-- The parsed document as it is handed to decoding; `S` relates the source texts of attributes, as they are handed to the decoders
of generic data, to their expressions. -/
inductive Reads (S : Bytes → Expr → Prop) : Hcl.Body → Body → Prop
  | mk {as as' bs bs'} :
      List.Forall₂ (fun (a : Bytes × Expr) (a' : Bytes × Attr) => a'.1 = a.1 ∧ a'.2.expr = a.2 ∧ S a'.2.src a.2) as as' →
      ReadsL S bs bs' → Reads S (.mk as bs) (.mk as' bs')
/-- The same for lists of blocks. -/
inductive ReadsL (S : Bytes → Expr → Prop) : List (Bytes × List Bytes × Hcl.Body) → List (Bytes × List Bytes × Body) → Prop
  | nil : ReadsL S [] []
  | cons {k ls x y bs bs'} : Reads S x y → ReadsL S bs bs' → ReadsL S ((k, ls, x) :: bs) ((k, ls, y) :: bs')
end

/-- Source texts that do not matter. -/
def AnySrc : Bytes → Expr → Prop := fun _ _ => True

/-- The zero values of the types for blocks. -/
structure ZeroOk (ext : Ext) : Prop where
  str : ext.zero .str = .str []
  ptr : ∀ t, ext.zero (.ptr t) = .leaf 0
  slice : ∀ t, ext.zero (.slice t) = .leaf 0
  map : ∀ k t, ext.zero (.map k t) = .leaf 0

/-- The text is the expression, and does not end in white space. -/
structure TextIs (t : Bytes) (e : Expr) : Prop where
  expr : ExprOk t e
  last : ∃ s c, t = s ++ [c] ∧ isBlankB c = false

/-- What is written as an attribute for a value, indented by a level: the text of `gohcl`, `[]`, the text of `encoding`, or
for a pointer that of `marshal`, which begins with an equal sign. -/
inductive AttrText (pe : PExt) : Ty → Fld → Nat → Val → Bytes → Prop
  | str {f k v} : AttrText pe .str f k v (indentLines (indent k) (pe.expr f v))
  | leaf {f k v i} : AttrText pe (.leaf i) f k v (indentLines (indent k) (pe.expr f v))
  | list {f k e x l} : e.isComposite = false → AttrText pe (.slice e) f k (.slice (x :: l)) (indentLines (indent k) (pe.expr f (.slice (x :: l))))
  | nolist {f k e} : AttrText pe (.slice e) f k (.slice []) (b "[]")
  | lists {f k e x l t} : e.isComposite = true → pe.enc (.slice (x :: l)) k = .ok t → AttrText pe (.slice e) f k (.slice (x :: l)) t
  | map {f k kt e x m} : e.isComposite = false → AttrText pe (.map kt e) f k (.map (x :: m)) (indentLines (indent k) (pe.expr f (.map (x :: m))))
  | ptr {f k e i n t} : pe.raw (.leaf i) = List.replicate n 32 ++ (b "= " ++ t) → AttrText pe (.ptr e) f k (.leaf i) t
  | maps {f k kt e x m t} : e.isComposite = true → pe.enc (.map (x :: m)) k = .ok t → AttrText pe (.map kt e) f k (.map (x :: m)) t

/-- The content of the label fields. -/
def ownLabels (d : StructDecl) (fs : Fields) : List Bytes :=
  (d.fields.filter fun f => lower f.what = b "label").filterMap fun f =>
    match GoMap.get? fs f.name with
    | some (.str s) => some s
    | _ => none

mutual
/-- The zero value of a type: nil, the empty string or another basic zero value, or a struct of zero values. -/
def Val.Zero : Val → Prop
  | .str s => s = []
  | .leaf x => x = 0
  | .inst _ fs => ZeroF fs
  | .ref _ _ | .slice _ | .map _ | .map2 _ => False
def ZeroF : List (Bytes × Val) → Prop
  | [] => True
  | (_, v) :: r => v.Zero ∧ ZeroF r
end

/-- The labels that are written for a struct: those that are not empty and not the key under which it is found. -/
def writtenLabels (d : StructDecl) (fs : Fields) (key : Option Bytes) : List Bytes :=
  (ownLabels d fs).filter fun s => s ≠ [] ∧ key ≠ some s

section
variable (env : Env) (emb : Nat) (pe : PExt) (ext : Ext) (good : Nat → Fields → Prop)

/-- The value of a field for an attribute: zero if it may be missing, or one whose text reads back. -/
def PlainGood (f : Fld) (v : Val) : Prop :=
  (f.mayLack ∧ v = ext.zero f.ty ∧ v.Zero) ∨
  (¬ v.Zero ∧ ∃ e cv, Lit e ∧ evalE ext [] e = .ok cv ∧ cv ≠ .null ∧ ext.leaf f cv = .ok v ∧
    ∀ k, ∃ t, AttrText pe f.ty f k v t ∧ TextIs t e)

/-- The value is written as a block that begins with the keys as labels, followed by its own labels; these are the labels that
decoding expects. -/
def BlockVal (keys : List Bytes) (ty : Ty) (v : Val) : Prop :=
  ∃ c fs, ty.structOf = some c ∧ Holds env ty c fs v ∧ good c fs ∧
    (∀ l ∈ keys ++ writtenLabels (env.flat emb c) fs keys.head?, SafeStr l) ∧
    LabelsAre (env.flat emb c) fs (keys ++ writtenLabels (env.flat emb c) fs keys.head?)

/-- The value of a field for blocks: nil, or a struct, or a collection that is not empty, without nil or zero structs in slices. -/
def BlockGood (ty : Ty) (v : Val) : Prop :=
  match ty with
  | .struct c => (v.Zero → v = ext.zero (.struct c)) ∧ BlockVal env emb good [] (.struct c) v
  | .slice e => v = .leaf 0 ∨ ∃ l, l ≠ [] ∧ v = .slice l ∧ ∀ x ∈ l, ¬ x.Zero ∧ BlockVal env emb good [] e x
  | .map .str e => v = .leaf 0 ∨ ∃ m, m ≠ [] ∧ v = .map m ∧ m.Pairwise (fun x y => ltB x.1 y.1 = true) ∧
      ∀ x ∈ m, BlockVal env emb good [x.1] e x.2
  | .map .str2 e => v = .leaf 0 ∨ ∃ m, m ≠ [] ∧ v = .map2 m ∧ m.Pairwise (fun x y => ltB2 x.1 y.1 = true) ∧
      ∀ x ∈ m, x.1.1 ≠ [] ∧ BlockVal env emb good (pairLabels x.1) e x.2 ∧
        ∀ c fs, Holds env e c fs x.2 → writtenLabels (env.flat emb c) fs (some x.1.1) = [] ∧
          (x.1.2 = [] → ∀ f ∈ (env.struct c).fields, lower f.what ≠ b "label")
  | ty => v = .leaf 0 ∨ BlockVal env emb good [] ty v

end

/-- A struct that is written and read back; the number bounds the nesting. -/
def Writable (env : Env) (emb : Nat) (pe : PExt) (ext : Ext) : Nat → Nat → Fields → Prop
  | 0, _, _ => False
  | n + 1, c, fs =>
    Regular env emb c ∧ (emb ≤ pe.embedded ∧ ∀ g ∈ embeddedIn env emb (env.struct c).fields, pe.anon g = true) ∧
    fs.map Prod.fst = (env.flat emb c).fields.map Fld.name ∧
    (∀ f ∈ (env.flat emb c).fields, IsIdent f.tag ∧ (LabelFld f → f.what = b "label")) ∧
    ∀ f ∈ (env.flat emb c).fields, ∃ v, GoMap.get? fs f.name = some v ∧
      (LabelFld f → ∃ s, v = .str s) ∧ (PlainFld f → PlainGood pe ext f v) ∧
      (BlockFld f → BlockGood env emb ext (Writable env emb pe ext n) f.ty v)

mutual
/-- The parsed document, with empty source texts. -/
def ofDoc : Hcl.Body → Body
  | .mk as bs => .mk (as.map fun a => (a.1, ⟨a.2, []⟩)) (ofBlocks bs)
def ofBlocks : List (Bytes × List Bytes × Hcl.Body) → List (Bytes × List Bytes × Body)
  | [] => []
  | (k, ls, x) :: r => (k, ls, ofDoc x) :: ofBlocks r
end

/-- What is written for the value is a document, and a new struct into which it is decoded, with the given labels, has the
given content. -/
def ReadsBack (env : Env) (pe : PExt) (ext : Ext) (m : Nat) (v : Val) (labels : List Bytes) (st : St) (root : Option Nat) (c : Nat)
    (fs : Fields) : Prop :=
  ∃ text doc, marshalVal env pe v = .ok text ∧ Hcl.parseConfig text = .ok doc ∧ ∀ body, Reads AnySrc doc body →
    let after := unmarshalSpec env ext m (some body) c (newFields env ext c) none st root labels
    after.outcome = .ok () ∧ after.target = fs

/-! ## Iteration orders and panics -/

mutual
/-- No map in the value has more than one entry. -/
def Val.small : Val → Prop
  | .str _ | .leaf _ => True
  | .ref _ fs => smallF fs
  | .inst _ fs => smallF fs
  | .slice l => smallL l
  | .map m => m.length ≤ 1 ∧ smallF m
  | .map2 m => m.length ≤ 1 ∧ smallP m
def smallF : List (Bytes × Val) → Prop
  | [] => True
  | (_, v) :: r => v.small ∧ smallF r
def smallL : List Val → Prop
  | [] => True
  | v :: r => v.small ∧ smallL r
def smallP : List ((Bytes × Bytes) × Val) → Prop
  | [] => True
  | (_, v) :: r => v.small ∧ smallP r
end

/-- The fields of a struct with those of embedded structs in their place; the number bounds the embedding. -/
def written (env : Env) (pe : PExt) : Nat → List Fld → List Fld
  | 0, l => l
  | n + 1, l => l.flatMap fun f =>
    if pe.anon f ∧ f.tag = [] then
      match f.ty with
      | .struct c => if f.upper then written env pe n (env.struct c).fields else []
      | _ => [f]
    else [f]

section
variable (env : Env) (good : Nat → Fields → Prop)

/-- If the value is a struct or a pointer to one, this is good. -/
def StructGood : Val → Prop
  | .ref c fs => good c fs
  | .inst c fs => good c fs
  | _ => True

/-- A struct or a pointer to one. -/
def Val.isStruct : Val → Bool
  | .ref _ _ | .inst _ _ => true
  | _ => false

/-- A slice or map. -/
def Val.isColl : Val → Bool
  | .slice _ | .map _ | .map2 _ => true
  | _ => false

/-- No pointer, or one to a struct or to a basic value. -/
def Ty.ptrOk : Ty → Prop
  | .ptr .str | .ptr (.leaf _) | .ptr (.struct _) => True
  | .ptr _ => False
  | _ => True

/-- If the field is a pointer to a slice or map of basic values, it is nil or the collection is empty. -/
def CollOk (ty : Ty) (v : Val) : Prop :=
  ∀ e, (ty = .ptr (.slice e) ∨ ∃ k, ty = .ptr (.map k e)) →
    e.isComposite = true ∨ v = .leaf 0 ∨ v = .slice [] ∨ v = .map [] ∨ v = .map2 []

/-- The elements of a map: no nil pointers, and no collections among structs. -/
def ElemsGood (ety : Ty) (vs : List Val) : Prop :=
  ∀ v ∈ vs, StructGood good v ∧ (∀ t, ety = .ptr t → v ≠ .leaf 0) ∧
    (v.isColl = true → (∀ t, ety ≠ .ptr t) ∧ (∀ c, ety ≠ .struct c) ∧ ∀ w ∈ vs, w.isStruct = true → ety ≠ .any ∧ ∀ i, ety ≠ .iface i)

/-- The structs in a field are good. -/
def ValGood (ty : Ty) (v : Val) : Prop :=
  match ty.coll with
  | .slice e => e.ptrOk ∧ ∀ l, v = .slice l → ∀ x ∈ l, StructGood good x
  | .map _ e => e.ptrOk ∧ (∀ m, v = .map m → ElemsGood good e (m.map Prod.snd)) ∧ ∀ m, v = .map2 m → ElemsGood good e (m.map Prod.snd)
  | t => t.ptrOk ∧ StructGood good v

end

/-- A struct without nil pointers in maps, pointers to embedded structs and pointers to collections of basic values, whose labels are strings and whose
fields have different names, without commas and spaces. -/
def Tame (env : Env) (pe : PExt) : Nat → Nat → Fields → Prop
  | 0, _, _ => False
  | n + 1, c, fs =>
    let L := written env pe pe.embedded (env.struct c).fields
    (L.map Fld.name).Nodup ∧
    ∀ f ∈ L, f.upper = true → (∀ c ∈ f.name, c ≠ 44 ∧ isSpace c = false) ∧ (∀ t, ¬ (pe.anon f ∧ f.tag = [] ∧ f.ty = .ptr t)) ∧
      ∀ v, GoMap.get? fs f.name = some v → (f.what = b "label" → f.ty = .str ∧ ∃ s, v = .str s) ∧ CollOk f.ty v ∧ ValGood (Tame env pe n) f.ty v

/-! ## Hidden fields -/

/-- The name of an exported field that is not marked with `-`, in the struct or in one that is embedded. -/
def Visible (env : Env) (pe : PExt) (c : Nat) (k : Bytes) : Prop :=
  ∃ f ∈ written env pe pe.embedded (env.struct c).fields, f.upper = true ∧ f.tag ≠ b "-" ∧ f.name = k

mutual
/-- The values differ only in hidden fields of structs.  For structs that are not behind a pointer, both are zero or none is. -/
def Val.agrees (env : Env) (pe : PExt) : Val → Val → Prop
  | .str s, w => w = .str s
  | .leaf n, w => w = .leaf n
  | .ref c fs, w => ∃ fs', w = .ref c fs' ∧ agreeF env pe (Visible env pe c) fs fs'
  | .inst c fs, w => ∃ fs', w = .inst c fs' ∧ (ZeroF fs ↔ ZeroF fs') ∧ agreeF env pe (Visible env pe c) fs fs'
  | .slice l, w => ∃ l', w = .slice l' ∧ agreeL env pe l l'
  | .map m, w => ∃ m', w = .map m' ∧ agreeF env pe (fun _ => True) m m'
  | .map2 m, w => ∃ m', w = .map2 m' ∧ agreeP env pe m m'
termination_by structural v => v
/-- The same names, with values that agree under the visible ones. -/
def agreeF (env : Env) (pe : PExt) (vis : Bytes → Prop) : List (Bytes × Val) → List (Bytes × Val) → Prop
  | [], l' => l' = []
  | (k, v) :: r, l' => ∃ v' r', l' = (k, v') :: r' ∧ (vis k → v.agrees env pe v') ∧ agreeF env pe vis r r'
def agreeL (env : Env) (pe : PExt) : List Val → List Val → Prop
  | [], l' => l' = []
  | v :: r, l' => ∃ v' r', l' = v' :: r' ∧ v.agrees env pe v' ∧ agreeL env pe r r'
def agreeP (env : Env) (pe : PExt) : List ((Bytes × Bytes) × Val) → List ((Bytes × Bytes) × Val) → Prop
  | [], l' => l' = []
  | (k, v) :: r, l' => ∃ v' r', l' = (k, v') :: r' ∧ v.agrees env pe v' ∧ agreeP env pe r r'
end

/-- What is external does not see hidden fields either. -/
def Blind (env : Env) (pe : PExt) : Prop :=
  ∀ v v', v.agrees env pe v' → (∀ k, pe.enc v k = pe.enc v' k) ∧ ∀ f, pe.expr f v = pe.expr f v'

end Verif.HclS
