import Verif.Model.HclStruct
import Verif.Spec.Tree
/-!
# What decoding HCL into a struct should do
-/

namespace Verif.Tree

/-- Every node and child of `h` is in `h'`. -/
structure Le {V : Type} (h h' : Heap V) : Prop where
  length : h.length ≤ h'.length
  child : ∀ i n c, Child h i n c → Child h' i n c

end Verif.Tree

namespace Verif.HclS
open Tree (Heap)
open Hcl (Cty)
open Det (Cls CVal KeyTy)

/-- A variable of the type that holds the struct (or a pointer to it) of class `c` with content `fs`. -/
inductive Holds (env : Env) : Ty → Nat → Fields → Val → Prop where
  | any {c fs} : Holds env .any c fs (.ref c fs)
  | iface {i c fs} : env.impl i c = true → Holds env (.iface i) c fs (.ref c fs)
  | ptr {c fs} : Holds env (.ptr (.struct c)) c fs (.ref c fs)
  | struct {c fs} : Holds env (.struct c) c fs (.inst c fs)

/-- The blocks of one type, in source order. -/
def blocksOf (body : Body) (tag : Bytes) : List (List Bytes × Body) :=
  (body.blocks.filter fun x => x.1 = tag).map Prod.snd

/-- The last entry for a key. -/
def lastEntry {κ α : Type} [DecidableEq κ] (l : List (κ × α)) (k : κ) : Option α := GoMap.get? l.reverse k

/-- What a field contributes: nothing if it is not exported; its own fields if it is an untagged struct (and not a
label). -/
def flatOne (env : Env) (deep : List Fld → List Fld) (f : Fld) : List Fld :=
  if f.upper = false then []
  else if f.tag = [] ∧ lower f.what ≠ b "label" then
    match f.ty.structOf with
    | some c => deep (env.struct c).fields
    | none => [f]
  else [f]

/-- The fields of a struct type, untagged structs being replaced by their own fields. -/
def flatList (env : Env) (deep : List Fld → List Fld) : List Fld → List Fld
  | [] => []
  | f :: fs => flatOne env deep f ++ flatList env deep fs

def flat (env : Env) : Nat → List Fld → List Fld
  | 0 => flatList env fun _ => []
  | n + 1 => flatList env (flat env n)

/-- No two of these fields have the same name (in Go a promoted field may be hidden by another one). -/
def DistinctNames (env : Env) (n c : Nat) : Prop := ((flat env n (env.struct c).fields).map Fld.name).Nodup

/-- A field that takes part in decoding: exported, with a tag that is not `-`, and not a label. -/
structure Decodes (f : Fld) : Prop where
  upper : f.upper = true
  notLabel : lower f.what ≠ b "label"
  tag : f.tag ≠ []
  notDash : f.tag ≠ b "-"

/-- The label fields in the order of declaration. -/
def labelsOf (env : Env) (n c : Nat) : List Fld :=
  (flat env n (env.struct c).fields).filter fun f => lower f.what = b "label"

/-! ## Documents without references, specifications without choice -/

/-- Key of an object member that is written out. -/
inductive LitKey : Hcl.Expr → Prop where
  | ident {n} : LitKey (.ident n)
  | str {s} : LitKey (.str s)

/-- A literal expression. -/
inductive Lit : Hcl.Expr → Prop where
  | str {s} : Lit (.str s)
  | num {q} : Lit (.num q)
  | neg {q} : Lit (.neg (.num q))
  | tru : Lit (.ident (b "true"))
  | fls : Lit (.ident (b "false"))
  | null : Lit (.ident (b "null"))
  | nullCall : Lit (.call (b "null"))
  | tuple {l} : (∀ e ∈ l, Lit e) → Lit (.tuple l)
  | object {m} : (∀ e ∈ m, LitKey e.1) → (∀ e ∈ m, Lit e.2) → Lit (.object m)

/-- As a generic field this source gives the same with every tree of variables, and only adds to the tree. -/
def PlainAttr (ext : Ext) (src : Bytes) : Prop :=
  ∀ s h n v h', ext.dynAttr s h n src = .ok (v, h') → ∀ g m, Tree.Inv g → m < g.length →
    ∃ g', ext.dynAttr s g m src = .ok (v, g') ∧ Tree.Inv g' ∧ Tree.Le g g'

def PlainBlock (ext : Ext) (body : Body) : Prop :=
  ∀ s h n v h', ext.dynBlock s h n body = .ok (v, h') → ∀ g m, Tree.Inv g → m < g.length →
    ∃ g', ext.dynBlock s g m body = .ok (v, g') ∧ Tree.Inv g' ∧ Tree.Le g g'

/-- A document all of whose attributes are literals, also those of the objects in attributes. -/
inductive Literal (ext : Ext) : Body → Prop where
  | mk {attrs blocks} : (∀ a ∈ attrs, Lit a.2.expr) → (∀ a ∈ attrs, PlainAttr ext a.2.src) →
      (∀ x ∈ blocks, PlainBlock ext x.2.2) →
      (∀ a ∈ attrs, ∀ blk ∈ attrBlocks ext a.2.src, ∀ body, blk.body = some body → Literal ext body) →
      (∀ x ∈ blocks, Literal ext x.2.2) → Literal ext (.mk attrs blocks)

mutual
/-- A class in which every default is determined: maps of classes give the same class for all labels. -/
inductive UniC : Cls → Prop where
  | mk {name fields} : (∀ e ∈ fields, UniV e.2) → UniC (.mk name fields)
inductive UniV : CVal → Prop where
  | none : UniV .none
  | single {c} : UniC c → UniV (.single c)
  | list {l} : (∀ c ∈ l, UniC c) → UniV (.list l)
  | map {m} : (∀ e ∈ m, UniC e.2) → (∀ e ∈ m, ∀ e' ∈ m, e.2 = e'.2) → UniV (.map m)
  | map2 {m} : (∀ e ∈ m, ∀ a ∈ e.2, UniC a.2) → (∀ e ∈ m, ∀ e' ∈ m, e.2 = e'.2) →
      (∀ e ∈ m, ∀ a ∈ e.2, ∀ a' ∈ e.2, a.2 = a'.2) → UniV (.map2 m)
end

/-- Every field's specification is of that kind. -/
def UniSpec (obj : List (Bytes × CVal)) : Prop := ∀ k v, GoMap.get? obj k = some v → UniV v

/-- `ref'` has every class of `ref`, with the same template. -/
def RefLe (ref ref' : GoMap Bytes Tmpl) : Prop := ∀ k t, GoMap.get? ref k = some t → GoMap.get? ref' k = some t

/-- The name and the new value of a struct or pointer type, as `loopFields` registers them. -/
inductive TypeEntry (env : Env) (ext : Ext) : Bytes → Tmpl → Prop where
  | struct (c : Nat) : TypeEntry env ext (env.tyStr (.struct c)) (newOf env ext (.struct c))
  | ptr (t : Ty) : TypeEntry env ext (env.tyStr (.ptr t)) (newOf env ext t)

/-- Names of types stand for new values of these types, in `ref` and among each other. -/
def Canonical (env : Env) (ext : Ext) (ref : GoMap Bytes Tmpl) : Prop :=
  ∀ k t, TypeEntry env ext k t → (∀ t', GoMap.get? ref k = some t' → t' = t) ∧ ∀ t', TypeEntry env ext k t' → t' = t

/-- Generic fields only add to the tree. -/
structure DynAdds (ext : Ext) : Prop where
  attr : ∀ s h n src v h', Tree.Inv h → ext.dynAttr s h n src = .ok (v, h') → Tree.Inv h' ∧ Tree.Le h h'
  block : ∀ s h n body v h', Tree.Inv h → ext.dynBlock s h n body = .ok (v, h') → Tree.Inv h' ∧ Tree.Le h h'

/-- A state that decoding can reach from another one: in `ref` only names of types are set, to new values of these types;
the tree only grows (as far as generic fields do so). -/
structure Later (env : Env) (ext : Ext) (st st' : St) : Prop where
  ref : ∀ k, GoMap.get? st'.ref k = GoMap.get? st.ref k ∨ ∃ t, TypeEntry env ext k t ∧ GoMap.get? st'.ref k = some t
  heap : DynAdds ext → Tree.Inv st.heap → Tree.Inv st'.heap ∧ Tree.Le st.heap st'.heap

/-- The block with the given labels and body, decoded as the given class: a copy of the template in `ref` is made and the
body is decoded into it, with the variables of the block's own node; the result is class `c` with content `out`.  `base` is
the state at the beginning, `st` and `st'` are those before and after the block. -/
def BlockAs (env : Env) (ext : Ext) (root n node : Nat) (base : St) (tag : Bytes) (cls : Cls) (labels : List Bytes) (body : Body)
    (st st' : St) (c : Nat) (out : Fields) : Prop :=
  Later env ext base st ∧ ∃ content path sub, GoMap.get? st.ref cls.name = some (.ptr c content) ∧
    Tree.getNode st.heap node tag labels = some (some sub) ∧
    decode env ext root n path st sub c content cls.fields labels body = (out, .ok st')

/-- The map has one entry per block, the later ones winning, and no other entries.  `clsOf` relates the labels of a
block to its class, `keyOf` the labels and the decoded struct to the key. -/
def Entries {κ : Type} [DecidableEq κ] (env : Env) (ext : Ext) (root n node : Nat) (base : St) (tag : Bytes) (ety : Ty)
    (clsOf : List Bytes → Cls → Prop) (keyOf : List Bytes → Nat → Fields → κ → Prop) (blocks : List (List Bytes × Body))
    (m : List (κ × Val)) : Prop :=
  ∃ (es : List (κ × Val)) (s : Nat → St), es.length = blocks.length ∧
    (∀ k ls inner e, blocks[k]? = some (ls, inner) → es[k]? = some e → ∃ cls c out, clsOf ls cls ∧
      BlockAs env ext root n node base tag cls ls inner (s k) (s (k + 1)) c out ∧ Holds env ety c out e.2 ∧ keyOf ls c out e.1) ∧
    ∀ key, GoMap.get? m key = lastEntry es key

/-- The content of the label fields of a struct, in the order of their declaration. -/
def OwnLabels (env : Env) (c : Nat) (out : Fields) (l : List Bytes) : Prop :=
  ((env.struct c).fields.filter fun f => lower f.what = b "label").map (fun f => GoMap.get? out f.name) = l.map fun s => some (.str s)

/-- The key of a block in a `map[[2]string]T`: its two labels.  If the second is missing or empty, the last label field of
the struct stands in, or if that is empty or the only one, the first; if the first is missing or empty, both come from the struct. -/
structure PairKey (env : Env) (ls : List Bytes) (c : Nat) (out : Fields) (key : Bytes × Bytes) : Prop where
  two : ∀ k1 k2, ls = [k1, k2] → k1 ≠ [] → k2 ≠ [] → key = (k1, k2)
  one : ∀ k1, ls = [k1] ∨ ls = [k1, []] → k1 ≠ [] → key.1 = k1 ∧ (OwnLabels env c out [] → key.2 = []) ∧
    (∀ s, OwnLabels env c out [s] → key.2 = s) ∧
    ∀ s mid t, OwnLabels env c out (s :: mid ++ [t]) → (t ≠ [] → key.2 = t) ∧ (t = [] → key.2 = s)
  none : ls = [] ∨ (∃ k2, ls = [] :: k2) → (OwnLabels env c out [] → key = ([], [])) ∧
    (∀ s, OwnLabels env c out [s] → key = (s, [])) ∧ ∀ s mid t, OwnLabels env c out (s :: mid ++ [t]) → key = (s, t)

/-- Struct type `c` has an exported field without tag whose type is the struct `c'` or a pointer to it. -/
def Embeds (env : Env) (c c' : Nat) : Prop :=
  ∃ f ∈ (env.struct c).fields, f.upper = true ∧ f.tag = [] ∧ f.ty.structOf = some c'

/-- Bodies are nested at most this deep, those in the objects of attributes included. -/
inductive Depth (ext : Ext) : Nat → Body → Prop where
  | mk {attrs blocks n} : (∀ a ∈ attrs, ∀ blk ∈ attrBlocks ext a.2.src, ∀ body, blk.body = some body → Depth ext n body) →
      (∀ x ∈ blocks, Depth ext n x.2.2) → Depth ext (n + 1) (.mk attrs blocks)

/-- What is wrong with the document itself: a block or an attribute without field, or a missing attribute. -/
inductive Wrong (env : Env) (ext : Ext) (n cls : Nat) (obj : List (Bytes × CVal)) (body : Body) : Prop where
  | block {x} : x ∈ body.blocks → (∀ f ∈ flat env n (env.struct cls).fields, f.tag ≠ x.1) → Wrong env ext n cls obj body
  | attr {k a} : GoMap.get? body.attrs k = some a → (∀ vars, evalE ext vars a.expr ≠ .ok .null) →
      (∀ f ∈ flat env n (env.struct cls).fields, f.tag ≠ k) → Wrong env ext n cls obj body
  | missing {f} : f ∈ (env.struct cls).fields → Decodes f → f.what ≠ b "optional" → (f.ty = .str ∨ ∃ i, f.ty = .leaf i) →
      GoMap.get? obj f.name = none → f.tag ∉ GoMap.keys body.attrs → Wrong env ext n cls obj body

/-- A text with objects in braces, each after some other text, and some text at the end. -/
def objectsText : List (Bytes × Bytes) → Bytes → Bytes
  | [], tail => tail
  | (sep, piece) :: l, tail => sep ++ 123 :: (piece ++ 125 :: objectsText l tail)

end Verif.HclS
