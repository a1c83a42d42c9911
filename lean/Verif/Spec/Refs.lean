import Verif.Spec.HclStruct
import Mathlib.Data.List.Forall2
/-!
# References in documents

An attribute can refer to an attribute of an enclosing body: by the names of the blocks around it from the outside (types and
labels) and its own name, joined by dots, with or without `var` in front.  `Inner` relates a document to the one in which some
of these references are replaced by the expressions of the attributes that they name.
-/

namespace Verif.HclS
open Hcl (Expr)

/-- Names joined by dots. -/
def dotted : List Bytes → Bytes
  | [] => []
  | [k] => k
  | k :: ks => k ++ 46 :: dotted ks

/-- A name that can be part of a reference. -/
structure Word (k : Bytes) : Prop where
  dot : 46 ∉ k
  notVar : k ≠ Tree.VAR

/-- The texts that refer to a name below the given names. -/
inductive RefTo : List Bytes → Bytes → Prop where
  | plain {k ks} : (∀ x ∈ k :: ks, Word x) → k ∉ [b "true", b "false", b "null"] → RefTo (k :: ks) (dotted (k :: ks))
  | var {k ks} : (∀ x ∈ k :: ks, Word x) → RefTo (k :: ks) (dotted (Tree.VAR :: k :: ks))

/-- What can be referred to: the text of the reference, and a literal. -/
abbrev Scope := Bytes → Expr → Prop

/-- The second expression is the first one with some references replaced. -/
inductive Repl (σ : Scope) : Expr → Expr → Prop where
  | same {e} : Repl σ e e
  | ref {n e} : σ n e → Repl σ (.ident n) e
  | neg {n q} : σ n (.num q) → Repl σ (.neg (.ident n)) (.neg (.num q))
  | tuple {l l' : List Expr} : l.length = l'.length → (∀ (i : Nat) (e e' : Expr), l[i]? = some e → l'[i]? = some e' → Repl σ e e') →
      Repl σ (.tuple l) (.tuple l')
  | object {m m' : List (Expr × Expr)} : m.map Prod.fst = m'.map Prod.fst →
      (∀ (i : Nat) (x x' : Expr × Expr), m[i]? = some x → m'[i]? = some x' → Repl σ x.2 x'.2) → Repl σ (.object m) (.object m')

/-- What the blocks of a body can refer to: the literals among its attributes too, if the names of the blocks around the body
are known. -/
def enter (σ : Scope) (p : Option (List Bytes)) (attrs : List (Bytes × Attr)) : Scope := fun n e =>
  σ n e ∨ ∃ q k a, p = some q ∧ GoMap.get? attrs k = some a ∧ Lit a.expr ∧ a.expr = e ∧ RefTo (q ++ [k]) n

/-- An attribute with the same source text and references replaced.  (The source text is used only for attributes that stand for
blocks or generic data.) -/
structure AttrIn (σ : Scope) (a a' : Bytes × Attr) : Prop where
  name : a.1 = a'.1
  src : a.2.src = a'.2.src
  expr : Repl σ a.2.expr a'.2.expr

/-- The second document is the first one with some references to attributes of enclosing bodies replaced.  `N` contains the types
and labels of blocks and none of the names of attributes; `G` is a set of names that are not used.  `p` are the names of the
blocks around this body, if they are known. -/
inductive Inner (ext : Ext) (N G : Bytes → Prop) : Scope → Option (List Bytes) → Body → Body → Prop where
  | mk {σ p attrs attrs'} {blocks blocks' : List (Bytes × List Bytes × Body)}
      (attr : List.Forall₂ (AttrIn σ) attrs attrs')
      (names : ∀ a ∈ attrs, ¬ N a.1 ∧ ¬ G a.1 ∧ a.1 ≠ [])
      (heads : blocks.map (fun x => (x.1, x.2.1)) = blocks'.map fun x => (x.1, x.2.1))
      (types : ∀ x ∈ blocks, x.1 ≠ [] ∧ ¬ G x.1 ∧ N x.1 ∧ ∀ l ∈ x.2.1, N l)
      (block : ∀ (i : Nat) (x x' : Bytes × List Bytes × Body), blocks[i]? = some x → blocks'[i]? = some x' →
        Inner ext N G (enter σ p attrs') (p.map fun q => q ++ x.1 :: x.2.1) x.2.2 x'.2.2)
      (object : ∀ a ∈ attrs, ∀ blk ∈ attrBlocks ext a.2.src, ∀ body, blk.body = some body →
        Inner ext N G (fun _ _ => False) none body body) :
      Inner ext N G σ p (.mk attrs blocks) (.mk attrs' blocks')

/-- Nothing is stored under the name of a block. -/
def Free (N : Bytes → Prop) (h : Tree.Heap Hcl.Cty) : Prop := ∀ i k v, Tree.Stored h i k v → ¬ N k

/-- Below a node, on paths of such names, nothing is stored under such a name. -/
def FreeFrom (N : Bytes → Prop) (h : Tree.Heap Hcl.Cty) (i : Nat) : Prop :=
  ∀ q j, Tree.Walk h i q j → (∀ x ∈ q, N x) → ∀ k v, Tree.Stored h j k v → ¬ N k

/-- The tags of generic fields. -/
def GenericTags (env : Env) (ext : Ext) (G : Bytes → Prop) : Prop :=
  ∀ c, ∀ f ∈ (env.struct c).fields, ∀ e, (f.ty.deref = .slice e ∨ ∃ k, f.ty.deref = .map k e) → elemKind env ext e = .dyn → G f.tag

end Verif.HclS
