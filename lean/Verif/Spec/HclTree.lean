import Verif.Spec.Refs
import Verif.Model.HclTree
/-!
# References in generic documents
-/

namespace Verif.HclS
open Verif.Tree (Heap Walk Stored)
open Hcl (Cty Expr)

/-- A literal that is not a list, an object or `null()`. -/
inductive Scalar : Expr → Prop where
  | str {s} : Scalar (.str s)
  | num {q} : Scalar (.num q)
  | neg {q} : Scalar (.neg (.num q))
  | tru : Scalar (.ident (b "true"))
  | fls : Scalar (.ident (b "false"))
  | null : Scalar (.ident (b "null"))

/-- A number in decimal. -/
def numeral (n : Nat) : Bytes := (Nat.toDigits 10 n).map fun c => UInt8.ofNat c.toNat

/-- The names that lead to the content of a block in the given place: its type, and its labels, or the number of blocks of this type without
labels before it. -/
def placeOf {β : Type} (blocks : List (Bytes × List Bytes × β)) (i : Nat) (x : Bytes × List Bytes × β) : List Bytes :=
  match x.2.1 with
  | [] => [x.1, numeral ((blocks.take i).countP fun y => decide (y.1 = x.1) && decide (y.2.1.length = 0))]
  | ls => x.1 :: ls

/-- What the blocks of a body can refer to. -/
def enterG (σ : Scope) (p : List Bytes) (attrs : List (Bytes × Expr)) : Scope := fun n e =>
  σ n e ∨ ∃ k, GoMap.get? attrs k = some e ∧ Scalar e ∧ RefTo (p ++ [k]) n

/-- The second document is the first one with some references to attributes of enclosing bodies replaced.  `N` contains the names
that lead to blocks and none of the names of attributes; `p` are the names that lead to this body. -/
inductive InnerG (N : Bytes → Prop) : Scope → List Bytes → Hcl.Body → Hcl.Body → Prop where
  | mk {σ p attrs attrs'} {blocks blocks' : List (Bytes × List Bytes × Hcl.Body)}
      (attr : List.Forall₂ (fun a a' => a.1 = a'.1 ∧ Repl σ a.2 a'.2) attrs attrs')
      (names : ∀ a ∈ attrs, ¬ N a.1)
      (heads : blocks.map (fun x => (x.1, x.2.1)) = blocks'.map fun x => (x.1, x.2.1))
      (types : ∀ (i : Nat) (x : Bytes × List Bytes × Hcl.Body), blocks[i]? = some x → ∀ n ∈ placeOf blocks i x, N n)
      (block : ∀ (i : Nat) (x x' : Bytes × List Bytes × Hcl.Body), blocks[i]? = some x → blocks'[i]? = some x' →
        InnerG N (enterG σ p attrs') (p ++ placeOf blocks i x) x.2.2 x'.2.2) :
      InnerG N σ p (.mk attrs blocks) (.mk attrs' blocks')

/-- A document in which all expressions are literals. -/
inductive LiteralG : Hcl.Body → Prop where
  | mk {attrs blocks} : (∀ a ∈ attrs, Lit a.2) → (∀ x ∈ blocks, LiteralG x.2.2) → LiteralG (.mk attrs blocks)

/-- A text, to be decoded into a map, in which all expressions are literals: an object in braces, or a document. -/
structure LitText (bs : Bytes) : Prop where
  object : (Hcl.trimSpace bs).head? = some 123 → ∀ e, Hcl.parseX bs = .ok e → Lit e
  document : ∀ body, Hcl.parseConfig bs = .ok body → LiteralG body

end Verif.HclS
