import Verif.Lemmas.HclBlocks
/-!
# Property C158: blocks that are parsed again are the same blocks

The specification is `Hcl.parseConfig`, which knows no positions and parses a document once.
-/
namespace Verif.HclAgain
open Hcl

namespace DemoB

/-- Blocks in one another, braces in strings and objects, an empty block. -/
def doc : Bytes := b "a \"}\" {\n  k = {x = \"{\"}\n\n  c {\n  }\n  d e {}\n}\nf {\n  g {\n    h = [1]\n  }\n}\n"

mutual
/-- The positions of the blocks, with their names. -/
def spans : BBody → List (Bytes × Nat × Nat)
  | .mk _ blocks => spansK blocks
def spansK : List (Bytes × List Bytes × Nat × Nat × BBody) → List (Bytes × Nat × Nat)
  | [] => []
  | (t, _, lo, hi, body) :: r => (t, lo, hi) :: (spans body ++ spansK r)
end

mutual
/-- The names of the attributes and blocks, flat. -/
def names : Body → List Bytes
  | .mk attrs blocks => attrs.map Prod.fst ++ namesK blocks
def namesK : List (Bytes × List Bytes × Body) → List Bytes
  | [] => []
  | (t, _, body) :: r => t :: (names body ++ namesK r)
end

end DemoB

/-- The block with these positions is in the body, at any depth. -/
inductive HasBlock (lo hi : Nat) (inner : BBody) : BBody → Prop where
  | here {body : BBody} {t : Bytes} {ls : List Bytes} : (t, ls, lo, hi, inner) ∈ body.blocks → HasBlock lo hi inner body
  | deep {body sub : BBody} {t : Bytes} {ls : List Bytes} {lo' hi' : Nat} : (t, ls, lo', hi', sub) ∈ body.blocks → HasBlock lo hi inner sub → HasBlock lo hi inner body

theorem HasBlock.parsed {file : Bytes} {lo hi : Nat} {inner body : BBody} (h : HasBlock lo hi inner body) :
    (∀ x ∈ body.blocks, ParsedK file x.2.2.1 x.2.2.2.1 x.2.2.2.2) → ParsedK file lo hi inner := by
  induction h with
  | here hm => exact fun hp => hp _ hm
  | deep hm _ ih => exact fun hp => ih (hp _ hm).blocks

/-- C158, the pieces: the text between the braces of each block of a document, however deep, parses, and its syntax tree is the one that the block has in the document. -/
theorem C158_text {file : Bytes} {body : BBody} (h : parseConfigB file = .ok body) {lo hi : Nat} {inner : BBody} (hb : HasBlock lo hi inner body) :
    parseConfig (blockBytes file lo hi) = .ok inner.erase :=
  again_block (hb.parsed (configB_parsed h))

/-- The hypotheses are met by the five blocks of the example. -/
example : (parseConfigB DemoB.doc).toOption.map DemoB.spans =
    some [(b "a", 7, 44), (b "c", 30, 33), (b "d", 42, 42), (b "f", 49, 72), (b "g", 55, 70)] := by decide +kernel
example : blockBytes DemoB.doc 7 44 = b "\n  k = {x = \"{\"}\n\n  c {\n  }\n  d e {}\n" ∧ blockBytes DemoB.doc 55 70 = b "\n    h = [1]\n  " := by decide +kernel

/-- C158: parsing the text of each block again, and that of the blocks inside, and so on, ends, and gives the syntax tree of the document; texts that do not parse are
refused in the same way. -/
theorem C158_tree (file : Bytes) : ∃ N, ∀ n, N ≤ n → readText n file = parseConfig file := readText_again file

example : (readText 3 DemoB.doc).toOption.map DemoB.names = some [b "a", b "k", b "c", b "d", b "f", b "g", b "h"] := by decide +kernel
/-- Two levels are not enough for the example: the third is really parsed from its own text. -/
example : (readText 2 DemoB.doc).toOption.isNone := by decide +kernel

/-- C158 for generic fields: the text of a block reads into a map as the block does, except that a block without content panics (dethcl/mapslice.go L36; see also C114). -/
theorem C158_generic (ext : Ext) {file : Bytes} {body : BBody} (h : parseConfigB file = .ok body) {lo hi : Nat} {inner : BBody} (hb : HasBlock lo hi inner body) :
    decodeMap ext (blockBytes file lo hi) = if trimSpace (blockBytes file lo hi) = [] then .panic else decodeBody ext [] inner.erase := by
  have hp := C158_text h hb
  unfold decodeMap
  split
  · rfl
  · rw [if_neg (fun hh => no_brace hh.1 hp), hp]
    rfl

/-- Both cases occur in the example. -/
example : trimSpace (blockBytes DemoB.doc 55 70) ≠ [] ∧ trimSpace (blockBytes DemoB.doc 30 33) = [] := by decide +kernel

end Verif.HclAgain
