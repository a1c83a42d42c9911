import Verif.Model.HclAgain
/-!
# Blocks whose text is parsed again

Model of how `dethcl/unmarshal.go` reads blocks into structs: the bytes between the braces of a block (L532-540 `getBlockBytes`) are given to `UnmarshalSpecTree` (L435-441), which
parses them as a file (L110), cuts the blocks inside out of that, and so on.  `Model/HclStruct` takes the syntax tree of the whole document instead.

The parser is that of `Model/HclSyntax` (external `hclsyntax`) with the positions of the braces of blocks (external `Block.OpenBraceRange`, `Block.CloseBraceRange`).
-/
namespace Verif.HclAgain
open Hcl

/-- Bodies; a block has the position behind its opening and that of its closing brace. -/
inductive BBody where
  | mk (attrs : List (Bytes × Expr)) (blocks : List (Bytes × List Bytes × Nat × Nat × BBody))

def BBody.attrs : BBody → List (Bytes × Expr)
  | .mk a _ => a
def BBody.blocks : BBody → List (Bytes × List Bytes × Nat × Nat × BBody)
  | .mk _ x => x

mutual
/-- The body without positions. -/
def BBody.erase : BBody → Body
  | .mk a x => .mk a (eraseK x)
def eraseK : List (Bytes × List Bytes × Nat × Nat × BBody) → List (Bytes × List Bytes × Body)
  | [] => []
  | (t, ls, _, _, body) :: r => (t, ls, body.erase) :: eraseK r
end

/-- External, see `Hcl.parseLabels`; with the position behind the opening brace. -/
def parseLabelsB : List PTok → Except Bad (List Bytes × Nat × List PTok)
  | (.obrace, p) :: r => .ok ([], p + 1, r)
  | (.str s, _) :: r => (parseLabelsB r).map fun x => (s :: x.1, x.2)
  | (.ident s, _) :: r => (parseLabelsB r).map fun x => (s :: x.1, x.2)
  | _ => .error .invalid

def consAttrB (n : Bytes) (e : Expr) (x : BBody × Nat × List PTok) : Except Bad (BBody × Nat × List PTok) :=
  if n ∈ x.1.attrs.map Prod.fst then .error .invalid else .ok (.mk ((n, e) :: x.1.attrs) x.1.blocks, x.2)

def consBlockB (n : Bytes) (ls : List Bytes) (lo hi : Nat) (inner : BBody) (x : BBody × Nat × List PTok) : BBody × Nat × List PTok :=
  (.mk x.1.attrs ((n, ls, lo, hi, inner) :: x.1.blocks), x.2)

mutual
/-- External, see `Hcl.parseBody`; with the position of the closing brace. -/
def parseBodyB (top : Bool) : Nat → List PTok → Except Bad (BBody × Nat × List PTok)
  | 0, _ => .error .unsupported
  | f + 1, ts =>
    match skipNlP ts with
    | [] => if top then .ok (.mk [] [], 0, []) else .error .invalid
    | (.cbrace, p) :: r => if top then .error .invalid else .ok (.mk [] [], p, r)
    | (.ident n, _) :: (.eq, _) :: r =>
      (parseExprP true f r).bind fun e => (endItemP e.2).bind fun r' =>
      (parseBodyB top f r').bind fun x => consAttrB n e.1.erase x
    | (.ident n, _) :: r =>
      (parseLabelsB r).bind fun ls => (parseBlockB f ls.2.2).bind fun inner =>
      (endItemP inner.2.2).bind fun r' => (parseBodyB top f r').map fun x => consBlockB n ls.1 ls.2.1 inner.2.1 inner.1 x
    | _ => .error .invalid
/-- External, see `Hcl.parseBlock`; with the position of the closing brace. -/
def parseBlockB : Nat → List PTok → Except Bad (BBody × Nat × List PTok)
  | 0, _ => .error .unsupported
  | f + 1, ts =>
    match ts with
    | (.nl, _) :: r => parseBodyB false f r
    | (.cbrace, p) :: r => .ok (.mk [] [], p, r)
    | _ => .error .unsupported
end

/-- External `hclsyntax.ParseConfig`, with the positions of the braces of blocks. -/
def parseConfigB (text : Bytes) : Except Bad BBody :=
  (lexP .start 0 text).bind fun ts => (parseBodyB true (3 * ts.length + 3) ts).map Prod.fst

/-- dethcl/unmarshal.go L532-540 `getBlockBytes`: the text of a block of a file. -/
def blockBytes (file : Bytes) (lo hi : Nat) : Bytes := cut file lo hi

/-- The blocks of a file (L260-431), each read by `read` from its text. -/
def readBlocks (read : Bytes → Except Bad Body) (file : Bytes) : List (Bytes × List Bytes × Nat × Nat × BBody) → Except Bad (List (Bytes × List Bytes × Body))
  | [] => .ok []
  | (t, ls, lo, hi, _) :: r => (read (blockBytes file lo hi)).bind fun x => (readBlocks read file r).map fun xs => (t, ls, x) :: xs

/-- dethcl/unmarshal.go L110-114 with L532-540: the attributes of a text, and its blocks as the code comes to see them, parsing the text of each block again, and so on;
the number bounds how deep. -/
def readText : Nat → Bytes → Except Bad Body
  | 0, _ => .error .unsupported
  | n + 1, file => (parseConfigB file).bind fun body => (readBlocks (readText n) file body.blocks).map fun bs => .mk body.attrs bs

end Verif.HclAgain
