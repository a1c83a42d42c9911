import Verif.Spec.Cty
import Verif.Spec.Hcl
/-!
# Data that `Marshal` can write

`okBody` describes the data for which the text is valid HCL, `exactBody` the data that comes back when the
text is decoded, `bodyOf` the syntax tree of the text and `GV.canon` the data that comes back.
-/
namespace Verif.Hcl
open Det (insertK ltB)

/-- A name: a letter or underscore followed by letters, digits, underscores and dashes (ASCII). -/
def IsIdent : Bytes → Prop
  | [] => False
  | c :: r => identStart c = true ∧ ∀ x ∈ r, identCont x = true

/-- Text that stands for itself between quotes: UTF-8 without quotes, backslashes, line breaks, `${` and
`%{`. -/
def SafeStr (s : Bytes) : Prop :=
  utf8Valid s = true ∧ (∀ c ∈ s, c ≠ 34 ∧ c ≠ 92 ∧ c ≠ 10 ∧ c ≠ 13) ∧
    ¬ [36, 123] <:+: s ∧ ¬ [37, 123] <:+: s

/-- A map below `depth` labels whose members get their key as a further label: it has members, all of them
maps, and there are not yet two labels. -/
def byLabels (depth : Nat) (m : List (Bytes × GV)) : Bool :=
  !m.isEmpty && m.all (fun e => match e.2 with | .map _ | .nilMap => true | _ => false) && decide (depth < 2)

/-! ## Valid text -/

mutual
/-- An element of a list. -/
def okElem : GV → Prop
  | .str s => SafeStr s
  | .list l => okElems l
  | .map m => okObj m
  | _ => True
def okElems : List GV → Prop
  | [] => True
  | v :: l => okElem v ∧ okElems l
/-- A map in a list: names as keys (not `for`), at most one further level of maps, no typed nil. -/
def okObj : List (Bytes × GV) → Prop
  | [] => True
  | (k, v) :: m => (IsIdent k ∧ k ≠ b "for") ∧ okMember v ∧ okObj m
/-- The value of a member of a map in a list. -/
def okMember : GV → Prop
  | .str s => SafeStr s
  | .list l => okElems l
  | .map m => okFlat m
  | .nilList => False
  | .nilMap => False
  | _ => True
/-- A map in a map in a list: no maps inside. -/
def okFlat : List (Bytes × GV) → Prop
  | [] => True
  | (k, v) :: m => (IsIdent k ∧ k ≠ b "for") ∧ okLeaf v ∧ okFlat m
def okLeaf : GV → Prop
  | .str s => SafeStr s
  | .list l => okElems l
  | .map _ => False
  | .nilList => False
  | .nilMap => False
  | _ => True
end

mutual
/-- A map that is not in a list: names as keys (but not the internal name of list elements); distinct, as in
every Go map. -/
def okBody : List (Bytes × GV) → Prop
  | [] => True
  | (k, v) :: m => (IsIdent k ∧ k ≠ nmr ∧ k ∉ m.map Prod.fst) ∧ okLine 0 v ∧ okBody m
/-- A value in such a map, below `depth` labels. -/
def okLine (depth : Nat) : GV → Prop
  | .str s => SafeStr s
  | .list l => okElems l
  | .map m => (byLabels depth m = true → okLabels depth m) ∧ (byLabels depth m = false → okBody m)
  | .nilList => False
  | .nilMap => False
  | _ => True
/-- A map of maps, written as labelled blocks. -/
def okLabels (depth : Nat) : List (Bytes × GV) → Prop
  | [] => True
  | (k, v) :: m => SafeStr k ∧ okLine (depth + 1) v ∧ okLabels depth m
end

/-! ## The syntax tree -/

/-- The expression of an integer. -/
def intExpr (n : Int) : Expr := if n < 0 then .neg (.num (numVal n.natAbs 0 0)) else .num (numVal n.natAbs 0 0)

/-- The expression of a number with six decimals. -/
def fltExpr (q : Rat) : Expr :=
  let r := (roundEven (q * 1000000)).natAbs
  if q < 0 then .neg (.num (numVal (r / 1000000) (r % 1000000) 6)) else .num (numVal (r / 1000000) (r % 1000000) 6)

/-- The expression of a scalar. -/
def scalarExpr : GV → Expr
  | .str s => .str s
  | .bool v => .ident (if v then b "true" else b "false")
  | .int n => intExpr n
  | .flt q => match ctyNumberToNative q with
    | .ok (.int n) => intExpr n
    | .ok (.flt r) => fltExpr r
    | _ => .call (b "null")
  | _ => .call (b "null")

mutual
/-- The expression of a value; in a list (`elem`) zero values and nil become an empty list. -/
def exprOf (elem : Bool) : GV → Expr
  | .list l => .tuple (exprsOf l)
  | .map m => .object (membersOf m)
  | .nilList => .tuple []
  | .nilMap => .tuple []
  | .nil => if elem then .tuple [] else .call (b "null")
  | .str s => if elem && s.isEmpty then .tuple [] else .str s
  | .bool v => if elem && !v then .tuple [] else scalarExpr (.bool v)
  | .int n => if elem && decide (n = 0) then .tuple [] else scalarExpr (.int n)
  | .flt q => if elem && decide (q = 0) then .tuple [] else scalarExpr (.flt q)
def exprsOf : List GV → List Expr
  | [] => []
  | v :: l => exprOf true v :: exprsOf l
def membersOf : List (Bytes × GV) → List (Expr × Expr)
  | [] => []
  | (k, v) :: m => (.ident k, exprOf false v) :: membersOf m
end

/-- The attributes of a map: the members that are not maps. -/
def attrsOf : List (Bytes × GV) → List (Bytes × Expr)
  | [] => []
  | (k, v) :: m => if v.isMap then attrsOf m else (k, exprOf false v) :: attrsOf m

mutual
/-- The blocks of a map: the members that are maps. -/
def blocksOf : List (Bytes × GV) → List (Bytes × List Bytes × Body)
  | [] => []
  | (k, v) :: m => blocksV k [] v ++ blocksOf m
/-- The blocks of a member with the given labels: one, or those of its members with their key as further
label. -/
def blocksV (k : Bytes) (ls : List Bytes) : GV → List (Bytes × List Bytes × Body)
  | .map m => if byLabels ls.length m then blocksH k ls m else [(k, ls, .mk (attrsOf m) (blocksOf m))]
  | _ => []
def blocksH (k : Bytes) (ls : List Bytes) : List (Bytes × GV) → List (Bytes × List Bytes × Body)
  | [] => []
  | (l, v) :: m => blocksV k (ls ++ [l]) v ++ blocksH k ls m
end

/-- The body of a map. -/
def bodyOf (m : List (Bytes × GV)) : Body := .mk (attrsOf m) (blocksOf m)

/-! ## Data that comes back -/

/-- A number that is written exactly: an integer of 64 bits, or a positive fraction that is a `float32`
with at most six decimals. -/
def ExactNum (q : Rat) : Prop := IsInt64 q ∨ 0 < q ∧ ¬ IsWhole q ∧ IsFloat 24 q ∧ IsWhole (q * 1000000)

/-- Neither nil nor the zero value of its type. -/
def NonZero : GV → Prop
  | .nil => False
  | .str s => s ≠ []
  | .bool v => v = true
  | .int n => n ≠ 0
  | .flt q => q ≠ 0
  | _ => True

mutual
/-- Values that come back: exact numbers, normalised strings, distinct keys, no nil maps, no nil and no zero
values in lists. -/
def exact (nfc : Bytes → Bytes) : GV → Prop
  | .str s => nfc s = s
  | .int n => IsInt64 n
  | .flt q => ExactNum q
  | .list l => exactL nfc l
  | .map m => exactM nfc m ∧ (m.map Prod.fst).Nodup
  | .nilMap => False
  | _ => True
def exactL (nfc : Bytes → Bytes) : List GV → Prop
  | [] => True
  | v :: l => NonZero v ∧ exact nfc v ∧ exactL nfc l
def exactM (nfc : Bytes → Bytes) : List (Bytes × GV) → Prop
  | [] => True
  | (_, v) :: m => exact nfc v ∧ exactM nfc m
end

/-- Whether a value is a map that is written with a further label. -/
def GV.labelled (depth : Nat) : GV → Bool
  | .map m => byLabels depth m
  | _ => false

mutual
/-- Of the members of a map of maps, either all or none are maps of maps. -/
def uniformM : List (Bytes × GV) → Prop
  | [] => True
  | (_, v) :: m => uniform 0 v ∧ uniformM m
def uniform (depth : Nat) : GV → Prop
  | .map m => (byLabels depth m = true → uniformL depth m ∧
        ((∀ e ∈ m, e.2.labelled (depth + 1) = true) ∨ ∀ e ∈ m, e.2.labelled (depth + 1) = false)) ∧
      (byLabels depth m = false → uniformM m)
  | _ => True
def uniformL (depth : Nat) : List (Bytes × GV) → Prop
  | [] => True
  | (_, v) :: m => uniform (depth + 1) v ∧ uniformL depth m
end

mutual
/-- The data that comes back: maps sorted by key, an empty list is a nil slice, a number without fractional
part is an integer. -/
def GV.canon : GV → GV
  | .list l => mkList (canonL l)
  | .map m => .map (canonM m)
  | .flt q => if q.den = 1 then .int q.num else .flt q
  | v => v
def canonL : List GV → List GV
  | [] => []
  | v :: l => v.canon :: canonL l
def canonM : List (Bytes × GV) → List (Bytes × GV)
  | [] => []
  | (k, v) :: m => insertK ltB k v.canon (canonM m)
end

mutual
/-- Equal data: maps up to order, numbers by value, an empty list may be a nil slice. -/
def Same : GV → GV → Prop
  | .list l, w => (∃ l', w = .list l' ∧ SameL l l') ∨ (l = [] ∧ w = .nilList)
  | .map m, w => ∃ m', w = .map m' ∧ SameM m m' ∧ ∀ k, k ∈ m'.map Prod.fst → k ∈ m.map Prod.fst
  | .int n, w => w.value = some (n : Rat)
  | .flt q, w => w.value = some q
  | v, w => v = w
def SameL : List GV → List GV → Prop
  | [], l' => l' = []
  | v :: l, l' => ∃ w r, l' = w :: r ∧ Same v w ∧ SameL l r
def SameM : List (Bytes × GV) → List (Bytes × GV) → Prop
  | [], _ => True
  | (k, v) :: m, m' => (∃ w, GoMap.get? m' k = some w ∧ Same v w) ∧ SameM m m'
end

end Verif.Hcl
