import Verif.Model.HclDecode
/-!
# `Unmarshal` into generic data, parsing lists and objects again

Model of `dethcl/mapslice.go` L13-205 as it is: the bytes of a list or object inside of an expression are cut out of the file, by the range that the parser noted, and parsed
again behind `x = `.  `Model/HclDecode` takes the syntax tree instead.

The lexer and the parser are those of `Model/HclSyntax` (external `hclsyntax`), with positions: a token has the position of the byte at which the lexer knows it, for brackets and
braces their own; the range of a list or object (external `TupleConsExpr.SrcRange`, `ObjectConsExpr.SrcRange`) is from its opening to behind its closing bracket.
-/
namespace Verif.HclAgain
open Hcl
open Det (insertK ltB)

/-- A token with its position. -/
abbrev PTok := Tok × Nat

/-- External: the tokens of a text, from a state and a position. -/
def lexP : LState → Nat → Bytes → Except Bad (List PTok)
  | s, i, [] => (lexEnd s).map fun ts => ts.map fun t => (t, i)
  | s, i, c :: r => (lexStep s c).bind fun x => (lexP x.1 (i + 1) r).map fun ts => x.2.map (fun t => (t, i)) ++ ts

/-- Expressions with the ranges of lists and objects. -/
inductive PExpr where
  | str (s : Bytes)
  | num (q : Rat)
  | ident (name : Bytes)
  | neg (e : PExpr)
  | call (name : Bytes)
  | tuple (lo hi : Nat) (l : List PExpr)
  | object (lo hi : Nat) (items : List (PExpr × PExpr))

mutual
/-- The expression without ranges. -/
def PExpr.erase : PExpr → Expr
  | .str s => .str s
  | .num q => .num q
  | .ident n => .ident n
  | .neg e => .neg e.erase
  | .call n => .call n
  | .tuple _ _ l => .tuple (eraseL l)
  | .object _ _ m => .object (eraseM m)
def eraseL : List PExpr → List Expr
  | [] => []
  | e :: l => e.erase :: eraseL l
def eraseM : List (PExpr × PExpr) → List (Expr × Expr)
  | [] => []
  | (k, e) :: m => (k.erase, e.erase) :: eraseM m
end

/-- Newlines are skipped inside brackets. -/
def skipNlP : List PTok → List PTok
  | (.nl, _) :: r => skipNlP r
  | r => r

/-- Look ahead: newlines count only if `nls`. -/
def peekNlP (nls : Bool) (ts : List PTok) : List PTok := if nls then ts else skipNlP ts

/-- External, see `Hcl.endTerm`. -/
def endTermP (nls : Bool) (e : PExpr) (ts : List PTok) : Except Bad (PExpr × List PTok) :=
  match peekNlP nls ts with
  | (.minus, _) :: _ => .error .unsupported
  | (.obrack, _) :: _ => .error .unsupported
  | _ => .ok (e, ts)

/-- External, see `Hcl.identTerm`. -/
def identTermP (nls : Bool) (n : Bytes) (ts : List PTok) : Except Bad (PExpr × List PTok) :=
  match peekNlP nls ts with
  | (.oparen, _) :: r =>
    match skipNlP r with
    | (.cparen, _) :: r' => endTermP nls (.call n) r'
    | _ => .error .unsupported
  | _ => endTermP nls (.ident n) ts

mutual
/-- External, see `Hcl.parseExpr`. -/
def parseExprP (nls : Bool) : Nat → List PTok → Except Bad (PExpr × List PTok)
  | 0, _ => .error .unsupported
  | f + 1, ts =>
    match peekNlP nls ts with
    | (.str s, _) :: r => endTermP nls (.str s) r
    | (.num q, _) :: r => endTermP nls (.num q) r
    | (.ident n, _) :: r => identTermP nls n r
    | (.minus, _) :: r => (parseExprP nls f r).map fun x => (.neg x.1, x.2)
    | (.obrack, lo) :: r =>
      if startsFor (r.map Prod.fst) then .error .unsupported
      else (parseTupleP f r).bind fun x => endTermP nls (.tuple lo x.2.1 x.1) x.2.2
    | (.obrace, lo) :: r =>
      if startsFor (r.map Prod.fst) then .error .unsupported
      else (parseObjectP f r).bind fun x => endTermP nls (.object lo x.2.1 x.1) x.2.2
    | (.oparen, _) :: _ => .error .unsupported
    | _ => .error .invalid
/-- External, see `Hcl.parseTuple`; with the end of the range. -/
def parseTupleP : Nat → List PTok → Except Bad (List PExpr × Nat × List PTok)
  | 0, _ => .error .unsupported
  | f + 1, ts =>
    match skipNlP ts with
    | (.cbrack, p) :: r => .ok ([], p + 1, r)
    | ts' => (parseExprP false f ts').bind fun x =>
      match skipNlP x.2 with
      | (.cbrack, p) :: r => .ok ([x.1], p + 1, r)
      | (.comma, _) :: r => (parseTupleP f r).map fun y => (x.1 :: y.1, y.2)
      | _ => .error .invalid
/-- External, see `Hcl.parseObject`. -/
def parseObjectP : Nat → List PTok → Except Bad (List (PExpr × PExpr) × Nat × List PTok)
  | 0, _ => .error .unsupported
  | f + 1, ts =>
    match skipNlP ts with
    | (.cbrace, p) :: r => .ok ([], p + 1, r)
    | ts' => (parseExprP true f ts').bind fun k => objValueP f k.1 k.2
/-- External, see `Hcl.objValue`. -/
def objValueP : Nat → PExpr → List PTok → Except Bad (List (PExpr × PExpr) × Nat × List PTok)
  | 0, _, _ => .error .unsupported
  | f + 1, key, ts =>
    match ts with
    | (.eq, _) :: r => (parseExprP true f r).bind fun v => objNextP f key v.1 v.2
    | (.colon, _) :: r => (parseExprP true f r).bind fun v => objNextP f key v.1 v.2
    | _ => .error .invalid
/-- External, see `Hcl.objNext`. -/
def objNextP : Nat → PExpr → PExpr → List PTok → Except Bad (List (PExpr × PExpr) × Nat × List PTok)
  | 0, _, _, _ => .error .unsupported
  | f + 1, key, v, ts =>
    match ts with
    | (.cbrace, p) :: r => .ok ([(key, v)], p + 1, r)
    | (.comma, _) :: r => (parseObjectP f r).map fun y => ((key, v) :: y.1, y.2)
    | (.nl, _) :: r => (parseObjectP f r).map fun y => ((key, v) :: y.1, y.2)
    | _ => .error .invalid
end

/-- Bodies with ranges. -/
inductive PBody where
  | mk (attrs : List (Bytes × PExpr)) (blocks : List (Bytes × List Bytes × PBody))

def PBody.attrs : PBody → List (Bytes × PExpr)
  | .mk a _ => a
def PBody.blocks : PBody → List (Bytes × List Bytes × PBody)
  | .mk _ x => x

/-- External, see `Hcl.parseLabels`. -/
def parseLabelsP : List PTok → Except Bad (List Bytes × List PTok)
  | (.obrace, _) :: r => .ok ([], r)
  | (.str s, _) :: r => (parseLabelsP r).map fun x => (s :: x.1, x.2)
  | (.ident s, _) :: r => (parseLabelsP r).map fun x => (s :: x.1, x.2)
  | _ => .error .invalid

/-- External, see `Hcl.endItem`. -/
def endItemP : List PTok → Except Bad (List PTok)
  | [] => .ok []
  | (.nl, _) :: r => .ok r
  | _ => .error .invalid

def consAttrP (n : Bytes) (e : PExpr) (x : PBody × List PTok) : Except Bad (PBody × List PTok) :=
  if n ∈ x.1.attrs.map Prod.fst then .error .invalid else .ok (.mk ((n, e) :: x.1.attrs) x.1.blocks, x.2)

def consBlockP (n : Bytes) (ls : List Bytes) (inner : PBody) (x : PBody × List PTok) : PBody × List PTok :=
  (.mk x.1.attrs ((n, ls, inner) :: x.1.blocks), x.2)

mutual
/-- External, see `Hcl.parseBody`. -/
def parseBodyP (top : Bool) : Nat → List PTok → Except Bad (PBody × List PTok)
  | 0, _ => .error .unsupported
  | f + 1, ts =>
    match skipNlP ts with
    | [] => if top then .ok (.mk [] [], []) else .error .invalid
    | (.cbrace, _) :: r => if top then .error .invalid else .ok (.mk [] [], r)
    | (.ident n, _) :: (.eq, _) :: r =>
      (parseExprP true f r).bind fun e => (endItemP e.2).bind fun r' =>
      (parseBodyP top f r').bind fun x => consAttrP n e.1 x
    | (.ident n, _) :: r =>
      (parseLabelsP r).bind fun ls => (parseBlockP f ls.2).bind fun inner =>
      (endItemP inner.2).bind fun r' => (parseBodyP top f r').map fun x => consBlockP n ls.1 inner.1 x
    | _ => .error .invalid
/-- External, see `Hcl.parseBlock`. -/
def parseBlockP : Nat → List PTok → Except Bad (PBody × List PTok)
  | 0, _ => .error .unsupported
  | f + 1, ts =>
    match ts with
    | (.nl, _) :: r => parseBodyP false f r
    | (.cbrace, _) :: r => .ok (.mk [] [], r)
    | _ => .error .unsupported
end

/-- External `hclsyntax.ParseConfig`, with ranges. -/
def parseConfigP (text : Bytes) : Except Bad PBody :=
  (lexP .start 0 text).bind fun ts => (parseBodyP true (3 * ts.length + 3) ts).map Prod.fst

variable (ext : Ext)

/-- The file that is parsed, dethcl/mapslice.go L14, L148. -/
def fileX (bs : Bytes) : Bytes := b "x = " ++ bs

/-- dethcl/mapslice.go L13-21, L147-157: the expression of `x`. -/
def parseXP (bs : Bytes) : Out PExpr :=
  (Out.ofParse (parseConfigP (fileX bs))).bind fun body =>
    match GoMap.get? body.attrs (b "x") with
    | some e => .ok e
    | none => .err

/-- dethcl/mapslice.go L176-177, L181-182: `file.Bytes[lo:hi]`. -/
def cut (file : Bytes) (lo hi : Nat) : Bytes := (file.take hi).drop lo

/-- dethcl/mapslice.go L23-31: the elements in order. -/
def elemsR (native : PExpr → Out GV) : List PExpr → Out (List GV)
  | [] => .ok []
  | e :: l => (native e).bind fun v => (elemsR native l).map fun vs => v :: vs

/-- dethcl/mapslice.go L158-170: the members in order. -/
def membersR (native : PExpr → Out GV) : List (PExpr × PExpr) → List (Bytes × GV) → Out (List (Bytes × GV))
  | [], obj => .ok obj
  | (k, e) :: m, obj =>
    (keyE ext k.erase).bind fun key => (native e).bind fun v => membersR native m (insertK ltB key v obj)

/-- dethcl/mapslice.go L13-32 `decodeSlice`; `native` is the call for the elements, given the file. -/
def sliceR (native : Bytes → PExpr → Out GV) (bs : Bytes) : Out (List GV) :=
  (parseXP bs).bind fun e =>
    match e with
    | .tuple _ _ l => elemsR (native (fileX bs)) l
    | _ => .err                                                              -- L19-21

/-- dethcl/mapslice.go L147-171 `decodeObjectConsExpr`. -/
def objectR (native : Bytes → PExpr → Out GV) (bs : Bytes) : Out (List (Bytes × GV)) :=
  (parseXP bs).bind fun e =>
    match e with
    | .object _ _ m => membersR ext (native (fileX bs)) m []
    | _ => .err                                                              -- L153-156

/-- The value of an attribute by name. -/
def attrValR (native : PExpr → Out GV) (attrs : List (Bytes × PExpr)) (k : Bytes) : Out GV :=
  match GoMap.get? attrs k with
  | some e => native e
  | none => .err

mutual
/-- dethcl/mapslice.go L47-145 `decodeBody`. -/
def bodyR (native : PExpr → Out GV) (path : List Bytes) : PBody → Out (List (Bytes × GV))
  | .mk attrs blocks =>
    (assignAll (attrValR native attrs) (ext.ord path (GoMap.keys attrs)) []).bind fun obj =>
    decodeBlocks ext path (blocksR native path 0 blocks) obj
def blocksR (native : PExpr → Out GV) (path : List Bytes) (i : Nat) : List (Bytes × List Bytes × PBody) → Blocks
  | [] => []
  | (t, ls, body) :: r =>
    (t, ls, (bodyR native (path ++ List.replicate i 0 :: t :: ls) body).map .map) :: blocksR native path (i + 1) r
end

/-- dethcl/mapslice.go L34-45 `decodeMap`. -/
def mapR (native : Bytes → PExpr → Out GV) (bs : Bytes) : Out (List (Bytes × GV)) :=
  if trimSpace bs = [] then .panic                                           -- L36
  else if (trimSpace bs).head? = some 123 ∧ (trimSpace bs).getLast? = some 125 then objectR ext native bs
  else (Out.ofParse (parseConfigP bs)).bind fun body => bodyR ext (native bs) [] body

/-- dethcl/mapslice.go L173-205 `expressionToNative` of an expression in a file; the number bounds how often a part is parsed again. -/
def nativeR : Nat → Bytes → PExpr → Out GV
  | 0, _, _ => .unsupported
  | n + 1, file, e =>
    match e with
    | .tuple lo hi _ => (sliceR (nativeR n) (cut file lo hi)).map mkList       -- L175-179
    | .object lo hi _ => (mapR ext (nativeR n) (cut file lo hi)).map .map      -- L180-184
    | e => nativeE ext e.erase                                               -- L185-204

/-- dethcl/unmarshal.go L26-78: `Unmarshal` into a `*map[string]interface{}`. -/
def unmarshalMap (n : Nat) (bs : Bytes) (target : List (Bytes × GV)) : Out (List (Bytes × GV)) :=
  (mapR ext (nativeR ext n) bs).map fun obj => obj.foldl (fun t e => insertK ltB e.1 e.2 t) target

/-- dethcl/unmarshal.go L79-86: `Unmarshal` into a `*[]interface{}`. -/
def unmarshalSlice (n : Nat) (bs : Bytes) (target : List GV) : Out (List GV) := (sliceR (nativeR ext n) bs).map fun l => target ++ l

end Verif.HclAgain
