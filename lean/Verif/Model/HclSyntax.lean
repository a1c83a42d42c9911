import Verif.Model.Cty
/-!
# A subset of the HCL native syntax

Model of `hclsyntax.ParseConfig` (external: hcl/v2 `hclsyntax/scan_tokens.rl`, `parser.go`, recalled from
memory, not on the machine) for the part of the language that `Marshal` writes and a little more: bodies
with attributes and multi-line blocks; literals, quoted strings with the simple escapes, negation, lists,
objects, identifiers and calls without arguments.

A text has one of three outcomes: a syntax tree, `invalid` (HCL reports an error), or `unsupported` (not
decided by the model: comments, operators, templates with `${`, heredocs, single-line blocks, exponents,
`\u` escapes, identifiers outside ASCII, for expressions, index and attribute access, parentheses, calls
with arguments).
-/

namespace Verif.Hcl

inductive Bad where
  | invalid
  | unsupported
deriving DecidableEq

inductive Tok where
  | ident (s : Bytes)
  | num (q : Rat)
  | str (s : Bytes)
  | obrace | cbrace | obrack | cbrack | oparen | cparen
  | comma | eq | colon | minus | nl
deriving DecidableEq

/-- The lexer between two bytes. -/
inductive LState where
  | start
  | ident (acc : Bytes)
  | numI (n : Nat)
  | numDot (n : Nat)
  | numF (n m k : Nat)
  | str (acc : Bytes)
  | esc (acc : Bytes)
  | strD (acc : Bytes)
  | cr

def isLetter (c : UInt8) : Bool := (65 ≤ c && c ≤ 90) || (97 ≤ c && c ≤ 122)
def isDigit (c : UInt8) : Bool := 48 ≤ c && c ≤ 57
/-- `ID_Start` or `_`, ASCII only. -/
def identStart (c : UInt8) : Bool := isLetter c || c = 95
/-- `ID_Continue` or `-`, ASCII only. -/
def identCont (c : UInt8) : Bool := isLetter c || c = 95 || isDigit c || c = 45

def digitVal (c : UInt8) : Nat := c.toNat - 48

/-- A byte at the start of a token: the next state, and the token if it is a single byte. -/
def lexStart (c : UInt8) : Except Bad (LState × List Tok) :=
  if c = 32 ∨ c = 9 then .ok (.start, [])
  else if c = 10 then .ok (.start, [.nl])
  else if c = 13 then .ok (.cr, [])
  else if c = 34 then .ok (.str [], [])
  else if c = 123 then .ok (.start, [.obrace])
  else if c = 125 then .ok (.start, [.cbrace])
  else if c = 91 then .ok (.start, [.obrack])
  else if c = 93 then .ok (.start, [.cbrack])
  else if c = 40 then .ok (.start, [.oparen])
  else if c = 41 then .ok (.start, [.cparen])
  else if c = 44 then .ok (.start, [.comma])
  else if c = 61 then .ok (.start, [.eq])
  else if c = 58 then .ok (.start, [.colon])
  else if c = 45 then .ok (.start, [.minus])
  else if identStart c then .ok (.ident [c], [])
  else if isDigit c then .ok (.numI (digitVal c), [])
  else .error .unsupported

/-- The value of a number literal: `cty.ParseNumberVal`, 512 bits. -/
def numVal (n m k : Nat) : Rat := rd 512 ((n : Rat) + (m : Rat) / (10 : Rat) ^ k)

/-- A byte inside a quoted string (after the state of a preceding `$` or `%` is settled). -/
def lexStr (acc : Bytes) (c : UInt8) : Except Bad (LState × List Tok) :=
  if c = 34 then (if utf8Valid acc then .ok (.start, [.str acc]) else .error .invalid)
  else if c = 92 then .ok (.esc acc, [])
  else if c = 10 then .error .invalid
  else if c = 13 then .error .unsupported
  else if c = 36 ∨ c = 37 then .ok (.strD (acc ++ [c]), [])
  else .ok (.str (acc ++ [c]), [])

/-- One byte of text. -/
def lexStep : LState → UInt8 → Except Bad (LState × List Tok)
  | .start, c => lexStart c
  | .ident acc, c =>
    if identCont c then .ok (.ident (acc ++ [c]), [])
    else if 128 ≤ c then .error .unsupported
    else (lexStart c).map fun r => (r.1, .ident acc :: r.2)
  | .numI n, c =>
    if isDigit c then .ok (.numI (10 * n + digitVal c), [])
    else if c = 46 then .ok (.numDot n, [])
    else if identStart c ∨ 128 ≤ c then .error .unsupported
    else (lexStart c).map fun r => (r.1, .num (numVal n 0 0) :: r.2)
  | .numDot n, c => if isDigit c then .ok (.numF n (digitVal c) 1, []) else .error .unsupported
  | .numF n m k, c =>
    if isDigit c then .ok (.numF n (10 * m + digitVal c) (k + 1), [])
    else if identStart c ∨ 128 ≤ c ∨ c = 46 then .error .unsupported
    else (lexStart c).map fun r => (r.1, .num (numVal n m k) :: r.2)
  | .str acc, c => lexStr acc c
  | .strD acc, c => if c = 123 then .error .unsupported else lexStr acc c
  | .esc acc, c =>
    if c = 110 then .ok (.str (acc ++ [10]), [])
    else if c = 114 then .ok (.str (acc ++ [13]), [])
    else if c = 116 then .ok (.str (acc ++ [9]), [])
    else if c = 34 ∨ c = 92 then .ok (.str (acc ++ [c]), [])
    else if c = 117 ∨ c = 85 then .error .unsupported
    else .error .invalid
  | .cr, c => if c = 10 then .ok (.start, [.nl]) else .error .invalid

/-- End of the text. -/
def lexEnd : LState → Except Bad (List Tok)
  | .start => .ok []
  | .ident acc => .ok [.ident acc]
  | .numI n => .ok [.num (numVal n 0 0)]
  | .numDot _ => .error .unsupported
  | .numF n m k => .ok [.num (numVal n m k)]
  | .str _ => .error .invalid
  | .strD _ => .error .invalid
  | .esc _ => .error .invalid
  | .cr => .error .invalid

/-- The tokens of a text, from a state. -/
def lex : LState → Bytes → Except Bad (List Tok)
  | s, [] => lexEnd s
  | s, c :: r => (lexStep s c).bind fun x => (lex x.1 r).map fun ts => x.2 ++ ts

/-! ## Syntax trees -/

/-- Expressions.  `ident` includes the keywords `true`, `false` and `null`. -/
inductive Expr where
  | str (s : Bytes)
  | num (q : Rat)
  | ident (name : Bytes)
  | neg (e : Expr)
  | call (name : Bytes)
  | tuple (l : List Expr)
  | object (items : List (Expr × Expr))

/-- Bodies: attributes (a Go map; listed in iteration order) and blocks (type, labels, body). -/
inductive Body where
  | mk (attrs : List (Bytes × Expr)) (blocks : List (Bytes × List Bytes × Body))

def Body.attrs : Body → List (Bytes × Expr)
  | .mk a _ => a
def Body.blocks : Body → List (Bytes × List Bytes × Body)
  | .mk _ x => x

/-! ## Parser -/

/-- Newlines are skipped inside brackets. -/
def skipNl : List Tok → List Tok
  | .nl :: r => skipNl r
  | r => r

/-- Look ahead: newlines count only if `nls`. -/
def peekNl (nls : Bool) (ts : List Tok) : List Tok := if nls then ts else skipNl ts

/-- After a term: a binary minus or an index would continue it. -/
def endTerm (nls : Bool) (e : Expr) (ts : List Tok) : Except Bad (Expr × List Tok) :=
  match peekNl nls ts with
  | .minus :: _ => .error .unsupported
  | .obrack :: _ => .error .unsupported
  | _ => .ok (e, ts)

/-- After an identifier in an expression. -/
def identTerm (nls : Bool) (n : Bytes) (ts : List Tok) : Except Bad (Expr × List Tok) :=
  match peekNl nls ts with
  | .oparen :: r =>
    match skipNl r with
    | .cparen :: r' => endTerm nls (.call n) r'
    | _ => .error .unsupported
  | _ => endTerm nls (.ident n) ts

/-- `for` directly after an opening bracket starts a for expression. -/
def startsFor (ts : List Tok) : Bool :=
  match skipNl ts with
  | .ident n :: _ => n = b "for"
  | _ => false

mutual
/-- parser.go `ParseExpression`; newlines count if `nls`. -/
def parseExpr (nls : Bool) : Nat → List Tok → Except Bad (Expr × List Tok)
  | 0, _ => .error .unsupported
  | f + 1, ts =>
    match peekNl nls ts with
    | .str s :: r => endTerm nls (.str s) r
    | .num q :: r => endTerm nls (.num q) r
    | .ident n :: r => identTerm nls n r
    | .minus :: r => (parseExpr nls f r).map fun x => (.neg x.1, x.2)
    | .obrack :: r =>
      if startsFor r then .error .unsupported
      else (parseTuple f r).bind fun x => endTerm nls (.tuple x.1) x.2
    | .obrace :: r =>
      if startsFor r then .error .unsupported
      else (parseObject f r).bind fun x => endTerm nls (.object x.1) x.2
    | .oparen :: _ => .error .unsupported
    | _ => .error .invalid
/-- parser.go `parseTupleCons`, after the opening bracket. -/
def parseTuple : Nat → List Tok → Except Bad (List Expr × List Tok)
  | 0, _ => .error .unsupported
  | f + 1, ts =>
    match skipNl ts with
    | .cbrack :: r => .ok ([], r)
    | ts' => (parseExpr false f ts').bind fun x =>
      match skipNl x.2 with
      | .cbrack :: r => .ok ([x.1], r)
      | .comma :: r => (parseTuple f r).map fun y => (x.1 :: y.1, y.2)
      | _ => .error .invalid
/-- parser.go `parseObjectCons`, after the opening brace. -/
def parseObject : Nat → List Tok → Except Bad (List (Expr × Expr) × List Tok)
  | 0, _ => .error .unsupported
  | f + 1, ts =>
    match skipNl ts with
    | .cbrace :: r => .ok ([], r)
    | ts' => (parseExpr true f ts').bind fun k => objValue f k.1 k.2
/-- After the key of a member. -/
def objValue : Nat → Expr → List Tok → Except Bad (List (Expr × Expr) × List Tok)
  | 0, _, _ => .error .unsupported
  | f + 1, key, ts =>
    match ts with
    | .eq :: r => (parseExpr true f r).bind fun v => objNext f key v.1 v.2
    | .colon :: r => (parseExpr true f r).bind fun v => objNext f key v.1 v.2
    | _ => .error .invalid
/-- After the value of a member. -/
def objNext : Nat → Expr → Expr → List Tok → Except Bad (List (Expr × Expr) × List Tok)
  | 0, _, _, _ => .error .unsupported
  | f + 1, key, v, ts =>
    match ts with
    | .cbrace :: r => .ok ([(key, v)], r)
    | .comma :: r => (parseObject f r).map fun y => ((key, v) :: y.1, y.2)
    | .nl :: r => (parseObject f r).map fun y => ((key, v) :: y.1, y.2)
    | _ => .error .invalid
end

/-- The labels of a block up to the opening brace. -/
def parseLabels : List Tok → Except Bad (List Bytes × List Tok)
  | .obrace :: r => .ok ([], r)
  | .str s :: r => (parseLabels r).map fun x => (s :: x.1, x.2)
  | .ident s :: r => (parseLabels r).map fun x => (s :: x.1, x.2)
  | _ => .error .invalid

/-- The end of an attribute or block: a newline or the end of the file. -/
def endItem : List Tok → Except Bad (List Tok)
  | [] => .ok []
  | .nl :: r => .ok r
  | _ => .error .invalid

/-- Attributes must have distinct names ("Attribute redefined"). -/
def consAttr (n : Bytes) (e : Expr) (x : Body × List Tok) : Except Bad (Body × List Tok) :=
  if n ∈ x.1.attrs.map Prod.fst then .error .invalid else .ok (.mk ((n, e) :: x.1.attrs) x.1.blocks, x.2)

def consBlock (n : Bytes) (ls : List Bytes) (inner : Body) (x : Body × List Tok) : Body × List Tok :=
  (.mk x.1.attrs ((n, ls, inner) :: x.1.blocks), x.2)

mutual
/-- parser.go `ParseBody`; `top` if the end of the file ends it, otherwise a closing brace does. -/
def parseBody (top : Bool) : Nat → List Tok → Except Bad (Body × List Tok)
  | 0, _ => .error .unsupported
  | f + 1, ts =>
    match skipNl ts with
    | [] => if top then .ok (.mk [] [], []) else .error .invalid
    | .cbrace :: r => if top then .error .invalid else .ok (.mk [] [], r)
    | .ident n :: .eq :: r =>
      (parseExpr true f r).bind fun e => (endItem e.2).bind fun r' =>
      (parseBody top f r').bind fun x => consAttr n e.1 x
    | .ident n :: r =>
      (parseLabels r).bind fun ls => (parseBlock f ls.2).bind fun inner =>
      (endItem inner.2).bind fun r' => (parseBody top f r').map fun x => consBlock n ls.1 inner.1 x
    | _ => .error .invalid
/-- The body of a block, after the opening brace. -/
def parseBlock : Nat → List Tok → Except Bad (Body × List Tok)
  | 0, _ => .error .unsupported
  | f + 1, ts =>
    match ts with
    | .nl :: r => parseBody false f r
    | .cbrace :: r => .ok (.mk [] [], r)
    | _ => .error .unsupported
end

/-- `hclsyntax.ParseConfig`. -/
def parseConfig (text : Bytes) : Except Bad Body :=
  (lex .start text).bind fun ts => (parseBody true (3 * ts.length + 3) ts).map Prod.fst

end Verif.Hcl
