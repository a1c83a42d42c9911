import Verif.Model.HclDecode
/-!
# What decoding and printing HCL should do
-/
namespace Verif.Hcl

/-- The value found by following keys through nested maps. -/
def GV.reach : GV → List Bytes → Option GV
  | v, [] => some v
  | .map m, k :: ks => (GoMap.get? m k).bind fun v => v.reach ks
  | _, _ :: _ => none

/-- Keys of object members that denote strings: a name, a string (or a call, which is an error). -/
def IsKey : Expr → Prop
  | .ident _ => True
  | .str _ => True
  | .call _ => True
  | _ => False

mutual
/-- Every key of every object in the expression is a name or a string. -/
def Expr.KeysOk : Expr → Prop
  | .tuple l => KeysOkL l
  | .object m => KeysOkO m
  | _ => True
def KeysOkL : List Expr → Prop
  | [] => True
  | e :: l => e.KeysOk ∧ KeysOkL l
def KeysOkO : List (Expr × Expr) → Prop
  | [] => True
  | (k, e) :: m => IsKey k ∧ e.KeysOk ∧ KeysOkO m
end

mutual
/-- The same for every attribute of a body and of its blocks. -/
def Body.KeysOk : Body → Prop
  | .mk attrs blocks => (∀ x ∈ attrs, x.2.KeysOk) ∧ KeysOkB blocks
def KeysOkB : List (Bytes × List Bytes × Body) → Prop
  | [] => True
  | (_, _, body) :: r => body.KeysOk ∧ KeysOkB r
end

/-- Only white space. -/
def IsBlank (s : Bytes) : Prop := ∀ c ∈ s, isSpace c = true

/-- The string denoted by the key of an object member. -/
inductive KeyName (ext : Ext) : Expr → Bytes → Prop where
  | ident (n : Bytes) : KeyName ext (.ident n) n
  | str (s : Bytes) : KeyName ext (.str s) (ext.nfc s)

/-- What follows a minus sign is a number: one, a string for one, or one with another minus sign. -/
inductive Minus (ext : Ext) : Expr → Prop where
  | num (q : Rat) : Minus ext (.num q)
  | str (s : Bytes) (q : Rat) : ext.eval (.neg (.str s)) = .ok (.num q) → Minus ext (.str s)
  | neg {e : Expr} : Minus ext e → Minus ext (.neg e)

/-- The member of an object has a key with a value that is not a string. -/
inductive NoName (ext : Ext) : Expr → Prop where
  | num (q : Rat) : NoName ext (.num q)
  | neg {e : Expr} : Minus ext e → NoName ext (.neg e)
  | tuple (l : List Expr) : NoName ext (.tuple l)
  | object (m : List (Expr × Expr)) : NoName ext (.object m)

/-- The value of the last entry with the key. -/
def lastVal (l : List (Bytes × GV)) (k : Bytes) : Option GV := ((l.filter fun e => e.1 = k).getLast?).map Prod.snd

end Verif.Hcl
