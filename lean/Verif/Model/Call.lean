import Verif.Model.Cty
import Verif.Model.Det
/-!
# Function calls in expressions

Model of `utils/util.go` L15-166 (`CtyToExpression`, `callToCty`, `ExpressionToCty`) and `utils/tree.go` L31-53
`DefaultTreeFunctions`, for expressions with function calls at any place.

External code, modelled as recalled (it is not on the machine): `hclsyntax` evaluation (`Expression.Value`),
where a function call needs the functions of the evaluation context; `reflect.Value.Call`, which panics on
arguments that are nil or not assignable; `function.Function.Call` is a function of the arguments.

Simplifications: values as in `Model/Cty.lean` (no types, no unknown values); `for` expressions, which bind variables,
are not represented; every expression that is not a literal, variable, list, object or call is `op`, with its
operands and the parameter `Env.sem` for what it computes; a variable is a name without attributes or index;
the Go types of integers and floats are not distinguished when an argument is assigned to a parameter.
-/
namespace Verif.Fn
open Verif.Hcl
open Det (insertK ltB)

/-- An `hclsyntax` expression.  A key of an object that is a bare name is `var`. -/
inductive X where
  | lit (v : Cty)
  | var (n : Bytes)
  | tuple (l : List X)
  | object (m : List (X × X))
  | call (n : Bytes) (args : List X)
  | op (o : Bytes) (args : List X)

/-- Ways to fail. -/
inductive Fail where
  | err
  | panic
deriving DecidableEq

/-- A `function.Function`. -/
abbrev HclFn := List Cty → Option Cty

/-- A value that a Go function returns: an `error` (possibly nil), an error type that cannot be nil, or anything
else. -/
inductive OutV where
  | error (e : Option Bytes)
  | errorStruct
  | val (v : GV)

/-- A Go function: for each parameter the values that can be assigned to it, and what it returns (`none`: it
panics). -/
structure GoFn where
  params : List (GV → Bool)
  run : List GV → Option (List OutV)

/-- A value in a `map[string]interface{}` of functions. -/
inductive NativeFn where
  | fn (f : GoFn)
  | other

/-- What is stored in `ref[FUNCTIONS]`; `hcl none` is a nil map of that type. -/
inductive Funcs where
  | absent
  | hcl (m : Option (GoMap Bytes HclFn))
  | native (m : GoMap Bytes NativeFn)
  | other

/-- What surrounds an expression: variables, meaning of operators, conversion of keys to strings. -/
structure Env where
  vars : GoMap Bytes Cty
  sem : Bytes → List Cty → Option Cty
  keyStr : Cty → Option Bytes
  nfc : Bytes → Bytes

/-- From an optional value. -/
def ofOption {α : Type} : Option α → Except Fail α
  | some a => .ok a
  | none => .error .err

/-- A function call in `hclsyntax`, given the values of the arguments. -/
def callHcl (fs : Option (GoMap Bytes HclFn)) (n : Bytes) (vs : List Cty) : Except Fail Cty :=
  match fs with
  | none => .error .err
  | some m => match GoMap.get? m n with
    | none => .error .err
    | some f => ofOption (f vs)

mutual
/-- `hclsyntax` `Expression.Value` with the functions of the context (external). -/
def value (env : Env) (fs : Option (GoMap Bytes HclFn)) : X → Except Fail Cty
  | .lit v => .ok v
  | .var n => ofOption (GoMap.get? env.vars n)
  | .tuple l => (valueL env fs l).map .tuple
  | .object m => (valueO env fs m []).map .object
  | .call n args => match fs with
    | none => .error .err
    | some _ => (valueL env fs args).bind (callHcl fs n)
  | .op o args => (valueL env fs args).bind fun vs => ofOption (env.sem o vs)
termination_by structural x => x
def valueL (env : Env) (fs : Option (GoMap Bytes HclFn)) : List X → Except Fail (List Cty)
  | [] => .ok []
  | x :: l => (value env fs x).bind fun v => (valueL env fs l).map fun vs => v :: vs
termination_by structural l => l
def valueO (env : Env) (fs : Option (GoMap Bytes HclFn)) : List (X × X) → List (Bytes × Cty) → Except Fail (List (Bytes × Cty))
  | [], acc => .ok acc
  | e :: m, acc => valueP env fs e (fun k v => valueO env fs m (insertK ltB k v acc))
termination_by structural l => l
/-- One member of an object: the key is converted to a string. -/
def valueP (env : Env) (fs : Option (GoMap Bytes HclFn)) :
    X × X → (Bytes → Cty → Except Fail (List (Bytes × Cty))) → Except Fail (List (Bytes × Cty))
  | (k, x), next => (valueK env fs k).bind fun kv => (ofOption (env.keyStr kv)).bind fun ks =>
      (value env fs x).bind fun v => next ks v
termination_by structural p => p
/-- `ObjectConsKeyExpr.Value`: a bare name is itself. -/
def valueK (env : Env) (fs : Option (GoMap Bytes HclFn)) : X → Except Fail Cty
  | .var n => .ok (.str n)
  | .lit v => .ok v
  | .tuple l => (valueL env fs l).map .tuple
  | .object m => (valueO env fs m []).map .object
  | .call n args => match fs with
    | none => .error .err
    | some _ => (valueL env fs args).bind (callHcl fs n)
  | .op o args => (valueL env fs args).bind fun vs => ofOption (env.sem o vs)
termination_by structural x => x
end

/-- What `AsString` makes of the value of a key, utils/util.go L131 (external: it panics on null and on values
that are not strings). -/
def asString : Cty → Except Fail Bytes
  | .str s => .ok s
  | _ => .error .panic

/-- utils/util.go L74-79: the position of the first result whose type implements `error`. -/
def errorPos : List OutV → Option Nat
  | [] => none
  | .val _ :: l => (errorPos l).map (· + 1)
  | _ :: _ => some 0

/-- utils/util.go L98 `NativeToCty(output.Interface())`.  A nil error is a nil interface, L169-171; for an error
`gocty.ImpliedType` fails (external). -/
def outToCty (nfc : Bytes → Bytes) : OutV → Except Fail Cty
  | .val v => .ok (nativeToCty nfc v)
  | .error none => .ok (.object [])
  | _ => .error .err

/-- utils/util.go L93-101: the first result that is not at position `k`, or an empty object. -/
def firstOther (nfc : Bytes → Bytes) (k : Option Nat) : Nat → List OutV → Except Fail Cty
  | _, [] => .ok (.object [])                                                       -- L101
  | i, o :: l => if some i = k then firstOther nfc k (i + 1) l else outToCty nfc o

/-- utils/util.go L74-101: what becomes of the results.  L85 `IsNil` panics on a type that has no nil. -/
def results (nfc : Bytes → Bytes) (outs : List OutV) : Except Fail Cty :=
  match errorPos outs with
  | none => firstOther nfc none 0 outs
  | some k => match outs[k]? with
    | none => .error .err                                                           -- L82-84
    | some .errorStruct => .error .panic                                            -- L85
    | some (.error (some _)) => .error .err                                         -- L85-87
    | some _ => if outs.length = 1 then .ok (.object [])                            -- L88-90
      else firstOther nfc (some k) 0 outs

/-- Whether `reflect.Value.Call` accepts the arguments: none is the zero `Value` (which is what
`reflect.ValueOf(nil)` gives) and each can be assigned to its parameter (external). -/
def accepts : List (GV → Bool) → List GV → Bool
  | [], [] => true
  | p :: ps, v :: vs => !v.isNil && p v && accepts ps vs
  | _, _ => false

/-- utils/util.go L68-101: the number of arguments, the call, the results.  L68 `NumIn` panics when the entry is
not a function. -/
def callGo (nfc : Bytes → Bytes) (f : NativeFn) (args : List GV) : Except Fail Cty :=
  match f with
  | .other => .error .panic
  | .fn g =>
    if g.params.length ≠ args.length then .error .err                               -- L68-70
    else if accepts g.params args then                                              -- L72
      match g.run args with
      | none => .error .panic
      | some outs => results nfc outs
    else .error .panic

/-- utils/util.go L61-64: `CtyToNative` of an argument. -/
def toNative (v : Cty) : Except Fail GV :=
  match ctyToNative v with
  | .ok g => .ok g
  | .error _ => .error .err

/-- utils/util.go L41-50: the entry of a function. -/
def findFn (m : GoMap Bytes NativeFn) (n : Bytes) : Except Fail NativeFn :=
  if n = [] then .error .err else ofOption (GoMap.get? m n)

mutual
/-- utils/util.go L104-166 `ExpressionToCty`.  L142-159 look at the functions only for an expression that is itself
a call; all others are evaluated with no functions, L161. -/
def exprToCty (env : Env) (ref : Funcs) : X → Except Fail Cty
  | .tuple l => (exprL env ref l).map .tuple                                        -- L110-119
  | .object m => (exprO env ref m []).map .object                                   -- L120-133
  | .lit v => value env none (.lit v)                                               -- L161
  | .var n => value env none (.var n)
  | .op o args => value env none (.op o args)
  | .call n args => match ref with
    | .absent => value env none (.call n args)
    | .hcl m => if n = b "null" then .ok .null else value env m (.call n args)      -- L144-146, L151-152
    | .native m => if n = b "null" then .ok .null                                   -- L153-154 callToCty
      else (findFn m n).bind fun f => (exprA env ref args).bind fun gs => callGo env.nfc f gs
    | .other => if n = b "null" then .ok .null else .error .err                     -- L155-156
termination_by structural x => x
/-- L112-118 -/
def exprL (env : Env) (ref : Funcs) : List X → Except Fail (List Cty)
  | [] => .ok []
  | x :: l => (exprToCty env ref x).bind fun v => (exprL env ref l).map fun vs => v :: vs
termination_by structural l => l
/-- L122-132 -/
def exprO (env : Env) (ref : Funcs) : List (X × X) → List (Bytes × Cty) → Except Fail (List (Bytes × Cty))
  | [], acc => .ok acc
  | e :: m, acc => exprP env ref e (fun k v => exprO env ref m (insertK ltB k v acc))
termination_by structural l => l
/-- L123-131: a key is an `ObjectConsKeyExpr`, never itself a call. -/
def exprP (env : Env) (ref : Funcs) :
    X × X → (Bytes → Cty → Except Fail (List (Bytes × Cty))) → Except Fail (List (Bytes × Cty))
  | (k, x), next => (valueK env none k).bind fun kv => (exprToCty env ref x).bind fun v =>
      (asString kv).bind fun ks => next ks v
termination_by structural p => p
/-- utils/util.go L56-67: the arguments of a Go function. -/
def exprA (env : Env) (ref : Funcs) : List X → Except Fail (List GV)
  | [] => .ok []
  | x :: l => (exprToCty env ref x).bind fun v => (toNative v).bind fun g => (exprA env ref l).map fun gs => g :: gs
termination_by structural l => l
end

/-- utils/tree.go L43-50 of `DefaultTreeFunctions`: what `ref[FUNCTIONS]` is afterwards.  `core` are the functions of
`CoreFunctions(".")` in the order of the iteration.  Storing into a nil map panics. -/
def defaultFuncs (core : GoMap Bytes HclFn) : Funcs → Except Fail Funcs
  | .absent => .ok (.hcl (some core))                                               -- L44-45
  | .hcl none => if core.isEmpty then .ok (.hcl none) else .error .panic            -- L46-49
  | .hcl (some t) => .ok (.hcl (some (core.foldl (fun t e => GoMap.set t e.1 e.2) t)))
  | .native m => .ok (.native m)
  | .other => .ok .other

/-- A cty value as far as utils/util.go L16-35 tells types apart: a string, number or boolean; a list or a map of
these (`none` when null); anything else. -/
inductive TV where
  | scalar (v : Cty)
  | list (l : Option (List Cty))
  | map (m : Option (List (Bytes × Cty)))
  | other (v : Cty)

/-- utils/util.go L15-38 `CtyToExpression`.  `ord` is the order in which L27 visits the map.  `AsValueSlice` and
`AsValueMap` panic on null (external). -/
def ctyToExpr (ord : List (Bytes × Cty) → List (Bytes × Cty)) : TV → Except Fail X
  | .scalar v => .ok (.lit v)                                                       -- L17-18
  | .list none => .error .panic                                                     -- L21
  | .list (some l) => .ok (.tuple (l.map .lit))                                     -- L20-24
  | .map none => .error .panic                                                      -- L27
  | .map (some m) => .ok (.object ((ord m).map fun e => (.lit (.str e.1), .lit e.2)))  -- L26-33
  | .other v => .ok (.lit v)                                                        -- L37

end Verif.Fn
