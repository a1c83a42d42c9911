import Mathlib.Data.List.Forall2
import Verif.Model.Call
/-!
# What an expression with calls denotes

The meaning of an expression, given the meaning `F` of the functions: it does not depend on where in the expression a
call occurs.
-/
namespace Verif.Fn
open Verif.Hcl

/-- The last entry for a key. -/
def lastOf {α : Type} (k : Bytes) : List (Bytes × α) → Option α
  | [] => none
  | e :: l => (lastOf k l).or (if e.1 = k then some e.2 else none)

/-- The object with the given members, later ones replacing earlier ones: sorted, with the right entry for each
key. -/
def IsObj (es r : List (Bytes × Cty)) : Prop :=
  r.Pairwise (fun x y => Det.ltB x.1 y.1 = true) ∧ ∀ k, GoMap.get? r k = lastOf k es

mutual
/-- The value of an expression; `F n args v`: function `n` applied to `args` gives `v`. -/
inductive Den (env : Env) (F : Bytes → List Cty → Cty → Prop) : X → Cty → Prop
  | lit {v} : Den env F (.lit v) v
  | var {n v} : GoMap.get? env.vars n = some v → Den env F (.var n) v
  | tuple {l vs} : DenL env F l vs → Den env F (.tuple l) (.tuple vs)
  | object {m es r} : DenO env F m es → IsObj es r → Den env F (.object m) (.object r)
  | call {n args vs v} : DenL env F args vs → F n vs v → Den env F (.call n args) v
  | op {o args vs v} : DenL env F args vs → env.sem o vs = some v → Den env F (.op o args) v
/-- The values of a list of expressions. -/
inductive DenL (env : Env) (F : Bytes → List Cty → Cty → Prop) : List X → List Cty → Prop
  | nil : DenL env F [] []
  | cons {x v l vs} : Den env F x v → DenL env F l vs → DenL env F (x :: l) (v :: vs)
/-- The members of an object. -/
inductive DenO (env : Env) (F : Bytes → List Cty → Cty → Prop) : List (X × X) → List (Bytes × Cty) → Prop
  | nil : DenO env F [] []
  | cons {k x s v m es} : DenK env F k s → Den env F x v → DenO env F m es → DenO env F ((k, x) :: m) ((s, v) :: es)
/-- A key: a bare name is itself, anything else is converted to a string. -/
inductive DenK (env : Env) (F : Bytes → List Cty → Cty → Prop) : X → Bytes → Prop
  | name {n s} : env.keyStr (.str n) = some s → DenK env F (.var n) s
  | expr {x v s} : (∀ n, x ≠ .var n) → Den env F x v → env.keyStr v = some s → DenK env F x s
end

/-- What a Go function with the results `outs` gives: the first `error` among the results must be nil; the value is
that of the first other result, an empty object when there is none. -/
inductive Gives (nfc : Bytes → Bytes) : List OutV → Cty → Prop
  | none : Gives nfc [] (.object [])
  | error : Gives nfc [.error none] (.object [])
  | first {v rest} : (∀ pre e post, rest = pre ++ e :: post → (∀ o ∈ pre, ∃ w, o = .val w) →
      (∃ w, e = .val w) ∨ e = .error none) → Gives nfc (.val v :: rest) (nativeToCty nfc v)
  | second {v rest} : Gives nfc (.error none :: .val v :: rest) (nativeToCty nfc v)
  | errors {rest} : Gives nfc (.error none :: .error none :: rest) (.object [])

/-- A Go function called with the native forms of the arguments. -/
def GoCalls (nfc : Bytes → Bytes) (f : GoFn) (args : List Cty) (v : Cty) : Prop :=
  ∃ gs outs, List.Forall₂ (fun a g => ctyToNative a = .ok g ∧ g ≠ .nil) args gs ∧
    List.Forall₂ (fun p g => p g = true) f.params gs ∧ f.run gs = some outs ∧ Gives nfc outs v

/-- What the functions given by the caller mean; `null()` is built in. -/
def Means (nfc : Bytes → Bytes) : Funcs → Bytes → List Cty → Cty → Prop
  | .absent, _, _, _ => False
  | .hcl m, n, args, v => ∃ t f, m = some t ∧ GoMap.get? t n = some f ∧ f args = some v
  | .native m, n, args, v => ∃ f, GoMap.get? m n = some (.fn f) ∧ n ≠ [] ∧ GoCalls nfc f args v
  | .other, _, _, _ => False

mutual
/-- The names of all functions called anywhere satisfy `P`. -/
def CallsOnly (P : Bytes → Prop) : X → Prop
  | .lit _ => True
  | .var _ => True
  | .tuple l => CallsOnlyL P l
  | .object m => CallsOnlyO P m
  | .call n args => P n ∧ CallsOnlyL P args
  | .op _ args => CallsOnlyL P args
termination_by structural x => x
def CallsOnlyL (P : Bytes → Prop) : List X → Prop
  | [] => True
  | x :: l => CallsOnly P x ∧ CallsOnlyL P l
termination_by structural l => l
def CallsOnlyO (P : Bytes → Prop) : List (X × X) → Prop
  | [] => True
  | e :: m => CallsOnlyP P e ∧ CallsOnlyO P m
termination_by structural m => m
def CallsOnlyP (P : Bytes → Prop) : X × X → Prop
  | (k, x) => CallsOnly P k ∧ CallsOnly P x
termination_by structural p => p
end

/-- No call anywhere. -/
abbrev CallFreeL (l : List X) : Prop := CallsOnlyL (fun _ => False) l

/-- A key that is a bare name or a string. -/
inductive PlainKey : X → Prop
  | name {n} : PlainKey (.var n)
  | str {s} : PlainKey (.lit (.str s))

mutual
/-- Calls only where the code finds them: not below an operator.  `deep` tells whether the arguments of calls are
restricted in the same way (Go functions). -/
def Top (deep : Bool) : X → Prop
  | .lit _ => True
  | .var _ => True
  | .tuple l => TopL deep l
  | .object m => TopO deep m
  | .call n args => n ≠ b "null" ∧ (deep = true → TopL deep args)
  | .op _ args => CallFreeL args
termination_by structural x => x
def TopL (deep : Bool) : List X → Prop
  | [] => True
  | x :: l => Top deep x ∧ TopL deep l
termination_by structural l => l
def TopO (deep : Bool) : List (X × X) → Prop
  | [] => True
  | e :: m => TopP deep e ∧ TopO deep m
termination_by structural m => m
def TopP (deep : Bool) : X × X → Prop
  | (k, x) => PlainKey k ∧ Top deep x
termination_by structural p => p
end

/-- Somewhere in the expression a registered Go function panics on the native forms of its arguments. -/
inductive PanicIn (env : Env) (m : GoMap Bytes NativeFn) : X → Prop
  | here {n args f gs} : GoMap.get? m n = some f →
      List.Forall₂ (fun x g => ∃ v, exprToCty env (.native m) x = .ok v ∧ ctyToNative v = .ok g) args gs →
      callGo env.nfc f gs = .error .panic → PanicIn env m (.call n args)
  | arg {n args x} : x ∈ args → PanicIn env m x → PanicIn env m (.call n args)
  | tuple {l x} : x ∈ l → PanicIn env m x → PanicIn env m (.tuple l)
  | object {o e} : e ∈ o → PanicIn env m e.2 → PanicIn env m (.object o)

/-- The data of a value, without its type. -/
def TV.data : TV → Cty
  | .scalar v => v
  | .list none => .null
  | .list (some l) => .tuple l
  | .map none => .null
  | .map (some m) => .object m
  | .other v => v

/-- A map as it is stored. -/
def TV.Stored : TV → Prop
  | .map (some m) => m.Pairwise (fun x y => Det.ltB x.1 y.1 = true)
  | _ => True
end Verif.Fn
