import Verif.Model.Call
import Verif.Model.File
/-!
# templatefile

Model of `internal/lang/funcs/filesystem.go` L59-190 `MakeTemplateFileFunc`, on known arguments; `function.Call` evaluates
the template twice, for the type and for the value, which is the same here.

External code: `hclsyntax.ParseTemplate` is a parameter; evaluation is as in `Model/Call`; `hclsyntax.ValidIdentifier` is a
parameter; `cty.Value.AsString` panics on a marked value, and `function.Call` turns a panic into an error.
-/
namespace Verif.Template
open Verif.Fn Verif.Hcl Verif.Funcs Verif.File

mutual
/-- `Expression.Variables`: the names of all variables.  A key of an object that is a bare name is not a variable. -/
def exprVars : X → List Bytes
  | .lit _ => []
  | .var n => [n]
  | .tuple l => exprVarsL l
  | .object m => exprVarsO m
  | .call _ args => exprVarsL args
  | .op _ args => exprVarsL args
termination_by structural x => x
def exprVarsL : List X → List Bytes
  | [] => []
  | x :: l => exprVars x ++ exprVarsL l
termination_by structural l => l
def exprVarsO : List (X × X) → List Bytes
  | [] => []
  | e :: m => exprVarsP e ++ exprVarsO m
termination_by structural m => m
def exprVarsP : X × X → List Bytes
  | (k, x) => exprVarsK k ++ exprVars x
termination_by structural p => p
def exprVarsK : X → List Bytes
  | .var _ => []
  | .lit _ => []
  | .tuple l => exprVarsL l
  | .object m => exprVarsO m
  | .call _ args => exprVarsL args
  | .op _ args => exprVarsL args
termination_by structural x => x
end

/-- internal/lang/funcs/filesystem.go L138 -/
def isSelf (n : Bytes) : Bool := decide (n = b "templatefile") || decide (n = b "core::templatefile")

/-- internal/lang/funcs/filesystem.go L135-150: the functions for the template.  The stub always fails. -/
def stubbed : GoMap Bytes HclFn → GoMap Bytes HclFn
  | [] => []
  | (n, f) :: m => (n, if isSelf n then fun _ => none else f) :: stubbed m

/-- internal/lang/funcs/filesystem.go L86-100 `loadTmpl` -/
def loadTmpl (nfc quote : Bytes → Bytes) (parse : Bytes → Option X) (fs : FS) (home : Option Bytes) (baseDir : Bytes) (path : Marked Bytes) :
    Except Fail X :=
  match file nfc quote fs home baseDir false path with
  | .error _ => .error .err                                          -- L90-92
  | .ok t =>
    if t.marks ≠ [] then .error .err                                 -- L94 `AsString` panics
    else ofOption (parse t.v)                                        -- L94-97

/-- internal/lang/funcs/filesystem.go L102-158 `renderTmpl`.  The environment gives the meaning of the operators; its variables
are not visible in the template. -/
def renderTmpl (valid : Bytes → Bool) (env : Env) (given : GoMap Bytes HclFn) (x : X) (vars : Cty) : Except Fail Cty :=
  match vars with
  | .object m =>
    if !(m.all fun e => valid e.1) then .error .err                                    -- L115-123
    else if !((exprVars x).all fun n => (GoMap.get? m n).isSome) then .error .err      -- L128-133
    else value { env with vars := m } (some (stubbed given)) x                         -- L135-157
  | _ => .error .err                                                                   -- L103-105

/-- internal/lang/funcs/filesystem.go L160-188 -/
def templatefile (nfc quote : Bytes → Bytes) (parse : Bytes → Option X) (valid : Bytes → Bool) (fs : FS) (home : Option Bytes)
    (baseDir : Bytes) (env : Env) (given : GoMap Bytes HclFn) (path : Marked Bytes) (vars : Cty) : Except Fail (Marked Cty) :=
  match loadTmpl nfc quote parse fs home baseDir path with
  | .error e => .error e
  | .ok x => (renderTmpl valid env given x vars).map fun v => ⟨v, path.marks⟩

end Verif.Template
