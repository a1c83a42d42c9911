import Verif.Model.TypedMarks
/-!
# Null, unknown and marked arguments of templatefile

Model of `internal/lang/funcs/filesystem.go` L74-190, `MakeTemplateFileFunc`: what `function.Function.Call` does with its specification for all arguments.
The file, the parser and the evaluation of the template are parameters; `Model/Template` is about them, for known values without marks.

External code, modelled as recalled: that of `Model/TypedMarks`; `cty.Value.AsString` and `AsValueMap`, which panic for marked values; `Call` turns a panic of
`Type` or `Impl` into an error.
-/
namespace Verif.Typed
open Funcs (Mark)

/-- What the template is and does. -/
structure Tmpl where
  X : Type
  /-- internal/lang/funcs/filesystem.go L86-100 for a path without marks: the file is read and parsed. -/
  load : Bytes → Option X
  /-- L107-157: the names and references are checked, and the template evaluated, with variables that have no marks. -/
  eval : X → List (Bytes × V) → Option MV

/-- internal/lang/funcs/filesystem.go L74-84; only `path` has `AllowMarked`. -/
def tfParams : List Param := [{ ty := .str }, { ty := .dyn }]

/-- internal/lang/funcs/filesystem.go L86-100 and L170-171, L182-183: `File` gives its result the marks of the path. -/
def tfLoad (T : Tmpl) (path : MV) : Option T.X :=
  match path.unmark.asString with                                    -- L170, L182
  | none => none
  | some fn =>
    match T.load fn with
    | none => none                                                   -- L90-92, L95-97
    | some x => if path.marks ≠ [] then none else some x             -- L94 `AsString` panics

/-- internal/lang/funcs/filesystem.go L102-158 -/
def tfRender (T : Tmpl) (x : T.X) (vars : MV) : Option MV :=
  match vars with
  | .leaf [] (.map _ m) => T.eval x m                                -- L107-109
  | .leaf [] (.obj m) => T.eval x m
  | _ => none                                                        -- L103-105

/-- internal/lang/funcs/filesystem.go L162-180 -/
def tfType (T : Tmpl) (path vars : MV) : Option Ty :=
  if !(path.strip.known && vars.strip.known) then some .dyn          -- L163-165
  else (tfLoad T path).bind fun x => (tfRender T x vars).map MV.ty   -- L171-179

/-- internal/lang/funcs/filesystem.go L181-189 -/
def tfImpl (T : Tmpl) (path vars : MV) : Option MV :=
  (tfLoad T path).bind fun x => (tfRender T x vars).map fun r => r.withMarks path.marks

/-- `function.Function.Call` of templatefile: `vars` is seen without marks, which are put on the result. -/
def tfCall (T : Tmpl) : List MV → MOut
  | [path, vars] =>
    match checkArgs tfParams none [path.strip, vars.strip] with
    | .err => .err
    | .dyn => .ok (.leaf [] (.unk .dyn))
    | .ok =>
      match tfType T path (.leaf [] vars.strip) with
      | none => .err
      | some t =>
        if blocked tfParams none [path.strip, vars.strip] then .ok (.leaf vars.deep (.unk t))
        else match tfImpl T path (.leaf [] vars.strip) with
          | none => .err
          | some r =>
            let v := r.withMarks vars.deep
            if cmp true t v.ty then .ok v else .broken
  | _ => .err

end Verif.Typed
