import Verif.Model.Scalars
import Verif.Spec.TypedMarks
import Verif.Spec.Typed
/-!
# What is asked of the functions on strings, numbers, files, times and addresses

Independent of the specifications of the functions in the model.
-/
namespace Verif.Typed
open Funcs (Mark)

/-- The types of the results, from the documentation of the functions. -/
def SFn.result : SFn → Ty
  | .cidrsubnets => .list .str
  | .fileset => .set .str
  | .fileexists | .startswith | .endswith | .strcontains => .bool
  | .timecmp | .log | .pow | .signum | .parseint => .num
  | _ => .str

/-- The types of the arguments, from the documentation of the functions: those that must be there, and the type of any more. -/
def SFn.takes : SFn → List Ty × Option Ty
  | .uuid | .timestamp | .staticTimestamp => ([], none)
  | .cidrhost | .parseint => ([.str, .num], none)
  | .cidrsubnet => ([.str, .num, .num], none)
  | .cidrsubnets | .bcrypt => ([.str], some .num)
  | .uuidv5 | .rsadecrypt | .timeadd | .timecmp | .textencodebase64 | .textdecodebase64 | .fileset | .startswith | .endswith | .strcontains =>
    ([.str, .str], none)
  | .log | .pow => ([.num, .num], none)
  | .signum => ([.num], none)
  | .replace => ([.str, .str, .str], none)
  | _ => ([.str], none)

/-- The type that the argument at a position must have. -/
def SFn.takesAt (f : SFn) (i : Nat) : Option Ty :=
  match f.takes.1[i]? with
  | some t => some t
  | none => f.takes.2

/-- The number of arguments is right, and each is a value, known or not, of the type that the function takes. -/
structure Suits (f : SFn) (args : List MV) : Prop where
  enough : f.takes.1.length ≤ args.length
  typed : ∀ (i : Nat) (v : MV), args[i]? = some v → f.takesAt i = some v.ty
  given : ∀ v ∈ args, v.strip.isNull = false

/-- The functions that deal with marks on their own. -/
def SFn.own : SFn → Bool
  | .base64decode | .file | .filebase64 | .fileexists | .fileset | .parseint => true
  | _ => false

/-- What is assumed of `Impl`: a result is a known or unknown value of the type that is announced. -/
def Run.Ok (run : Run) : Prop := ∀ f l v, run f l = some v → v.ty = f.result ∧ v.isNull = false

end Verif.Typed
