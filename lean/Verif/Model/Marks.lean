import Verif.Model.Text
/-!
# Model of `internal/lang/marks/marks.go`: marks of values and of what they contain

A cty value as far as marks go: the marks of the value itself and the values it contains.  Values that are null or
unknown, and strings, numbers and booleans contain none; the elements of a set carry no marks (cty gives these to the
set).
-/

namespace Verif.Text
open Verif.Funcs

/-- A cty value: its marks, and the elements or attributes it contains, in the order of `ElementIterator`. -/
inductive MVal where
  | mk (marks : List Mark) (parts : List MVal)

/-- The marks of the value itself, without those of its parts. -/
def MVal.marks : MVal → List Mark | .mk ms _ => ms
/-- The values directly in the value. -/
def MVal.parts : MVal → List MVal | .mk _ ps => ps

mutual
/-- `cty.Walk` (external, recalled), for a callback that never fails: the callback sees a value with its marks; the parts
are visited if it says so.  `σ` are the variables of the callback. -/
def walk {σ : Type} (cb : MVal → σ → Bool × σ) : MVal → σ → σ
  | .mk ms ps, s =>
    match cb (.mk ms ps) s with
    | (false, s') => s'
    | (true, s') => walkL cb ps s'
/-- The loop of `walk` over the parts of a value. -/
def walkL {σ : Type} (cb : MVal → σ → Bool × σ) : List MVal → σ → σ
  | [], s => s
  | p :: ps, s => walkL cb ps (walk cb p s)
end

/-- internal/lang/marks/marks.go L20-22 `Has`. -/
def hasMark (v : MVal) (m : Mark) : Bool := v.marks.contains m

/-- internal/lang/marks/marks.go L26-36 `Contains`: the state is the variable `ret`. -/
def containsMark (v : MVal) (m : Mark) : Bool :=
  walk (fun v ret => if hasMark v m then (false, true) else (true, ret)) v false

mutual
/-- The marks that `UnmarkDeep` takes off (internal/lang/funcs/conversion.go L68): those of the value and of all its
parts. -/
def MVal.deepMarks : MVal → List Mark
  | .mk ms ps => ms ++ MVal.deepMarksL ps
/-- The marks of the values of a list, at any depth. -/
def MVal.deepMarksL : List MVal → List Mark
  | [] => []
  | p :: ps => p.deepMarks ++ MVal.deepMarksL ps
end

mutual
/-- `UnmarkDeep` (external, recalled), called in internal/lang/funcs/conversion.go L68. -/
def MVal.unmarkDeep : MVal → MVal
  | .mk _ ps => .mk [] (MVal.unmarkDeepL ps)
/-- `unmarkDeep` of all values of a list. -/
def MVal.unmarkDeepL : List MVal → List MVal
  | [] => []
  | p :: ps => p.unmarkDeep :: MVal.unmarkDeepL ps
end

end Verif.Text
