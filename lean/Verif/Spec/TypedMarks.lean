import Verif.Model.TypedMarks
/-!
# What marks promise

Independent of the functions of the model, except for the marks, the value and the type of a value.
-/
namespace Verif.Typed
open Funcs (Mark sensitiveMark)

/-- `Carries m v`: the value `v` or a part of it, at any depth, has the mark `m`. -/
inductive Carries (m : Mark) : MV → Prop
  | here {v : MV} : m ∈ v.marks → Carries m v
  | list {ms : List Mark} {e : Ty} {l : List MV} {v : MV} : v ∈ l → Carries m v → Carries m (.list ms e l)
  | map {ms : List Mark} {e : Ty} {l : List (Bytes × MV)} {p : Bytes × MV} : p ∈ l → Carries m p.2 → Carries m (.map ms e l)
  | tup {ms : List Mark} {l : List MV} {v : MV} : v ∈ l → Carries m v → Carries m (.tup ms l)
  | obj {ms : List Mark} {l : List (Bytes × MV)} {p : Bytes × MV} : p ∈ l → Carries m p.2 → Carries m (.obj ms l)

/-- `Same m v w`: who must not see what is marked with `m` cannot tell `v` from `w`.  Both are marked, or they are alike except for marked parts. -/
inductive Same (m : Mark) : MV → MV → Prop
  | hidden {v w : MV} : m ∈ v.marks → m ∈ w.marks → Same m v w
  | leaf (ms : List Mark) (v : V) : Same m (.leaf ms v) (.leaf ms v)
  | list (ms : List Mark) (e : Ty) {l l' : List MV} (len : l.length = l'.length)
      (each : ∀ (i : Nat) (v v' : MV), l[i]? = some v → l'[i]? = some v' → Same m v v') : Same m (.list ms e l) (.list ms e l')
  | map (ms : List Mark) (e : Ty) {l l' : List (Bytes × MV)} (names : l.map (·.1) = l'.map (·.1))
      (each : ∀ (i : Nat) (p p' : Bytes × MV), l[i]? = some p → l'[i]? = some p' → Same m p.2 p'.2) : Same m (.map ms e l) (.map ms e l')
  | tup (ms : List Mark) {l l' : List MV} (len : l.length = l'.length)
      (each : ∀ (i : Nat) (v v' : MV), l[i]? = some v → l'[i]? = some v' → Same m v v') : Same m (.tup ms l) (.tup ms l')
  | obj (ms : List Mark) {l l' : List (Bytes × MV)} (names : l.map (·.1) = l'.map (·.1))
      (each : ∀ (i : Nat) (p p' : Bytes × MV), l[i]? = some p → l'[i]? = some p' → Same m p.2 p'.2) : Same m (.obj ms l) (.obj ms l')

/-- `Same` for lists of arguments; marks do not hide types. -/
def SameAll (m : Mark) (l l' : List MV) : Prop :=
  l.length = l'.length ∧ ∀ (i : Nat) (v v' : MV), l[i]? = some v → l'[i]? = some v' → Same m v v' ∧ v.ty = v'.ty

/-- What is assumed of `convert.Convert` for values with marks: it converts the value as if there were no marks; no mark is new; the marks of the value
itself stay; values that differ in marked parts only become such values. -/
structure MConv.Ok (x : Ext) (conv : MConv) : Prop where
  strip : ∀ v t, (conv v t).map MV.strip = x.conv v.strip t
  old : ∀ a v t r, conv v t = some r → Carries a r → Carries a v
  kept : ∀ a v t r, conv v t = some r → a ∈ v.marks → a ∈ r.marks
  same : ∀ a v v' t r r', Same a v v' → v.ty = v'.ty → conv v t = some r → conv v' t = some r' → Same a r r'

/-- What the arguments need for the result of a function to hide what they hide: those with which `Call` gives up early are known; for functions that do not
deal with marks on their own it is enough that the types are. -/
def Ready (f : MFn) (args : List MV) : Prop :=
  ∀ (i : Nat) (v : MV), args[i]? = some v → match f with
    | .fn .length | .fn .coalesce | .fn .typ | .fn .list | .fn .map | .sensitive | .nonsensitive => True
    | .fn .lookup => i < 2 → v.strip.known = true
    | .fn (.to _) => v.strip.known = true
    | _ => v.strip ≠ .unk .dyn

/-- What is left of the end of a call without the marks. -/
def MOut.strip : MOut → Out
  | .ok v => .ok v.strip
  | .err => .err
  | .broken => .broken
  | .panic => .panic

/-- The marks that a function adds on its own. -/
def adds : MFn → Mark → Prop
  | .fn .typ, a => a = b "TypeType"
  | .sensitive, a => a = b "Sensitive"
  | _, _ => False

end Verif.Typed
