import Verif.Model.Go
/-!
# Model of `utils/common.go`: building specifications

`SVal` is the universe of Go values a caller can pass as `interface{}`; `Struct` and
`Value` are the protobuf messages of `utils/determined.pb.go`.
-/

namespace Verif.Spec

mutual
/-- utils/determined.pb.go L23-30 `Struct`: class name and `Fields`
(`none` = the nil map).  protobuf bookkeeping fields are omitted. -/
inductive Struct where
  | mk (className : Bytes) (fields : Option (List (Bytes × Value)))
/-- utils/determined.pb.go L78-92 `Value`, a oneof of four kinds (L165-179).
Simplification: the pointers inside (`*Struct`, `*MapStruct`) are non-nil. -/
inductive Value where
  | single (s : Struct)
  | list (l : List Struct)
  | map (m : List (Bytes × Struct))
  | map2 (m : List (Bytes × List (Bytes × Struct)))
end

/-- utils/determined.pb.go L64-69 `GetClassName`. -/
def Struct.className : Struct → Bytes | .mk c _ => c
/-- utils/determined.pb.go L71-76 `GetFields` (`none` is the nil map). -/
def Struct.fields : Struct → Option (List (Bytes × Value)) | .mk _ f => f

mutual
/-- The Go values a specification can be written with (`interface{}` arguments of
`NewValue`, utils/common.go L58-98).  `other` stands for a value of any other Go type,
`hash` for `map[string]interface{}`, `nil` for the nil interface. -/
inductive SVal where
  | nil
  | str (s : Bytes)
  | pair (p : SPair)
  | strs (l : List Bytes)
  | pairs (l : List SPair)
  | mapStr (m : List (Bytes × Bytes))
  | mapPair (m : List (Bytes × SPair))
  | map2Str (m : List ((Bytes × Bytes) × Bytes))
  | map2Pair (m : List ((Bytes × Bytes) × SPair))
  | struct (s : Struct)
  | structs (l : List Struct)
  | mapStruct (m : List (Bytes × Struct))
  | map2Struct (m : List (Bytes × List (Bytes × Struct)))
  | hash (m : List (Bytes × SVal))
  | other (typeName : Bytes)
/-- A Go `[2]interface{}`. -/
inductive SPair where
  | mk (fst snd : SVal)
end

/-- The errors of utils/common.go (L101, L116, L130, L138). -/
inductive SpecErr where
  | invalidType | badUtf8 | classNotString | secondNotMap
  deriving DecidableEq, Repr

/-- A loop `for .. { x, err := f(u); if err != nil { return err }; .. }` collecting the
results in order. -/
def collectM {α β ε : Type} (f : α → Except ε β) : List α → Except ε (List β)
  | [] => .ok []
  | a :: l =>
    match f a with
    | .error e => .error e
    | .ok y =>
      match collectM f l with
      | .error e => .error e
      | .ok ys => .ok (y :: ys)

section open_recursion
-- The recursive call to `NewValue` made by `NewStruct`.
variable (newValue : SVal → Except SpecErr Value)

/-- utils/common.go L115-122: the body of the loop of `NewStruct` for one field. -/
def fieldEntry (e : Bytes × SVal) : Except SpecErr (Bytes × Value) :=
  if utf8Valid e.1 then
    match newValue e.2 with
    | .error er => .error er
    | .ok v => .ok (e.1, v)
  else .error .badUtf8

/-- utils/common.go L107-125 `NewStruct(name, v...)`.  `none` models the call without a
second argument, `some m` the call with a map (a nil map behaves as the empty one).
The loop runs in iteration order and returns the first error. Calls with more than
one map use only the first, as L114 does; they are not made in this file. -/
def newStruct (name : Bytes) : Option (List (Bytes × SVal)) → Except SpecErr Struct
  | none => .ok (.mk name none)
  | some m =>
    match collectM (fieldEntry newValue) m with
    | .error e => .error e
    | .ok fs => .ok (.mk name (some fs))

/-- utils/common.go L127-142 `newSingleStruct`. -/
def newSingleStruct : SPair → Except SpecErr Struct
  | .mk (.str name) .nil => newStruct newValue name none
  | .mk (.str name) (.hash m) => newStruct newValue name (some m)
  | .mk (.str _) _ => .error .secondNotMap
  | .mk _ _ => .error .classNotString

/-- utils/common.go L144-154 `newListStruct`. -/
def newListStruct (v : List SPair) : Except SpecErr (List Struct) :=
  collectM (newSingleStruct newValue) v

/-- utils/common.go L160-163: the body of the loop of `newMapStruct`. -/
def mapEntry (e : Bytes × SPair) : Except SpecErr (Bytes × Struct) :=
  match newSingleStruct newValue e.2 with
  | .error er => .error er
  | .ok s => .ok (e.1, s)

/-- utils/common.go L156-166 `newMapStruct`. -/
def newMapStruct (v : List (Bytes × SPair)) : Except SpecErr (List (Bytes × Struct)) :=
  collectM (mapEntry newValue) v

/-- utils/common.go L168-179 `newMap2Struct`: for every entry a one-element map is built
and stored at `x[i[0]]`, replacing what is already there. `acc` is the map `x`. -/
def newMap2Struct (acc : List (Bytes × List (Bytes × Struct))) :
    List ((Bytes × Bytes) × SPair) → Except SpecErr (List (Bytes × List (Bytes × Struct)))
  | [] => .ok acc
  | (i, u) :: v =>
    match newMapStruct newValue [(i.2, u)] with
    | .error e => .error e
    | .ok ms => newMap2Struct (GoMap.set acc i.1 ms) v

/-- utils/common.go L26-102 `NewValue`, with its recursive call as a parameter. -/
def newValueStep : SVal → Except SpecErr Value
  -- L59-61
  | .str t => (newSingleStruct newValue (.mk (.str t) .nil)).map .single
  -- L62-63
  | .pair p => (newSingleStruct newValue p).map .single
  -- L64-69
  | .strs l => (newListStruct newValue (l.map fun u => .mk (.str u) .nil)).map .list
  -- L70-71
  | .pairs l => (newListStruct newValue l).map .list
  -- L72-77
  | .mapStr m => (newMapStruct newValue (m.map fun e => (e.1, .mk (.str e.2) .nil))).map .map
  -- L78-79
  | .mapPair m => (newMapStruct newValue m).map .map
  -- L80-85
  | .map2Str m =>
    (newMap2Struct newValue [] (m.map fun e => (e.1, .mk (.str e.2) .nil))).map .map2
  -- L86-87
  | .map2Pair m => (newMap2Struct newValue [] m).map .map2
  -- L88-98
  | .struct s => .ok (.single s)
  | .structs l => .ok (.list l)
  | .mapStruct m => .ok (.map m)
  | .map2Struct m => .ok (.map2 m)
  -- L99-101
  | .nil => .error .invalidType
  | .hash _ => .error .invalidType
  | .other _ => .error .invalidType

end open_recursion

mutual
/-- Nesting depth of a specification value: bounds the recursion of `NewValue`.
(Not in the code; only used to make the model a total function.) -/
def SVal.depth : SVal → Nat
  | .pair p => p.depth
  | .pairs l => SPair.depthList l
  | .mapPair m => SPair.depthMap m
  | .map2Pair m => SPair.depthMap2 m
  | .hash m => SVal.depthMap m + 1
  | _ => 0
/-- See `SVal.depth`. -/
def SPair.depth : SPair → Nat
  | .mk a b => max a.depth b.depth
/-- See `SVal.depth`. -/
def SPair.depthList : List SPair → Nat
  | [] => 0
  | p :: l => max p.depth (SPair.depthList l)
/-- See `SVal.depth`. -/
def SPair.depthMap : List (Bytes × SPair) → Nat
  | [] => 0
  | (_, p) :: l => max p.depth (SPair.depthMap l)
/-- See `SVal.depth`. -/
def SPair.depthMap2 : List ((Bytes × Bytes) × SPair) → Nat
  | [] => 0
  | (_, p) :: l => max p.depth (SPair.depthMap2 l)
/-- See `SVal.depth`. -/
def SVal.depthMap : List (Bytes × SVal) → Nat
  | [] => 0
  | (_, v) :: l => max v.depth (SVal.depthMap l)
end

/-- `NewValue` with the recursion cut after `n` nested calls. -/
def newValueN : Nat → SVal → Except SpecErr Value
  | 0, _ => .error .invalidType
  | n + 1, v => newValueStep (newValueN n) v

/-- utils/common.go L26-102 `NewValue`.  `newValue_eq` below (Lemmas/Spec) shows
that the recursion bound is never reached:
`newValue v = newValueStep newValue v`. -/
def newValue (v : SVal) : Except SpecErr Value := newValueN (v.depth + 1) v

/-- utils/common.go L107-125, the exported `NewStruct`. -/
def NewStruct (name : Bytes) (v : Option (List (Bytes × SVal))) : Except SpecErr Struct :=
  newStruct newValue name v

end Verif.Spec
