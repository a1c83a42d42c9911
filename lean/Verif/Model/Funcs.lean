import Verif.Model.Cty
import Verif.Model.Det
/-!
# Functions on collections, strings and marks

Model of `internal/lang/funcs/collection.go`, `string.go`, `sensitive.go` and `redact.go`.

External code, modelled as recalled (it is not on the machine): `function.Function.Call`, which answers for
unknown and null arguments that the parameter does not allow, removes marks that it does not allow and puts
them on the result, and turns panics of an implementation into errors; `stdlib.Equal` (the parameter `eq`,
which may answer with unknown); `convert.Convert` (arguments are given as already converted, or a function is
a parameter); `math/big` addition.

Simplifications: a value is given by what the function looks at, so each function has its own argument types;
types are not represented, except where a test of a type decides the outcome.
-/
namespace Verif.Funcs
open Hcl (rd)
open Det (insertK ltB)

/-- A cty value of some type: unknown, null or a value. -/
inductive K (α : Type) where
  | unk
  | null
  | val (a : α)
deriving DecidableEq

/-- The outcome of a call: an error, or a value that may be unknown or null. -/
abbrev Res (α : Type) := Except Unit (K α)

/-- `!v.IsKnown()` -/
def K.isUnk {α : Type} : K α → Bool
  | .unk => true
  | _ => false

/-- `function.Call` for a parameter without `AllowUnknown` and `AllowNull`. -/
def call {α β : Type} (f : α → Res β) : K α → Res β
  | .null => .error ()
  | .unk => .ok .unk
  | .val a => f a

/-! ## alltrue and anytrue -/

/-- internal/lang/funcs/collection.go L78-92, the loop of `AllTrueFunc`. -/
def allTrueLoop (result : Bool) : List (K Bool) → K Bool
  | [] => .val result
  | .unk :: _ => .unk
  | .null :: _ => .val false
  | .val v :: l => if (result && v) = false then .val false else allTrueLoop (result && v) l

/-- internal/lang/funcs/collection.go L68-94 -/
def allTrue (l : K (List (K Bool))) : Res Bool := call (fun l => .ok (allTrueLoop true l)) l

/-- internal/lang/funcs/collection.go L108-127, the loop of `AnyTrueFunc`. -/
def anyTrueLoop (result hasUnknown : Bool) : List (K Bool) → K Bool
  | [] => if hasUnknown then .unk else .val result
  | .unk :: l => anyTrueLoop result true l
  | .null :: l => anyTrueLoop result hasUnknown l
  | .val v :: l => if (result || v) = true then .val true else anyTrueLoop (result || v) hasUnknown l

/-- internal/lang/funcs/collection.go L98-129 -/
def anyTrue (l : K (List (K Bool))) : Res Bool := call (fun l => .ok (anyTrueLoop false false l)) l

/-! ## Strings -/

/-- `strings.HasPrefix` -/
def hasPrefix (s p : Bytes) : Bool := decide (p.length ≤ s.length) && (s.take p.length == p)

/-- `strings.HasSuffix` -/
def hasSuffix (s p : Bytes) : Bool := decide (p.length ≤ s.length) && (s.drop (s.length - p.length) == p)

/-- `strings.Contains` -/
def containsB : Bytes → Bytes → Bool
  | [], p => p.isEmpty
  | c :: s, p => hasPrefix (c :: s) p || containsB s p

/-- A string argument that may be unknown: then a prefix of it is known (possibly empty). -/
inductive StrArg where
  | known (s : Bytes)
  | null
  | unk (knownPrefix : Bytes)
deriving DecidableEq

/-- internal/lang/funcs/string.go L30-61 -/
def startsWithImpl (str : StrArg) (pre : Bytes) : Res Bool :=
  match str with
  | .null => .error ()
  | .unk knownPrefix =>
    if pre = [] then .ok (.val true)                                        -- L36-39
    else if knownPrefix ≠ [] then                                           -- L40
      if hasPrefix knownPrefix pre then .ok (.val true)                     -- L41-43
      else if pre.length ≤ knownPrefix.length then .ok (.val false)         -- L44-49
      else .ok .unk
    else .ok .unk                                                           -- L51
  | .known s => if hasPrefix s pre then .ok (.val true) else .ok (.val false)

/-- internal/lang/funcs/string.go L16-62; the parameter `str` allows unknown values, `prefix` does not. -/
def startsWith (str : StrArg) (pre : K Bytes) : Res Bool :=
  match str, pre with
  | .null, _ => .error ()
  | _, pre => call (startsWithImpl str) pre

/-- internal/lang/funcs/string.go L66-89 -/
def endsWith (str suffix : K Bytes) : Res Bool :=
  match str, suffix with
  | .null, _ => .error ()
  | _, .null => .error ()
  | .val s, .val p => if hasSuffix s p then .ok (.val true) else .ok (.val false)
  | _, _ => .ok .unk

/-- internal/lang/funcs/string.go L132-154 -/
def strContains (str substr : K Bytes) : Res Bool :=
  match str, substr with
  | .null, _ => .error ()
  | _, .null => .error ()
  | .val s, .val p => if containsB s p then .ok (.val true) else .ok (.val false)
  | _, _ => .ok .unk

/-! ## coalesce, index, matchkeys, one, sum -/

/-- internal/lang/funcs/collection.go L156-173, the implementation of `CoalesceFunc`, on converted arguments; `empty` tells whether the
result type is string and the value the empty string. -/
def coalesce {α : Type} (empty : α → Bool) : List (K α) → Res α
  | [] => .error ()                                         -- L172
  | .unk :: _ => .ok .unk                                   -- L160-162
  | .null :: l => coalesce empty l                          -- L163-165
  | .val a :: l => if empty a then coalesce empty l else .ok (.val a)   -- L166-170

/-- internal/lang/funcs/collection.go L203-216, the loop of `IndexFunc`.  `eq` is `stdlib.Equal`; `eq.True()` of null panics, which
`Call` turns into an error. -/
def indexLoop {α : Type} (eq : α → α → Res Bool) (x : α) (i : Nat) : List α → Res Nat
  | [] => .error ()                                         -- L216
  | v :: l =>
    match eq v x with
    | .error _ => .error ()                                 -- L206-208
    | .ok .null => .error ()
    | .ok .unk => .ok .unk                                  -- L209-211
    | .ok (.val true) => .ok (.val i)                       -- L212-214
    | .ok (.val false) => indexLoop eq x (i + 1) l

/-- internal/lang/funcs/collection.go L177-219; `isList` tells whether the first argument is a list or tuple. -/
def index {α : Type} (eq : α → α → Res Bool) (isList : Bool) (l : K (List α)) (x : K α) : Res Nat :=
  match l, x with
  | .null, _ => .error ()
  | _, .null => .error ()
  | .val l, .val x =>
    if isList = false then .error ()                        -- L191-193
    else if l.length = 0 then .error ()                     -- L199-201
    else indexLoop eq x 0 l
  | _, _ => .ok .unk

/-- internal/lang/funcs/collection.go L386-400, the loop over the search set: whether it finds the key, unknown at the first
comparison that is unknown. -/
def searchLoop {β : Type} (eq : β → β → Res Bool) (key : β) : List β → Res Bool
  | [] => .ok (.val false)
  | s :: l =>
    match eq key s with
    | .error _ => .error ()                                 -- L389-391
    | .ok .null => .error ()
    | .ok .unk => .ok .unk                                  -- L392
    | .ok (.val true) => .ok (.val true)                    -- L395-398
    | .ok (.val false) => searchLoop eq key l

/-- internal/lang/funcs/collection.go L383-408, the loop over the keys with the values at the same positions; `output` is what
has been collected. -/
def matchLoop {α β : Type} (eq : β → β → Res Bool) (search : List β) (output : List α) :
    List α → List β → Res (List α)
  | v :: vs, k :: ks =>
    match searchLoop eq k search with
    | .error _ => .error ()
    | .ok .null => .error ()
    | .ok .unk => .ok (.val [])                             -- L392-394
    | .ok (.val true) => matchLoop eq search (output ++ [v]) vs ks
    | .ok (.val false) => matchLoop eq search output vs ks
  | _, _ => .ok (.val output)                               -- L404-408

/-- internal/lang/funcs/collection.go L330-410, on keys and search set already of one type; `wk`, `wk'` tell whether a value is
wholly known. -/
def matchkeys {α β : Type} (eq : β → β → Res Bool) (wk : α → Bool) (wk' : β → Bool)
    (values : K (List α)) (keys search : K (List β)) : Res (List α) :=
  match values, keys, search with
  | .null, _, _ => .error ()
  | _, .null, _ => .error ()
  | _, _, .null => .error ()
  | .val values, .val keys, .val search =>
    if values.length ≠ keys.length then .error ()           -- L360-362
    else if search.length = 0 then .ok (.val [])            -- L375-377
    else if !(values.all wk) || !(keys.all wk') then .ok .unk   -- L379-381
    else matchLoop eq search [] values keys
  | _, _, _ => .ok .unk

/-- internal/lang/funcs/collection.go L414-487 on a list, or a set of known length.  A tuple of two or more elements is refused by
its type (L437), so even when it is unknown; that case is not represented. -/
def one {α : Type} (l : K (List (K α))) : Res α :=
  call (fun l => match l with
    | [] => .ok .null                                       -- L462-463
    | [v] => .ok v                                          -- L464-473
    | _ => .error ()) l                                     -- L485

/-- A `big.Float`: its value and its precision in bits (infinities are not represented). -/
structure BF where
  val : Rat
  prec : Nat
deriving DecidableEq

/-- `cty.Value.Add`: `new(big.Float).Add(x, y)`, which takes the larger precision and rounds. -/
def BF.add (x y : BF) : BF := ⟨rd (max x.prec y.prec) (x.val + y.val), max x.prec y.prec⟩

/-- internal/lang/funcs/collection.go L544-555, the loop of `SumFunc`; `none` is a value that cannot be converted to a number. -/
def sumLoop (s : BF) : List (K (Option BF)) → Res BF
  | [] => .ok (.val s)
  | .val (some x) :: l => sumLoop (s.add x) l
  | _ :: _ => .error ()

/-- internal/lang/funcs/collection.go L491-557; `isSeq` tells whether the argument is a list, set or tuple.  Infinities, and unknown
values inside an element, are not represented. -/
def sum (isSeq : Bool) (l : K (List (K (Option BF)))) : Res BF :=
  call (fun l =>
    if l.length = 0 then .error ()                          -- L506-508
    else if isSeq = false then .error ()                    -- L513-515
    else if l.any K.isUnk then .ok .unk   -- L517-519
    else match l with
      | .val (some x) :: l => sumLoop x l
      | _ => .error ()) l                                   -- L536-543

/-! ## transpose -/

/-- Insertion into a sorted list of strings. -/
def insB (x : Bytes) : List Bytes → List Bytes
  | [] => [x]
  | y :: l => if ltB y x then y :: insB x l else x :: y :: l

/-- `sort.Strings` -/
def sortB : List Bytes → List Bytes
  | [] => []
  | x :: l => insB x (sortB l)

/-- internal/lang/funcs/collection.go L581-595, the loop over the list of one key. -/
def transposeInner (inKey : Bytes) : List (K Bytes) → GoMap Bytes (List Bytes) → Option (GoMap Bytes (List Bytes))
  | [], tmp => some tmp
  | .val outKey :: l, tmp =>
    transposeInner inKey l (insertK ltB outKey (sortB ((GoMap.get? tmp outKey).getD [] ++ [inKey])) tmp)
  | _ :: _, _ => none                                       -- `AsString` of null panics

/-- internal/lang/funcs/collection.go L579-596, the loop over the map. -/
def transposeLoop : GoMap Bytes (K (List (K Bytes))) → GoMap Bytes (List Bytes) → Option (GoMap Bytes (List Bytes))
  | [], tmp => some tmp
  | (inKey, .val inVal) :: m, tmp => (transposeInner inKey inVal tmp).bind (transposeLoop m)
  | _ :: _, _ => none                                       -- iterating null panics

/-- Whether an unknown value is in the map. -/
def hasUnk (m : GoMap Bytes (K (List (K Bytes)))) : Bool :=
  m.any fun e => match e.2 with
    | .unk => true
    | .null => false
    | .val l => l.any K.isUnk

/-- internal/lang/funcs/collection.go L561-612 -/
def transpose (m : K (GoMap Bytes (K (List (K Bytes))))) : Res (GoMap Bytes (List Bytes)) :=
  call (fun m =>
    if hasUnk m then .ok .unk                               -- L572-574
    else match transposeLoop m [] with
      | none => .error ()
      | some out => .ok (.val out)) m

/-! ## Marks -/

/-- A mark; `marks.Sensitive` is `sensitiveMark`. -/
abbrev Mark := Bytes

/-- internal/lang/marks/marks.go L40 -/
def sensitiveMark : Mark := b "Sensitive"

/-- A value with the marks that are on the value itself. -/
structure Marked (α : Type) where
  v : α
  marks : List Mark
deriving DecidableEq

/-- `cty.Value.WithMarks` -/
def Marked.withMarks {α : Type} (x : Marked α) (ms : List Mark) : Marked α := ⟨x.v, x.marks ++ ms⟩

/-- internal/lang/funcs/sensitive.go L31-32 -/
def sensitive {α : Type} (x : Marked α) : Marked α := ⟨x.v, [sensitiveMark]⟩

/-- internal/lang/funcs/sensitive.go L55-57 -/
def nonsensitive {α : Type} (x : Marked α) : Marked α := ⟨x.v, x.marks.filter (· ≠ sensitiveMark)⟩

/-- internal/lang/funcs/redact.go L13-23 `redactIfSensitive`; `quote` is `fmt.Sprintf("%q", value)`. -/
def redactIfSensitive (quote : Bytes → Bytes) (value : Bytes) (markses : List (List Mark)) : Bytes :=
  if markses.any (fun ms => decide (sensitiveMark ∈ ms)) then b "(sensitive value)" else quote value

/-- What `lookup` returns: a value, an unknown value (nothing is said of its marks, which `Call` decides) or an
error with its message. -/
inductive LookupRes (α : Type) where
  | ok (x : Marked α)
  | unk
  | err (msg : Bytes)
deriving DecidableEq

/-- internal/lang/funcs/collection.go L222-325 `LookupFunc` for two or three arguments.  `isObj` tells whether the first argument is
an object (else it is a map), `conv` converts to the type of the map elements.  The checks of `Type` on an
unknown map or object are not represented. -/
def lookup {α : Type} (quote : Bytes → Bytes) (conv : α → Option α) (isObj : Bool)
    (m : Marked (K (GoMap Bytes (Marked α)))) (key : Marked (K Bytes)) (dflt : Option (Marked α)) : LookupRes α :=
  match m.v, key.v with
  | .null, _ => .err (b "null")
  | _, .null => .err (b "null")
  | .val mv, .val k =>
    if isObj = true then
      match GoMap.get? mv k with
      | some x => .ok (x.withMarks (m.marks ++ key.marks))                     -- L306-309
      | none =>
        match dflt with
        | none => .err (b "the given object has no attribute " ++ quote k)     -- L265, not redacted
        | some d => .ok (d.withMarks (m.marks ++ key.marks))                   -- L314-320
    else
      match dflt.map (fun d => conv d.v) with
      | some none => .err (b "the default value must have the same type as the map elements")   -- L267-271
      | cd =>
        match GoMap.get? mv k with
        | some x => .ok (x.withMarks (m.marks ++ key.marks))                   -- L310-312
        | none =>
          match dflt, cd with
          | some d, some (some c) => .ok ⟨c, d.marks ++ (m.marks ++ key.marks)⟩   -- L314-320
          | _, _ => .err (b "lookup failed to find key " ++ redactIfSensitive quote k [key.marks])   -- L322-323
  | _, _ => .unk

end Verif.Funcs
