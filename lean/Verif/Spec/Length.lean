import Verif.Model.Length
/-!
# What a value can turn out to be, and its length
-/
namespace Verif.Length
open Verif.Funcs

/-- The known element `x` is what the element `y` can turn out to be. -/
abbrev Ref (ε : Type) := ε → ε → Prop

/-- A part-wise outcome of a list. -/
inductive RefL {ε : Type} (ref : Ref ε) : List ε → List ε → Prop
  | nil : RefL ref [] []
  | cons {y x : ε} {l m : List ε} : ref y x → RefL ref l m → RefL ref (y :: l) (x :: m)

/-- The value `w`, known and not null, is what `v` can turn out to be.  In a set equal elements become one. -/
inductive Becomes {ε : Type} (ref : Ref ε) : LV ε → LV ε → Prop
  | dynStr (s : Bytes) : Becomes ref (.dyn false) (.str (.val s))
  | dynTuple (l : List ε) : Becomes ref (.dyn false) (.tuple l.length (.val l))
  | dynObject (m : GoMap Bytes ε) : Becomes ref (.dyn false) (.object (m.map (·.1)) (.val m))
  | dynList (l : List ε) : Becomes ref (.dyn false) (.list (.val l))
  | dynMap (m : GoMap Bytes ε) : Becomes ref (.dyn false) (.map (.val m))
  | dynSet (l : List ε) : l.Nodup → Becomes ref (.dyn false) (.set (.val l))
  | dynOther : Becomes ref (.dyn false) (.other (.val ()))
  | strUnk (s : Bytes) : Becomes ref (.str .unk) (.str (.val s))
  | str (s : Bytes) : Becomes ref (.str (.val s)) (.str (.val s))
  | tupleUnk (l : List ε) : Becomes ref (.tuple l.length .unk) (.tuple l.length (.val l))
  | tuple {l l' : List ε} : RefL ref l l' → Becomes ref (.tuple l.length (.val l)) (.tuple l.length (.val l'))
  | objectUnk (m : GoMap Bytes ε) : Becomes ref (.object (m.map (·.1)) .unk) (.object (m.map (·.1)) (.val m))
  | object {m m' : GoMap Bytes ε} : m.map (·.1) = m'.map (·.1) → RefL ref (m.map (·.2)) (m'.map (·.2)) →
      Becomes ref (.object (m.map (·.1)) (.val m)) (.object (m.map (·.1)) (.val m'))
  | listUnk (l : List ε) : Becomes ref (.list .unk) (.list (.val l))
  | list {l l' : List ε} : RefL ref l l' → Becomes ref (.list (.val l)) (.list (.val l'))
  | mapUnk (m : GoMap Bytes ε) : Becomes ref (.map .unk) (.map (.val m))
  | map {m m' : GoMap Bytes ε} : m.map (·.1) = m'.map (·.1) → RefL ref (m.map (·.2)) (m'.map (·.2)) →
      Becomes ref (.map (.val m)) (.map (.val m'))
  | setUnk (l : List ε) : l.Nodup → Becomes ref (.set .unk) (.set (.val l))
  | set {l l' s : List ε} : l.Nodup → RefL ref l l' → s.Nodup → (∀ x, x ∈ s ↔ x ∈ l') → Becomes ref (.set (.val l)) (.set (.val s))
  | otherUnk : Becomes ref (.other .unk) (.other (.val ()))
  | other : Becomes ref (.other (.val ())) (.other (.val ()))

/-- The length of a known value: its characters, parts, entries or elements. -/
inductive Len {ε : Type} (chars : Bytes → Nat) : LV ε → Nat → Prop
  | str (s : Bytes) : Len chars (.str (.val s)) (chars s)
  | tuple (n : Nat) (l : List ε) : Len chars (.tuple n (.val l)) l.length
  | object (as : List Bytes) (m : GoMap Bytes ε) : Len chars (.object as (.val m)) m.length
  | list (l : List ε) : Len chars (.list (.val l)) l.length
  | map (m : GoMap Bytes ε) : Len chars (.map (.val m)) m.length
  | set (l : List ε) : Len chars (.set (.val l)) l.length

/-- A value that can have a length: not null and not a number, boolean or capsule. -/
inductive Measurable {ε : Type} : LV ε → Prop
  | dyn : Measurable (.dyn false)
  | str {v : K Bytes} : v ≠ .null → Measurable (.str v)
  | tuple {n : Nat} {v : K (List ε)} : v ≠ .null → Measurable (.tuple n v)
  | object {as : List Bytes} {v : K (GoMap Bytes ε)} : v ≠ .null → Measurable (.object as v)
  | list {v : K (List ε)} : v ≠ .null → Measurable (.list v)
  | map {v : K (GoMap Bytes ε)} : v ≠ .null → Measurable (.map v)
  | set {v : K (List ε)} : v ≠ .null → Measurable (.set v)

end Verif.Length
