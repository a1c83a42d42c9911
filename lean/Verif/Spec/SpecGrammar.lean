import Verif.Model.Spec
import Verif.Spec.Utf8
/-!
# What a specification means (independent of `NewValue`)

`DenVal v r` reads: the Go value `v` is written in the documented notation
(the table of utils/common.go L11-25) and denotes the message `r`.
-/
namespace Verif.Spec

mutual
/-- The documented notation and its meaning. -/
inductive DenVal : SVal → Value → Prop
  | str (c) : DenVal (.str c) (.single (.mk c none))
  | pair {p s} : DenPair p s → DenVal (.pair p) (.single s)
  | strs (l : List Bytes) : DenVal (.strs l) (.list (l.map fun c => .mk c none))
  | pairs {l ss} : DenPairs l ss → DenVal (.pairs l) (.list ss)
  | mapStr (m : List (Bytes × Bytes)) :
      DenVal (.mapStr m) (.map (m.map fun e => (e.1, .mk e.2 none)))
  | mapPair {m ms} : DenMap m ms → DenVal (.mapPair m) (.map ms)
  | map2Str (m : List ((Bytes × Bytes) × Bytes)) :
      DenVal (.map2Str m) (.map2 (m.map fun e => (e.1.1, [(e.1.2, .mk e.2 none)])))
  | map2Pair {m ms} : DenMap2 m ms → DenVal (.map2Pair m) (.map2 ms)
  | struct (s) : DenVal (.struct s) (.single s)
  | structs (l) : DenVal (.structs l) (.list l)
  | mapStruct (m) : DenVal (.mapStruct m) (.map m)
  | map2Struct (m) : DenVal (.map2Struct m) (.map2 m)
/-- `[2]interface{}{class, fields}`: the class name, and nil or a field map. -/
inductive DenPair : SPair → Struct → Prop
  | leaf (c) : DenPair (.mk (.str c) .nil) (.mk c none)
  | node (c) {m fs} : DenFields m fs → DenPair (.mk (.str c) (.hash m)) (.mk c (some fs))
/-- A list, element by element in order. -/
inductive DenPairs : List SPair → List Struct → Prop
  | nil : DenPairs [] []
  | cons {p s l ss} : DenPair p s → DenPairs l ss → DenPairs (p :: l) (s :: ss)
/-- A map, key by key. -/
inductive DenMap : List (Bytes × SPair) → List (Bytes × Struct) → Prop
  | nil : DenMap [] []
  | cons (k) {p s l ss} : DenPair p s → DenMap l ss → DenMap ((k, p) :: l) ((k, s) :: ss)
/-- A two-label map: one inner map per entry. -/
inductive DenMap2 : List ((Bytes × Bytes) × SPair) → List (Bytes × List (Bytes × Struct)) → Prop
  | nil : DenMap2 [] []
  | cons (k₁ k₂) {p s l ss} : DenPair p s → DenMap2 l ss →
      DenMap2 (((k₁, k₂), p) :: l) ((k₁, [(k₂, s)]) :: ss)
/-- The field map of a class: UTF-8 names, documented values. -/
inductive DenFields : List (Bytes × SVal) → List (Bytes × Value) → Prop
  | nil : DenFields [] []
  | cons {k v r l rs} : IsUtf8 k → DenVal v r → DenFields l rs →
      DenFields ((k, v) :: l) ((k, r) :: rs)
end

mutual
/-- At every depth, the two-label maps inside the value have pairwise distinct first labels. -/
def SVal.FirstLabelsDistinct : SVal → Prop
  | .pair p => p.FirstLabelsDistinct
  | .pairs l => SPair.FirstLabelsDistinctL l
  | .mapPair m => SPair.FirstLabelsDistinctM m
  | .map2Str m => (m.map fun e => e.1.1).Nodup
  | .map2Pair m => (m.map fun e => e.1.1).Nodup ∧ SPair.FirstLabelsDistinctM2 m
  | .hash m => SVal.FirstLabelsDistinctF m
  | _ => True
/-- See `SVal.FirstLabelsDistinct`. -/
def SPair.FirstLabelsDistinct : SPair → Prop
  | .mk a b => a.FirstLabelsDistinct ∧ b.FirstLabelsDistinct
/-- See `SVal.FirstLabelsDistinct`. -/
def SPair.FirstLabelsDistinctL : List SPair → Prop
  | [] => True
  | p :: l => p.FirstLabelsDistinct ∧ SPair.FirstLabelsDistinctL l
/-- See `SVal.FirstLabelsDistinct`. -/
def SPair.FirstLabelsDistinctM : List (Bytes × SPair) → Prop
  | [] => True
  | (_, p) :: l => p.FirstLabelsDistinct ∧ SPair.FirstLabelsDistinctM l
/-- See `SVal.FirstLabelsDistinct`. -/
def SPair.FirstLabelsDistinctM2 : List ((Bytes × Bytes) × SPair) → Prop
  | [] => True
  | (_, p) :: l => p.FirstLabelsDistinct ∧ SPair.FirstLabelsDistinctM2 l
/-- See `SVal.FirstLabelsDistinct`. -/
def SVal.FirstLabelsDistinctF : List (Bytes × SVal) → Prop
  | [] => True
  | (_, v) :: l => v.FirstLabelsDistinct ∧ SVal.FirstLabelsDistinctF l
end

/-! ## Equality up to the iteration order of Go maps -/

mutual
/-- The same Go value, its maps possibly iterated in another order. -/
inductive SVal.Same : SVal → SVal → Prop
  | refl (v) : SVal.Same v v
  | pair {p q} : SPair.Same p q → SVal.Same (.pair p) (.pair q)
  | pairs {l l'} : SPair.SameL l l' → SVal.Same (.pairs l) (.pairs l')
  | mapStr {m m'} : m.Perm m' → SVal.Same (.mapStr m) (.mapStr m')
  | mapPair {m m'} : SPair.SameM m m' → SVal.Same (.mapPair m) (.mapPair m')
  | map2Str {m m'} : m.Perm m' → SVal.Same (.map2Str m) (.map2Str m')
  | map2Pair {m m'} : SPair.SameM2 m m' → SVal.Same (.map2Pair m) (.map2Pair m')
  | hash {m m'} : SVal.SameF m m' → SVal.Same (.hash m) (.hash m')
/-- See `SVal.Same`. -/
inductive SPair.Same : SPair → SPair → Prop
  | mk {a a' c c'} : SVal.Same a a' → SVal.Same c c' → SPair.Same (.mk a c) (.mk a' c')
/-- See `SVal.Same`. -/
inductive SPair.SameL : List SPair → List SPair → Prop
  | nil : SPair.SameL [] []
  | cons {p q l l'} : SPair.Same p q → SPair.SameL l l' → SPair.SameL (p :: l) (q :: l')
/-- See `SVal.Same`. -/
inductive SPair.SameM : List (Bytes × SPair) → List (Bytes × SPair) → Prop
  | nil : SPair.SameM [] []
  | cons (k) {p q l l'} : SPair.Same p q → SPair.SameM l l' →
      SPair.SameM ((k, p) :: l) ((k, q) :: l')
  | perm {l l' l''} : SPair.SameM l l' → l'.Perm l'' → SPair.SameM l l''
/-- See `SVal.Same`. -/
inductive SPair.SameM2 :
    List ((Bytes × Bytes) × SPair) → List ((Bytes × Bytes) × SPair) → Prop
  | nil : SPair.SameM2 [] []
  | cons (k) {p q l l'} : SPair.Same p q → SPair.SameM2 l l' →
      SPair.SameM2 ((k, p) :: l) ((k, q) :: l')
  | perm {l l' l''} : SPair.SameM2 l l' → l'.Perm l'' → SPair.SameM2 l l''
/-- See `SVal.Same`. -/
inductive SVal.SameF : List (Bytes × SVal) → List (Bytes × SVal) → Prop
  | nil : SVal.SameF [] []
  | cons (k) {p q l l'} : SVal.Same p q → SVal.SameF l l' →
      SVal.SameF ((k, p) :: l) ((k, q) :: l')
  | perm {l l' l''} : SVal.SameF l l' → l'.Perm l'' → SVal.SameF l l''
end

mutual
/-- The same message, its maps possibly listed in another order. -/
inductive Value.Same : Value → Value → Prop
  | single {s t} : Struct.Same s t → Value.Same (.single s) (.single t)
  | list {l l'} : Struct.SameL l l' → Value.Same (.list l) (.list l')
  | map {m m'} : Struct.SameM m m' → Value.Same (.map m) (.map m')
  | map2 {m m'} : Struct.SameM2 m m' → Value.Same (.map2 m) (.map2 m')
/-- See `Value.Same`. -/
inductive Struct.Same : Struct → Struct → Prop
  | leaf (c) : Struct.Same (.mk c none) (.mk c none)
  | node (c) {f f'} : Value.SameF f f' → Struct.Same (.mk c (some f)) (.mk c (some f'))
/-- See `Value.Same`. -/
inductive Struct.SameL : List Struct → List Struct → Prop
  | nil : Struct.SameL [] []
  | cons {p q l l'} : Struct.Same p q → Struct.SameL l l' → Struct.SameL (p :: l) (q :: l')
/-- See `Value.Same`. -/
inductive Struct.SameM : List (Bytes × Struct) → List (Bytes × Struct) → Prop
  | nil : Struct.SameM [] []
  | cons (k) {p q l l'} : Struct.Same p q → Struct.SameM l l' →
      Struct.SameM ((k, p) :: l) ((k, q) :: l')
  | perm {l l' l''} : Struct.SameM l l' → l'.Perm l'' → Struct.SameM l l''
/-- See `Value.Same`. -/
inductive Struct.SameM2 :
    List (Bytes × List (Bytes × Struct)) → List (Bytes × List (Bytes × Struct)) → Prop
  | nil : Struct.SameM2 [] []
  | cons (k) {p q l l'} : Struct.SameM p q → Struct.SameM2 l l' →
      Struct.SameM2 ((k, p) :: l) ((k, q) :: l')
  | perm {l l' l''} : Struct.SameM2 l l' → l'.Perm l'' → Struct.SameM2 l l''
/-- See `Value.Same`. -/
inductive Value.SameF : List (Bytes × Value) → List (Bytes × Value) → Prop
  | nil : Value.SameF [] []
  | cons (k) {p q l l'} : Value.Same p q → Value.SameF l l' →
      Value.SameF ((k, p) :: l) ((k, q) :: l')
  | perm {l l' l''} : Value.SameF l l' → l'.Perm l'' → Value.SameF l l''
end

/-- Looking up a pair of labels in a two-label message. -/
def lookup2 (m : List (Bytes × List (Bytes × Struct))) (k₁ k₂ : Bytes) : Option Struct :=
  (GoMap.get? m k₁).bind fun inner => GoMap.get? inner k₂

end Verif.Spec
