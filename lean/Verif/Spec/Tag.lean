import Verif.Model.Tag
/-!
# What the tags of struct fields say
-/
namespace Verif.HclS

/-- White space. -/
def Blank (c : UInt8) : Prop := c = 32 ∨ c = 9 ∨ c = 10 ∨ c = 11 ∨ c = 12 ∨ c = 13

/-- The words of a text: the longest pieces without white space, in order. -/
inductive Words : Bytes → List Bytes → Prop where
  | none {t : Bytes} : (∀ c ∈ t, Blank c) → Words t []
  | word {s w r : Bytes} {ws : List Bytes} : (∀ c ∈ s, Blank c) → w ≠ [] → (∀ c ∈ w, ¬Blank c) →
      (r = [] ∨ ∃ c r', r = c :: r' ∧ Blank c) → Words r ws → Words (s ++ w ++ r) (w :: ws)

/-- The word starts with `hcl:"`, in upper or lower case, followed by the given bytes. -/
def HclWord (w rest : Bytes) : Prop :=
  ∃ x y z, w = x :: y :: z :: 58 :: 34 :: rest ∧ (x = 104 ∨ x = 72) ∧ (y = 99 ∨ y = 67) ∧ (z = 108 ∨ z = 76)

/-- The parts of a text before and behind its first comma. -/
def Halves (t n k : Bytes) : Prop := (∀ c ∈ n, c ≠ 44) ∧ ((t = n ∧ k = []) ∨ t = n ++ 44 :: k)

/-- One `key:"value"` of a tag. -/
def pairText (p : Bytes × Bytes) : Bytes := p.1 ++ 58 :: 34 :: p.2 ++ [34]

/-- A tag in the conventional form: pairs, with at least one space between them. -/
inductive Conventional : Bytes → List (Bytes × Bytes) → Prop where
  | none {s : Bytes} : (∀ c ∈ s, c = 32) → Conventional s []
  | pair {s r : Bytes} {p : Bytes × Bytes} {ps : List (Bytes × Bytes)} : (∀ c ∈ s, c = 32) →
      (r = [] ∨ ∃ r', r = 32 :: r') → Conventional r ps → Conventional (s ++ pairText p ++ r) (p :: ps)

/-- A key: not empty, without space, control characters, colon and quote. -/
def GoodKey (k : Bytes) : Prop := k ≠ [] ∧ ∀ c ∈ k, 32 < c ∧ c ≠ 58 ∧ c ≠ 34 ∧ c ≠ 0x7f

/-- A value without white space, quotes and backslashes. -/
def GoodValue (v : Bytes) : Prop := ∀ c ∈ v, ¬Blank c ∧ c ≠ 34 ∧ c ≠ 92

/-- The key is `hcl` up to case. -/
def HclKey (k : Bytes) : Prop :=
  ∃ x y z, k = [x, y, z] ∧ (x = 104 ∨ x = 72) ∧ (y = 99 ∨ y = 67) ∧ (z = 108 ∨ z = 76)

/-- What is assumed of `strconv.Unquote`: a text that needs no escapes stands for itself. -/
def PlainUnquote (unq : Bytes → Option Bytes) : Prop :=
  ∀ v, utf8Valid v = true → (∀ c ∈ v, c ≠ 34 ∧ c ≠ 92 ∧ c ≠ 10) → unq v = some v

end Verif.HclS
