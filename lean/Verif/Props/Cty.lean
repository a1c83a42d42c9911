import Verif.Lemmas.Cty
/-!
# Properties C30 and C31: numbers, native data and cty values
-/
set_option linter.unusedSimpArgs false
namespace Verif.Hcl

/-! ## C30: conversion of numbers -/

/-- The model of rounding: the result is a floating point number of that precision, and none is nearer. -/
theorem C30_rounding {p : Nat} (hp : 0 < p) (q : Rat) :
    IsFloat p (rd p q) ∧ ∀ r, IsFloat p r → |rd p q - q| ≤ |r - q| :=
  ⟨rd_isFloat hp q, fun _ hr => rd_nearest hp q hr⟩

example : (0 : Nat) < 24 := by decide

/-- In a tie the result is the one with the even mantissa, that is, with one bit less. -/
theorem C30_rounding_tie {p : Nat} (hp : 2 ≤ p) {q r : Rat} (hr : IsFloat p r) (hne : r ≠ rd p q)
    (h : |r - q| = |rd p q - q|) : IsFloat (p - 1) (rd p q) := rd_tie hp hr hne h

/-- 5 lies between 4 and 6 with two bits; 6 has the mantissa 3. -/
example : IsFloat 2 6 ∧ (6 : Rat) ≠ rd 2 5 ∧ |(6 : Rat) - 5| = |rd 2 5 - 5| := by
  have : rd 2 5 = 4 := by decide +kernel
  rw [this]; exact ⟨⟨3, 1, by norm_num, by norm_num⟩, by norm_num, by norm_num⟩

/-- An integer in the range of `int64` is converted to that integer. -/
theorem C30_int {n : Int} (h1 : -(2 ^ 63) ≤ n) (h2 : n < 2 ^ 63) : ctyNumberToNative n = .ok (.int n) := by
  exact cn_int h1 h2

example : (-(2 ^ 63) : Int) ≤ -9223372036854775808 ∧ (-9223372036854775808 : Int) < 2 ^ 63 := by decide

/-- C30, partial: for a number that is a `float64`, the result is a native number of the same value exactly
if the number is an `int64`, or positive with a fractional part and not below the nearest `float32`.  The
full property has no such restriction; it does not hold, see below. -/
theorem C30_value_partial {q : Rat} (h : IsFloat 53 q) :
    (∃ v, ctyNumberToNative q = .ok v ∧ v.value = some q) ↔
      IsInt64 q ∨ (0 < q ∧ ¬ IsWhole q ∧ rd 24 q ≤ q) := by
  have h53 := rd_exact h
  unfold ctyNumberToNative
  split
  · rename_i h1
    have h2 := (isInt64_iff q).1 h1
    constructor
    · exact fun _ => Or.inl h2
    · exact fun _ => ⟨_, rfl, by simp only [GV.value, ((Rat.den_eq_one_iff q).1 h1.1)]⟩
  rename_i h1
  rw [isInt64_iff] at h1
  split
  · rename_i h2
    constructor
    · rintro ⟨v, h, _⟩; cases h
    · rintro (h | ⟨h, _⟩)
      · exact absurd h h1
      · exact absurd h (not_lt.2 h2.le)
  rename_i h2
  have h2 := not_lt.1 h2
  split
  · rename_i h3
    constructor
    · rintro ⟨v, h, _⟩; cases h
    · rintro (h | ⟨_, h, _⟩)
      · exact absurd h h1
      · exact absurd ((den_one_iff q).1 h3) h
  rename_i h3
  rw [den_one_iff] at h3
  have hpos : 0 < q := lt_of_le_of_ne h2 fun h => h3 ⟨0, by simp [← h]⟩
  split
  · rename_i h4
    simp only [h53, Except.ok.injEq]
    constructor
    · rintro ⟨v, rfl, hv⟩
      simp only [GV.value, Option.some.injEq] at hv
      exact Or.inr ⟨hpos, h3, hv.le⟩
    · rintro (h | ⟨_, _, h⟩)
      · exact absurd h h1
      · exact ⟨_, rfl, by simp [GV.value, le_antisymm h h4]⟩
  · rename_i h4
    constructor
    · exact fun _ => Or.inr ⟨hpos, h3, (not_le.1 h4).le⟩
    · exact fun _ => ⟨_, rfl, by simp [GV.value, h53]⟩

/-- 0.75 and 2.2 as a `float64` (its nearest `float32` is below). -/
example : IsFloat 53 (3 / 4) ∧ 0 < (3 / 4 : Rat) ∧ rd 24 (3 / 4) ≤ 3 / 4 :=
  ⟨⟨3, -2, by norm_num, by norm_num⟩, by norm_num, by decide +kernel⟩

/-- Every positive fraction that is a `float32` keeps its value. -/
theorem C30_float32 {q : Rat} (h0 : 0 < q) (h1 : ¬ IsWhole q) (h : IsFloat 24 q) :
    ctyNumberToNative q = .ok (.flt q) := cn_f32 h0 h1 h

example : (0 : Rat) < 5 / 2 ∧ IsFloat 24 (5 / 2) := ⟨by norm_num, 5, -1, by norm_num, by norm_num⟩

/-- C30 does not hold: the `float64` nearest to 0.1 becomes a `float32` of another value, and -0.5 is an
error. -/
theorem C30_violated :
    (IsFloat 53 (3602879701896397 / 36028797018963968) ∧
      ctyNumberToNative (3602879701896397 / 36028797018963968) = .ok (.flt (13421773 / 134217728)) ∧
      (13421773 / 134217728 : Rat) ≠ 3602879701896397 / 36028797018963968) ∧
    (IsFloat 53 (-1 / 2) ∧ ctyNumberToNative (-1 / 2) = .error ()) := by
  refine ⟨⟨⟨3602879701896397, -55, by norm_num, by norm_num⟩, ?_, by norm_num⟩, ⟨-1, -1, by norm_num, by norm_num⟩, ?_⟩
  · have h1 : ¬ ((3602879701896397 / 36028797018963968 : Rat).den = 1 ∧
        fitsI64 (3602879701896397 / 36028797018963968 : Rat).num = true) := by decide +kernel
    have h2 : ¬ (3602879701896397 / 36028797018963968 : Rat) < 0 := by norm_num
    have h3 : ¬ (3602879701896397 / 36028797018963968 : Rat).den = 1 := by decide +kernel
    have h4 : (3602879701896397 / 36028797018963968 : Rat) ≤ rd 24 (3602879701896397 / 36028797018963968) := by
      decide +kernel
    have h5 : rd 24 (rd 53 (3602879701896397 / 36028797018963968)) = 13421773 / 134217728 := by decide +kernel
    simp only [ctyNumberToNative, if_neg h1, if_neg h2, if_neg h3, if_pos h4, h5]
  · have h1 : ¬ ((-1 / 2 : Rat).den = 1 ∧ fitsI64 (-1 / 2 : Rat).num = true) := by decide +kernel
    have h2 : (-1 / 2 : Rat) < 0 := by norm_num
    simp only [ctyNumberToNative, if_neg h1, if_pos h2]

/-- Every negative number with a fractional part and every integer outside `int64` is an error. -/
theorem C30_errors {q : Rat} (h : ¬ IsInt64 q) (h2 : q < 0 ∨ IsWhole q) : ctyNumberToNative q = .error () := by
  rw [← isInt64_iff] at h
  rcases h2 with h2 | h2
  · simp [ctyNumberToNative, h, h2]
  · have h3 := (den_one_iff q).2 h2
    simp only [h3, true_and] at h
    simp [ctyNumberToNative, h, h3]

example : ¬ IsInt64 (-1 / 2) ∧ (-1 / 2 : Rat) < 0 := by
  rw [← isInt64_iff]; exact ⟨by decide +kernel, by norm_num⟩

/-! ## C31: native data and cty values -/

/-- C31, partial: for data without nil, with normalised strings, integers in range and positive fractions
that are `float32`, the conversion to cty and back gives the same data (up to the Go types of empty
containers and of numbers without a fractional part).  The full property has no such restriction; it does
not hold, see below. -/
theorem C31_round_trip_partial {nfc : Bytes → Bytes} {v : GV} (h : Plain nfc v) :
    ctyToNative (nativeToCty nfc v) = .ok v.norm := plain_back nfc v h

def exPlain : GV := .map [(b "a", .list [.int (-3), .flt (5 / 2), .list []]), (b "b", .map [(b "c", .bool false)])]

example : Plain id exPlain ∧
    exPlain.norm = .map [(b "a", .list [.int (-3), .flt (5 / 2), .nilList]), (b "b", .map [(b "c", .bool false)])] := by
  have h : ¬ (5 / 2 : Rat).den = 1 := by decide +kernel
  constructor
  · simp only [exPlain, Plain, PlainL, PlainM, id, true_and, and_true]
    exact ⟨⟨-3, by norm_num, by norm_num, by norm_num⟩, Or.inr ⟨by norm_num, by
      intro h'; exact h ((den_one_iff _).2 h'), 5, -1, by norm_num, by norm_num⟩⟩
  · simp only [exPlain, GV.norm, normL, normM, if_neg h]

/-- `CtyToNative` drops exactly the null members of a list and converts the others in order. -/
theorem C31_list {l : List Cty} {v : GV} (h : ctyToNative (.tuple l) = .ok v) :
    ∃ vs, List.Forall₂ (fun c w => ctyToNative c = .ok w) (l.filter fun c => decide (c ≠ .null)) vs ∧
      (v = .list vs ∨ vs = [] ∧ v = .nilList) := by
  simp only [ctyToNative] at h
  cases hl : ctyToNativeL l with
  | error e => rw [hl] at h; cases h
  | ok r =>
    rw [hl] at h
    simp only [Except.map, Except.ok.injEq] at h
    refine ⟨r, ctyL_forall₂ hl, ?_⟩
    subst h
    cases r <;> simp [mkList]

/-- The same for an object. -/
theorem C31_object {m : List (Bytes × Cty)} {v : GV} (h : ctyToNative (.object m) = .ok v) :
    ∃ r, List.Forall₂ (fun c w => c.1 = w.1 ∧ ctyToNative c.2 = .ok w.2) (m.filter fun e => decide (e.2 ≠ .null)) r ∧
      (v = .map r ∨ r = [] ∧ v = .nilMap) := by
  simp only [ctyToNative] at h
  cases hl : ctyToNativeM m with
  | error e => rw [hl] at h; cases h
  | ok r =>
    rw [hl] at h
    simp only [Except.map, Except.ok.injEq] at h
    refine ⟨r, ctyM_forall₂ hl, ?_⟩
    subst h
    cases r <;> simp [mkMap]

example : ctyToNative (.tuple [.bool true, .null, .object [(b "a", .null)]]) = .ok (.list [.bool true, .nilMap]) := by
  simp [ctyToNative, ctyToNativeL, ctyToNativeM, Except.map, Except.bind, GV.isNil, mkList, mkMap]

/-- C31 does not hold: nil becomes an empty map, nil members come back as (typed nil) maps. -/
theorem C31_violated (nfc : Bytes → Bytes) (h : nfc (b "a") = b "a") :
    ctyToNative (nativeToCty nfc .nil) = .ok .nilMap ∧
    ctyToNative (nativeToCty nfc (.map [(b "a", .nil)])) = .ok (.map [(b "a", .nilMap)]) ∧
    ctyToNative (nativeToCty nfc (.flt (-1 / 2))) = .error () := by
  refine ⟨?_, ?_, ?_⟩
  · simp [nativeToCty, ctyToNative, ctyToNativeM, Except.map, mkMap]
  · simp [nativeToCty, nativeToCtyM, ctyToNative, ctyToNativeM, Except.map, Except.bind, mkMap, GV.isNil, h]
  · simp only [nativeToCty, ctyToNative]; exact C30_violated.2.2

example : (id : Bytes → Bytes) (b "a") = b "a" := rfl

end Verif.Hcl
