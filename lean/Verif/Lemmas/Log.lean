import Verif.Model.Log
import Verif.Spec.Log
import Verif.Lemmas.Cty
import Verif.Lemmas.Duration
/-! Facts about `float64` and logarithms. -/
namespace Verif.Funcs
open Hcl (rd roundEven pow2 pow2_eq roundEven_int rd_exact IsFloat)

theorem zpow_cast (e : Int) : (((2 : Rat) ^ e : Rat) : ℝ) = (2 : ℝ) ^ e := by rw [Rat.cast_zpow]; norm_num

theorem pow2_le_abs {e : Int} {q : Rat} : (2 : Rat) ^ e ≤ |q| ↔ (2 : ℝ) ^ e ≤ |(q : ℝ)| := by
  rw [← zpow_cast, ← Rat.cast_abs, Rat.cast_le]

theorem abs_le_pow2 {e : Int} {q : Rat} : |q| ≤ (2 : Rat) ^ e ↔ |(q : ℝ)| ≤ (2 : ℝ) ^ e := by
  rw [← zpow_cast, ← Rat.cast_abs, Rat.cast_le]

theorem one_lt_big : (1 : Rat) < 2 ^ 1024 := one_lt_pow₀ (by norm_num) (by norm_num)

theorem big_eq : (2 : Rat) ^ (1024 : Int) = 2 ^ (1024 : Nat) := zpow_natCast 2 1024

theorem round64_exact {q : Rat} (h : Float64 q) : round64 q = .fin q := by
  obtain ⟨k, e, hq, hk, he, hb⟩ := h
  have two : (2 : Rat) ≠ 0 := by norm_num
  unfold round64
  have r : rd 53 q = q := rd_exact ⟨k, e, hq, hk⟩
  rw [r]
  split
  · congr 1
    have : q * pow2 1074 = ((k * 2 ^ (e + 1074).toNat : Int) : Rat) := by
      rw [hq, pow2_eq]
      push_cast
      rw [mul_assoc, ← zpow_add₀ two, ← zpow_natCast]
      congr 2
      omega
    rw [this, roundEven_int, ← this]
    have := Hcl.pow2_pos 1074
    field_simp
  · obtain ⟨h1, h2⟩ := abs_lt.1 hb
    have e2 : pow2 1024 = (2 : Rat) ^ (1024 : Nat) := (pow2_eq 1024).trans big_eq
    rw [e2, if_neg (not_le.2 h2), if_neg (not_le.2 h1)]

theorem toF64_exact {q : Rat} (h : Float64 q) : (Num.fin q).toF64 = some (.fin q) := by
  simp [Num.toF64, round64_exact h]

theorem toF64_inf (neg : Bool) : (Num.inf neg).toF64 = some (.inf neg) := rfl

theorem round64_ne_nan (q : Rat) : round64 q ≠ .nan := by
  unfold round64
  split
  · simp
  · split
    · simp
    · split <;> simp

/-- Numbers of moderate size are rounded to 53 bits. -/
theorem round64_mid {q : Rat} (h1 : (2 : Rat) ^ (-100 : Int) ≤ |q|) (h2 : |q| ≤ (2 : Rat) ^ (100 : Int)) :
    round64 q = .fin (rd 53 q) := by
  have hr := rd_error 53 q
  have hsm : (2 : Rat) ^ (-1022 : Int) < 2 ^ (-100 : Int) := zpow_lt_zpow_right₀ (by norm_num) (by norm_num)
  have hbig : (2 : Rat) ^ (101 : Int) < 2 ^ (1024 : Int) := zpow_lt_zpow_right₀ (by norm_num) (by norm_num)
  have h101 : (2 : Rat) ^ (101 : Int) = 2 * 2 ^ (100 : Int) := by norm_num
  have hle : |q| / 2 ^ 53 ≤ |q| := div_le_self (abs_nonneg _) (by norm_num)
  have hb : |rd 53 q| < 2 ^ (1024 : Int) := by
    have : |rd 53 q| ≤ |rd 53 q - q| + |q| := by
      have := abs_add_le (rd 53 q - q) q
      simpa using this
    refine lt_of_le_of_lt ?_ hbig
    rw [h101, two_mul]
    exact this.trans (add_le_add ((hr.trans hle).trans h2) h2)
  obtain ⟨b1, b2⟩ := abs_lt.1 hb
  unfold round64
  simp only [pow2_eq]
  rw [if_neg, if_neg (not_le.2 b2), if_neg (not_le.2 b1)]
  intro h
  have := abs_lt.2 h
  linarith

/-- No other `float64` is very near 1. -/
theorem gap {x : Rat} (h : Float64 x) (h1 : x ≠ 1) : (2 : Rat) ^ (-53 : Int) ≤ |x - 1| := by
  obtain ⟨k, e, hx, hk, -, -⟩ := h
  have two : (2 : Rat) ≠ 0 := by norm_num
  by_cases he : -53 ≤ e
  · have key : x - 1 = ((k * 2 ^ (e + 53).toNat - 2 ^ 53 : Int) : Rat) * 2 ^ (-53 : Int) := by
      push_cast
      rw [sub_mul, mul_assoc, ← zpow_natCast (2 : Rat) (e + 53).toNat, ← zpow_add₀ two, hx]
      have : ((e + 53).toNat : Int) + -53 = e := by omega
      rw [this]
      norm_num
    rw [key, abs_mul, abs_of_pos (by positivity : (0 : Rat) < 2 ^ (-53 : Int))]
    refine le_mul_of_one_le_left (by positivity) ?_
    rw [← Int.cast_abs]
    have : k * 2 ^ (e + 53).toNat - 2 ^ 53 ≠ 0 := by
      intro h0
      rw [h0] at key
      apply h1
      simp at key
      linarith
    exact_mod_cast Int.one_le_abs this
  · have hx2 : |x| ≤ 1 / 2 := by
      rw [hx, abs_mul, abs_of_pos (by positivity : (0 : Rat) < 2 ^ e)]
      have a1 : |(k : Rat)| ≤ 2 ^ (53 : Int) := by
        have : |(k : Rat)| < 2 ^ (53 : Nat) := by exact_mod_cast hk
        norm_num at this ⊢
        linarith
      have a2 : (2 : Rat) ^ e ≤ 2 ^ (-54 : Int) := zpow_le_zpow_right₀ (by norm_num) (by omega)
      calc |(k : Rat)| * 2 ^ e ≤ 2 ^ (53 : Int) * 2 ^ (-54 : Int) := by gcongr
        _ = 1 / 2 := by norm_num
    have : 1 / 2 ≤ |x - 1| := by
      have := abs_sub_abs_le_abs_sub 1 x
      rw [abs_one, abs_sub_comm] at this
      linarith
    have h53 : (2 : Rat) ^ (-53 : Int) ≤ 1 / 2 := by norm_num
    exact h53.trans this

theorem log_bounds {x : Rat} (h : Float64 x) (h0 : 0 < x) (h1 : x ≠ 1) :
    (2 : ℝ) ^ (-54 : Int) ≤ |Real.log x| ∧ |Real.log x| ≤ 2 ^ (11 : Int) := by
  have hg : (2 : ℝ) ^ (-53 : Int) ≤ |(x : ℝ) - 1| := by
    have := pow2_le_abs.1 (gap h h1)
    push_cast at this
    exact this
  have hx0 : (0 : ℝ) < x := by exact_mod_cast h0
  constructor
  · rcases lt_or_gt_of_ne (show (x : ℝ) ≠ 1 by exact_mod_cast h1) with hl | hl
    · have := Real.log_le_sub_one_of_pos hx0
      rw [abs_of_neg (by linarith)] at hg
      have : (2 : ℝ) ^ (-54 : Int) ≤ 2 ^ (-53 : Int) := by norm_num
      rw [abs_of_neg (by linarith)]
      linarith
    · rw [abs_of_pos (by linarith)] at hg
      have l2 := Real.one_sub_inv_le_log_of_pos hx0
      rw [abs_of_pos (by
        have : (x : ℝ)⁻¹ < 1 := inv_lt_one_of_one_lt₀ hl
        linarith)]
      have : (x : ℝ)⁻¹ ≤ (1 + 2 ^ (-53 : Int))⁻¹ := inv_anti₀ (by positivity) (by linarith)
      have h3 : (1 + (2 : ℝ) ^ (-53 : Int))⁻¹ ≤ 1 - 2 ^ (-54 : Int) := by
        rw [inv_le_comm₀ (by positivity) (by norm_num)]
        rw [inv_le_iff_one_le_mul₀ (by norm_num)]
        norm_num
      calc (2 : ℝ) ^ (-54 : Int) = 1 - (1 - 2 ^ (-54 : Int)) := by ring
        _ ≤ 1 - (x : ℝ)⁻¹ := sub_le_sub_left (this.trans h3) 1
        _ ≤ _ := l2
  · obtain ⟨k, e, hx, hk, he, hb⟩ := h
    have two : (0 : ℝ) < 2 := by norm_num
    have hlow : (2 : Rat) ^ (-1074 : Int) ≤ x := by
      have hk1 : 1 ≤ k := by
        by_contra hc
        have : (k : Rat) ≤ 0 := by exact_mod_cast (by omega : k ≤ 0)
        have : (k : Rat) * 2 ^ e ≤ 0 := mul_nonpos_of_nonpos_of_nonneg this (by positivity)
        rw [← hx] at this
        linarith
      calc (2 : Rat) ^ (-1074 : Int) ≤ 2 ^ e := zpow_le_zpow_right₀ (by norm_num) he
        _ ≤ k * 2 ^ e := le_mul_of_one_le_left (by positivity) (by exact_mod_cast hk1)
        _ = x := hx.symm
    have hup : x < 2 ^ (1024 : Int) := by
      have := (abs_lt.1 hb).2
      rw [big_eq]
      exact this
    have hlow' : (2 : ℝ) ^ (-1074 : Int) ≤ x := by rw [← zpow_cast]; exact Rat.cast_le.2 hlow
    have hup' : (x : ℝ) ≤ 2 ^ (1024 : Int) := by rw [← zpow_cast]; exact Rat.cast_le.2 hup.le
    have l1 := Real.log_le_log (by positivity) hlow'
    have l2 := Real.log_le_log hx0 hup'
    rw [Real.log_zpow] at l1 l2
    have t1 := Real.log_le_sub_one_of_pos (show (0 : ℝ) < 2 by norm_num)
    have t2 := Real.log_nonneg (show (1 : ℝ) ≤ 2 by norm_num)
    rw [abs_le]
    constructor
    · push_cast at l1
      norm_num
      linarith
    · push_cast at l2
      norm_num
      linarith

theorem lg_error {lg : Rat → Rat} (hl : LogLike lg) {x : Rat} (h : Float64 x) (h0 : 0 < x) :
    ∃ ε : ℝ, |ε| ≤ 1 / 2 ^ 52 ∧ (lg x : ℝ) = Real.log x * (1 + ε) := by
  have := hl x h0 h
  by_cases hz : Real.log x = 0
  · rw [hz] at this ⊢
    refine ⟨0, by simp, ?_⟩
    simp at this
    simp [this]
  · refine ⟨((lg x : ℝ) - Real.log x) / Real.log x, ?_, by field_simp; ring⟩
    rw [abs_div, div_le_iff₀ (abs_pos.2 hz)]
    calc _ ≤ _ := this
      _ = _ := by ring

theorem lg_bounds {lg : Rat → Rat} (hl : LogLike lg) {x : Rat} (h : Float64 x) (h0 : 0 < x) (h1 : x ≠ 1) :
    (2 : Rat) ^ (-55 : Int) ≤ |lg x| ∧ |lg x| ≤ 2 ^ (12 : Int) := by
  obtain ⟨b1, b2⟩ := log_bounds h h0 h1
  obtain ⟨ε, he, hx⟩ := lg_error hl h h0
  have e1 : (1 : ℝ) / 2 ≤ 1 + ε := by have := (abs_le.1 he).1; norm_num at this; linarith
  have e2 : 1 + ε ≤ 2 := by have := (abs_le.1 he).2; norm_num at this; linarith
  have ha : |(lg x : ℝ)| = |Real.log x| * (1 + ε) := by
    rw [hx, abs_mul, abs_of_pos (by linarith : 0 < 1 + ε)]
  have g1 : (2 : ℝ) ^ (-55 : Int) ≤ |(lg x : ℝ)| := by
    rw [ha]
    calc (2 : ℝ) ^ (-55 : Int) = 2 ^ (-54 : Int) * (1 / 2) := by norm_num
      _ ≤ _ := by gcongr
  have g2 : |(lg x : ℝ)| ≤ 2 ^ (12 : Int) := by
    rw [ha]
    calc _ ≤ (2 : ℝ) ^ (11 : Int) * 2 := by gcongr
      _ = _ := by norm_num
  exact ⟨pow2_le_abs.2 g1, abs_le_pow2.2 g2⟩

theorem lg_one {lg : Rat → Rat} (hl : LogLike lg) : lg 1 = 0 := by
  have := hl 1 (by norm_num) ⟨1, 0, by norm_num, by norm_num, by norm_num, by rw [abs_one]; exact one_lt_big⟩
  simp at this
  exact this

theorem lg_sign {lg : Rat → Rat} (hl : LogLike lg) {x : Rat} (h : Float64 x) (h0 : 0 < x) : lg x < 0 ↔ x < 1 := by
  obtain ⟨ε, he, hx⟩ := lg_error hl h h0
  have e1 : (0 : ℝ) < 1 + ε := by have := (abs_le.1 he).1; norm_num at this; linarith
  have hx0 : (0 : ℝ) < x := by exact_mod_cast h0
  have : (lg x : ℝ) < 0 ↔ (x : ℝ) < 1 := by
    rw [hx, mul_neg_iff]
    constructor
    · rintro (⟨_, h⟩ | ⟨h, _⟩)
      · linarith
      · by_contra hc
        have := Real.log_nonneg (not_lt.1 hc)
        linarith
    · intro h
      exact .inr ⟨Real.log_neg hx0 h, e1⟩
  exact_mod_cast this

theorem lg_zero {lg : Rat → Rat} (hl : LogLike lg) {x : Rat} (h : Float64 x) (h0 : 0 < x) : lg x = 0 ↔ x = 1 := by
  constructor
  · intro hz
    by_contra h1
    have := (lg_bounds hl h h0 h1).1
    rw [hz] at this
    norm_num at this
  · rintro rfl; exact lg_one hl

/-- The quotient of two logarithms. -/
theorem quotient {lg : Rat → Rat} (hl : LogLike lg) {n c : Rat} (hn : Float64 n) (hc : Float64 c) (n0 : 0 < n)
    (c0 : 0 < c) (c1 : c ≠ 1) : round64 (lg n / lg c) = .fin (rd 53 (lg n / lg c)) := by
  by_cases n1 : n = 1
  · subst n1
    rw [lg_one hl, zero_div]
    exact (round64_exact ⟨0, 0, by norm_num, by norm_num, by norm_num, by rw [abs_zero]; positivity⟩).trans (by simp [rd])
  obtain ⟨a1, a2⟩ := lg_bounds hl hn n0 n1
  obtain ⟨b1, b2⟩ := lg_bounds hl hc c0 c1
  have hb : 0 < |lg c| := lt_of_lt_of_le (by positivity) b1
  apply round64_mid
  · rw [abs_div, le_div_iff₀ hb]
    calc _ ≤ (2 : Rat) ^ (-100 : Int) * 2 ^ (12 : Int) := by gcongr
      _ ≤ 2 ^ (-55 : Int) := by norm_num
      _ ≤ _ := a1
  · rw [abs_div, div_le_iff₀ hb]
    calc _ ≤ (2 : Rat) ^ (12 : Int) := a2
      _ ≤ 2 ^ (100 : Int) * 2 ^ (-55 : Int) := by norm_num
      _ ≤ _ := by gcongr

theorem quotient_error {a c ε₁ ε₂ ε₃ : ℝ} (hc : c ≠ 0) (h1 : |ε₁| ≤ 1 / 2 ^ 52) (h2 : |ε₂| ≤ 1 / 2 ^ 52)
    (h3 : |ε₃| ≤ 1 / 2 ^ 53) :
    |a * (1 + ε₁) / (c * (1 + ε₂)) * (1 + ε₃) - a / c| ≤ |a / c| / 2 ^ 50 := by
  obtain ⟨p1, q1⟩ := abs_le.1 h1
  obtain ⟨p2, q2⟩ := abs_le.1 h2
  obtain ⟨p3, q3⟩ := abs_le.1 h3
  norm_num at p1 q1 p2 q2 p3 q3
  have hpos : 0 < 1 + ε₂ := by linarith
  have e : a * (1 + ε₁) / (c * (1 + ε₂)) * (1 + ε₃) - a / c =
      a / c * (((1 + ε₁) * (1 + ε₃) - (1 + ε₂)) / (1 + ε₂)) := by
    field_simp
  rw [e, abs_mul, div_eq_mul_inv |a / c|]
  gcongr
  have hp : |ε₁ * ε₃| ≤ 1 / 2 ^ 52 * (1 / 2 ^ 53) := by rw [abs_mul]; gcongr
  obtain ⟨p4, q4⟩ := abs_le.1 hp
  norm_num at p4 q4
  rw [abs_div, abs_of_pos hpos, div_le_iff₀ hpos, abs_le]
  constructor <;> norm_num <;> nlinarith

end Verif.Funcs
