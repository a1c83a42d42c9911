import Mathlib.Tactic.Linarith
import Mathlib.Tactic.Ring
import Mathlib.Tactic.Positivity
import Mathlib.Tactic.FieldSimp
import Mathlib.Tactic.NormNum
import Mathlib.Data.List.Forall2
import Verif.Spec.Cty
import Verif.Lemmas.CtyEq
/-! Facts about rounding and the conversion of numbers. -/
set_option linter.unusedSimpArgs false
namespace Verif.Hcl

theorem pow2_eq (e : Int) : pow2 e = (2 : Rat) ^ e := by
  unfold pow2
  split
  · rename_i h
    conv_rhs => rw [← Int.toNat_of_nonneg h]
    rw [zpow_natCast]
  · rename_i h
    have : e = -((-e).toNat : Int) := by omega
    conv_rhs => rw [this]
    rw [zpow_neg, zpow_natCast, one_div]

theorem pow2_pos (e : Int) : 0 < pow2 e := by rw [pow2_eq]; positivity

theorem absQ (q : Rat) : (q.num.natAbs : Rat) / q.den = |q| := by
  conv_rhs => rw [← Rat.num_div_den q]
  rw [abs_div, Nat.abs_cast, Nat.cast_natAbs, Int.cast_abs]

theorem expo_spec {q : Rat} (hq : q ≠ 0) : (2 : Rat) ^ expo q ≤ |q| ∧ |q| < (2 : Rat) ^ (expo q + 1) := by
  have hn : q.num.natAbs ≠ 0 := by simpa using hq
  have hd : q.den ≠ 0 := q.den_nz
  have h1 := Nat.log2_self_le hn
  have h2 := Nat.lt_log2_self (n := q.num.natAbs)
  have h3 := Nat.log2_self_le hd
  have h4 := Nat.lt_log2_self (n := q.den)
  have a := absQ q
  set n := q.num.natAbs
  set d := q.den
  set ln := n.log2
  set ld := d.log2
  have h1 : (2 : Rat) ^ (ln : Int) ≤ n := by rw [zpow_natCast]; exact_mod_cast h1
  have h2 : (n : Rat) < (2 : Rat) ^ ((ln : Int) + 1) := by
    have : ((ln : Int) + 1) = ((ln + 1 : Nat) : Int) := by push_cast; rfl
    rw [this, zpow_natCast]; exact_mod_cast h2
  have h3 : (2 : Rat) ^ (ld : Int) ≤ d := by rw [zpow_natCast]; exact_mod_cast h3
  have h4 : (d : Rat) < (2 : Rat) ^ ((ld : Int) + 1) := by
    have : ((ld : Int) + 1) = ((ld + 1 : Nat) : Int) := by push_cast; rfl
    rw [this, zpow_natCast]; exact_mod_cast h4
  have hdp : (0 : Rat) < d := by exact_mod_cast Nat.pos_of_ne_zero hd
  have two : (2 : Rat) ≠ 0 := by norm_num
  have up : (n : Rat) / d < (2 : Rat) ^ ((ln : Int) - ld + 1) := by
    rw [div_lt_iff₀ hdp]
    calc (n : Rat) < 2 ^ ((ln : Int) + 1) := h2
      _ = 2 ^ ((ln : Int) - ld + 1) * 2 ^ (ld : Int) := by rw [← zpow_add₀ two]; congr 1; ring
      _ ≤ _ := by gcongr
  have low : (2 : Rat) ^ ((ln : Int) - ld - 1) ≤ (n : Rat) / d := by
    rw [le_div_iff₀ hdp]
    calc _ ≤ (2 : Rat) ^ ((ln : Int) - ld - 1) * 2 ^ ((ld : Int) + 1) := by gcongr
      _ = 2 ^ (ln : Int) := by rw [← zpow_add₀ two]; congr 1; ring
      _ ≤ n := h1
  simp only [expo]
  change _ ∧ _
  rw [← a]
  have hE : expo q = if pow2 ((ln : Int) - ld) ≤ (n : Rat) / d then (ln : Int) - ld else (ln : Int) - ld - 1 := rfl
  rw [pow2_eq] at hE
  split at hE
  · rename_i h
    have : (if pow2 ((n.log2 : Int) - d.log2) ≤ (n : Rat) / d then (n.log2 : Int) - d.log2 else (n.log2 : Int) - d.log2 - 1) = (ln : Int) - ld := by
      rw [pow2_eq, if_pos h]
    rw [this]
    exact ⟨h, up⟩
  · rename_i h
    have : (if pow2 ((n.log2 : Int) - d.log2) ≤ (n : Rat) / d then (n.log2 : Int) - d.log2 else (n.log2 : Int) - d.log2 - 1) = (ln : Int) - ld - 1 := by
      rw [pow2_eq, if_neg h]
    rw [this]
    refine ⟨low, ?_⟩
    rw [show (ln : Int) - ld - 1 + 1 = (ln : Int) - ld by ring]
    exact not_le.1 h

theorem roundEven_int (z : Int) : roundEven z = z := by
  have : ((z : Rat)).floor = z := Rat.floor_intCast z
  simp [roundEven, this]

/-- Rounding moves a number by at most one half. -/
theorem roundEven_near (x : Rat) : |(roundEven x : Rat) - x| ≤ 1 / 2 := by
  have h1 : (x.floor : Rat) ≤ x := Rat.floor_le x
  have h2 : x < x.floor + 1 := by have := Rat.lt_floor_add_one x; push_cast at this; exact this
  unfold roundEven
  split
  · rw [abs_le]; constructor <;> linarith
  · split
    · push_cast; rw [abs_le]; constructor <;> linarith
    · have : x - x.floor = 1 / 2 := le_antisymm (not_lt.1 ‹_›) (not_lt.1 ‹_›)
      split
      · rw [abs_le]; constructor <;> linarith
      · push_cast; rw [abs_le]; constructor <;> linarith

/-- No integer is nearer. -/
theorem roundEven_nearest (x : Rat) (z : Int) : |(roundEven x : Rat) - x| ≤ |(z : Rat) - x| := by
  by_cases h : z = roundEven x
  · rw [h]
  · have h1 := roundEven_near x
    have : (1 : Rat) ≤ |(z : Rat) - roundEven x| := by
      have : (1 : Int) ≤ |z - roundEven x| := Int.one_le_abs (sub_ne_zero.2 h)
      calc (1 : Rat) = ((1 : Int) : Rat) := by norm_num
        _ ≤ ((|z - roundEven x| : Int) : Rat) := by exact_mod_cast this
        _ = _ := by push_cast; rfl
    have h3 : |(z : Rat) - roundEven x| ≤ |(z : Rat) - x| + |(roundEven x : Rat) - x| := by
      have := abs_sub_abs_le_abs_sub ((z : Rat) - roundEven x) ((z : Rat) - x)
      have e : (z : Rat) - roundEven x = ((z : Rat) - x) - ((roundEven x : Rat) - x) := by ring
      rw [e]; exact abs_sub _ _
    linarith

theorem rd_exact {p : Nat} {q : Rat} (h : IsFloat p q) : rd p q = q := by
  obtain ⟨k, e, rfl, hk⟩ := h
  unfold rd
  split
  · rename_i h; exact h.symm
  rename_i h0
  have two : (2 : Rat) ≠ 0 := by norm_num
  obtain ⟨h1, _⟩ := expo_spec h0
  set q := (k : Rat) * 2 ^ e
  have h2 : |q| < (2 : Rat) ^ ((p : Int) + e) := by
    rw [abs_mul, zpow_add₀ two, abs_of_pos (by positivity : (0 : Rat) < 2 ^ e)]
    gcongr
    rw [zpow_natCast]; exact_mod_cast hk
  have h3 : expo q < p + e := (zpow_lt_zpow_iff_right₀ (by norm_num : (1 : Rat) < 2)).1 (lt_of_le_of_lt h1 h2)
  have h4 : q * pow2 (p - 1 - expo q) = ((k * 2 ^ (e + (p - 1 - expo q)).toNat : Int) : Rat) := by
    rw [pow2_eq]
    push_cast
    rw [mul_assoc, ← zpow_add₀ two, ← zpow_natCast]
    congr 2
    omega
  rw [h4, roundEven_int, ← h4]
  have := pow2_pos (p - 1 - expo q)
  field_simp

theorem rd_grid {p : Nat} {q : Rat} (hq : q ≠ 0) {r : Rat} {z : Int}
    (hr : r * pow2 (p - 1 - expo q) = z) : |rd p q - q| ≤ |r - q| := by
  have hp := pow2_pos (p - 1 - expo q)
  set P := pow2 (p - 1 - expo q)
  have h := roundEven_nearest (q * P) z
  have e1 : rd p q - q = ((roundEven (q * P) : Rat) - q * P) / P := by
    unfold rd; rw [if_neg hq]
    change (roundEven (q * P) : Rat) / P - q = _
    field_simp
  have e2 : r - q = ((z : Rat) - q * P) / P := by rw [← hr]; field_simp
  rw [e1, e2, abs_div, abs_div]
  gcongr

/-- No floating point number of that precision is nearer. -/
theorem rd_nearest {p : Nat} (hp : 0 < p) (q : Rat) {r : Rat} (hr : IsFloat p r) : |rd p q - q| ≤ |r - q| := by
  by_cases hq : q = 0
  · subst hq; simp [rd]
  have two : (2 : Rat) ≠ 0 := by norm_num
  obtain ⟨k, e, rfl, hk⟩ := hr
  obtain ⟨h1, h2⟩ := expo_spec hq
  by_cases hs : 0 ≤ e + (p - 1 - expo q)
  · refine rd_grid (z := k * 2 ^ (e + (p - 1 - expo q)).toNat) hq ?_
    rw [pow2_eq]
    push_cast
    rw [mul_assoc, ← zpow_add₀ two, ← zpow_natCast]
    congr 2
    omega
  · have hr : |(k : Rat) * 2 ^ e| ≤ (2 : Rat) ^ expo q := by
      calc |(k : Rat) * 2 ^ e| = |(k : Rat)| * 2 ^ e := by
            rw [abs_mul, abs_of_pos (by positivity : (0 : Rat) < 2 ^ e)]
        _ ≤ 2 ^ (p : Int) * 2 ^ e := by
            gcongr
            rw [zpow_natCast]; exact_mod_cast hk.le
        _ = 2 ^ ((p : Int) + e) := by rw [zpow_add₀ two]
        _ ≤ _ := zpow_le_zpow_right₀ (by norm_num) (by omega)
    have hg : (2 : Rat) ^ expo q * pow2 (p - 1 - expo q) = ((2 ^ (p - 1) : Int) : Rat) := by
      rw [pow2_eq, ← zpow_add₀ two]
      push_cast
      rw [← zpow_natCast]
      congr 1
      omega
    have hle : |q| - 2 ^ expo q ≤ |(k : Rat) * 2 ^ e - q| := by
      have := abs_sub_abs_le_abs_sub q ((k : Rat) * 2 ^ e)
      rw [abs_sub_comm] at this
      linarith
    refine le_trans ?_ hle
    rcases lt_or_gt_of_ne hq with hneg | hpos
    · have := rd_grid (p := p) hq (r := -(2 : Rat) ^ expo q) (z := -(2 ^ (p - 1))) (by
        rw [neg_mul, hg]; push_cast; ring)
      rw [abs_of_neg hneg] at h1 ⊢
      have e1 : |-(2 : Rat) ^ expo q - q| = -q - 2 ^ expo q := by
        rw [abs_of_nonneg (by linarith)]; ring
      rw [e1] at this; exact this
    · have := rd_grid (p := p) hq hg
      rw [abs_of_pos hpos] at h1 ⊢
      have e1 : |(2 : Rat) ^ expo q - q| = q - 2 ^ expo q := by
        rw [abs_of_nonpos (by linarith)]; ring
      rw [e1] at this; exact this

/-- The result of rounding is a floating point number of that precision. -/
theorem rd_isFloat {p : Nat} (hp : 0 < p) (q : Rat) : IsFloat p (rd p q) := by
  by_cases hq : q = 0
  · subst hq; exact ⟨0, 0, by simp [rd], by positivity⟩
  have two : (2 : Rat) ≠ 0 := by norm_num
  obtain ⟨h1, h2⟩ := expo_spec hq
  have hP := pow2_pos (p - 1 - expo q)
  have e1 : rd p q = roundEven (q * pow2 (p - 1 - expo q)) / pow2 (p - 1 - expo q) := by
    unfold rd; rw [if_neg hq]
  have hb : |q * pow2 (p - 1 - expo q)| < 2 ^ p := by
    rw [abs_mul, abs_of_pos hP]
    calc |q| * pow2 (p - 1 - expo q) < 2 ^ (expo q + 1) * pow2 (p - 1 - expo q) := by gcongr
      _ = 2 ^ (p : Int) := by rw [pow2_eq, ← zpow_add₀ two]; congr 1; ring
      _ = _ := by rw [zpow_natCast]
  have hn := roundEven_near (q * pow2 (p - 1 - expo q))
  set z := roundEven (q * pow2 (p - 1 - expo q))
  have hz : |z| ≤ 2 ^ p := by
    have h3 : |(z : Rat)| < 2 ^ p + 1 := by
      have := abs_sub_abs_le_abs_sub (z : Rat) (q * pow2 (p - 1 - expo q))
      linarith
    have h4 : (|z| : Int) < 2 ^ p + 1 := by
      have : ((|z| : Int) : Rat) < ((2 ^ p + 1 : Int) : Rat) := by push_cast; exact h3
      exact_mod_cast this
    omega
  rcases lt_or_eq_of_le hz with h | h
  · exact ⟨z, -(p - 1 - expo q), by rw [e1, pow2_eq, zpow_neg, div_eq_mul_inv], h⟩
  · have one : (1 : Int) < 2 ^ p := one_lt_pow₀ (by norm_num) (by omega)
    rcases abs_choice z with hc | hc
    · refine ⟨1, (p : Int) - (p - 1 - expo q), ?_, by simpa using one⟩
      rw [e1, show z = 2 ^ p by rw [← hc, h], pow2_eq, zpow_sub₀ two (p : Int) (p - 1 - expo q), zpow_natCast]
      push_cast; ring
    · refine ⟨-1, (p : Int) - (p - 1 - expo q), ?_, by simpa using one⟩
      rw [e1, show z = -2 ^ p by omega, pow2_eq, zpow_sub₀ two (p : Int) (p - 1 - expo q), zpow_natCast]
      push_cast; ring

/-- In a tie the even integer is chosen. -/
theorem roundEven_tie {x : Rat} {z : Int} (hne : z ≠ roundEven x) (h : |(z : Rat) - x| = |(roundEven x : Rat) - x|) :
    roundEven x % 2 = 0 := by
  have h1 : (x.floor : Rat) ≤ x := Rat.floor_le x
  have h2 : x < x.floor + 1 := by have := Rat.lt_floor_add_one x; push_cast at this; exact this
  have key : ¬ |(roundEven x : Rat) - x| < 1 / 2 := by
    intro hlt
    have : |((z - roundEven x : Int) : Rat)| < 1 := by
      have e : ((z - roundEven x : Int) : Rat) = ((z : Rat) - x) - ((roundEven x : Rat) - x) := by push_cast; ring
      rw [e]
      have := abs_sub ((z : Rat) - x) ((roundEven x : Rat) - x)
      linarith
    have h3 : |z - roundEven x| < 1 := by
      rw [← Int.cast_abs] at this
      exact_mod_cast this
    exact hne (sub_eq_zero.1 (Int.abs_lt_one_iff.1 h3))
  revert key
  unfold roundEven
  split
  · intro key; exfalso; apply key; rw [abs_lt]; constructor <;> linarith
  · split
    · intro key; exfalso; apply key; push_cast; rw [abs_lt]; constructor <;> linarith
    · split <;> intro _ <;> omega

/-- If another floating point number is as near, the result has an even mantissa: it has one bit less. -/
theorem rd_tie {p : Nat} (hp : 2 ≤ p) {q r : Rat} (hr : IsFloat p r) (hne : r ≠ rd p q)
    (h : |r - q| = |rd p q - q|) : IsFloat (p - 1) (rd p q) := by
  by_cases hq : q = 0
  · subst hq; exact ⟨0, 0, by simp [rd], by positivity⟩
  have two : (2 : Rat) ≠ 0 := by norm_num
  have hP := pow2_pos (p - 1 - expo q)
  obtain ⟨h1, h2⟩ := expo_spec hq
  have e1 : rd p q = roundEven (q * pow2 (p - 1 - expo q)) / pow2 (p - 1 - expo q) := by
    unfold rd; rw [if_neg hq]
  obtain ⟨k, e, rfl, hk⟩ := hr
  by_cases hs : 0 ≤ e + (p - 1 - expo q)
  · have hz : ((k : Rat) * 2 ^ e) * pow2 (p - 1 - expo q) = ((k * 2 ^ (e + (p - 1 - expo q)).toNat : Int) : Rat) := by
      rw [pow2_eq]
      push_cast
      rw [mul_assoc, ← zpow_add₀ two, ← zpow_natCast]
      congr 2
      omega
    set P := pow2 (p - 1 - expo q) with hPd
    set z : Int := k * 2 ^ (e + (p - 1 - expo q)).toNat
    set R := roundEven (q * P) with hR
    have hzR : z ≠ R := by
      intro hc
      apply hne
      rw [e1, ← hc, ← hz]; field_simp
    have ht : |(z : Rat) - q * P| = |(R : Rat) - q * P| := by
      have a1 : (z : Rat) - q * P = ((k : Rat) * 2 ^ e - q) * P := by rw [← hz]; ring
      have a2 : (R : Rat) - q * P = (rd p q - q) * P := by rw [e1]; field_simp
      rw [a1, a2, abs_mul, abs_mul, h]
    have hev := roundEven_tie hzR ht
    obtain ⟨m, hm⟩ := Int.dvd_of_emod_eq_zero hev
    change R = 2 * m at hm
    have hb : |R| ≤ 2 ^ p := by
      have hb : |q * P| < 2 ^ p := by
        rw [abs_mul, abs_of_pos hP]
        calc |q| * P < 2 ^ (expo q + 1) * P := by gcongr
          _ = 2 ^ (p : Int) := by rw [hPd, pow2_eq, ← zpow_add₀ two]; congr 1; ring
          _ = _ := by rw [zpow_natCast]
      have hn := roundEven_near (q * P)
      have h3 : |(R : Rat)| < 2 ^ p + 1 := by
        have := abs_sub_abs_le_abs_sub (R : Rat) (q * P)
        linarith
      have h4 : (|R| : Int) < 2 ^ p + 1 := by
        have : ((|R| : Int) : Rat) < ((2 ^ p + 1 : Int) : Rat) := by push_cast; exact h3
        exact_mod_cast this
      omega
    have hm2 : |m| ≤ 2 ^ (p - 1) := by
      rw [hm, abs_mul, show (2 : Int) ^ p = 2 * 2 ^ (p - 1) by rw [← pow_succ']; congr 1; omega] at hb
      simpa using hb
    have hval : rd p q = (m : Rat) * 2 ^ (1 - ((p : Int) - 1 - expo q)) := by
      have : (2 : Rat) ^ (1 - ((p : Int) - 1 - expo q)) = 2 / 2 ^ ((p : Int) - 1 - expo q) := by
        rw [zpow_sub₀ two, zpow_one]
      rw [e1, hm, hPd, pow2_eq, this]
      push_cast; ring
    rcases lt_or_eq_of_le hm2 with hlt | heq
    · exact ⟨m, _, hval, hlt⟩
    · have one : (1 : Int) < 2 ^ (p - 1) := one_lt_pow₀ (by norm_num) (by omega)
      have hsplit : (2 : Rat) ^ (((p - 1 : Nat) : Int) + (1 - ((p : Int) - 1 - expo q))) =
          2 ^ (p - 1) * 2 ^ (1 - ((p : Int) - 1 - expo q)) := by rw [zpow_add₀ two, zpow_natCast]
      rcases abs_choice m with hc | hc
      · refine ⟨1, ((p - 1 : Nat) : Int) + (1 - ((p : Int) - 1 - expo q)), ?_, by simpa using one⟩
        rw [hval, hsplit, show m = 2 ^ (p - 1) by rw [← hc, heq]]
        push_cast; ring
      · refine ⟨-1, ((p - 1 : Nat) : Int) + (1 - ((p : Int) - 1 - expo q)), ?_, by simpa using one⟩
        rw [hval, hsplit, show m = -2 ^ (p - 1) by omega]
        push_cast; ring
  · exfalso
    have hr : |(k : Rat) * 2 ^ e| < (2 : Rat) ^ expo q := by
      calc |(k : Rat) * 2 ^ e| = |(k : Rat)| * 2 ^ e := by
            rw [abs_mul, abs_of_pos (by positivity : (0 : Rat) < 2 ^ e)]
        _ < 2 ^ (p : Int) * 2 ^ e := by
            gcongr
            rw [zpow_natCast]; exact_mod_cast hk
        _ = 2 ^ ((p : Int) + e) := by rw [zpow_add₀ two]
        _ ≤ _ := zpow_le_zpow_right₀ (by norm_num) (by omega)
    have hg : (2 : Rat) ^ expo q * pow2 (p - 1 - expo q) = ((2 ^ (p - 1) : Int) : Rat) := by
      rw [pow2_eq, ← zpow_add₀ two]
      push_cast
      rw [← zpow_natCast]
      congr 1
      omega
    have hle : |q| - 2 ^ expo q < |(k : Rat) * 2 ^ e - q| := by
      have := abs_sub_abs_le_abs_sub q ((k : Rat) * 2 ^ e)
      rw [abs_sub_comm] at this
      linarith
    rw [h] at hle
    refine absurd hle (not_lt.2 ?_)
    rcases lt_or_gt_of_ne hq with hneg | hpos
    · have := rd_grid (p := p) hq (r := -(2 : Rat) ^ expo q) (z := -(2 ^ (p - 1))) (by
        rw [neg_mul, hg]; push_cast; ring)
      rw [abs_of_neg hneg] at h1 ⊢
      have e1 : |-(2 : Rat) ^ expo q - q| = -q - 2 ^ expo q := by
        rw [abs_of_nonneg (by linarith)]; ring
      rw [e1] at this; exact this
    · have := rd_grid (p := p) hq hg
      rw [abs_of_pos hpos] at h1 ⊢
      have e1 : |(2 : Rat) ^ expo q - q| = q - 2 ^ expo q := by
        rw [abs_of_nonpos (by linarith)]; ring
      rw [e1] at this; exact this

theorem IsFloat.mono {p p' : Nat} (h : p ≤ p') {q : Rat} (hq : IsFloat p q) : IsFloat p' q := by
  obtain ⟨k, e, rfl, hk⟩ := hq
  exact ⟨k, e, rfl, lt_of_lt_of_le hk (pow_le_pow_right₀ (by norm_num) h)⟩

theorem isInt64_iff (q : Rat) : (q.den = 1 ∧ fitsI64 q.num = true) ↔ IsInt64 q := by
  simp only [fitsI64, Bool.and_eq_true, decide_eq_true_eq, IsInt64]
  constructor
  · rintro ⟨h1, h2, h3⟩
    exact ⟨q.num, (Rat.den_eq_one_iff q).1 h1 |>.symm, h2, h3⟩
  · rintro ⟨n, rfl, h2, h3⟩
    simp; omega

theorem den_one_iff (q : Rat) : q.den = 1 ↔ ∃ n : Int, q = n := by
  constructor
  · intro h; exact ⟨q.num, ((Rat.den_eq_one_iff q).1 h).symm⟩
  · rintro ⟨n, rfl⟩; simp

theorem cn_int {n : Int} (h1 : -(2 ^ 63) ≤ n) (h2 : n < 2 ^ 63) : ctyNumberToNative n = .ok (.int n) := by
  have h := (isInt64_iff (n : Rat)).2 ⟨n, rfl, h1, h2⟩
  unfold ctyNumberToNative
  rw [if_pos h]
  simp

theorem cn_f32 {q : Rat} (h0 : 0 < q) (h1 : ¬ IsWhole q) (h : IsFloat 24 q) :
    ctyNumberToNative q = .ok (.flt q) := by
  have h3 : ¬ q.den = 1 := fun h => h1 ((den_one_iff q).1 h)
  simp [ctyNumberToNative, not_lt.2 h0.le, h3, rd_exact h, rd_exact (h.mono (by decide : 24 ≤ 53))]

theorem isNil_norm (v : GV) : v.norm.isNil = v.isNil := by
  cases v with
  | list l => cases l <;> simp [GV.norm, GV.isNil]
  | map m => cases m with
    | nil => simp [GV.norm, GV.isNil]
    | cons e m => obtain ⟨k, v⟩ := e; simp [GV.norm, GV.isNil]
  | flt q => simp only [GV.norm]; split <;> rfl
  | _ => simp [GV.norm, GV.isNil]

theorem Plain.not_nil {nfc : Bytes → Bytes} {v : GV} (h : Plain nfc v) : v.norm.isNil = false := by
  rw [isNil_norm]
  cases v <;> simp_all [Plain, GV.isNil]

mutual
theorem plain_back (nfc : Bytes → Bytes) : ∀ v, Plain nfc v → ctyToNative (nativeToCty nfc v) = .ok v.norm
  | .nil, h => by simp [Plain] at h
  | .str s, h => by
    simp only [Plain] at h
    simp [nativeToCty, ctyToNative, GV.norm, h]
  | .bool v, _ => by simp [nativeToCty, ctyToNative, GV.norm]
  | .int n, h => by
    simp only [Plain] at h
    obtain ⟨m, e, h1, h2⟩ := h
    have : n = m := by exact_mod_cast e
    subst this
    simp only [nativeToCty, ctyToNative, GV.norm, cn_int h1 h2]
  | .flt q, h => by
    simp only [Plain] at h
    rcases h with ⟨n, rfl, h1, h2⟩ | ⟨h1, h2, h3⟩
    · simp [nativeToCty, ctyToNative, GV.norm, cn_int h1 h2]
    · have h4 : ¬ q.den = 1 := fun h => h2 ((den_one_iff q).1 h)
      simp [nativeToCty, ctyToNative, GV.norm, cn_f32 h1 h2 h3, h4]
  | .list l, h => by
    simp only [Plain] at h
    simp only [nativeToCty, ctyToNative, plain_backL nfc l h, Except.map]
    cases l <;> simp [normL, mkList, GV.norm]
  | .map m, h => by
    simp only [Plain] at h
    simp only [nativeToCty, ctyToNative, plain_backM nfc m h, Except.map]
    rcases m with _ | ⟨⟨k, v⟩, m⟩ <;> simp [normM, mkMap, GV.norm]
  | .nilList, _ => by simp [nativeToCty, nativeToCtyL, ctyToNative, ctyToNativeL, Except.map, mkList, GV.norm]
  | .nilMap, _ => by simp [nativeToCty, nativeToCtyM, ctyToNative, ctyToNativeM, Except.map, mkMap, GV.norm]
theorem plain_backL (nfc : Bytes → Bytes) : ∀ l, PlainL nfc l → ctyToNativeL (nativeToCtyL nfc l) = .ok (normL l)
  | [], _ => by simp [nativeToCtyL, ctyToNativeL, normL]
  | v :: l, h => by
    simp only [PlainL] at h
    simp [nativeToCtyL, ctyToNativeL, normL, plain_back nfc v h.1, plain_backL nfc l h.2, Except.bind, Except.map,
      h.1.not_nil]
theorem plain_backM (nfc : Bytes → Bytes) : ∀ m, PlainM nfc m → ctyToNativeM (nativeToCtyM nfc m) = .ok (normM m)
  | [], _ => by simp [nativeToCtyM, ctyToNativeM, normM]
  | (k, v) :: m, h => by
    simp only [PlainM] at h
    simp [nativeToCtyM, ctyToNativeM, normM, plain_back nfc v h.2.1, plain_backM nfc m h.2.2, Except.bind, Except.map,
      h.2.1.not_nil, h.1]
end

theorem ctyL_nulls (l : List Cty) : ctyToNativeL l = ctyToNativeL (l.filter fun c => decide (c ≠ .null)) := by
  induction l with
  | nil => rfl
  | cons c l ih =>
    by_cases h : c = .null
    · subst h
      simp only [ctyToNativeL, ctyToNative, Except.bind, GV.isNil, if_true, List.filter_cons, ne_eq, not_true_eq_false,
        decide_false, Bool.false_eq_true, if_false, ← ih]
      cases ctyToNativeL l <;> rfl
    · simp only [ctyToNativeL, List.filter_cons, ne_eq, h, not_false_eq_true, decide_true, if_true, ← ih]

theorem ctyM_nulls (m : List (Bytes × Cty)) :
    ctyToNativeM m = ctyToNativeM (m.filter fun e => decide (e.2 ≠ .null)) := by
  induction m with
  | nil => rfl
  | cons e m ih =>
    obtain ⟨k, c⟩ := e
    by_cases h : c = .null
    · subst h
      simp only [ctyToNativeM, ctyToNative, Except.bind, GV.isNil, if_true, List.filter_cons, ne_eq, not_true_eq_false,
        decide_false, Bool.false_eq_true, if_false, ← ih]
      cases ctyToNativeM m <;> rfl
    · simp only [ctyToNativeM, List.filter_cons, ne_eq, h, not_false_eq_true, decide_true, if_true, ← ih]

theorem ctyNumber_not_nil {q : Rat} {v : GV} (h : ctyNumberToNative q = .ok v) : v.isNil = false := by
  unfold ctyNumberToNative at h
  split at h
  · cases h; rfl
  · split at h
    · cases h
    · split at h
      · cases h
      · split at h <;> cases h <;> rfl

theorem cty_isNil {c : Cty} {v : GV} (h : ctyToNative c = .ok v) : v.isNil = true ↔ c = .null := by
  cases c with
  | null => simp only [ctyToNative, Except.ok.injEq] at h; subst h; simp [GV.isNil]
  | str s => simp only [ctyToNative, Except.ok.injEq] at h; subst h; simp [GV.isNil]
  | num q => simp only [ctyToNative] at h; simp [ctyNumber_not_nil h]
  | bool s => simp only [ctyToNative, Except.ok.injEq] at h; subst h; simp [GV.isNil]
  | tuple l =>
    simp only [ctyToNative] at h
    cases hl : ctyToNativeL l with
    | error e => rw [hl] at h; cases h
    | ok r => rw [hl] at h; simp only [Except.map, Except.ok.injEq] at h; subst h; unfold mkList; split <;> simp [GV.isNil]
  | object m =>
    simp only [ctyToNative] at h
    cases hl : ctyToNativeM m with
    | error e => rw [hl] at h; cases h
    | ok r => rw [hl] at h; simp only [Except.map, Except.ok.injEq] at h; subst h; unfold mkMap; split <;> simp [GV.isNil]

/-- Members that are not null are kept, in order. -/
theorem ctyL_forall₂ {l : List Cty} {vs : List GV} (h : ctyToNativeL l = .ok vs) :
    List.Forall₂ (fun c v => ctyToNative c = .ok v) (l.filter fun c => decide (c ≠ .null)) vs := by
  induction l generalizing vs with
  | nil => simp only [ctyToNativeL, Except.ok.injEq] at h; subst h; exact .nil
  | cons c l ih =>
    simp only [ctyToNativeL] at h
    cases hc : ctyToNative c with
    | error e => rw [hc] at h; cases h
    | ok v =>
      cases hl : ctyToNativeL l with
      | error e => rw [hc, hl] at h; cases h
      | ok r =>
        rw [hc, hl] at h
        simp only [Except.bind, Except.map, Except.ok.injEq] at h
        subst h
        have := cty_isNil hc
        by_cases hn : c = .null
        · rw [if_pos (this.2 hn)]; simp [hn]; simpa using ih hl
        · rw [if_neg (fun h => hn (this.1 h))]; simp [hn]; exact ⟨hc, by simpa using ih hl⟩

theorem ctyM_forall₂ {m : List (Bytes × Cty)} {vs : List (Bytes × GV)} (h : ctyToNativeM m = .ok vs) :
    List.Forall₂ (fun c v => c.1 = v.1 ∧ ctyToNative c.2 = .ok v.2) (m.filter fun e => decide (e.2 ≠ .null)) vs := by
  induction m generalizing vs with
  | nil => simp only [ctyToNativeM, Except.ok.injEq] at h; subst h; exact .nil
  | cons c l ih =>
    obtain ⟨k, c⟩ := c
    simp only [ctyToNativeM] at h
    cases hc : ctyToNative c with
    | error e => rw [hc] at h; cases h
    | ok v =>
      cases hl : ctyToNativeM l with
      | error e => rw [hc, hl] at h; cases h
      | ok r =>
        rw [hc, hl] at h
        simp only [Except.bind, Except.map, Except.ok.injEq] at h
        subst h
        have := cty_isNil hc
        by_cases hn : c = .null
        · rw [if_pos (this.2 hn)]; simp [hn]; simpa using ih hl
        · rw [if_neg (fun h => hn (this.1 h))]; simp [hn]; exact ⟨hc, by simpa using ih hl⟩

end Verif.Hcl
