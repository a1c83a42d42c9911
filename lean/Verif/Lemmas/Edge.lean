import Verif.Spec.Edge
import Verif.Lemmas.Cty
/-! # Lemmas about the limits of floating point formats -/
set_option linter.unusedSimpArgs false
namespace Verif.Edge
open Hcl (pow2 roundEven expo fitsI64 intText fltText IsFloat IsInt64 IsWhole pow2_eq pow2_pos expo_spec roundEven_near roundEven_nearest roundEven_int roundEven_tie)

theorem two_ne : (2 : Rat) ≠ 0 := by norm_num

theorem mag_eq (q : Rat) : mag q = |q| := by
  unfold mag
  split
  · rw [abs_of_neg ‹_›]
  · rw [abs_of_nonneg (not_lt.1 ‹_›)]

theorem le_roundEven {x : Rat} {z : Int} (h : (z : Rat) ≤ x) : z ≤ roundEven x := by
  have h1 := roundEven_nearest x z
  by_contra hc
  have hlt : (roundEven x : Rat) + 1 ≤ z := by exact_mod_cast (by omega : roundEven x + 1 ≤ z)
  rw [abs_of_nonpos (by linarith), abs_of_nonpos (by linarith)] at h1
  linarith

theorem roundEven_le {x : Rat} {z : Int} (h : x ≤ z) : roundEven x ≤ z := by
  have h1 := roundEven_nearest x z
  by_contra hc
  have hlt : (z : Rat) + 1 ≤ roundEven x := by exact_mod_cast (by omega : z + 1 ≤ roundEven x)
  rw [abs_of_nonneg (by linarith), abs_of_nonneg (by linarith)] at h1
  linarith

/-- A half is rounded to the even number. -/
theorem half_roundEven {x : Rat} {z : Int} (hz : z % 2 = 0) (h : (z : Rat) - 1 / 2 ≤ x) : z ≤ roundEven x := by
  by_contra hc
  have hn := roundEven_near x
  have hlt : (roundEven x : Rat) + 1 ≤ z := by exact_mod_cast (by omega : roundEven x + 1 ≤ z)
  have hx : x = z - 1 / 2 := by
    rw [abs_le] at hn
    apply le_antisymm <;> linarith
  have hr : (roundEven x : Rat) = z - 1 := by
    rw [abs_le] at hn
    apply le_antisymm <;> linarith
  have ht := roundEven_tie (x := x) (z := z) (fun h => hc h.le) (by
    rw [hr, hx]
    rw [show (z : Rat) - (z - 1 / 2) = 1 / 2 by ring, show (z : Rat) - 1 - (z - 1 / 2) = -(1 / 2) by ring, abs_neg])
  have : roundEven x = z - 1 := by exact_mod_cast hr
  omega

/-! ## Rounding -/

/-- The last place as a power of two. -/
theorem near_eq (f : Fmt) (q : Rat) : near f q = roundEven (|q| / 2 ^ last f q) * 2 ^ last f q := by
  unfold near; rw [mag_eq, pow2_eq]

theorem le_near {f : Fmt} {q : Rat} {z : Int} (h : z * (2 : Rat) ^ last f q ≤ |q|) : z * (2 : Rat) ^ last f q ≤ near f q := by
  rw [near_eq]
  have hu : (0 : Rat) < 2 ^ last f q := by positivity
  have := le_roundEven ((le_div_iff₀ hu).2 h)
  gcongr

theorem near_le {f : Fmt} {q : Rat} {z : Int} (h : |q| ≤ z * (2 : Rat) ^ last f q) : near f q ≤ z * (2 : Rat) ^ last f q := by
  rw [near_eq]
  have hu : (0 : Rat) < 2 ^ last f q := by positivity
  have := roundEven_le ((div_le_iff₀ hu).2 h)
  gcongr

theorem near_half (f : Fmt) (q : Rat) : abs (near f q - |q|) ≤ 2 ^ last f q / 2 := by
  have hu : (0 : Rat) < 2 ^ last f q := by positivity
  have h := roundEven_near (|q| / 2 ^ last f q)
  have e : near f q - |q| = ((roundEven (|q| / 2 ^ last f q) : Rat) - |q| / 2 ^ last f q) * 2 ^ last f q := by
    rw [near_eq]; field_simp
  rw [e, abs_mul, abs_of_pos hu]
  calc _ ≤ 1 / 2 * (2 : Rat) ^ last f q := by gcongr
    _ = _ := by ring

theorem near_grid (f : Fmt) (q : Rat) (z : Int) : abs (near f q - |q|) ≤ abs (z * (2 : Rat) ^ last f q - |q|) := by
  have hu : (0 : Rat) < 2 ^ last f q := by positivity
  have h := roundEven_nearest (|q| / 2 ^ last f q) z
  have e : near f q - |q| = ((roundEven (|q| / 2 ^ last f q) : Rat) - |q| / 2 ^ last f q) * 2 ^ last f q := by
    rw [near_eq]; field_simp
  have e2 : (z : Rat) * 2 ^ last f q - |q| = ((z : Rat) - |q| / 2 ^ last f q) * 2 ^ last f q := by field_simp
  rw [e, e2, abs_mul, abs_mul]
  gcongr

theorem near_nonneg (f : Fmt) (q : Rat) : 0 ≤ near f q := by
  have := le_near (f := f) (q := q) (z := 0) (by simp)
  simpa using this

/-- A power of two that is not below the last place is a multiple of it. -/
theorem pow_grid {e l : Int} (h : l ≤ e) : (2 : Rat) ^ e = ((2 ^ (e - l).toNat : Int) : Rat) * 2 ^ l := by
  push_cast
  rw [← zpow_natCast, ← zpow_add₀ two_ne]
  congr 1
  omega

theorem last_ge (f : Fmt) (q : Rat) : f.emin - (f.p - 1) ≤ last f q ∧ expo q - (f.p - 1) ≤ last f q := by
  unfold last; split <;> omega

theorem last_cases (f : Fmt) (q : Rat) : (expo q < f.emin ∧ last f q = f.emin - (f.p - 1)) ∨ (f.emin ≤ expo q ∧ last f q = expo q - (f.p - 1)) := by
  unfold last; split <;> omega

theorem expo_lt {q : Rat} (hq : q ≠ 0) {e : Int} (h : |q| < 2 ^ e) : expo q < e :=
  (zpow_lt_zpow_iff_right₀ (by norm_num : (1 : Rat) < 2)).1 (lt_of_le_of_lt (expo_spec hq).1 h)

theorem le_expo {q : Rat} (hq : q ≠ 0) {e : Int} (h : (2 : Rat) ^ e ≤ |q|) : e ≤ expo q := by
  have := (zpow_lt_zpow_iff_right₀ (by norm_num : (1 : Rat) < 2)).1 (lt_of_le_of_lt h (expo_spec hq).2)
  omega

theorem pow_half (e : Int) : (2 : Rat) ^ e / 2 = 2 ^ (e - 1) := by
  rw [zpow_sub₀ two_ne, zpow_one]

/-- When rounding gives what is out of range. -/
theorem over_iff {f : Fmt} (hf : f.Ok) {q : Rat} (hq : q ≠ 0) :
    pow2 (f.emax + 1) ≤ near f q ↔ (2 : Rat) ^ (f.emax + 1) - 2 ^ (f.emax - f.p) ≤ |q| := by
  rw [pow2_eq]
  have hp := hf.pos
  have hr := hf.range
  obtain ⟨he1, he2⟩ := expo_spec hq
  have hT : (2 : Rat) ^ (f.emax - f.p) ≤ 2 ^ f.emax := zpow_le_zpow_right₀ (by norm_num) (by omega)
  have hM : (2 : Rat) ^ (f.emax + 1) = 2 * 2 ^ f.emax := by rw [zpow_add₀ two_ne, zpow_one]; ring
  constructor
  · intro h
    by_contra hc
    have hc := not_le.1 hc
    have hpos : (0 : Rat) < 2 ^ (f.emax - f.p) := by positivity
    have hlt : |q| < 2 ^ (f.emax + 1) := by linarith
    have hexp := expo_lt hq hlt
    have hl : last f q ≤ f.emax - (f.p - 1) := by rcases last_cases f q with ⟨_, h⟩ | ⟨_, h⟩ <;> omega
    -- the largest number of the format
    have hs : (2 : Rat) ^ (f.emax + 1) - 2 ^ (f.emax - (f.p - 1)) = ((2 ^ (f.emax + 1 - last f q).toNat - 2 ^ (f.emax - (f.p - 1) - last f q).toNat : Int) : Rat) * 2 ^ last f q := by
      rw [pow_grid (show last f q ≤ f.emax + 1 by omega), pow_grid hl]; push_cast; ring
    have hg := near_grid f q (2 ^ (f.emax + 1 - last f q).toNat - 2 ^ (f.emax - (f.p - 1) - last f q).toNat)
    rw [← hs] at hg
    have hd : (2 : Rat) ^ (f.emax - (f.p - 1)) = 2 * 2 ^ (f.emax - f.p) := by
      rw [show (f.emax - ((f.p : Int) - 1)) = (f.emax - f.p) + 1 by ring, zpow_add₀ two_ne, zpow_one]; ring
    rw [hd] at hg
    rw [abs_of_nonneg (by linarith)] at hg
    rcases abs_cases ((2 : Rat) ^ (f.emax + 1) - 2 * 2 ^ (f.emax - f.p) - |q|) with ⟨h1, _⟩ | ⟨h1, _⟩ <;> rw [h1] at hg <;> linarith
  · intro h
    by_cases hb : (2 : Rat) ^ (f.emax + 1) ≤ |q|
    · have he := le_expo hq hb
      have hl : last f q ≤ expo q := by rcases last_cases f q with ⟨_, h⟩ | ⟨_, h⟩ <;> omega
      have := le_near (f := f) (q := q) (z := 2 ^ (expo q - last f q).toNat) (by rw [← pow_grid hl]; exact he1)
      rw [← pow_grid hl] at this
      exact le_trans (zpow_le_zpow_right₀ (by norm_num) he) this
    · have hlt := not_le.1 hb
      have he : expo q = f.emax := by
        have h1 := expo_lt hq hlt
        have h2 := le_expo hq (e := f.emax) (by linarith)
        omega
      have hl : last f q = f.emax - (f.p - 1) := by rcases last_cases f q with ⟨_, h⟩ | ⟨_, h⟩ <;> omega
      have hu : (0 : Rat) < 2 ^ last f q := by positivity
      have hg : (2 : Rat) ^ (f.emax + 1) = ((2 ^ f.p : Int) : Rat) * 2 ^ last f q := by
        rw [pow_grid (show last f q ≤ f.emax + 1 by omega)]
        congr 4; omega
      have hhalf : (2 : Rat) ^ (f.emax - f.p) = 1 / 2 * 2 ^ last f q := by
        rw [hl, show f.emax - (f.p : Int) = (f.emax - ((f.p : Int) - 1)) - 1 by ring, ← pow_half]; ring
      rw [near_eq, hg]
      have hev : ((2 ^ f.p : Int)) % 2 = 0 := by
        obtain ⟨k, hk⟩ : ∃ k, f.p = k + 1 := ⟨f.p - 1, by omega⟩
        rw [hk, pow_succ]; omega
      have : (2 ^ f.p : Int) ≤ roundEven (|q| / 2 ^ last f q) := by
        apply half_roundEven hev
        rw [le_div_iff₀ hu]
        rw [hg, hhalf] at h
        linarith
      have : ((2 ^ f.p : Int) : Rat) ≤ (roundEven (|q| / 2 ^ last f q) : Rat) := by exact_mod_cast this
      gcongr

/-- In range, the result is a number of the format. -/
theorem near_isF {f : Fmt} (hf : f.Ok) {q : Rat} (hq : q ≠ 0) (h : near f q < 2 ^ (f.emax + 1)) : IsF f (near f q) := by
  have hp := hf.pos
  have hr := hf.range
  obtain ⟨he1, he2⟩ := expo_spec hq
  have hu : (0 : Rat) < 2 ^ last f q := by positivity
  -- the exponent is in range
  have hemax : expo q ≤ f.emax := by
    by_contra hc
    have hl : last f q ≤ expo q := by rcases last_cases f q with ⟨_, h⟩ | ⟨_, h⟩ <;> omega
    have := le_near (f := f) (q := q) (z := 2 ^ (expo q - last f q).toNat) (by rw [← pow_grid hl]; exact he1)
    rw [← pow_grid hl] at this
    have h2 : (2 : Rat) ^ (f.emax + 1) ≤ 2 ^ expo q := zpow_le_zpow_right₀ (by norm_num) (by omega)
    linarith
  have hl : last f q ≤ f.emax - (f.p - 1) := by rcases last_cases f q with ⟨_, h⟩ | ⟨_, h⟩ <;> omega
  have hge := (last_ge f q).1
  -- the mantissa
  set z := roundEven (|q| / 2 ^ last f q) with hz
  have hz0 : 0 ≤ z := le_roundEven (by push_cast; positivity)
  have hzp : z ≤ 2 ^ f.p := by
    apply roundEven_le
    rw [div_le_iff₀ hu]
    push_cast
    rw [← zpow_natCast, ← zpow_add₀ two_ne]
    refine le_trans he2.le (zpow_le_zpow_right₀ (by norm_num) ?_)
    have := (last_ge f q).2
    omega
  have hn : near f q = z * 2 ^ last f q := near_eq f q
  rcases lt_or_eq_of_le hzp with hlt | heq
  · exact ⟨z, last f q, hn, by rwa [abs_of_nonneg hz0], hge, hl⟩
  · refine ⟨2 ^ (f.p - 1), last f q + 1, ?_, ?_, by omega, ?_⟩
    · rw [hn, heq]
      push_cast
      rw [zpow_add₀ two_ne, zpow_one]
      obtain ⟨k, hk⟩ : ∃ k, f.p = k + 1 := ⟨f.p - 1, by omega⟩
      rw [hk]; simp only [Nat.add_sub_cancel]; rw [pow_succ]; ring
    · rw [abs_of_nonneg (by positivity)]
      exact pow_lt_pow_right₀ (by norm_num) (by omega)
    · rw [hn, heq] at h
      have e : ((2 ^ f.p : Int) : Rat) * 2 ^ last f q = 2 ^ ((f.p : Int) + last f q) := by
        push_cast; rw [zpow_add₀ two_ne, zpow_natCast]
      rw [e] at h
      have := (zpow_lt_zpow_iff_right₀ (by norm_num : (1 : Rat) < 2)).1 h
      omega

/-- No number of the format is nearer. -/
theorem near_nearest {f : Fmt} (hf : f.Ok) {q : Rat} (hq : q ≠ 0) {s : Rat} (hs : IsF f s) : abs (near f q - |q|) ≤ abs (s - |q|) := by
  have hp := hf.pos
  obtain ⟨k, e, rfl, hk, h1, h2⟩ := hs
  obtain ⟨he1, he2⟩ := expo_spec hq
  by_cases hl : last f q ≤ e
  · have hg : (k : Rat) * 2 ^ e = ((k * 2 ^ (e - last f q).toNat : Int) : Rat) * 2 ^ last f q := by
      rw [pow_grid hl]; push_cast; ring
    rw [hg]; exact near_grid f q _
  · have hc : last f q = expo q - (f.p - 1) := by rcases last_cases f q with ⟨_, h⟩ | ⟨_, h⟩ <;> omega
    have hsm : (k : Rat) * 2 ^ e ≤ 2 ^ expo q := by
      calc (k : Rat) * 2 ^ e ≤ |(k : Rat)| * 2 ^ e := by gcongr; exact le_abs_self _
        _ ≤ 2 ^ (f.p : Int) * 2 ^ e := by
            gcongr
            rw [zpow_natCast]; exact_mod_cast hk.le
        _ = 2 ^ ((f.p : Int) + e) := by rw [zpow_add₀ two_ne]
        _ ≤ _ := zpow_le_zpow_right₀ (by norm_num) (by omega)
    have hg := near_grid f q (2 ^ (expo q - last f q).toNat)
    rw [← pow_grid (show last f q ≤ expo q by omega)] at hg
    refine le_trans hg ?_
    rw [abs_of_nonpos (show (2 : Rat) ^ expo q - |q| ≤ 0 by linarith), abs_of_nonpos (show (k : Rat) * 2 ^ e - |q| ≤ 0 by linarith)]
    linarith

theorem IsF.neg {f : Fmt} {q : Rat} (h : IsF f q) : IsF f (-q) := by
  obtain ⟨k, e, rfl, h1, h2⟩ := h
  exact ⟨-k, e, by push_cast; ring, by rwa [abs_neg], h2⟩

theorem isF_zero {f : Fmt} (hf : f.Ok) : IsF f 0 :=
  ⟨0, f.emin - (f.p - 1), by simp, by simp, le_refl _, by have := hf.range; omega⟩

theorem round_fin {f : Fmt} {q r : Rat} (h : round f q = .fin r) (hq : q ≠ 0) :
    near f q < 2 ^ (f.emax + 1) ∧ r = if q < 0 then -near f q else near f q := by
  unfold round at h
  rw [if_neg hq] at h
  split at h
  · cases h
  · next hc =>
    cases h
    rw [pow2_eq] at hc
    exact ⟨not_le.1 hc, rfl⟩

theorem round_zero (f : Fmt) : round f 0 = .fin 0 := by simp [round]

theorem round_sub {f : Fmt} {q r : Rat} (h : round f q = .fin r) (hq : q ≠ 0) : |r - q| = abs (near f q - |q|) := by
  obtain ⟨_, rfl⟩ := round_fin h hq
  split
  · next hn => rw [abs_of_neg hn, ← abs_neg]; congr 1; ring
  · next hn => rw [abs_of_nonneg (not_lt.1 hn)]

theorem round_spec {f : Fmt} (hf : f.Ok) {q r : Rat} (h : round f q = .fin r) : IsF f r ∧ ∀ s, IsF f s → |r - q| ≤ |s - q| := by
  by_cases hq : q = 0
  · subst hq
    rw [round_zero] at h; cases h
    exact ⟨isF_zero hf, fun s _ => by simp⟩
  · obtain ⟨hlt, hr⟩ := round_fin h hq
    have hF := near_isF hf hq hlt
    constructor
    · rw [hr]; split
      · exact hF.neg
      · exact hF
    · intro s hs
      rw [round_sub h hq]
      rcases lt_or_ge q 0 with hn | hn
      · have := near_nearest hf hq hs.neg
        rw [abs_of_neg hn] at this ⊢
        rwa [show |(-s) - -q| = |s - q| by rw [← abs_neg]; congr 1; ring] at this
      · have := near_nearest hf hq hs
        rwa [abs_of_nonneg hn] at this ⊢

theorem round_inf {f : Fmt} (hf : f.Ok) {q : Rat} {s : Bool} :
    round f q = .inf s ↔ (2 : Rat) ^ (f.emax + 1) - 2 ^ (f.emax - f.p) ≤ |q| ∧ (s = true ↔ q < 0) := by
  have hp := hf.pos
  by_cases hq : q = 0
  · subst hq
    rw [round_zero]
    have : (2 : Rat) ^ (f.emax - f.p) < 2 ^ (f.emax + 1) := zpow_lt_zpow_right₀ (by norm_num) (by omega)
    simp
    intro h
    linarith
  · rw [← over_iff hf hq]
    unfold round
    rw [if_neg hq]
    split
    · next h =>
      simp only [F.inf.injEq, h, true_and]
      by_cases hn : q < 0 <;> cases s <;> simp [hn]
    · next h => simp [h]

theorem round_ne_nan (f : Fmt) (q : Rat) : round f q ≠ .nan := by
  unfold round
  split
  · simp
  · split <;> simp

theorem round_exact {f : Fmt} (hf : f.Ok) {q : Rat} (h : IsF f q) : round f q = .fin q := by
  cases hr : round f q with
  | nan => exact absurd hr (round_ne_nan f q)
  | fin r =>
    have := (round_spec hf hr).2 q h
    simp at this
    rw [sub_eq_zero.1 this]
  | inf s =>
    exfalso
    obtain ⟨hge, _⟩ := (round_inf hf).1 hr
    obtain ⟨k, e, rfl, hk, h1, h2⟩ := h
    have hp := hf.pos
    -- at most the largest number of the format
    have hk : |k| ≤ 2 ^ f.p - 1 := by omega
    have hb : |(k : Rat) * 2 ^ e| ≤ (2 ^ f.p - 1) * 2 ^ (f.emax - (f.p - 1)) := by
      rw [abs_mul, abs_of_pos (by positivity : (0 : Rat) < 2 ^ e)]
      have hk' : |(k : Rat)| ≤ 2 ^ f.p - 1 := by
        have : ((|k| : Int) : Rat) ≤ ((2 ^ f.p - 1 : Int) : Rat) := by exact_mod_cast hk
        push_cast at this; exact this
      have h0 : (0 : Rat) ≤ 2 ^ f.p - 1 := le_trans (abs_nonneg _) hk'
      exact mul_le_mul hk' (zpow_le_zpow_right₀ (by norm_num) h2) (by positivity) h0
    have e1 : ((2 : Rat) ^ f.p - 1) * 2 ^ (f.emax - (f.p - 1)) = 2 ^ (f.emax + 1) - 2 * 2 ^ (f.emax - f.p) := by
      rw [sub_mul, one_mul, ← zpow_natCast, ← zpow_add₀ two_ne,
        show f.emax - ((f.p : Int) - 1) = (f.emax - f.p) + 1 by ring, zpow_add₀ two_ne (f.emax - f.p) 1, zpow_one,
        show (f.p : Int) + ((f.emax - f.p) + 1) = f.emax + 1 by ring]
      ring
    have hpos : (0 : Rat) < 2 ^ (f.emax - f.p) := by positivity
    linarith

theorem f32_ok : f32.Ok := ⟨by decide, by decide⟩
theorem f64_ok : f64.Ok := ⟨by decide, by decide⟩

/-! ## Rounding keeps the order, and is rounding without limits in the middle of the range -/

theorem round_le {f : Fmt} (hf : f.Ok) {q r s : Rat} (h : round f q = .fin r) (hs : IsF f s) (hq : q ≤ s) : r ≤ s := by
  have := (round_spec hf h).2 s hs
  rw [abs_of_nonneg (sub_nonneg.2 hq)] at this
  have := le_trans (le_abs_self _) this
  linarith

theorem le_round {f : Fmt} (hf : f.Ok) {q r s : Rat} (h : round f q = .fin r) (hs : IsF f s) (hq : s ≤ q) : s ≤ r := by
  have := (round_spec hf h).2 s hs
  rw [abs_of_nonpos (sub_nonpos.2 hq)] at this
  have := le_trans (neg_le_abs _) this
  linarith

theorem round_pos_inf {f : Fmt} (hf : f.Ok) {q : Rat} (hq : 0 ≤ q) :
    round f q = .inf false ↔ (2 : Rat) ^ (f.emax + 1) - 2 ^ (f.emax - f.p) ≤ q := by
  rw [round_inf hf, abs_of_nonneg hq]
  simp [not_lt.2 hq]

theorem isF_wide {q : Rat} (h : IsF f32 q) : IsF f64 q := by
  obtain ⟨k, e, h1, h2, h3, h4⟩ := h
  refine ⟨k, e, h1, ?_, ?_, ?_⟩
  · exact lt_of_lt_of_le h2 (by decide)
  · exact le_trans (by decide) h3
  · exact le_trans h4 (by decide)

theorem isF_pow {f : Fmt} (hp : 2 ≤ f.p) {e : Int} (h1 : f.emin ≤ e) (h2 : e ≤ f.emax) : IsF f (2 ^ e) := by
  refine ⟨2 ^ (f.p - 1), e - (f.p - 1), ?_, ?_, by omega, by omega⟩
  · push_cast
    rw [← zpow_natCast, ← zpow_add₀ two_ne]
    congr 1; omega
  · rw [abs_of_nonneg (by positivity)]
    exact pow_lt_pow_right₀ (by norm_num) (by omega)

theorem round_mid {f : Fmt} (hf : f.Ok) {q : Rat} (h1 : (2 : Rat) ^ f.emin ≤ q) (h2 : q ≤ 2 ^ f.emax) : round f q = .fin (Hcl.rd f.p q) := by
  have h0 : 0 < q := lt_of_lt_of_le (by positivity) h1
  have hne : q ≠ 0 := h0.ne'
  have hp := hf.pos
  have he := le_expo hne (e := f.emin) (by rwa [abs_of_pos h0])
  have hl : last f q = expo q - (f.p - 1) := by rcases last_cases f q with ⟨_, h⟩ | ⟨_, h⟩ <;> omega
  have hn : near f q = Hcl.rd f.p q := by
    rw [near_eq, hl, abs_of_pos h0, Hcl.rd, if_neg hne, pow2_eq]
    rw [show (2 : Rat) ^ (expo q - ((f.p : Int) - 1)) = (2 ^ ((f.p : Int) - 1 - expo q))⁻¹ by rw [← zpow_neg]; congr 1; ring]
    rw [div_inv_eq_mul, ← div_eq_mul_inv]
  have hr : ¬ pow2 (f.emax + 1) ≤ near f q := by
    rw [over_iff hf hne, abs_of_pos h0, not_le]
    have h3 : (2 : Rat) ^ (f.emax - f.p) < 2 ^ f.emax := zpow_lt_zpow_right₀ (by norm_num) (by omega)
    have h4 : (2 : Rat) ^ (f.emax + 1) = 2 * 2 ^ f.emax := by rw [zpow_add₀ two_ne, zpow_one]; ring
    linarith
  unfold round
  rw [if_neg hne, if_neg hr, if_neg (not_lt.2 h0.le), hn]

/-! ## Conversion -/

theorem floor_whole {q : Rat} : IsWhole q ↔ (q.floor : Rat) = q := by
  constructor
  · rintro ⟨n, rfl⟩; simp
  · intro h; exact ⟨_, h.symm⟩

theorem accOf_exact {r q : Rat} : accOf r q = .exact ↔ r = q := by
  unfold accOf
  split
  · next h => simp [h.ne]
  · split
    · next h => simp [h.ne']
    · next h1 h2 => simp; exact le_antisymm (not_lt.1 h2) (not_lt.1 h1)

theorem accOf_below {r q : Rat} : accOf r q = .below ↔ r < q := by
  unfold accOf
  split
  · next h => simp [h]
  · next h => split <;> simp [h]

theorem toNative_int {n : Int} (h1 : -(2 ^ 63) ≤ n) (h2 : n < 2 ^ 63) : toNative (.fin n) = .ok (.int n) := by
  have ht : (if (n : Rat) < 0 then -(-(n : Rat)).floor else (n : Rat).floor) = n := by
    have e : (-(n : Rat)).floor = -n := by rw [show (-(n : Rat)) = ((-n : Int) : Rat) by push_cast; rfl]; exact Rat.floor_intCast _
    split
    · rw [e]; omega
    · exact Rat.floor_intCast _
  have hi : int64 (.fin n) = (n, .exact) := by
    unfold int64
    simp only [ht]
    rw [if_neg (by omega), if_neg (by omega)]
    simp [accOf]
  unfold toNative fromInt
  rw [hi]
  rfl

theorem toNative_neg {q : Rat} (h : ¬ IsInt64 q) (h0 : q < 0) : toNative (.fin q) = .error () := by
  have hi : (int64 (.fin q)).2 = .above := by
    unfold int64
    simp only [if_pos h0]
    have hf : ((-q).floor : Rat) ≤ -q := Int.floor_le _
    have hf0 : 0 ≤ (-q).floor := show 0 ≤ ⌊-q⌋ from Int.floor_nonneg.2 (by linarith)
    have hlt : q < ((if -(-q).floor < -(2 ^ 63) then -(2 ^ 63) else if 2 ^ 63 ≤ -(-q).floor then 2 ^ 63 - 1 else -(-q).floor : Int) : Rat) := by
      split
      · next hc =>
        have : ((-(-q).floor : Int) : Rat) < ((-(2 ^ 63) : Int) : Rat) := by exact_mod_cast hc
        have hx : ((-q).floor : Rat) ≤ -q := hf
        by_contra hcc
        have hcc := not_lt.1 hcc
        push_cast at this hcc
        linarith
      · next hc =>
        rw [if_neg (by omega)]
        refine lt_of_le_of_ne (by push_cast; linarith) ?_
        intro he
        exact h ⟨-(-q).floor, he, by omega, by omega⟩
    unfold accOf
    rw [if_neg (not_lt.2 hlt.le), if_pos hlt]
  unfold toNative fromInt
  rw [hi]
  simp only [ne_eq, reduceCtorEq, not_false_eq_true, ↓reduceIte]
  rw [show int64 (.fin q) = ((int64 (.fin q)).1, Acc.above) by rw [← hi]]
  rfl

theorem int64_below {q : Rat} (h : ¬ IsInt64 q) (h0 : 0 ≤ q) : (int64 (.fin q)).2 = .below := by
  unfold int64
  simp only [if_neg (not_lt.2 h0)]
  rw [accOf_below]
  have hf : (q.floor : Rat) ≤ q := Int.floor_le _
  have hf0 : 0 ≤ q.floor := Int.floor_nonneg.2 h0
  rw [if_neg (by omega)]
  split
  · next hc =>
    have : ((2 ^ 63 : Int) : Rat) ≤ q.floor := by exact_mod_cast hc
    push_cast at this ⊢
    linarith
  · next hc =>
    refine lt_of_le_of_ne hf ?_
    intro he
    exact h ⟨q.floor, he.symm, by omega, by omega⟩

theorem toNative_big {q : Rat} (h : ¬ IsInt64 q) (h0 : 0 ≤ q) (hw : IsWhole q) : toNative (.fin q) = .error () := by
  have hi := int64_below h h0
  have hb : bigInt (.fin q) = .exact := by
    unfold bigInt
    dsimp only
    rw [if_neg (not_lt.2 h0), accOf_exact, floor_whole.1 hw]
  unfold toNative fromInt
  rw [hi, hb]
  simp only [ne_eq, reduceCtorEq, not_false_eq_true, ↓reduceIte, not_true_eq_false]
  rw [show int64 (.fin q) = ((int64 (.fin q)).1, Acc.below) by rw [← hi]]
  rfl

theorem not_int64 {q : Rat} (h : ¬ IsWhole q) : ¬ IsInt64 q := fun ⟨n, hn, _⟩ => h ⟨n, hn⟩

theorem toNative_frac {q : Rat} (h0 : 0 ≤ q) (hw : ¬ IsWhole q) :
    toNative (.fin q) = if (float f32 (.fin q)).2 ≠ .below then (fromFloat f32 (.fin q)).map .f32 else (fromFloat f64 (.fin q)).map .f64 := by
  have hi := int64_below (not_int64 hw) h0
  have hb : bigInt (.fin q) = .below := by
    unfold bigInt
    dsimp only
    rw [if_neg (not_lt.2 h0), accOf_below]
    refine lt_of_le_of_ne (Int.floor_le _) ?_
    intro he
    exact hw (floor_whole.2 he)
  unfold toNative
  rw [hi, hb]
  simp only [ne_eq, not_true_eq_false, ↓reduceIte]

theorem fromFloat_fin {f : Fmt} {q r : Rat} (h : round f64 q = .fin r) : fromFloat f (.fin q) = .ok (round f r) := by
  unfold fromFloat float
  dsimp only
  rw [h]
  rfl

theorem fromFloat_big {f : Fmt} {q : Rat} {s : Bool} (h : round f64 q = .inf s) : fromFloat f (.fin q) = .error () := by
  unfold fromFloat float
  dsimp only
  rw [h]
  cases s <;> rfl

theorem float_below {f : Fmt} {q : Rat} (h0 : 0 ≤ q) : (float f (.fin q)).2 = .below ↔ ∃ r, round f q = .fin r ∧ r < q := by
  unfold float
  dsimp only
  cases h : round f q with
  | fin r => simp [accOf_below]
  | nan => exact absurd h (round_ne_nan f q)
  | inf s =>
    cases s with
    | false => simp
    | true =>
      unfold round at h
      simp only [not_lt.2 h0, decide_false] at h
      split at h
      · cases h
      · split at h <;> cases h

theorem round_nonneg {f : Fmt} {q : Rat} (h0 : 0 ≤ q) : (∃ r, round f q = .fin r) ∨ round f q = .inf false := by
  unfold round
  split
  · exact .inl ⟨_, rfl⟩
  · split
    · right; simp [not_lt.2 h0]
    · exact .inl ⟨_, rfl⟩

/-- What a positive fraction becomes. -/
inductive Frac (q : Rat) : Except Unit Native → Prop
  | big : round f64 q = .inf false → Frac q (.error ())
  | wide (m r : Rat) : round f64 q = .fin m → round f32 q = .fin r → r < q → Frac q (.ok (.f64 (.fin m)))
  | narrow (m r : Rat) : round f64 q = .fin m → round f32 q = .fin r → q ≤ r → Frac q (.ok (.f32 (round f32 m)))
  | over (m : Rat) : round f64 q = .fin m → round f32 q = .inf false → Frac q (.ok (.f32 (round f32 m)))

theorem toNative_fracs {q : Rat} (h0 : 0 ≤ q) (hw : ¬ IsWhole q) : Frac q (toNative (.fin q)) := by
  rw [toNative_frac h0 hw]
  rcases round_nonneg (f := f64) h0 with ⟨m, hm⟩ | hm
  · rw [fromFloat_fin hm, fromFloat_fin hm, round_exact f64_ok (round_spec f64_ok hm).1]
    rcases round_nonneg (f := f32) h0 with ⟨r, hr⟩ | hr
    · by_cases hlt : r < q
      · rw [if_neg (not_not.2 ((float_below h0).2 ⟨r, hr, hlt⟩))]
        exact .wide m r hm hr hlt
      · rw [if_pos (fun hc => by
          obtain ⟨r', h1, h2⟩ := (float_below h0).1 hc
          rw [hr] at h1; cases h1; exact hlt h2)]
        exact .narrow m r hm hr (not_lt.1 hlt)
    · rw [if_pos (fun hc => by
        obtain ⟨r', h1, h2⟩ := (float_below h0).1 hc
        rw [hr] at h1; cases h1)]
      exact .over m hm hr
  · rw [fromFloat_big hm, fromFloat_big hm]
    simp only [Except.map]
    split <;> exact .big hm

/-- The least number that becomes infinite is, for `float32`, a `float64`. -/
theorem isF_over : IsF f64 ((2 : Rat) ^ (f32.emax + 1) - 2 ^ (f32.emax - f32.p)) := by
  refine ⟨2 ^ 25 - 1, 103, ?_, by decide, by decide, by decide⟩
  norm_num [f32]

/-- The largest number of a format. -/
theorem isF_lt {f : Fmt} (hf : f.Ok) {s : Rat} (hs : IsF f s) : |s| < (2 : Rat) ^ (f.emax + 1) - 2 ^ (f.emax - f.p) := by
  have h := round_exact hf hs
  by_contra hc
  by_cases hn : s < 0
  · have := (round_inf hf (q := s) (s := true)).2 ⟨not_lt.1 hc, by simp [hn]⟩
    rw [h] at this; cases this
  · have := (round_inf hf (q := s) (s := false)).2 ⟨not_lt.1 hc, by simp [hn]⟩
    rw [h] at this; cases this

end Verif.Edge
