import Verif.Lemmas.Edge
import Verif.Lemmas.HclLex
/-!
# Property C154: numbers at the edges of the floating point formats
-/
namespace Verif.Edge
open Hcl (pow2 roundEven expo fitsI64 intText fltText IsFloat IsInt64 IsWhole natText natText_spec)

/-- C154: the rounding of the model gives a number of the format, and none is nearer. -/
theorem C154_nearest {f : Fmt} (hf : f.Ok) {q r : Rat} (h : round f q = .fin r) : IsF f r ∧ ∀ s, IsF f s → |r - q| ≤ |s - q| :=
  round_spec hf h

example : round f32 (3 / 4 * 2 ^ (-149 : Int)) = .fin (2 ^ (-149 : Int)) := by decide +kernel

/-- C154: it gives an infinity exactly from half a last place above the largest number of the format on. -/
theorem C154_overflow {f : Fmt} (hf : f.Ok) {q : Rat} {s : Bool} :
    round f q = .inf s ↔ (2 : Rat) ^ (f.emax + 1) - 2 ^ (f.emax - f.p) ≤ |q| ∧ (s = true ↔ q < 0) :=
  round_inf hf

example : round f32 (-(10 ^ 39)) = .inf true := by decide +kernel

/-- C154: a number that the format has is kept. -/
theorem C154_kept {f : Fmt} (hf : f.Ok) {q : Rat} (h : IsF f q) : round f q = .fin q := round_exact hf h

example : IsF f32 (2 ^ (-149 : Int)) := ⟨1, -149, by norm_num, by decide, by decide, by decide⟩

/-- C154: a number is refused exactly when it is minus infinity, or no `int64` and: negative, or whole, or too large for a `float64`. -/
theorem C154_errors (n : N) : toNative n = .error () ↔
    n = .inf true ∨ ∃ q, n = .fin q ∧ ¬ IsInt64 q ∧ (q < 0 ∨ IsWhole q ∨ (2 : Rat) ^ (1024 : Int) - 2 ^ (970 : Int) ≤ q) := by
  cases n with
  | inf s => cases s <;> simp <;> decide
  | fin q =>
    simp only [reduceCtorEq, false_or, N.fin.injEq, exists_eq_left']
    by_cases hi : IsInt64 q
    · obtain ⟨k, rfl, h1, h2⟩ := hi
      rw [toNative_int h1 h2]
      simp only [reduceCtorEq, false_iff]
      exact fun hc => hc.1 ⟨k, rfl, h1, h2⟩
    · by_cases h0 : q < 0
      · simp [toNative_neg hi h0, hi, h0]
      · have h0' := not_lt.1 h0
        by_cases hw : IsWhole q
        · simp [toNative_big hi h0' hw, hi, hw]
        · have hf := toNative_fracs h0' hw
          have hb := round_pos_inf f64_ok h0'
          have e : (2 : Rat) ^ (f64.emax + 1) - 2 ^ (f64.emax - f64.p) = (2 : Rat) ^ (1024 : Int) - 2 ^ (970 : Int) := rfl
          rw [e] at hb
          rw [← hb]
          simp only [hi, not_false_eq_true, h0, hw, false_or, true_and]
          generalize toNative (.fin q) = v at hf
          cases hf with
          | big h => simp [h]
          | wide m r h _ _ => simp [h]
          | narrow m r h _ _ => simp [h]
          | over m h _ => simp [h]

example : toNative (.inf true) = .error () ∧ toNative (.fin (10 ^ 400 + 1 / 2)) = .error () := by decide +kernel

/-- C154: the result is infinite exactly for plus infinity and for fractions from the limit of `float32` to that of `float64`. -/
theorem C154_infinite (n : N) (s : Bool) : (∃ v, toNative n = .ok v ∧ v.val = .inf s) ↔
    s = false ∧ (n = .inf false ∨ ∃ q, n = .fin q ∧ ¬ IsWhole q ∧ (2 : Rat) ^ (128 : Int) - 2 ^ (103 : Int) ≤ q ∧ q < (2 : Rat) ^ (1024 : Int) - 2 ^ (970 : Int)) := by
  cases n with
  | inf t =>
    cases t with
    | true =>
      have : toNative (.inf true) = .error () := by decide
      simp [this]
    | false =>
      have : toNative (.inf false) = .ok (.f32 (.inf false)) := by decide
      simp [this, Native.val, eq_comm]
  | fin q =>
    simp only [reduceCtorEq, false_or, N.fin.injEq, exists_eq_left']
    by_cases hw : IsWhole q
    · simp only [hw, not_true_eq_false, false_and, and_false, iff_false]
      rintro ⟨v, h1, h2⟩
      by_cases hi : IsInt64 q
      · obtain ⟨k, rfl, h3, h4⟩ := hi
        rw [toNative_int h3 h4] at h1
        cases h1; cases h2
      · have := (C154_errors (.fin q)).2 (.inr ⟨q, rfl, hi, .inr (.inl hw)⟩)
        rw [this] at h1; cases h1
    · by_cases h0 : q < 0
      · rw [toNative_neg (not_int64 hw) h0]
        have : ¬ (2 : Rat) ^ (128 : Int) - 2 ^ (103 : Int) ≤ q := by
          have : (0 : Rat) < (2 : Rat) ^ (128 : Int) - 2 ^ (103 : Int) := by norm_num
          intro hc; linarith
        constructor
        · rintro ⟨v, h1, -⟩; cases h1
        · rintro ⟨-, -, h1, -⟩; exact absurd h1 this
      · have h0' := not_lt.1 h0
        have hf := toNative_fracs h0' hw
        have hb := round_pos_inf f64_ok h0'
        have e : (2 : Rat) ^ (f64.emax + 1) - 2 ^ (f64.emax - f64.p) = (2 : Rat) ^ (1024 : Int) - 2 ^ (970 : Int) := rfl
        have hn := round_pos_inf f32_ok h0'
        have e' : (2 : Rat) ^ (f32.emax + 1) - 2 ^ (f32.emax - f32.p) = (2 : Rat) ^ (128 : Int) - 2 ^ (103 : Int) := rfl
        rw [e] at hb
        rw [← not_le, ← hb]
        rw [e'] at hn
        rw [← hn]
        simp only [hw, not_false_eq_true, true_and]
        generalize toNative (.fin q) = v at hf
        cases hf with
        | big h => simp [h]
        | wide m r h h' _ => simp [h', Native.val]
        | narrow m r h h' hle =>
          have hF := (round_spec f32_ok h').1
          have hm : m ≤ r := round_le f64_ok h (isF_wide hF) hle
          have hm0 : 0 ≤ m := le_round f64_ok h (isF_zero f64_ok) h0'
          have hfin : ¬ round f32 m = .inf false := by
            rw [round_pos_inf f32_ok hm0]
            have := isF_lt f32_ok hF
            have := le_abs_self r
            intro hc; linarith
          rcases round_nonneg (f := f32) hm0 with ⟨x, hx⟩ | hx
          · simp [h', Native.val, hx]
          · exact absurd hx hfin
        | over m h h' =>
          have hm : round f32 m = .inf false := by
            have hge := (round_pos_inf f32_ok h0').1 h'
            have := le_round f64_ok h isF_over hge
            exact (round_pos_inf f32_ok (le_trans (by norm_num [f32]) this)).2 this
          simp [h, h', Native.val, hm, eq_comm]

example : toNative (.fin (10 ^ 39 + 1 / 2)) = .ok (.f32 (.inf false)) := by decide +kernel

/-- C154: a finite result is a neighbour of the number: no `float32` lies between them. -/
theorem C154_adjacent {q r : Rat} {v : Native} (h : toNative (.fin q) = .ok v) (hv : v.val = .fin r) {s : Rat} (hs : IsF f32 s) :
    ¬ (q < s ∧ s < r) ∧ ¬ (r < s ∧ s < q) := by
  by_cases hi : IsInt64 q
  · obtain ⟨k, rfl, h3, h4⟩ := hi
    rw [toNative_int h3 h4] at h
    cases h; cases hv
    exact ⟨fun hc => absurd (hc.1.trans hc.2) (lt_irrefl _), fun hc => absurd (hc.1.trans hc.2) (lt_irrefl _)⟩
  · have hne : ¬ toNative (.fin q) = .error () := by rw [h]; simp
    rw [C154_errors] at hne
    have h0 : 0 ≤ q := by
      by_contra hc
      exact hne (.inr ⟨q, rfl, hi, .inl (not_le.1 hc)⟩)
    have hw : ¬ IsWhole q := fun hc => hne (.inr ⟨q, rfl, hi, .inr (.inl hc)⟩)
    have hf := toNative_fracs h0 hw
    rw [h] at hf
    have two {m : Rat} (hm : round f64 q = .fin m) (hx : round f32 m = .fin r) : ¬ (q < s ∧ s < r) ∧ ¬ (r < s ∧ s < q) := by
      constructor
      · rintro ⟨h1, h2⟩
        have := round_le f32_ok hx hs (round_le f64_ok hm (isF_wide hs) h1.le)
        linarith
      · rintro ⟨h1, h2⟩
        have := le_round f32_ok hx hs (le_round f64_ok hm (isF_wide hs) h2.le)
        linarith
    cases hf with
    | wide m r' hm _ _ =>
      cases hv
      constructor
      · rintro ⟨h1, h2⟩
        have := round_le f64_ok hm (isF_wide hs) h1.le
        linarith
      · rintro ⟨h1, h2⟩
        have := le_round f64_ok hm (isF_wide hs) h2.le
        linarith
    | narrow m r' hm _ _ => exact two hm hv
    | over m hm _ => exact two hm hv

example : (toNative (.fin (3 / 4 * 2 ^ (-149 : Int)))) = .ok (.f32 (.fin (2 ^ (-149 : Int)))) := by decide +kernel

/-- C154, partial: a number is kept when it is an `int64` or a positive fraction that `float32` has.  The code does not keep every `float64`
(`C30_violated`). -/
theorem C154_value_partial {q : Rat} (h : IsInt64 q ∨ 0 < q ∧ IsF f32 q ∧ ¬ IsWhole q) : ∃ v, toNative (.fin q) = .ok v ∧ v.val = .fin q := by
  rcases h with ⟨k, rfl, h1, h2⟩ | ⟨h0, hF, hw⟩
  · exact ⟨_, toNative_int h1 h2, rfl⟩
  · have hf := toNative_fracs h0.le hw
    have hm := round_exact f64_ok (isF_wide hF)
    have hr := round_exact f32_ok hF
    generalize toNative (.fin q) = v at hf
    cases hf with
    | big h => rw [hm] at h; cases h
    | wide m r _ h h' => rw [hr] at h; cases h; exact absurd h' (lt_irrefl _)
    | narrow m r h _ _ => rw [hm] at h; cases h; exact ⟨_, rfl, hr⟩
    | over m h h' => rw [hr] at h'; cases h'

example : (0 : Rat) < 2 ^ (-149 : Int) ∧ IsF f32 (2 ^ (-149 : Int)) ∧ ¬ IsWhole (2 ^ (-149 : Int)) := by
  refine ⟨by positivity, ⟨1, -149, by norm_num, by decide, by decide, by decide⟩, ?_⟩
  rw [IsWhole, ← Hcl.den_one_iff]
  decide +kernel

/-- C154: below the limits, from `2^-126` to `2^127`, and for all whole or negative numbers, this is the conversion without limits (`Model/Cty`). -/
theorem C154_agrees {q : Rat} (h : q < 0 ∨ IsWhole q ∨ (2 : Rat) ^ (-126 : Int) ≤ q ∧ q ≤ 2 ^ (127 : Int)) :
    match toNative (.fin q), Hcl.ctyNumberToNative q with
    | .ok w, .ok v => w.gv = some v
    | .error _, .error _ => True
    | _, _ => False := by
  unfold Hcl.ctyNumberToNative
  by_cases hi : IsInt64 q
  · rw [if_pos ((Hcl.isInt64_iff q).2 hi)]
    obtain ⟨k, rfl, h1, h2⟩ := hi
    rw [toNative_int h1 h2]
    simp [Native.gv]
  · rw [if_neg (fun hc => hi ((Hcl.isInt64_iff q).1 hc))]
    by_cases h0 : q < 0
    · rw [if_pos h0, toNative_neg hi h0]; trivial
    · rw [if_neg h0]
      have h0' := not_lt.1 h0
      by_cases hw : IsWhole q
      · rw [if_pos ((Hcl.den_one_iff q).2 hw), toNative_big hi h0' hw]; trivial
      · rw [if_neg (fun hc => hw ((Hcl.den_one_iff q).1 hc))]
        obtain ⟨h1, h2⟩ := (h.resolve_left h0).resolve_left hw
        have h32 : round f32 q = .fin (Hcl.rd 24 q) := round_mid f32_ok h1 h2
        have h64 : round f64 q = .fin (Hcl.rd 53 q) :=
          round_mid f64_ok (le_trans (zpow_le_zpow_right₀ (by norm_num) (by decide)) h1) (le_trans h2 (zpow_le_zpow_right₀ (by norm_num) (by decide)))
        have hlo : (2 : Rat) ^ (-126 : Int) ≤ Hcl.rd 53 q := le_round f64_ok h64 (isF_wide (isF_pow (f := f32) (by decide) (by decide) (by decide))) h1
        have hhi : Hcl.rd 53 q ≤ (2 : Rat) ^ (127 : Int) := round_le f64_ok h64 (isF_wide (isF_pow (f := f32) (by decide) (by decide) (by decide))) h2
        have hdd : round f32 (Hcl.rd 53 q) = .fin (Hcl.rd 24 (Hcl.rd 53 q)) := round_mid f32_ok hlo hhi
        have hf := toNative_fracs h0' hw
        generalize toNative (.fin q) = v at hf
        cases hf with
        | big h => rw [h64] at h; cases h
        | wide m r h h' hlt =>
          rw [h64] at h; cases h
          rw [h32] at h'; cases h'
          rw [if_neg (not_le.2 hlt)]; rfl
        | narrow m r h h' hle =>
          rw [h64] at h; cases h
          rw [h32] at h'; cases h'
          rw [if_pos hle, hdd]; rfl
        | over m h h' => rw [h32] at h'; cases h'

example : (2 : Rat) ^ (-126 : Int) ≤ 1 / 10 ∧ (1 / 10 : Rat) ≤ 2 ^ (127 : Int) := by norm_num

/-! ## Writing -/

/-- C154: of all native numbers only NaN makes `Marshal` panic. -/
theorem C154_panics (x : F) : write x = .panic ↔ x = .nan := by
  unfold write
  cases x with
  | nan => simp [toCty]
  | inf s => cases s <;> simp [toCty] <;> decide
  | fin q =>
    simp only [toCty, reduceCtorEq, iff_false]
    split <;> simp

/-- C154: for the same numbers, what is written is what `Model/HclPrint` writes. -/
theorem C154_write_agrees {q : Rat} (h : q < 0 ∨ IsWhole q ∨ (2 : Rat) ^ (-126 : Int) ≤ q ∧ q ≤ 2 ^ (127 : Int)) :
    (∃ s, write (.fin q) = .text s ∧ Hcl.scalarText (.flt q) = some (.ok s)) ∨ write (.fin q) = .err ∧ Hcl.scalarText (.flt q) = some (.error ()) := by
  have ha := C154_agrees h
  unfold write toCty Hcl.scalarText
  dsimp only
  cases hn : toNative (.fin q) with
  | error e =>
    cases hc : Hcl.ctyNumberToNative q with
    | error e' => right; simp
    | ok v => rw [hn, hc] at ha; exact ha.elim
  | ok w =>
    cases hc : Hcl.ctyNumberToNative q with
    | error e' => rw [hn, hc] at ha; exact ha.elim
    | ok v =>
      rw [hn, hc] at ha
      dsimp only at ha
      left
      cases w with
      | int n => cases ha; exact ⟨_, rfl, rfl⟩
      | f32 x => cases x <;> cases ha; exact ⟨_, rfl, rfl⟩
      | f64 x => cases x <;> cases ha; exact ⟨_, rfl, rfl⟩

example : write (.fin (1 / 4)) = .text (b "0.250000") := by decide +kernel

theorem fText_dot (q : Rat) : (46 : UInt8) ∈ fltText q := by unfold fltText; simp

theorem intText_ne (k : Int) : intText k ≠ b "+Inf" := by
  unfold intText
  intro h
  split at h
  · cases h
  · have := (natText_spec k.natAbs).1 43 (by rw [h]; decide)
    revert this; decide

/-- C154: a number that a `float64` can hold is written as an infinity only if it is one. -/
theorem C154_inf_text {x : F} (hx : ∀ q, x = .fin q → IsF f64 q) : write x = .text (b "+Inf") ↔ x = .inf false := by
  constructor
  · intro h
    cases x with
    | nan => cases h
    | inf s =>
      cases s with
      | false => rfl
      | true => exact absurd h (by decide)
    | fin q =>
      exfalso
      obtain ⟨k, e, hq, hk, h1, h2⟩ := hx q rfl
      unfold write toCty at h
      dsimp only at h
      have fin_ne (y : F) (hy : ∀ s, y ≠ .inf s) : fText y ≠ b "+Inf" := by
        cases y with
        | nan => decide
        | inf s => exact absurd rfl (hy s)
        | fin r => intro hc; have := fText_dot r; simp only [fText] at hc; rw [hc] at this; revert this; decide
      have key {v : Native} (hv : toNative (.fin q) = .ok v) (s : Bool) : v.val ≠ .inf s := by
        intro hc
        obtain ⟨-, h3 | ⟨q', h3, hw, hlo, -⟩⟩ := (C154_infinite (.fin q) s).1 ⟨v, hv, hc⟩
        · cases h3
        · cases h3
          -- so large a `float64` is whole
          by_cases he : 0 ≤ e
          · apply hw
            refine ⟨k * 2 ^ e.toNat, ?_⟩
            rw [hq]; push_cast
            congr 1
            rw [← zpow_natCast]; congr 1; omega
          · have hb : q < 2 ^ (53 : Int) := by
              rw [hq]
              calc (k : Rat) * 2 ^ e ≤ |(k : Rat)| * 2 ^ e := by gcongr; exact le_abs_self _
                _ ≤ |(k : Rat)| * 1 := by gcongr; exact zpow_le_one_of_nonpos₀ (by norm_num) (by omega)
                _ < _ := by
                  rw [mul_one]
                  exact_mod_cast hk
            have : (2 : Rat) ^ (53 : Int) < (2 : Rat) ^ (128 : Int) - 2 ^ (103 : Int) := by norm_num
            linarith
      split at h
      · cases h
      · next k' _ => exact intText_ne k' (by injection h)
      · next y hy => exact fin_ne y (key hy) (by injection h)
      · next y hy => exact fin_ne y (key hy) (by injection h)
  · rintro rfl; decide

example : ∀ q, F.fin (1 / 4) = .fin q → IsF f64 q := by
  rintro q h; cases h
  exact ⟨1, -2, by norm_num, by decide, by decide, by decide⟩

/-- C154 does not hold: NaN is no value that can be converted or written but panics; plus infinity is written as a text that is no number, minus infinity is
refused; a finite number of HCL becomes an infinity, and the smallest ones change. -/
theorem C154_violated :
    write .nan = .panic ∧ write (.inf false) = .text (b "+Inf") ∧ write (.inf true) = .err ∧
    toNative (.fin (10 ^ 39 + 1 / 2)) = .ok (.f32 (.inf false)) ∧
    toNative (.fin (3 / 4 * 2 ^ (-149 : Int))) = .ok (.f32 (.fin (2 ^ (-149 : Int)))) ∧
    toNative (.fin (1 / 10 ^ 400)) = .ok (.f64 (.fin 0)) := by
  refine ⟨by decide, by decide, by decide, by decide +kernel, by decide +kernel, by decide +kernel⟩

end Verif.Edge
