import Verif.Lemmas.Log
/-! log and pow (C147, C148). -/
namespace Verif.Funcs
open Hcl (rd)

/-- C147: the logarithm of a positive number to a positive base other than 1, with a relative error of at most
`2 ^ -50`. -/
theorem C147_accurate {lg : Rat → Rat} (hl : LogLike lg) {n c : Rat} (hn : Float64 n) (hc : Float64 c) (n0 : 0 < n)
    (c0 : 0 < c) (c1 : c ≠ 1) :
    ∃ r : Rat, log lg (.val (.fin n)) (.val (.fin c)) = .ok (.val (.fin r)) ∧
      |(r : ℝ) - Real.logb c n| ≤ |Real.logb c n| / 2 ^ 50 := by
  have l0 : lg c ≠ 0 := fun h => c1 ((lg_zero hl hc c0).1 h)
  refine ⟨rd 53 (lg n / lg c), ?_, ?_⟩
  · simp only [log, call2, logImpl, toF64_exact hn, toF64_exact hc, mathLog, not_lt.2 n0.le, not_lt.2 c0.le, n0.ne',
      c0.ne', if_false, F64.div, l0, quotient hl hn hc n0 c0 c1, numberFloatVal]
  · obtain ⟨ε₁, h1, e1⟩ := lg_error hl hn n0
    obtain ⟨ε₂, h2, e2⟩ := lg_error hl hc c0
    have hcl : Real.log c ≠ 0 := by
      have := (log_bounds hc c0 c1).1
      intro h
      rw [h] at this
      norm_num at this
    obtain ⟨ε₃, h3, e3⟩ : ∃ ε : ℝ, |ε| ≤ 1 / 2 ^ 53 ∧ ((rd 53 (lg n / lg c) : Rat) : ℝ) = ((lg n / lg c : Rat) : ℝ) * (1 + ε) := by
      have hr := rd_error 53 (lg n / lg c)
      generalize lg n / lg c = q at hr
      by_cases hq : q = 0
      · subst hq
        exact ⟨0, by simp, by simp [rd]⟩
      · have hq' : (q : ℝ) ≠ 0 := by exact_mod_cast hq
        refine ⟨((rd 53 q : Rat) - q) / q, ?_, by field_simp; ring⟩
        rw [abs_div, div_le_iff₀ (abs_pos.2 hq')]
        have : |((rd 53 q - q : Rat) : ℝ)| ≤ ((|q| / 2 ^ 53 : Rat) : ℝ) := by
          rw [← Rat.cast_abs]
          exact Rat.cast_le.2 hr
        push_cast at this
        calc _ ≤ _ := this
          _ = _ := by ring
    rw [e3, Rat.cast_div, e1, e2]
    exact quotient_error hcl h1 h2 h3

/-- A number below zero. -/
def Num.Neg : Num → Prop
  | .fin q => q < 0
  | .inf neg => neg = true

/-- Zero or infinity: a number whose logarithm is infinite. -/
def Num.Ends (n : Num) : Prop := n = .fin 0 ∨ n = .inf false

/-- C147: of known numbers that a `float64` can represent, `Log` refuses negative numbers and bases, the logarithm
of 1 to the base 1 and of zero or infinity to the base zero or infinity. -/
theorem C147_refuses {lg : Rat → Rat} (hl : LogLike lg) {n c : Num} (hn : Exact n) (hc : Exact c) :
    log lg (.val n) (.val c) = .error () ↔
      n.Neg ∨ c.Neg ∨ n = .fin 1 ∧ c = .fin 1 ∨ n.Ends ∧ c.Ends := by
  cases n with
  | inf sn =>
    cases c with
    | inf sc =>
      cases sn <;> cases sc <;>
        simp [log, call2, logImpl, toF64_inf, mathLog, F64.div, numberFloatVal, Num.Neg, Num.Ends]
    | fin c =>
      have hc : Float64 c := hc
      cases sn
      · rcases lt_trichotomy c 0 with h | h | h
        · simp [log, call2, logImpl, toF64_exact hc, toF64_inf, mathLog, F64.div, numberFloatVal, Num.Neg, h]
        · subst h
          simp [log, call2, logImpl, toF64_exact hc, toF64_inf, mathLog, F64.div, numberFloatVal, Num.Neg, Num.Ends]
        · simp [log, call2, logImpl, toF64_exact hc, toF64_inf, mathLog, F64.div, numberFloatVal, Num.Neg, Num.Ends,
            not_lt.2 h.le, h.ne']
      · simp [log, call2, logImpl, toF64_exact hc, toF64_inf, mathLog, F64.div, numberFloatVal, Num.Neg]
  | fin n =>
    have hn : Float64 n := hn
    rcases lt_trichotomy n 0 with h | h | h
    · cases c with
      | inf sc => simp [log, call2, logImpl, toF64_exact hn, toF64_inf, mathLog, F64.div, numberFloatVal, Num.Neg, h]
      | fin c =>
        have hc : Float64 c := hc
        simp [log, call2, logImpl, toF64_exact hn, toF64_exact hc, mathLog, F64.div, numberFloatVal, Num.Neg, h]
    · subst h
      cases c with
      | inf sc =>
        cases sc <;>
          simp [log, call2, logImpl, toF64_exact hn, toF64_inf, mathLog, F64.div, numberFloatVal, Num.Neg, Num.Ends]
      | fin c =>
        have hc : Float64 c := hc
        rcases lt_trichotomy c 0 with h | h | h
        · simp [log, call2, logImpl, toF64_exact hc, toF64_exact hn, mathLog, F64.div, numberFloatVal, Num.Neg, h]
        · subst h
          simp [log, call2, logImpl, toF64_exact hc, mathLog, F64.div, numberFloatVal, Num.Neg, Num.Ends]
        · simp [log, call2, logImpl, toF64_exact hc, toF64_exact hn, mathLog, F64.div, numberFloatVal, Num.Neg,
            Num.Ends, not_lt.2 h.le, h.ne']
    · cases c with
      | inf sc =>
        cases sc <;>
          simp [log, call2, logImpl, toF64_exact hn, toF64_inf, mathLog, F64.div, numberFloatVal, Num.Neg, Num.Ends,
            not_lt.2 h.le, h.ne']
      | fin c =>
        have hc : Float64 c := hc
        rcases lt_trichotomy c 0 with h' | h' | h'
        · simp [log, call2, logImpl, toF64_exact hc, toF64_exact hn, mathLog, F64.div, numberFloatVal, Num.Neg, h',
            not_lt.2 h.le, h.ne']
        · subst h'
          simp [log, call2, logImpl, toF64_exact hc, toF64_exact hn, mathLog, F64.div, numberFloatVal, Num.Neg,
            Num.Ends, not_lt.2 h.le, h.ne']
        · have z : (Num.fin n).Neg ∨ (Num.fin c).Neg ∨ Num.fin n = .fin 1 ∧ Num.fin c = .fin 1 ∨ (Num.fin n).Ends ∧ (Num.fin c).Ends ↔
              n = 1 ∧ c = 1 := by
            simp [Num.Neg, Num.Ends, not_lt.2 h.le, h.ne', not_lt.2 h'.le, h'.ne']
          rw [z]
          simp only [log, call2, logImpl, toF64_exact hn, toF64_exact hc, mathLog, not_lt.2 h.le, not_lt.2 h'.le, h.ne',
            h'.ne', if_false, F64.div, lg_zero hl hc h', lg_zero hl hn h]
          by_cases c1 : c = 1
          · by_cases n1 : n = 1 <;> simp [c1, n1, numberFloatVal]
          · simp [c1, quotient hl hn hc h h' c1, numberFloatVal]

/-- C147: when the answer is infinite. -/
theorem C147_infinite {lg : Rat → Rat} (hl : LogLike lg) {n c : Num} (hn : Exact n) (hc : Exact c) (neg : Bool) :
    log lg (.val n) (.val c) = .ok (.val (.inf neg)) ↔
      (∃ q, c = .fin q ∧ 0 < q ∧ (n = .fin 0 ∧ neg = decide (1 ≤ q) ∨ n = .inf false ∧ neg = decide (q < 1))) ∨
      c = .fin 1 ∧ ∃ q, n = .fin q ∧ 0 < q ∧ q ≠ 1 ∧ neg = decide (q < 1) := by
  cases n with
  | inf sn =>
    cases c with
    | inf sc =>
      cases sn <;> cases sc <;> simp [log, call2, logImpl, toF64_inf, mathLog, F64.div, numberFloatVal]
    | fin c =>
      have hc : Float64 c := hc
      cases sn
      · rcases lt_trichotomy c 0 with h | h | h
        · simp [log, call2, logImpl, toF64_exact hc, toF64_inf, mathLog, F64.div, numberFloatVal, h, not_lt.2 h.le]
        · subst h
          simp [log, call2, logImpl, toF64_exact hc, toF64_inf, mathLog, F64.div, numberFloatVal]
        · simp [log, call2, logImpl, toF64_exact hc, toF64_inf, mathLog, F64.div, numberFloatVal, h, not_lt.2 h.le, h.ne',
            lg_sign hl hc h, eq_comm]
      · simp [log, call2, logImpl, toF64_exact hc, toF64_inf, mathLog, F64.div, numberFloatVal]
  | fin n =>
    have hn : Float64 n := hn
    rcases lt_trichotomy n 0 with h | h | h
    · cases c with
      | inf sc => simp [log, call2, logImpl, toF64_exact hn, toF64_inf, mathLog, F64.div, numberFloatVal, h]
      | fin c =>
        have hc : Float64 c := hc
        simp [log, call2, logImpl, toF64_exact hn, toF64_exact hc, mathLog, F64.div, numberFloatVal, h, h.ne, not_lt.2 h.le]
    · subst h
      cases c with
      | inf sc =>
        cases sc <;> simp [log, call2, logImpl, toF64_exact hn, toF64_inf, mathLog, F64.div, numberFloatVal]
      | fin c =>
        have hc : Float64 c := hc
        rcases lt_trichotomy c 0 with h | h | h
        · simp [log, call2, logImpl, toF64_exact hc, toF64_exact hn, mathLog, F64.div, numberFloatVal, h, not_lt.2 h.le]
        · subst h
          simp [log, call2, logImpl, toF64_exact hc, mathLog, F64.div, numberFloatVal]
        · have : (true ^^ decide (c < 1)) = decide (1 ≤ c) := by
            by_cases hc1 : c < 1 <;> simp [hc1, not_lt.1, not_le.2]
          simp [log, call2, logImpl, toF64_exact hc, toF64_exact hn, mathLog, F64.div, numberFloatVal, h, not_lt.2 h.le,
            h.ne', lg_sign hl hc h, eq_comm] at this ⊢
          rw [this]
    · cases c with
      | inf sc =>
        cases sc <;>
          simp [log, call2, logImpl, toF64_exact hn, toF64_inf, mathLog, F64.div, numberFloatVal, not_lt.2 h.le, h.ne']
      | fin c =>
        have hc : Float64 c := hc
        rcases lt_trichotomy c 0 with h' | h' | h'
        · have : c ≠ 1 := by rintro rfl; norm_num at h'
          simp [log, call2, logImpl, toF64_exact hc, toF64_exact hn, mathLog, F64.div, numberFloatVal, h', this,
            not_lt.2 h.le, h.ne']
        · subst h'
          simp [log, call2, logImpl, toF64_exact hc, toF64_exact hn, mathLog, F64.div, numberFloatVal,
            not_lt.2 h.le, h.ne']
        · simp only [log, call2, logImpl, toF64_exact hn, toF64_exact hc, mathLog, not_lt.2 h.le, not_lt.2 h'.le, h.ne',
            h'.ne', if_false, F64.div, lg_zero hl hc h', lg_zero hl hn h, lg_sign hl hn h]
          by_cases c1 : c = 1
          · by_cases n1 : n = 1 <;> simp [c1, n1, numberFloatVal, h, h.ne', eq_comm]
          · simp [c1, quotient hl hn hc h h' c1, numberFloatVal, h.ne']

/-- C147: the logarithm to the base zero or infinity of every positive number is 0. -/
theorem C147_zero (lg : Rat → Rat) {n : Rat} {c : Num} (hn : Float64 n) (n0 : 0 < n) (hc : c.Ends) :
    log lg (.val (.fin n)) (.val c) = .ok (.val (.fin 0)) := by
  have z : Float64 0 := ⟨0, 0, by norm_num, by norm_num, by norm_num, by rw [abs_zero]; positivity⟩
  rcases hc with rfl | rfl <;>
    simp [log, call2, logImpl, toF64_exact hn, toF64_exact z, toF64_inf, mathLog, F64.div, numberFloatVal,
      not_lt.2 n0.le, n0.ne']

/-- C147: a number beyond the range of a `float64` is refused. -/
theorem C147_range (lg : Rat → Rat) (n : Rat) (c : Num) (hn : 2 ^ 1025 ≤ |n|) :
    log lg (.val (.fin n)) (.val c) = .error () ∧ log lg (.val c) (.val (.fin n)) = .error () := by
  have h : (Num.fin n).toF64 = none := by
    have hr := rd_error 53 n
    have hh : |n| / 2 ^ 53 ≤ |n| / 2 := by gcongr; norm_num
    have h1025 : (2 : Rat) ^ 1025 = 2 * 2 ^ 1024 := by rw [pow_succ, mul_comm]
    have h1024 : (2 : Rat) ^ 1024 ≤ |n| / 2 := by
      rw [le_div_iff₀ (by norm_num)]
      calc _ = (2 : Rat) ^ 1025 := by rw [h1025, mul_comm]
        _ ≤ _ := hn
    have hs : (2 : Rat) ^ (-1022 : Int) < |n| := by
      have a : (2 : Rat) ^ (-1022 : Int) ≤ 1 := zpow_le_one_of_nonpos₀ (by norm_num) (by norm_num)
      have b := one_lt_big
      have d : |n| / 2 ≤ |n| := half_le_self (abs_nonneg _)
      exact a.trans_lt (b.trans_le (h1024.trans d))
    have e2 : Hcl.pow2 1024 = (2 : Rat) ^ (1024 : Nat) := (Hcl.pow2_eq 1024).trans big_eq
    have hr2 : |rd 53 n - n| ≤ |n| / 2 := hr.trans hh
    obtain ⟨r1, r2⟩ := abs_le.1 hr2
    simp only [Num.toF64, round64, Hcl.pow2_eq (-1022)]
    rw [if_neg (fun h => absurd (abs_lt.2 h) (not_lt.2 hs.le)), e2]
    rcases le_total 0 n with h0 | h0
    · rw [abs_of_nonneg h0] at h1024 r1
      rw [if_pos (by
        refine h1024.trans ?_
        linarith)]
    · rw [abs_of_nonpos h0] at h1024 r2
      by_cases hp : (2 : Rat) ^ 1024 ≤ rd 53 n
      · rw [if_pos hp]
      · have hq : rd 53 n ≤ -(2 : Rat) ^ 1024 := by
          have : rd 53 n ≤ -(-n / 2) := by linarith
          exact this.trans (neg_le_neg h1024)
        rw [if_neg hp, if_pos hq]
  constructor
  · simp [log, call2, logImpl, h]
  · simp only [log, call2, logImpl, h]
    split <;> rfl

/-- There is a function that meets the hypothesis: the real logarithm, rounded to a rational number near it. -/
theorem logLike_exists : ∃ lg, LogLike lg := by
  classical
  have : ∀ x : Rat, ∃ r : Rat, |(r : ℝ) - Real.log x| ≤ |Real.log x| / 2 ^ 52 := by
    intro x
    by_cases hz : Real.log x = 0
    · exact ⟨0, by simp [hz]⟩
    · have hp : 0 < |Real.log x| / 2 ^ 52 := by positivity
      obtain ⟨r, h1, h2⟩ := exists_rat_btwn (show Real.log x - |Real.log x| / 2 ^ 52 < Real.log x by linarith)
      exact ⟨r, by rw [abs_le]; constructor <;> linarith⟩
  choose lg hlg using this
  exact ⟨lg, fun x _ _ => hlg x⟩

example : Float64 8 ∧ Float64 2 ∧ Real.logb (2 : Rat) (8 : Rat) = 3 := by
  refine ⟨⟨1, 3, by norm_num, by norm_num, by norm_num, ?_⟩, ⟨1, 1, by norm_num, by norm_num, by norm_num, ?_⟩, ?_⟩
  · calc |(8 : Rat)| < 2 ^ 10 := by norm_num
      _ ≤ 2 ^ 1024 := pow_le_pow_right₀ (by norm_num) (by norm_num)
  · calc |(2 : Rat)| < 2 ^ 10 := by norm_num
      _ ≤ 2 ^ 1024 := pow_le_pow_right₀ (by norm_num) (by norm_num)
  · push_cast
    rw [show (8 : ℝ) = 2 ^ (3 : ℝ) by norm_num]
    exact Real.logb_rpow (by norm_num) (by norm_num)

example : log (fun _ => 0) (.val (.fin (-8))) (.val (.fin 2)) = .error () ∧
    log (fun _ => 0) (.val (.fin 0)) (.val (.fin 2)) = .ok (.val (.inf true)) ∧
    log (fun _ => 0) (.val (.fin 8)) (.val (.fin 0)) = .ok (.val (.fin 0)) := by decide +kernel

example : (2 : Rat) ^ 1025 ≤ |(-(2 : Rat) ^ 1025)| := by rw [abs_neg, abs_of_pos (by positivity)]

/-- C147 and C148: a null argument is refused, and the answer for an unknown number is unknown. -/
theorem C147_unknown (lg : Rat → Rat) (pw : Rat → Rat → F64) (x y : K Num) :
    (log lg x y = .ok .unk ↔ x ≠ .null ∧ y ≠ .null ∧ (x = .unk ∨ y = .unk)) ∧
    (pow pw x y = .ok .unk ↔ x ≠ .null ∧ y ≠ .null ∧ (x = .unk ∨ y = .unk)) ∧
    (x = .null ∨ y = .null → log lg x y = .error () ∧ pow pw x y = .error ()) := by
  have nf : ∀ f, numberFloatVal f ≠ .ok .unk := by intro f; cases f <;> simp [numberFloatVal]
  have hl : ∀ a c, logImpl lg a c ≠ .ok .unk := by
    intro a c
    unfold logImpl
    split
    · simp
    · split
      · simp
      · exact nf _
  have hp : ∀ a c, powImpl pw a c ≠ .ok .unk := by
    intro a c
    unfold powImpl
    split
    · simp
    · split
      · simp
      · exact nf _
  cases x <;> cases y <;> simp [log, pow, call2, hl, hp]

/-! ### pow -/

/-- C148: of known numbers that a `float64` can represent, `Pow` refuses exactly the fractional powers of negative
numbers. -/
theorem C148_refuses {pw : Rat → Rat → F64} (hp : ∀ x y, pw x y ≠ .nan) {n p : Num} (hn : Exact n) (hp' : Exact p) :
    pow pw (.val n) (.val p) = .error () ↔ ∃ x y : Rat, n = .fin x ∧ p = .fin y ∧ x < 0 ∧ ∀ z : Int, y ≠ z := by
  have nf : ∀ f, numberFloatVal f = .error () ↔ f = .nan := by intro f; cases f <;> simp [numberFloatVal]
  cases n with
  | inf sn =>
    cases p with
    | inf sp =>
      cases sp <;> simp [pow, call2, powImpl, toF64_inf, nf, mathPow]
    | fin y =>
      have hp' : Float64 y := hp'
      simp only [pow, call2, powImpl, toF64_inf, toF64_exact hp', nf, mathPow]
      simp
      split
      · simp
      · split
        · simp
        · split <;> simp
  | fin x =>
    have hn : Float64 x := hn
    cases p with
    | inf sp =>
      simp only [pow, call2, powImpl, toF64_exact hn, toF64_inf, nf, mathPow]
      simp
      split
      · simp
      · split
        · simp
        · split <;> simp
    | fin y =>
      have hp' : Float64 y := hp'
      have hy : y.den ≠ 1 ↔ ∀ z : Int, y ≠ z := by
        rw [Ne, not_iff_comm]
        push Not
        constructor
        · rintro ⟨z, rfl⟩; simp
        · intro h
          exact ⟨y.num, (Rat.den_eq_one_iff y |>.1 h).symm⟩
      simp only [pow, call2, powImpl, toF64_exact hn, toF64_exact hp', nf, mathPow, F64.fin.injEq, Num.fin.injEq]
      have r : (∃ x_1 y_1, x = x_1 ∧ y = y_1 ∧ x_1 < 0 ∧ ∀ z : Int, y_1 ≠ z) ↔ x < 0 ∧ y.den ≠ 1 := by
        rw [hy]
        constructor
        · rintro ⟨_, _, rfl, rfl, h⟩; exact h
        · intro h; exact ⟨x, y, rfl, rfl, h⟩
      rw [r]
      by_cases h1 : y = 0 ∨ x = 1
      · rw [if_pos h1]
        rcases h1 with rfl | rfl
        · simp
        · simp
      · rw [if_neg h1]
        by_cases h2 : y = 1
        · subst h2; simp
        · rw [if_neg h2]
          by_cases h3 : x = 0
          · subst h3
            by_cases h4 : y < 0 <;> simp [h4]
          · by_cases h4 : x < 0 ∧ y.den ≠ 1
            · simp [h3, h4]
            · simp only [h3, h4, if_false, iff_false]
              exact hp x y

/-- C148: powers of zero, and numbers to the power of zero and one. -/
theorem C148_zero (pw : Rat → Rat → F64) {x : Rat} (hx : Float64 x) :
    pow pw (.val (.fin x)) (.val (.fin 0)) = .ok (.val (.fin 1)) ∧
    pow pw (.val (.fin x)) (.val (.fin 1)) = .ok (.val (.fin x)) ∧
    (x < 0 → pow pw (.val (.fin 0)) (.val (.fin x)) = .ok (.val (.inf false))) ∧
    (0 < x → pow pw (.val (.fin 0)) (.val (.fin x)) = .ok (.val (.fin 0))) := by
  have z : Float64 0 := ⟨0, 0, by norm_num, by norm_num, by norm_num, by rw [abs_zero]; positivity⟩
  have o : Float64 1 := ⟨1, 0, by norm_num, by norm_num, by norm_num, by rw [abs_one]; exact one_lt_big⟩
  refine ⟨?_, ?_, ?_, ?_⟩
  · simp [pow, call2, powImpl, toF64_exact hx, toF64_exact z, mathPow, numberFloatVal]
  · by_cases h : x = 1
    · subst h; simp [pow, call2, powImpl, toF64_exact o, mathPow, numberFloatVal]
    · simp [pow, call2, powImpl, toF64_exact hx, toF64_exact o, mathPow, numberFloatVal, h]
  · intro h
    have : x ≠ 1 := by rintro rfl; norm_num at h
    simp [pow, call2, powImpl, toF64_exact hx, toF64_exact z, mathPow, numberFloatVal, h, h.ne, this]
  · intro h
    by_cases h1 : x = 1
    · subst h1; simp [pow, call2, powImpl, toF64_exact o, toF64_exact z, mathPow, numberFloatVal]
    · simp [pow, call2, powImpl, toF64_exact hx, toF64_exact z, mathPow, numberFloatVal, h.ne', not_lt.2 h.le, h1]

/-- C148: an infinite power is the limit of the powers. -/
theorem C148_infinite_power (pw : Rat → Rat → F64) {x : Rat} (hx : Float64 x) (neg : Bool) :
    pow pw (.val (.fin x)) (.val (.inf neg)) = .ok (.val (
      if |x| = 1 then .fin 1 else if 1 < |x| ↔ neg = true then .fin 0 else .inf false)) := by
  simp only [pow, call2, powImpl, toF64_exact hx, toF64_inf, mathPow, reduceCtorEq, false_or, F64.fin.injEq, if_false]
  by_cases h1 : x = 1
  · simp [h1, numberFloatVal]
  by_cases h2 : x = -1
  · subst h2; simp [numberFloatVal]
  have h3 : |x| ≠ 1 := by
    intro h
    rcases (abs_eq (by norm_num)).1 h with h | h
    · exact h1 h
    · exact h2 h
  have h4 : (decide (-1 < x) && decide (x < 1)) = true ↔ ¬ 1 < |x| := by
    rw [Bool.and_eq_true, decide_eq_true_eq, decide_eq_true_eq, ← abs_lt, not_lt, lt_iff_le_and_ne]
    exact ⟨fun h => h.1, fun h => ⟨h, h3⟩⟩
  simp only [h1, h2, h3, if_false]
  rcases Bool.eq_false_or_eq_true (decide (-1 < x) && decide (x < 1)) with h | h
  · have h5 := h4.1 h
    rw [h]
    cases neg <;> simp [h5, numberFloatVal]
  · have h5 : 1 < |x| := by
      by_contra hc
      rw [h4.2 hc] at h
      exact absurd h (by simp)
    rw [h]
    cases neg <;> simp [h5, numberFloatVal]

/-- C148: powers of infinities; only an odd power of minus infinity is negative. -/
theorem C148_infinite_base (pw : Rat → Rat → F64) {y : Rat} (hy : Float64 y) (neg : Bool) :
    (y < 0 → pow pw (.val (.inf neg)) (.val (.fin y)) = .ok (.val (.fin 0))) ∧
    (0 < y → ∃ s, pow pw (.val (.inf neg)) (.val (.fin y)) = .ok (.val (.inf s)) ∧
      (s = true ↔ neg = true ∧ ∃ k : Int, y = 2 * k + 1)) ∧
    pow pw (.val (.inf neg)) (.val (.inf false)) = .ok (.val (.inf false)) ∧
    pow pw (.val (.inf neg)) (.val (.inf true)) = .ok (.val (.fin 0)) := by
  have ho : oddInt y = true ↔ ∃ k : Int, y = 2 * k + 1 := by
    simp only [oddInt, decide_eq_true_eq]
    constructor
    · rintro ⟨h1, h2⟩
      have e := Rat.den_eq_one_iff y |>.1 h1
      refine ⟨y.num / 2, ?_⟩
      have : y.num = 2 * (y.num / 2) + 1 := by omega
      rw [← e]
      conv_lhs => rw [this]
      simp
    · rintro ⟨k, h⟩
      have e : y = ((2 * k + 1 : Int) : Rat) := by rw [h]; push_cast; rfl
      rw [e]
      refine ⟨Rat.den_intCast _, ?_⟩
      rw [Rat.num_intCast]
      omega
  refine ⟨fun h => ?_, fun h => ?_, ?_, ?_⟩
  · have : y ≠ 1 := by rintro rfl; norm_num at h
    simp [pow, call2, powImpl, toF64_exact hy, toF64_inf, mathPow, numberFloatVal, h, h.ne, this]
  · by_cases h1 : y = 1
    · subst h1
      refine ⟨neg, by simp [pow, call2, powImpl, toF64_exact hy, toF64_inf, mathPow, numberFloatVal], ?_⟩
      simp only [iff_self_and]
      exact fun _ => ⟨0, by norm_num⟩
    · refine ⟨neg && oddInt y, ?_, by rw [Bool.and_eq_true, ho]⟩
      simp [pow, call2, powImpl, toF64_exact hy, toF64_inf, mathPow, numberFloatVal, h.ne', not_lt.2 h.le, h1]
  · simp [pow, call2, powImpl, toF64_inf, mathPow, numberFloatVal]
  · simp [pow, call2, powImpl, toF64_inf, mathPow, numberFloatVal]

/-- C148: where nothing is special the answer is that of `math.Pow`; an infinity stands for an overflow. -/
theorem C148_value (pw : Rat → Rat → F64) {x y : Rat} (hx : Float64 x) (hy : Float64 y) (x0 : x ≠ 0) (x1 : x ≠ 1) (y0 : y ≠ 0)
    (y1 : y ≠ 1) (hs : 0 < x ∨ ∃ z : Int, y = z) (r : Rat) :
    pow pw (.val (.fin x)) (.val (.fin y)) = .ok (.val (.fin r)) ↔ pw x y = .fin r := by
  have : ¬ (x < 0 ∧ y.den ≠ 1) := by
    rintro ⟨h1, h2⟩
    rcases hs with h | ⟨z, rfl⟩
    · exact absurd h1 (not_lt.2 h.le)
    · simp at h2
  simp only [pow, call2, powImpl, toF64_exact hx, toF64_exact hy, mathPow, F64.fin.injEq, x0, x1, y0, y1, or_self, this, if_false]
  cases pw x y <;> simp [numberFloatVal]

example : pow (fun x y => .fin (x + y)) (.val (.fin (-8))) (.val (.fin (1 / 2))) = .error () ∧
    pow (fun x y => .fin (x + y)) (.val (.fin (-8))) (.val (.fin 2)) = .ok (.val (.fin (-6))) ∧
    pow (fun x y => .fin (x + y)) (.val (.fin 0)) (.val (.fin (-2))) = .ok (.val (.inf false)) ∧
    pow (fun x y => .fin (x + y)) (.val (.inf true)) (.val (.fin 3)) = .ok (.val (.inf true)) := by decide +kernel

end Verif.Funcs
