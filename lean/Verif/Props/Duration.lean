import Verif.Lemmas.Duration
import Verif.Spec.Duration
import Verif.Props.TimeAdd
/-! The durations of `timeadd` (C143). -/
namespace Verif.Funcs

theorem nsSum {ps : List Part} (hd : ∀ p ∈ ps, 10 ^ p.digits.length ∣ p.unit) : (((ps.map Part.ns).sum : Nat) : Rat) = total ps := by
  induction ps with
  | nil => simp [total]
  | cons p ps ih =>
    have h1 := ih fun q hq => hd q (by simp [hq])
    have h2 := ns_value (hd p (by simp))
    simp only [total, List.map_cons, List.sum_cons] at h1 ⊢
    push_cast
    rw [← h1, h2]

/-- C143, the part that holds (missing: numbers with more digits after the point than the unit has zeros, see
`C143_near_partial` and `C143_violated`; sums that reach 2⁶⁴ with a number that is 2⁶³ nanoseconds, see `C143_wraps`): a
sequence of numbers with units is the duration that is their sum, with the sign in front; it is refused exactly if it is
no `int64` of nanoseconds. -/
theorem C143_exact_partial (sg : Sign) {ps : List Part} (hne : ps ≠ []) (hp : ∀ p ∈ ps, p.Valid)
    (hd : ∀ p ∈ ps, 10 ^ p.digits.length ∣ p.unit) (hw : (∀ p ∈ ps, p.value ≠ 2 ^ 63) ∨ total ps < 2 ^ 64) :
    if total ps ≤ sg.most then ∃ n : Int, parseDuration (sg.render ++ renderParts ps) = some n ∧ (n : Rat) = sg.apply (total ps)
    else parseDuration (sg.render ++ renderParts ps) = none := by
  have hs := nsSum hd
  rw [parse_eq (val := Part.ns) sg hne (fun p h => ⟨hp p h, fun r hr => durationPart_exact (hp p h) (hd p h) hr⟩)]
  · rw [← hs]
    cases sg <;> simp only [Sign.most, Sign.apply, reduceCtorEq, if_false, if_true]
    case minus =>
      by_cases h : (ps.map Part.ns).sum ≤ 2 ^ 63
      · rw [if_pos (by exact_mod_cast h), if_pos h]
        exact ⟨_, rfl, by push_cast; rfl⟩
      · rw [if_neg (by exact_mod_cast h), if_neg h]
    all_goals
      by_cases h : (ps.map Part.ns).sum < 2 ^ 63
      · have h' : (((ps.map Part.ns).sum : Nat) : Rat) ≤ ((2 ^ 63 - 1 : Nat) : Rat) := by exact_mod_cast Nat.le_pred_of_lt h
        rw [if_pos (by norm_num at h' ⊢; exact h'), if_pos h]
        exact ⟨_, rfl, by push_cast; rfl⟩
      · have h' : ¬ (((ps.map Part.ns).sum : Nat) : Rat) ≤ ((2 ^ 63 - 1 : Nat) : Rat) := by
          intro hc
          have : (ps.map Part.ns).sum ≤ 2 ^ 63 - 1 := by exact_mod_cast hc
          omega
        rw [if_neg (by norm_num at h' ⊢; exact h'), if_neg h]
  · intro ps1 p ps2 e h1 h2
    have hpm : p ∈ ps := by simp [e]
    rcases hw with hw | hw
    · apply hw p hpm
      rw [← ns_value (hd p hpm), h2]
      norm_num
    · rw [← hs, e] at hw
      simp only [List.map_append, List.map_cons, List.sum_append, List.sum_cons, h1, h2] at hw
      have : 2 ^ 63 + (2 ^ 63 + (ps2.map Part.ns).sum) < 2 ^ 64 := by exact_mod_cast hw
      omega

/-- C143: the zero needs no unit. -/
theorem C143_zero (sg : Sign) : parseDuration (sg.render ++ b "0") = some 0 := by
  cases sg <;> rfl

/-- C143: every other text is refused. -/
theorem C143_only {s : Bytes} {n : Int} (h : parseDuration s = some n) :
    ∃ sg : Sign, s = sg.render ++ b "0" ∧ n = 0 ∨ ∃ ps : List Part, ps ≠ [] ∧ (∀ p ∈ ps, p.Valid) ∧ s = sg.render ++ renderParts ps := by
  have hu : ∃ sg : Sign, s = sg.render ++ (unsigned s).2 := by
    unfold unsigned
    split
    · exact ⟨.minus, rfl⟩
    · exact ⟨.plus, rfl⟩
    · exact ⟨.none, rfl⟩
  obtain ⟨sg, hsg⟩ := hu
  refine ⟨sg, ?_⟩
  unfold parseDuration at h
  generalize unsigned s = q at *
  obtain ⟨neg, r⟩ := q
  simp only at h hsg
  by_cases h0 : r = [48]
  · rw [if_pos h0] at h
    exact .inl ⟨by rw [hsg, h0]; rfl, by injection h with h; exact h.symm⟩
  · rw [if_neg h0] at h
    by_cases h1 : r = []
    · rw [if_pos h1] at h; cases h
    · rw [if_neg h1] at h
      cases hl : durationLoop r.length r 0 with
      | none => rw [hl] at h; cases h
      | some d =>
        obtain ⟨ps, hp, e⟩ := loop_sound _ _ _ _ hl
        refine .inr ⟨ps, ?_, hp, by rw [hsg, e]⟩
        rintro rfl
        exact h1 e

/-- C143: `timeadd` of a valid timestamp and such a duration gives a valid timestamp for the instant moved by the
documented sum, rounded down to seconds. -/
theorem C143_timeadd {loc : Int → Int} {slow : Bytes → Option GoTime} (hloc : Regular loc) {s : Stamp} (hs : s.Valid)
    (sg : Sign) {ps : List Part} (hne : ps ≠ []) (hp : ∀ p ∈ ps, p.Valid) (hd : ∀ p ∈ ps, 10 ^ p.digits.length ∣ p.unit)
    (hm : total ps ≤ sg.most)
    (hlo : 86400 ≤ s.instant + sg.apply (total ps) / 10 ^ 9)
    (hhi : s.instant + sg.apply (total ps) / 10 ^ 9 < (daysOfYears 10000 - 1 : Nat) * 86400) :
    ∃ r : Stamp, timeAdd loc slow parseDuration s.render (sg.render ++ renderParts ps) = .ok r.render ∧ r.Valid ∧ r.frac = [] ∧
      r.instant = ⌊s.instant + sg.apply (total ps) / 10 ^ 9⌋ := by
  have hlt : total ps < 2 ^ 64 := by
    have : sg.most ≤ 2 ^ 63 := by cases sg <;> norm_num [Sign.most]
    linarith
  have h := C143_exact_partial sg hne hp hd (.inr hlt)
  rw [if_pos hm] at h
  obtain ⟨n, h1, h2⟩ := h
  rw [← h2] at hlo hhi ⊢
  have e9 : (10 : Rat) ^ 9 = 1000000000 := by norm_num
  rw [e9] at hlo hhi ⊢
  obtain ⟨r, r1, r2, r3, r4, -⟩ := C78_partial (slow := slow) hloc hs h1 hlo hhi
  exact ⟨r, r1, r2, r3, r4⟩

/-- C143: `timeadd` fails if the duration is none. -/
theorem C143_refused {loc : Int → Int} {slow : Bytes → Option GoTime} {ts d : Bytes}
    (h : ∀ sg : Sign, d ≠ sg.render ++ b "0" ∧ ∀ ps : List Part, ps ≠ [] → (∀ p ∈ ps, p.Valid) → d ≠ sg.render ++ renderParts ps) :
    timeAdd loc slow parseDuration ts d = .error () := by
  cases hd : parseDuration d with
  | some n =>
    obtain ⟨sg, h1 | ⟨ps, h1, h2, h3⟩⟩ := C143_only hd
    · exact absurd h1.1 (h sg).1
    · exact absurd h3 ((h sg).2 ps h1 h2)
  | none =>
    unfold timeAdd
    rw [hd]
    split <;> simp_all

theorem valueNear {p : Part} (hp : p.Valid) (h18 : p.digits.length ≤ 18) (hb : p.value ≤ 2 ^ 63 - 2 ^ 42) :
    ∃ w : Nat, w ≤ 2 ^ 63 ∧ |(w : Rat) - p.value| ≤ 101 / 100 ∧ ∀ r, NoUnit r → durationPart (p.render ++ r) = some (w, r) := by
  have hu := unitOk hp.unit
  have hq : (0 : Rat) ≤ (decimal p.digits : Rat) / 10 ^ p.digits.length * p.unit := by positivity
  have hv : decimal p.whole * p.unit ≤ 2 ^ 63 - 2 ^ 42 := by
    have : (decimal p.whole : Rat) * p.unit ≤ 2 ^ 63 - 2 ^ 42 := by
      have e : p.value = decimal p.whole * p.unit + decimal p.digits / 10 ^ p.digits.length * p.unit := by unfold Part.value; ring
      linarith
    have h' : ((decimal p.whole * p.unit : Nat) : Rat) ≤ ((2 ^ 63 - 2 ^ 42 : Nat) : Rat) := by
      push_cast
      refine this.trans (by norm_num)
    exact_mod_cast h'
  have hlt := hu.lt
  obtain ⟨w, h1, h2⟩ := partValue_near (v := decimal p.whole) hu.pos hlt (decimal_lt hp.frac) (by omega)
  have hw : w ≤ 2 ^ 63 := by
    have h3 := (abs_le.1 h2).2
    change (w : Rat) - p.value ≤ _ at h3
    have : (w : Rat) ≤ ((2 ^ 63 : Nat) : Rat) := by
      push_cast
      have : (2 : Rat) ≤ 2 ^ 42 := by norm_num
      linarith
    exact_mod_cast this
  have hd : decimal p.whole ≤ 2 ^ 63 := by
    have := Nat.le_mul_of_pos_right (decimal p.whole) hu.pos
    omega
  refine ⟨w, hw, h2, fun r hr => ?_⟩
  rw [durationPart_eq hp h18 hr, if_pos hd, h1]
  rfl

/-- C143, the part that holds with rounding (missing: more than 18 digits after a point, and durations within an hour and a
bit of the largest): every number with a unit is right up to 1.01 nanoseconds. -/
theorem C143_near_partial (sg : Sign) {ps : List Part} (hne : ps ≠ []) (hp : ∀ p ∈ ps, p.Valid)
    (h18 : ∀ p ∈ ps, p.digits.length ≤ 18) (hb : total ps + 2 * ps.length ≤ 2 ^ 63 - 2 ^ 42) :
    ∃ n : Int, parseDuration (sg.render ++ renderParts ps) = some n ∧ |(n : Rat) - sg.apply (total ps)| ≤ 101 / 100 * ps.length := by
  have hnn : ∀ p : Part, 0 ≤ p.value := fun p => by unfold Part.value; positivity
  have hle : ∀ {qs : List Part} {p}, p ∈ qs → p.value ≤ total qs := by
    intro qs p h
    exact List.single_le_sum (by simp only [List.mem_map]; rintro x ⟨q, -, rfl⟩; exact hnn q) _ (List.mem_map_of_mem h)
  have hl : (0 : Rat) ≤ ps.length := by positivity
  have hone : ∀ p ∈ ps, ∃ w : Nat, w ≤ 2 ^ 63 ∧ |(w : Rat) - p.value| ≤ 101 / 100 ∧ ∀ r, NoUnit r → durationPart (p.render ++ r) = some (w, r) :=
    fun p h => valueNear (hp p h) (h18 p h) (by have := hle h; linarith)
  have hval : ∃ val : Part → Nat, ∀ p ∈ ps, val p ≤ 2 ^ 63 ∧ |(val p : Rat) - p.value| ≤ 101 / 100 ∧
      ∀ r, NoUnit r → durationPart (p.render ++ r) = some (val p, r) := by
    classical
    refine ⟨fun p => if h : p ∈ ps then (hone p h).choose else 0, fun p h => ?_⟩
    simp only [h, dif_pos]
    exact (hone p h).choose_spec
  obtain ⟨val, hval⟩ := hval
  have hsum : ∀ qs : List Part, (∀ p ∈ qs, p ∈ ps) → |(((qs.map val).sum : Nat) : Rat) - total qs| ≤ 101 / 100 * qs.length := by
    intro qs
    induction qs with
    | nil => intro _; simp [total]
    | cons p qs ih =>
      intro h
      have h1 := ih fun q hq => h q (by simp [hq])
      have h2 := (hval p (h p (by simp))).2.1
      simp only [total, List.map_cons, List.sum_cons, List.length_cons] at h1 ⊢
      push_cast at h1 ⊢
      rw [abs_le] at *
      constructor <;> linarith [h1.1, h1.2, h2.1, h2.2]
  have hs := hsum ps fun _ h => h
  have hlt : (ps.map val).sum < 2 ^ 63 := by
    have h3 := (abs_le.1 hs).2
    have : (((ps.map val).sum : Nat) : Rat) < ((2 ^ 63 : Nat) : Rat) := by
      push_cast
      have : (0 : Rat) < 2 ^ 42 := by norm_num
      linarith
    exact_mod_cast this
  rw [parse_eq (val := val) sg hne (fun p h => ⟨hp p h, fun r hr => by rw [if_pos (hval p h).1]; exact (hval p h).2.2 r hr⟩)]
  · cases sg <;> simp only [Sign.apply, reduceCtorEq, if_false, if_true, if_pos hlt, if_pos hlt.le]
    case minus =>
      refine ⟨_, rfl, ?_⟩
      rw [abs_le] at *
      push_cast at hs ⊢
      constructor <;> linarith [hs.1, hs.2]
    all_goals exact ⟨_, rfl, by push_cast at hs ⊢; exact hs⟩
  · intro ps1 p ps2 e h1 h2
    rw [e] at hlt
    simp only [List.map_append, List.map_cons, List.sum_append, List.sum_cons, h1, h2] at hlt
    omega

/-- Five hundredths of a minute, with twelve zeros behind. -/
def exTwentieth : Part := ⟨b "0", some (b "05000000000000"), b "m", 60 * 10 ^ 9⟩

/-- C143 is violated: three seconds, written as 0.05 minutes with zeros behind, move a timestamp by two seconds only. -/
theorem C143_violated :
    exTwentieth.Valid ∧ total [exTwentieth] = 3 * 10 ^ 9 ∧
      timeAdd (fun _ => 0) noSlow parseDuration (b "2024-02-29T23:59:57Z") (renderParts [exTwentieth]) = .ok (b "2024-02-29T23:59:59Z") := by
  refine ⟨⟨by decide, by decide, by decide, by decide⟩, by decide +kernel, by decide +kernel⟩

/-- 2⁶³ nanoseconds. -/
def exHuge : Part := ⟨b "9223372036854775808", none, b "ns", 1⟩

/-- C143 is violated: twice 292 years, which is no duration, is zero. -/
theorem C143_wraps :
    exHuge.Valid ∧ total [exHuge, exHuge] = 2 ^ 64 ∧ parseDuration (renderParts [exHuge]) = none ∧
      timeAdd (fun _ => 0) noSlow parseDuration (b "2024-02-29T23:59:57Z") (renderParts [exHuge, exHuge]) = .ok (b "2024-02-29T23:59:57Z") := by
  refine ⟨⟨by decide, by decide, by decide, by decide⟩, by decide +kernel, by decide +kernel, by decide +kernel⟩

/-! Examples. -/

/-- One and a half hours. -/
def exHours : Part := ⟨b "1", some (b "5"), b "h", 3600 * 10 ^ 9⟩

/-- A quarter of a microsecond. -/
def exMicro : Part := ⟨[], some (b "25"), b "µs", 10 ^ 3⟩

theorem exHours_valid : ∀ p ∈ [exHours, exMicro], p.Valid := by
  intro p hp
  simp only [List.mem_cons, List.not_mem_nil, or_false] at hp
  rcases hp with rfl | rfl <;> exact ⟨by decide, by decide, by decide, by decide⟩

theorem exHours_exact : ∀ p ∈ [exHours, exMicro], 10 ^ p.digits.length ∣ p.unit := by
  intro p hp
  simp only [List.mem_cons, List.not_mem_nil, or_false] at hp
  rcases hp with rfl | rfl <;> decide

theorem exHours_total : total [exHours, exMicro] = 5400 * 10 ^ 9 + 250 := by decide +kernel

example : ∃ n : Int, parseDuration (b "-1.5h.25µs") = some n ∧ (n : Rat) = -(5400 * 10 ^ 9 + 250) := by
  have h := C143_exact_partial .minus (ps := [exHours, exMicro]) (by simp) exHours_valid exHours_exact
    (.inr (by rw [exHours_total]; norm_num))
  rw [exHours_total, if_pos (by norm_num [Sign.most])] at h
  exact h

example : parseDuration (b "-1.5h.25µs") = some (-5400000000250) ∧ parseDuration (b "1.5") = none ∧ parseDuration (b "1h-30m") = none ∧
    parseDuration (b "+0") = some 0 ∧ parseDuration (b "9223372036854775807ns") = some (2 ^ 63 - 1) ∧ parseDuration (b "9223372036854775808ns") = none ∧
    parseDuration (b "-9223372036854775808ns") = some (-2 ^ 63) := by decide +kernel

example : ∃ r : Stamp, timeAdd newYork noSlow parseDuration (b "2024-02-29T23:59:59+05:30") (b "-1.5h.25µs") = .ok r.render ∧ r.Valid ∧ r.frac = [] ∧
    r.instant = ⌊exLeapDay.instant + Sign.minus.apply (total [exHours, exMicro]) / 10 ^ 9⌋ :=
  C143_timeadd newYork_regular exLeapDay_valid .minus (by simp) exHours_valid exHours_exact (by decide +kernel) (by decide +kernel)
    (by rw [days10000]; decide +kernel)

example : timeAdd newYork noSlow parseDuration (b "2024-02-29T23:59:59+05:30") (b "-1.5h.25µs") = .ok (b "2024-02-29T22:29:58+05:30") := by
  decide +kernel

/-- Words are no durations. -/
example : timeAdd newYork noSlow parseDuration (b "2024-02-29T23:59:59+05:30") (b "tomorrow") = .error () :=
  C143_refused (by
    intro sg
    have hl : ∀ c ∈ (sg.render ++ b "0").head?, c ≠ 116 := by cases sg <;> decide
    refine ⟨fun h => hl 116 (by rw [← h]; rfl) rfl, fun ps hne hp h => ?_⟩
    obtain ⟨p, qs, rfl⟩ : ∃ p qs, ps = p :: qs := List.exists_cons_of_ne_nil hne
    obtain ⟨c, t, e, hc, -⟩ := render_head (hp p (by simp)) (renderParts qs)
    have e' : renderParts (p :: qs) = c :: t := by rw [← e]; simp [renderParts]
    rw [e'] at h
    cases sg with
    | none =>
      have : c = 116 := by
        have := congrArg List.head? h
        simpa [Sign.render, show (b "tomorrow").head? = some 116 from rfl] using this.symm
      rw [this] at hc
      exact absurd hc (by decide)
    | plus =>
      have := congrArg List.head? h
      simp [Sign.render, show (b "tomorrow").head? = some 116 from rfl] at this
    | minus =>
      have := congrArg List.head? h
      simp [Sign.render, show (b "tomorrow").head? = some 116 from rfl] at this)

/-- The duration of `C143_violated` is right up to a nanosecond. -/
example : ∃ n : Int, parseDuration (renderParts [exTwentieth]) = some n ∧ |(n : Rat) - total [exTwentieth]| ≤ 101 / 100 * (1 : Nat) :=
  C143_near_partial .none (ps := [exTwentieth]) (by simp)
    (by intro p hp; simp only [List.mem_singleton] at hp; subst hp; exact C143_violated.1)
    (by intro p hp; simp only [List.mem_singleton] at hp; subst hp; decide)
    (by rw [C143_violated.2.1]; norm_num)

end Verif.Funcs
