import Verif.Model.TimeAdd
import Verif.Props.Time
set_option linter.unusedSimpArgs false
/-! Adding a duration to a timestamp (C78, C79). -/
namespace Verif.Funcs

theorem cut100 {r n1 r1 : Nat} (h : r < 146097) (hn : n1 = r / 36524 - r / 36524 / 4) (hr : r1 = r - 36524 * n1) :
    r = 36524 * n1 + r1 ∧ n1 ≤ 3 ∧ (r1 < 36524 ∨ n1 = 3 ∧ r1 < 36525) := by
  have : r / 36524 ≤ 4 := by omega
  have h4 : r / 36524 = 0 ∨ r / 36524 = 1 ∨ r / 36524 = 2 ∨ r / 36524 = 3 ∨ r / 36524 = 4 := by omega
  rcases h4 with e | e | e | e | e <;> rw [e] at hn <;> omega

theorem cut1 {r n1 r1 : Nat} (h : r < 1461) (hn : n1 = r / 365 - r / 365 / 4) (hr : r1 = r - 365 * n1) :
    r = 365 * n1 + r1 ∧ n1 ≤ 3 ∧ (r1 < 365 ∨ n1 = 3 ∧ r1 < 366) := by
  have : r / 365 ≤ 4 := by omega
  have h4 : r / 365 = 0 ∨ r / 365 = 1 ∨ r / 365 = 2 ∨ r / 365 = 3 ∨ r / 365 = 4 := by omega
  rcases h4 with e | e | e | e | e <;> rw [e] at hn <;> omega

theorem yearSum {n n1 n2 n3 : Nat} (h1 : n1 ≤ 3) (h2 : n2 ≤ 24) (h3 : n3 ≤ 3) :
    (400 * n + 100 * n1 + 4 * n2 + n3) / 4 = 100 * n + 25 * n1 + n2 ∧
    (400 * n + 100 * n1 + 4 * n2 + n3) / 100 = 4 * n + n1 ∧ (400 * n + 100 * n1 + 4 * n2 + n3) / 400 = n :=
  ⟨by omega, by omega, by omega⟩

theorem yearLeap {n n1 n2 n3 : Nat} (h2 : n2 ≤ 24) (h3 : n3 = 3) (h : n2 < 24 ∨ n1 = 3) :
    isLeapAbs (400 * n + 100 * n1 + 4 * n2 + n3) = true := by
  subst h3
  simp only [isLeapAbs, Bool.and_eq_true, Bool.or_eq_true, decide_eq_true_eq, ne_eq]
  refine ⟨by omega, ?_⟩
  rcases h with h | h
  · left; omega
  · by_cases e : n2 = 24
    · right; omega
    · left; omega

theorem yearDays {n n1 n2 n3 r3 y a c e : Nat} (hy : y = 400 * n + 100 * n1 + 4 * n2 + n3)
    (ha : a = 100 * n + 25 * n1 + n2) (hc : c = 4 * n + n1) (he : e = n) :
    365 * y + a - c + e + r3 = 146097 * n + (36524 * n1 + (1461 * n2 + (365 * n3 + r3))) := by omega

theorem absYear_eq {d n r n1 r1 n2 r2 n3 r3 : Nat} (hn : n = d / 146097) (hr : r = d - 146097 * n)
    (hn1 : n1 = r / 36524 - r / 36524 / 4) (hr1 : r1 = r - 36524 * n1) (hn2 : n2 = r1 / 1461) (hr2 : r2 = r1 - 1461 * n2)
    (hn3 : n3 = r2 / 365 - r2 / 365 / 4) (hr3 : r3 = r2 - 365 * n3) :
    absYear d = (400 * n + 100 * n1 + 4 * n2 + n3, r3) := by
  subst hr3; subst hn3; subst hr2; subst hn2; subst hr1; subst hn1; subst hr; subst hn
  exact Eq.refl _

/-- Year and day of the year are those of the day. -/
theorem absYear_spec (d : Nat) : ∃ y r, absYear d = (y, r) ∧
    365 * y + y / 4 - y / 100 + y / 400 + r = d ∧ r < 365 + (if isLeapAbs y then 1 else 0) := by
  obtain ⟨n, hn⟩ : ∃ n, n = d / 146097 := ⟨_, rfl⟩
  obtain ⟨r, hr⟩ : ∃ r, r = d - 146097 * n := ⟨_, rfl⟩
  obtain ⟨n1, hn1⟩ : ∃ n1, n1 = r / 36524 - r / 36524 / 4 := ⟨_, rfl⟩
  obtain ⟨r1, hr1⟩ : ∃ r1, r1 = r - 36524 * n1 := ⟨_, rfl⟩
  obtain ⟨n2, hn2⟩ : ∃ n2, n2 = r1 / 1461 := ⟨_, rfl⟩
  obtain ⟨r2, hr2⟩ : ∃ r2, r2 = r1 - 1461 * n2 := ⟨_, rfl⟩
  obtain ⟨n3, hn3⟩ : ∃ n3, n3 = r2 / 365 - r2 / 365 / 4 := ⟨_, rfl⟩
  obtain ⟨r3, hr3⟩ : ∃ r3, r3 = r2 - 365 * n3 := ⟨_, rfl⟩
  refine ⟨_, _, absYear_eq hn hr hn1 hr1 hn2 hr2 hn3 hr3, ?_⟩
  have a0 : d = 146097 * n + r ∧ r < 146097 := by clear hr1 hn1 hn2 hr2 hn3 hr3; omega
  obtain ⟨a1, a2⟩ := a0
  obtain ⟨b0, b1, b2⟩ := cut100 a2 hn1 hr1
  have c0 : r1 = 1461 * n2 + r2 ∧ n2 ≤ 24 ∧ r2 < 1461 ∧ (n2 = 24 → r2 < 1460 ∨ n1 = 3) := by
    clear hr hn hr1 hn1 a1 b0 a2 hn3 hr3; omega
  obtain ⟨c0, c1, c2, c3⟩ := c0
  obtain ⟨d0, d1, d2⟩ := cut1 c2 hn3 hr3
  clear hn hr hn1 hr1 hn2 hr2 hn3 hr3
  obtain ⟨e1, e2, e3⟩ := yearSum (n := n) b1 c1 d1
  have key := yearDays (n3 := n3) (r3 := r3) (Eq.refl _) e1 e2 e3
  refine ⟨by omega, ?_⟩
  clear key e1 e2 e3
  by_cases hl : n3 = 3 ∧ (n2 < 24 ∨ n1 = 3)
  · rw [if_pos (yearLeap c1 hl.1 hl.2)]; omega
  · have : r3 < 365 := by omega
    omega

theorem absMonth_spec : ∀ leap : Bool, ∀ yday : Fin 366, yday.val < 365 + (if leap then 1 else 0) →
    let r := absMonth leap yday.val
    1 ≤ r.1 ∧ r.1 ≤ 12 ∧ 1 ≤ r.2 ∧ daysBefore (r.1 - 1) + (if leap = true ∧ 3 ≤ r.1 then 1 else 0) + (r.2 - 1) = yday.val ∧
    r.2 ≤ (if r.1 = 2 then (if leap then 29 else 28) else if r.1 = 4 ∨ r.1 = 6 ∨ r.1 = 9 ∨ r.1 = 11 then 30 else 31) := by
  decide +kernel

theorem daysSinceEpoch_alt (y : Nat) : daysSinceEpoch y =
    365 * (y + 399) + (y + 399) / 4 - (y + 399) / 100 + (y + 399) / 400 := by
  simp only [daysSinceEpoch]; omega

theorem isLeapAbs_eq (y : Nat) : isLeapAbs (y + 399) = isLeap y := by
  have h4 : (y + 399 + 1) % 4 = y % 4 := by omega
  have h100 : (y + 399 + 1) % 100 = y % 100 := by omega
  have h400 : (y + 399 + 1) % 400 = y % 400 := by omega
  simp only [isLeapAbs, isLeap, h4, h100, h400]

theorem utod_dig (n : Nat) (h : n < 10) : utod n = dig n := by
  simp [utod, dig, Nat.mod_eq_of_lt h]

theorem dig_mod (n : Nat) : dig (n % 10) = dig n := by simp [dig]

theorem appendInt_2 {n : Nat} (h : n < 100) : appendInt (n : Int) 2 = dig2 n := by
  have h1 : ¬ ((n : Int) < 0) := by omega
  simp only [appendInt, Int.natAbs_natCast, h, and_self, if_true, h1, if_false, List.nil_append, dig2]
  rw [utod_dig _ (by omega), utod_dig _ (by omega), dig_mod]

theorem appendInt_4 {n : Nat} (h : n ≤ 9999) : appendInt (n : Int) 4 = dig2 (n / 100) ++ dig2 n := by
  have h1 : ¬ ((n : Int) < 0) := by omega
  have h2 : n < 10000 := by omega
  have h3 : ¬ (4 = 2 ∧ n < 100) := by omega
  simp only [appendInt, Int.natAbs_natCast, h3, h2, and_self, if_true, h1, if_false, List.nil_append, dig2]
  rw [utod_dig _ (by omega), utod_dig _ (by omega), utod_dig _ (by omega), utod_dig _ (by omega), dig_mod, dig_mod, dig_mod]
  have e : n / 100 / 10 = n / 1000 := by omega
  rw [e]
  simp

/-- The zone as parts. -/
def zoneParts (off : Int) : Option (Bool × Nat × Nat) :=
  if off = 0 then none else some (decide (0 < off), off.natAbs / 3600, off.natAbs % 3600 / 60)

theorem formatZone_eq {off : Int} (h60 : 60 ∣ off) (hr : |off| < 86400) :
    formatZone off = renderZone (zoneParts off) ∧ zoneSec (zoneParts off) = off ∧
      ∀ z ∈ zoneParts off, z.2.1 ≤ 23 ∧ z.2.2 ≤ 59 := by
  obtain ⟨k, rfl⟩ := h60
  have hk : -1440 < k ∧ k < 1440 := by rw [abs_lt] at hr; omega
  have hn : (60 * k).natAbs = 60 * k.natAbs := by omega
  have hd : (60 * k).tdiv 60 = k := Int.mul_tdiv_cancel_left k (by omega)
  unfold formatZone zoneParts
  by_cases h0 : 60 * k = 0
  · simp [h0, renderZone, zoneSec]
  · simp only [h0, if_false, hd, hn]
    have e1 : 60 * k.natAbs / 3600 = k.natAbs / 60 := by omega
    have e2 : 60 * k.natAbs % 3600 / 60 = k.natAbs % 60 := by omega
    rw [e1, e2, appendInt_2 (by omega), appendInt_2 (by omega)]
    by_cases hp : 0 < k
    · have a1 : ¬ k < 0 := by omega
      have a2 : 0 < 60 * k := by omega
      refine ⟨by simp [renderZone, a1, a2, hp], ?_, ?_⟩
      · simp only [a2, decide_true, zoneSec]; omega
      · intro z hz; simp only [Option.mem_some_iff] at hz; subst hz; simp only; omega
    · have a1 : k < 0 := by omega
      have a2 : ¬ 0 < 60 * k := by omega
      refine ⟨by simp [renderZone, a1, a2, hp], ?_, ?_⟩
      · simp only [a2, decide_false, zoneSec]; omega
      · intro z hz; simp only [Option.mem_some_iff] at hz; subst hz; simp only; omega

theorem days10000 : daysOfYears 10000 = 3652425 := by
  have h := daysSinceEpoch_eq 10000
  have : daysSinceEpoch 10000 = 3798156 := by decide
  omega

/-- Formatting gives a valid timestamp of the moment, as long as the year has four digits. -/
theorem formatAbs_render {abs : Nat} {off : Int} (h60 : 60 ∣ off) (hr : |off| < 86400)
    (hlo : 145731 * 86400 ≤ abs) (hhi : abs < 3798156 * 86400) :
    ∃ r : Stamp, formatAbs abs off = r.render ∧ r.Valid ∧ r.frac = [] ∧ zoneSec r.zone = off ∧ (off = 0 → r.zone = none) ∧
      r.instant = (((abs : Int) - shift - off : Int) : Rat) := by
  obtain ⟨y, yday, hy, hsum, hlt⟩ := absYear_spec (abs / 86400)
  obtain ⟨z1, z2, z3⟩ := formatZone_eq h60 hr
  have hd1 : 145731 ≤ abs / 86400 := by omega
  have hd2 : abs / 86400 < 3798156 := by omega
  have hylo : 399 ≤ y := by
    by_contra hc
    by_cases e : y = 398
    · subst e
      have : isLeapAbs 398 = false := by decide
      simp only [this, Bool.false_eq_true, if_false] at hlt
      omega
    · split at hlt <;> omega
  have hyhi : y ≤ 10398 := by omega
  obtain ⟨year, rfl⟩ : ∃ year, y = year + 399 := ⟨y - 399, by omega⟩
  rw [isLeapAbs_eq] at hlt
  have hm := absMonth_spec (isLeap year) ⟨yday, by split at hlt <;> omega⟩ hlt
  rcases hmd : absMonth (isLeap year) yday with ⟨m, d⟩
  simp only [hmd] at hm
  obtain ⟨m1, m2, d1, dsum, dlen⟩ := hm
  have hlen : d ≤ monthLength year m := by
    refine le_trans dlen (le_of_eq ?_)
    unfold monthLength
    by_cases hl : Leap year
    · simp [hl, (isLeap_iff year).2 hl]
    · have : ¬ isLeap year = true := fun h => hl ((isLeap_iff year).1 h)
      simp [hl, this]
  have hmlen : monthLength year m ≤ 31 := by unfold monthLength; split <;> split <;> omega
  refine ⟨⟨year, m, d, abs % 86400 / 3600, abs % 3600 / 60, abs % 60, [], zoneParts off⟩, ?_, ?_, rfl, z2, ?_, ?_⟩
  · simp only [formatAbs, hy, isLeapAbs_eq, hmd, Stamp.render, renderFrac, if_true, List.append_nil]
    have e : ((year + 399 : Nat) : Int) - 399 = (year : Int) := by push_cast; ring
    rw [e, appendInt_4 (by omega), appendInt_2 (by omega), appendInt_2 (by omega), appendInt_2 (by omega),
      appendInt_2 (by omega), appendInt_2 (by omega), z1]
  · exact ⟨by simp only; omega, ⟨m1, m2⟩, ⟨d1, hlen⟩, by simp only; omega, by simp only; omega, by simp only; omega,
      by simp, z3⟩
  · intro h; simp [zoneParts, h]
  · simp only [Stamp.instant, fracVal, add_zero, z2]
    have hmon := monthDays year m m1 m2
    have hep := daysSinceEpoch_eq year
    rw [daysSinceEpoch_alt] at hep
    have hdays : daysOfYears year + daysOfMonths year (m - 1) + (d - 1) + 145731 = abs / 86400 := by
      rw [hmon]; omega
    have key : (((daysOfYears year + daysOfMonths year (m - 1) + (d - 1)) * 86400 + abs % 86400 / 3600 * 3600 +
        abs % 3600 / 60 * 60 + abs % 60 : Nat) : Int) = (abs : Int) - shift := by
      simp only [shift]
      omega
    rw [← Int.cast_natCast, key]
    push_cast
    ring

/-! ### timeadd -/

/-- The location of a machine keeps whole minutes and stays within a day. -/
def Regular (loc : Int → Int) : Prop := ∀ t, 60 ∣ loc t ∧ |loc t| < 86400

/-- The offset that the result of `timeAdd` is shown with. -/
def offsetOf (loc : Int → Int) (sec sec' : Int) (z : Option (Bool × Nat × Nat)) : Int :=
  if z = none then 0 else if loc sec = zoneSec z then loc sec' else zoneSec z

theorem zoneOf_offset {loc : Int → Int} {sec sec' : Int} {z : Option (Bool × Nat × Nat)}
    (h : ∀ x ∈ z, x.2.1 ≤ 23 ∧ x.2.2 ≤ 59) :
    (zoneOf loc sec (renderZone z)).offset loc sec' = offsetOf loc sec sec' z := by
  unfold zoneOf offsetOf
  rw [parseZone_render h]
  cases z with
  | none => simp [renderZone, Zone.offset]
  | some x =>
    obtain ⟨pos, hr, mm⟩ := x
    have : renderZone (some (pos, hr, mm)) ≠ [90] := by
      cases pos <;> simp [renderZone]
    simp only [this, if_false, reduceCtorEq]
    split <;> rfl

theorem parseGoTime_render {loc : Int → Int} {slow : Bytes → Option GoTime} {s : Stamp} (h : s.Valid) :
    parseGoTime loc slow s.render = some ⟨⌊s.instant * 1000000000⌋ + shift * 1000000000,
      zoneOf loc ((⌊s.instant * 1000000000⌋ + shift * 1000000000) / 1000000000) (renderZone s.zone)⟩ := by
  have fr := parseFrac_render s.frac s.zone
  have e : s.render.drop 19 = renderFrac s.frac ++ renderZone s.zone := by
    simp [Stamp.render, dig2]
  simp only [parseGoTime, parse_render h, e, fr]

/-- What `timeAdd` computes on a valid timestamp. -/
theorem timeAdd_eq {loc : Int → Int} {slow : Bytes → Option GoTime} {dur : Bytes → Option Int} {s : Stamp} (h : s.Valid)
    {d : Bytes} {n : Int} (hd : dur d = some n) :
    timeAdd loc slow dur s.render d = .ok (formatAbs
      (⌊s.instant + n / 1000000000⌋ + shift +
        offsetOf loc (⌊s.instant⌋ + shift) (⌊s.instant + n / 1000000000⌋ + shift) s.zone).toNat
      (offsetOf loc (⌊s.instant⌋ + shift) (⌊s.instant + n / 1000000000⌋ + shift) s.zone)) := by
  have e1 : ∀ x : Rat, ∀ m : Int, (⌊x * 1000000000⌋ + shift * 1000000000 + m) / 1000000000 = ⌊x + m / 1000000000⌋ + shift := by
    intro x m
    have h1 : ⌊x * 1000000000⌋ + shift * 1000000000 + m = ⌊x * 1000000000 + m⌋ + shift * 1000000000 := by
      rw [Int.floor_add_intCast]; ring
    rw [h1, Int.add_mul_ediv_right _ _ (by norm_num)]
    congr 1
    have h2 : x + m / 1000000000 = (x * 1000000000 + m) / ((1000000000 : Nat) : Rat) := by push_cast; field_simp
    rw [h2, Int.floor_div_natCast]
    norm_num
  have e2 : (⌊s.instant * 1000000000⌋ + shift * 1000000000) / 1000000000 = ⌊s.instant⌋ + shift := by
    have := e1 s.instant 0
    simpa using this
  simp only [timeAdd, parseGoTime_render h, hd, formatTime, e1, e2, zoneOf_offset h.zone]

theorem offsetOf_regular {loc : Int → Int} (hl : Regular loc) {z : Option (Bool × Nat × Nat)}
    (h : ∀ x ∈ z, x.2.1 ≤ 23 ∧ x.2.2 ≤ 59) (t t' : Int) : 60 ∣ offsetOf loc t t' z ∧ |offsetOf loc t t' z| < 86400 := by
  have hz : 60 ∣ zoneSec z ∧ |zoneSec z| < 86400 := by
    rcases z with _ | ⟨pos, hr, mm⟩
    · simp [zoneSec]
    · obtain ⟨h1, h2⟩ := h _ rfl
      simp only at h1 h2
      cases pos <;> simp only [zoneSec, abs_lt] <;> omega
  unfold offsetOf
  split
  · simp
  · split
    · exact hl _
    · exact hz

/-- C78, the part that holds (missing: results outside of the years 0 to 9999, fractions of seconds in the
result, and locations of the machine that are not in whole minutes, see `C78_violated`): `timeadd` of a valid
timestamp, in any zone, gives a valid timestamp for the instant moved by the duration, rounded down to
seconds.  It keeps the offset, unless the location of the machine changes its offset. -/
theorem C78_partial {loc : Int → Int} {slow : Bytes → Option GoTime} {dur : Bytes → Option Int} (hloc : Regular loc)
    {s : Stamp} (hs : s.Valid) {d : Bytes} {n : Int} (hd : dur d = some n)
    (hlo : 86400 ≤ s.instant + n / 1000000000) (hhi : s.instant + n / 1000000000 < (daysOfYears 10000 - 1 : Nat) * 86400) :
    ∃ r : Stamp, timeAdd loc slow dur s.render d = .ok r.render ∧ r.Valid ∧ r.frac = [] ∧
      r.instant = ⌊s.instant + n / 1000000000⌋ ∧
      ((∀ t, loc t = loc 0) ∨ s.zone = none → zoneSec r.zone = zoneSec s.zone) := by
  rw [timeAdd_eq hs hd]
  obtain ⟨h60, hr⟩ := offsetOf_regular hloc hs.zone (⌊s.instant⌋ + shift) (⌊s.instant + n / 1000000000⌋ + shift)
  have hkeep : (∀ t, loc t = loc 0) ∨ s.zone = none →
      offsetOf loc (⌊s.instant⌋ + shift) (⌊s.instant + n / 1000000000⌋ + shift) s.zone = zoneSec s.zone := by
    intro h
    unfold offsetOf
    split
    · rename_i e; rw [e]; rfl
    · rename_i e
      rcases h with h | h
      · rw [h (_ + _), h (⌊s.instant + _⌋ + _)]
        split
        · assumption
        · rfl
      · exact absurd h e
  generalize offsetOf loc (⌊s.instant⌋ + shift) (⌊s.instant + n / 1000000000⌋ + shift) s.zone = off at *
  have f1 : 86400 ≤ ⌊s.instant + n / 1000000000⌋ := by rw [Int.le_floor]; exact_mod_cast hlo
  have f2 : ⌊s.instant + n / 1000000000⌋ < 3652424 * 86400 := by
    rw [Int.floor_lt]
    rw [days10000] at hhi
    exact_mod_cast hhi
  generalize ⌊s.instant + n / 1000000000⌋ = t at *
  rw [abs_lt] at hr
  have hs' : shift = 145731 * 86400 := rfl
  obtain ⟨r, r1, r2, r3, r4, _, r6⟩ := formatAbs_render (abs := (t + shift + off).toNat) h60 (abs_lt.2 hr) (by omega) (by omega)
  refine ⟨r, by rw [r1], r2, r3, ?_, fun h => by rw [r4, hkeep h]⟩
  rw [r6]
  have : (((t + shift + off).toNat : Nat) : Int) - shift - off = t := by omega
  rw [this]

/-- C78: adding two durations of whole seconds one after the other is adding their sum. -/
theorem C78_twice {loc : Int → Int} {slow : Bytes → Option GoTime} {dur : Bytes → Option Int} (hloc : Regular loc)
    {s : Stamp} (hs : s.Valid) (hf : s.frac = []) {d1 d2 d3 : Bytes} {n1 n2 : Int} (h1 : dur d1 = some (n1 * 1000000000))
    (h2 : dur d2 = some (n2 * 1000000000)) (h3 : dur d3 = some ((n1 + n2) * 1000000000))
    (b1 : 86400 ≤ s.instant + n1) (b2 : s.instant + n1 < (daysOfYears 10000 - 1 : Nat) * 86400)
    (c1 : 86400 ≤ s.instant + n1 + n2) (c2 : s.instant + n1 + n2 < (daysOfYears 10000 - 1 : Nat) * 86400) :
    ∃ r r' q : Stamp, timeAdd loc slow dur s.render d1 = .ok r.render ∧ timeAdd loc slow dur r.render d2 = .ok r'.render ∧
      timeAdd loc slow dur s.render d3 = .ok q.render ∧ r'.instant = q.instant ∧ q.instant = s.instant + n1 + n2 := by
  have hint : ∃ z : Int, s.instant = z := by
    refine ⟨(((daysOfYears s.year + daysOfMonths s.year (s.month - 1) + (s.day - 1)) * 86400 +
      s.hour * 3600 + s.min * 60 + s.sec : Nat) : Int) - zoneSec s.zone, ?_⟩
    simp only [Stamp.instant, hf, fracVal]; push_cast; ring
  obtain ⟨z, hz⟩ := hint
  have q1 : ((n1 * 1000000000 : Int) : Rat) / 1000000000 = n1 := by push_cast; field_simp
  have q2 : ((n2 * 1000000000 : Int) : Rat) / 1000000000 = n2 := by push_cast; field_simp
  have q3 : (((n1 + n2) * 1000000000 : Int) : Rat) / 1000000000 = n1 + n2 := by push_cast; field_simp
  obtain ⟨r, r1, r2, -, r4, -⟩ := C78_partial (slow := slow) hloc hs h1 (by rw [q1]; exact b1) (by rw [q1]; exact b2)
  have hr : r.instant = s.instant + n1 := by
    rw [r4, q1, hz, ← Int.cast_add, Int.floor_intCast]
  obtain ⟨r', r1', -, -, r4', -⟩ := C78_partial (slow := slow) hloc r2 h2 (by rw [q2, hr]; exact c1) (by rw [q2, hr]; exact c2)
  obtain ⟨q, s1, -, -, s4, -⟩ := C78_partial (slow := slow) hloc hs h3 (by rw [q3, ← add_assoc]; exact c1)
    (by rw [q3, ← add_assoc]; exact c2)
  have hq : q.instant = s.instant + n1 + n2 := by
    rw [s4, q3, hz, ← add_assoc, ← Int.cast_add, ← Int.cast_add, Int.floor_intCast]
  refine ⟨r, r', q, r1, r1', s1, ?_, hq⟩
  rw [hq, r4', q2, hr, hz, ← Int.cast_add, ← Int.cast_add, Int.floor_intCast]

/-- C78: `timestamp` and `plantimestamp` give a valid timestamp for their moment, rounded down to seconds
(`t.ns` counts from the year -399). -/
theorem C78_timestamp {loc : Int → Int} {t : GoTime} (hz : t.zone = .utc)
    (hlo : shift ≤ t.ns / 1000000000) (hhi : t.ns / 1000000000 < shift + daysOfYears 10000 * 86400) :
    ∃ r : Stamp, staticTimestamp loc t = r.render ∧ r.Valid ∧ r.frac = [] ∧ r.zone = none ∧
      r.instant = ((t.ns / 1000000000 - shift : Int) : Rat) := by
  have hs' : shift = 145731 * 86400 := rfl
  rw [days10000] at hhi
  obtain ⟨r, r1, r2, r3, _, r5, r6⟩ := formatAbs_render (abs := (t.ns / 1000000000 + 0).toNat) (off := 0) (by simp) (by simp)
    (by omega) (by omega)
  refine ⟨r, ?_, r2, r3, r5 rfl, ?_⟩
  · simp only [staticTimestamp, formatTime, hz, Zone.offset, r1]
  · rw [r6]
    congr 1
    omega

/-- C79, the part that holds (missing: other offsets on machines whose location changes its offset, see
`C79_violated`): for timestamps in UTC the result of `timeadd` is the same on all machines, and for all others it is
the same on all machines whose location has always the same offset. -/
theorem C79_partial {loc loc' : Int → Int} {slow slow' : Bytes → Option GoTime} {dur : Bytes → Option Int} {s : Stamp} (hs : s.Valid)
    (h : s.zone = none ∨ (∀ t, loc t = loc 0) ∧ ∀ t, loc' t = loc' 0) (d : Bytes) :
    timeAdd loc slow dur s.render d = timeAdd loc' slow' dur s.render d := by
  cases hd : dur d with
  | none => simp only [timeAdd, parseGoTime_render hs, hd]
  | some n =>
    rw [timeAdd_eq hs hd, timeAdd_eq hs hd]
    have key : ∀ t t', offsetOf loc t t' s.zone = offsetOf loc' t t' s.zone := by
      intro t t'
      unfold offsetOf
      rcases h with h | ⟨h1, h2⟩
      · simp [h]
      · rw [h1 t, h1 t', h2 t, h2 t']
        split
        · rfl
        · split <;> split <;> simp_all
    rw [key]

/-- C79: on all machines with a regular location the result stands for the same instant. -/
theorem C79_instant {loc loc' : Int → Int} {slow slow' : Bytes → Option GoTime} {dur : Bytes → Option Int} (hloc : Regular loc)
    (hloc' : Regular loc') {s : Stamp} (hs : s.Valid) {d : Bytes} {n : Int} (hd : dur d = some n)
    (hlo : 86400 ≤ s.instant + n / 1000000000) (hhi : s.instant + n / 1000000000 < (daysOfYears 10000 - 1 : Nat) * 86400) :
    ∃ r r' : Stamp, timeAdd loc slow dur s.render d = .ok r.render ∧ timeAdd loc' slow' dur s.render d = .ok r'.render ∧
      r.instant = r'.instant := by
  obtain ⟨r, r1, -, -, r4, -⟩ := C78_partial (slow := slow) hloc hs hd hlo hhi
  obtain ⟨r', r1', -, -, r4', -⟩ := C78_partial (slow := slow') hloc' hs hd hlo hhi
  exact ⟨r, r', r1, r1', r4.trans r4'.symm⟩

/-- No text goes through the general parser. -/
def noSlow : Bytes → Option GoTime := fun _ => none

/-- Some durations. -/
def exDur (s : Bytes) : Option Int :=
  if s = b "500ms" then some 500000000 else if s = b "1s" then some 1000000000
  else if s = b "24h" then some 86400000000000 else if s = b "-24h" then some (-86400000000000)
  else if s = b "0s" then some 0 else if s = b "-1s" then some (-1000000000) else none

/-- The location `America/New_York` around March 2023. -/
def newYork (t : Int) : Int := if t < dateSec 2023 3 12 7 0 0 then -18000 else -14400

/-- The location `Europe/Amsterdam` around July 1937. -/
def amsterdam (t : Int) : Int := if t < dateSec 1937 6 30 23 0 0 then 4772 else 4800

/-- C78 is violated: adding half a second twice changes nothing, one second after the last of the year 9999
and one before the first of the year 0 are no timestamps, and with a location that is not in whole minutes the result is off (the summer time of Amsterdam
was +01:19:32 until the first of July 1937). -/
theorem C78_violated :
    timeAdd (fun _ => 0) noSlow exDur (b "2024-02-29T23:59:59Z") (b "500ms") = .ok (b "2024-02-29T23:59:59Z") ∧
      (timeAdd (fun _ => 0) noSlow exDur (b "9999-12-31T23:59:59Z") (b "1s") = .ok (b "10000-01-01T00:00:00Z") ∧
        timeAdd (fun _ => 0) noSlow exDur (b "10000-01-01T00:00:00Z") (b "1s") = .error ()) ∧
      (timeAdd (fun _ => 0) noSlow exDur (b "0000-01-01T00:00:00Z") (b "-1s") = .ok (b "-0001-12-31T23:59:59Z") ∧
        timeAdd (fun _ => 0) noSlow exDur (b "-0001-12-31T23:59:59Z") (b "1s") = .error ()) ∧
      timeAdd amsterdam noSlow exDur (b "1937-07-02T00:00:00+01:20") (b "-24h") = .ok (b "1937-06-30T23:59:32+01:19") := by
  decide +kernel

/-- C79 is violated: the same call gives different texts on machines in New York and elsewhere. -/
theorem C79_violated :
    timeAdd newYork noSlow exDur (b "2023-03-12T00:00:00-05:00") (b "24h") = .ok (b "2023-03-13T01:00:00-04:00") ∧
      timeAdd (fun _ => 0) noSlow exDur (b "2023-03-12T00:00:00-05:00") (b "24h") = .ok (b "2023-03-13T00:00:00-05:00") := by
  decide +kernel

/-- An example: the last second of a leap day, half past five ahead of UTC. -/
def exLeapDay : Stamp := ⟨2024, 2, 29, 23, 59, 59, [], some (true, 5, 30)⟩

theorem exLeapDay_valid : exLeapDay.Valid :=
  ⟨by simp [exLeapDay], by simp [exLeapDay], by simp [exLeapDay, monthLength, show Leap 2024 by decide], by simp [exLeapDay],
    by simp [exLeapDay], by simp [exLeapDay], by simp [exLeapDay], by simp [exLeapDay]⟩

theorem newYork_regular : Regular newYork := by
  intro t; unfold newYork; split <;> simp

example : ∃ r : Stamp, timeAdd newYork noSlow exDur exLeapDay.render (b "1s") = .ok r.render ∧ r.Valid ∧ r.frac = [] ∧
    r.instant = ⌊exLeapDay.instant + (1000000000 : Int) / 1000000000⌋ ∧
    ((∀ t, newYork t = newYork 0) ∨ exLeapDay.zone = none → zoneSec r.zone = zoneSec exLeapDay.zone) :=
  C78_partial newYork_regular exLeapDay_valid (by decide) (by decide +kernel) (by rw [days10000]; decide +kernel)

example : ∃ r r' q : Stamp, timeAdd newYork noSlow exDur exLeapDay.render (b "24h") = .ok r.render ∧
    timeAdd newYork noSlow exDur r.render (b "-24h") = .ok r'.render ∧
    timeAdd newYork noSlow exDur exLeapDay.render (b "0s") = .ok q.render ∧ r'.instant = q.instant ∧
    q.instant = exLeapDay.instant + (86400 : Int) + (-86400 : Int) :=
  C78_twice newYork_regular exLeapDay_valid rfl (by decide) (by decide) (by decide) (by decide +kernel)
    (by rw [days10000]; decide +kernel) (by decide +kernel) (by rw [days10000]; decide +kernel)

example : staticTimestamp newYork ⟨dateSec 2024 2 29 23 59 59 * 1000000000 + 999999999, .utc⟩ = b "2024-02-29T23:59:59Z" := by
  decide +kernel

example : timeAdd (fun _ => 19800) noSlow exDur exLeapDay.render (b "24h") = timeAdd (fun _ => 0) noSlow exDur exLeapDay.render (b "24h") :=
  C79_partial exLeapDay_valid (.inr ⟨fun _ => rfl, fun _ => rfl⟩) _

example : exLeapDay.render = b "2024-02-29T23:59:59+05:30" ∧
    timeAdd newYork noSlow exDur exLeapDay.render (b "1s") = .ok (b "2024-03-01T00:00:00+05:30") := by decide +kernel

end Verif.Funcs
