import Verif.Model.Time
import Verif.Spec.Time
import Mathlib.Tactic.IntervalCases
import Mathlib.Tactic.FieldSimp
import Mathlib.Tactic.Linarith
set_option linter.unusedSimpArgs false
/-! Comparison of timestamps (C26). -/
namespace Verif.Funcs

theorem isLeap_iff (y : Nat) : isLeap y = true ↔ Leap y := by
  simp only [isLeap, Leap, Bool.and_eq_true, Bool.or_eq_true, decide_eq_true_eq]
  omega

theorem daysSinceEpoch_eq (y : Nat) : daysSinceEpoch y = daysOfYears y + 145731 := by
  induction y with
  | zero => rfl
  | succ y ih =>
    have h : daysSinceEpoch (y + 1) = daysSinceEpoch y + if Leap y then 366 else 365 := by
      by_cases hl : Leap y
      · rw [if_pos hl]
        simp only [Leap] at hl
        simp only [daysSinceEpoch]
        omega
      · rw [if_neg hl]
        simp only [Leap] at hl
        simp only [daysSinceEpoch]
        omega
    rw [h, ih, daysOfYears]; omega

theorem monthDays (y m : Nat) (h1 : 1 ≤ m) (h2 : m ≤ 12) :
    daysOfMonths y (m - 1) = daysBefore (m - 1) + (if isLeap y = true ∧ 3 ≤ m then 1 else 0) := by
  by_cases hl : isLeap y = true
  · have hl' := (isLeap_iff y).1 hl
    interval_cases m <;> simp [daysOfMonths, daysBefore, monthLength, hl, hl']
  · have hl' : ¬ Leap y := fun h => hl ((isLeap_iff y).2 h)
    interval_cases m <;> simp [daysOfMonths, daysBefore, monthLength, hl, hl']

theorem daysIn_eq (y m : Nat) (h1 : 1 ≤ m) (h2 : m ≤ 12) : daysIn m y = monthLength y m := by
  by_cases hl : isLeap y = true
  · have hl' := (isLeap_iff y).1 hl
    interval_cases m <;> simp [daysIn, daysBefore, monthLength, hl, hl']
  · have hl' : ¬ Leap y := fun h => hl ((isLeap_iff y).2 h)
    interval_cases m <;> simp [daysIn, daysBefore, monthLength, hl, hl']

theorem dig_spec (n : Nat) : (dig n).toNat = 48 + n % 10 ∧ ¬ (dig n < 48 ∨ 57 < dig n) := by
  have : (dig n).toNat = 48 + n % 10 := by
    simp only [dig, Nat.toUInt8, UInt8.toNat_ofNat']
    omega
  refine ⟨this, ?_⟩
  simp only [UInt8.lt_iff_toNat_lt, this]
  have e1 : (48 : UInt8).toNat = 48 := rfl
  have e2 : (57 : UInt8).toNat = 57 := rfl
  omega

theorem digitsLoop_dig (x n : Nat) (s : Bytes) : digitsLoop x (dig n :: s) = digitsLoop (x * 10 + n % 10) s := by
  obtain ⟨h1, h2⟩ := dig_spec n
  rw [digitsLoop, if_neg h2, h1, Nat.add_sub_cancel_left]

theorem parseUint_dig2 {n lo hi : Nat} (h : n < 100) (h1 : lo ≤ n) (h2 : n ≤ hi) :
    parseUint [dig (n / 10), dig n] lo hi = some n := by
  have : digitsLoop 0 [dig (n / 10), dig n] = some n := by
    rw [digitsLoop_dig, digitsLoop_dig, digitsLoop]
    congr 1; omega
  simp only [parseUint, this]
  rw [if_neg (by omega)]

theorem parseUint_dig4 {n : Nat} (h : n ≤ 9999) :
    parseUint [dig (n / 100 / 10), dig (n / 100), dig (n / 10), dig n] 0 9999 = some n := by
  have : digitsLoop 0 [dig (n / 100 / 10), dig (n / 100), dig (n / 10), dig n] = some n := by
    rw [digitsLoop_dig, digitsLoop_dig, digitsLoop_dig, digitsLoop_dig, digitsLoop]
    congr 1; omega
  simp only [parseUint, this]
  rw [if_neg (by omega)]

theorem spanDigits_dig (l : List Nat) {r : Bytes} (h : ∀ c ∈ r.head?, c < 48 ∨ 57 < c) :
    spanDigits (l.map dig ++ r) = (l.map dig, r) := by
  induction l with
  | nil =>
    cases r with
    | nil => rfl
    | cons c r => simp only [List.map_nil, List.nil_append, spanDigits]; rw [if_pos (h c (by simp))]
  | cons d l ih => simp only [List.map_cons, List.cons_append, spanDigits]; rw [if_neg (dig_spec d).2, ih]

theorem renderZone_head (z : Option (Bool × Nat × Nat)) :
    ∀ c ∈ (renderZone z).head?, (c < 48 ∨ 57 < c) ∧ c ≠ 46 := by
  rcases z with _ | ⟨_ | _, h, m⟩ <;> simp [renderZone]

theorem parseFrac_render (l : List Nat) (z : Option (Bool × Nat × Nat)) :
    parseFrac (renderFrac l ++ renderZone z) = (if l = [] then 0 else parseNano (l.map dig), renderZone z) := by
  by_cases hl : l = []
  · subst hl
    have hz := renderZone_head z
    simp only [renderFrac, if_true, List.nil_append]
    cases hr : renderZone z with
    | nil => rfl
    | cons c r =>
      have hc := (hz c (by simp [hr])).2
      unfold parseFrac
      split
      · rename_i h; simp only [List.cons.injEq] at h; exact absurd h.1 hc
      · rfl
  · have hs := spanDigits_dig l (r := renderZone z) fun c hc => (renderZone_head z c hc).1
    have hn : l.map dig ≠ [] := by simpa using hl
    simp only [renderFrac, if_neg hl, List.cons_append, parseFrac, hs, if_neg hn]

theorem parseZone_render {z : Option (Bool × Nat × Nat)} (h : ∀ x ∈ z, x.2.1 ≤ 23 ∧ x.2.2 ≤ 59) :
    parseZone (renderZone z) = some (zoneSec z) := by
  rcases z with _ | ⟨pos, hr, mm⟩
  · rfl
  · obtain ⟨h1, h2⟩ := h _ rfl
    simp only at h1 h2
    have a1 := parseUint_dig2 (n := hr) (lo := 0) (hi := 23) (by omega) (by omega) h1
    have a2 := parseUint_dig2 (n := mm) (lo := 0) (hi := 59) (by omega) (by omega) h2
    cases pos
    · simp only [parseZone, renderZone, dig2, slice, List.cons_append, List.nil_append, List.drop_succ_cons, List.drop_zero,
        List.take_succ_cons, List.take_zero, Nat.add_one_sub_one, Nat.reduceSub, a1, a2]
      simp [zoneSec]; ring
    · simp only [parseZone, renderZone, dig2, slice, List.cons_append, List.nil_append, List.drop_succ_cons, List.drop_zero,
        List.take_succ_cons, List.take_zero, Nat.add_one_sub_one, Nat.reduceSub, a1, a2]
      simp [zoneSec]; ring

/-- Digits read from the left. -/
def readDigits (x : Nat) : List Nat → Nat
  | [] => x
  | d :: l => readDigits (x * 10 + d) l

theorem digitsLoop_map {l : List Nat} (h : ∀ d ∈ l, d ≤ 9) (x : Nat) :
    digitsLoop x (l.map dig) = some (readDigits x l) := by
  induction l generalizing x with
  | nil => rfl
  | cons d l ih =>
    have hd := h d (by simp)
    rw [List.map_cons, digitsLoop_dig, ih (fun e he => h e (by simp [he])), readDigits, Nat.mod_eq_of_lt (by omega)]

theorem readDigits_val (l : List Nat) (x : Nat) :
    ((readDigits x l : Nat) : Rat) = (x + fracVal l) * 10 ^ l.length := by
  induction l generalizing x with
  | nil => simp [readDigits, fracVal]
  | cons d l ih =>
    rw [readDigits, ih]
    simp only [fracVal, List.length_cons, pow_succ]
    push_cast
    ring

theorem fracVal_range {l : List Nat} (h : ∀ d ∈ l, d ≤ 9) : 0 ≤ fracVal l ∧ fracVal l < 1 := by
  induction l with
  | nil => simp [fracVal]
  | cons d l ih =>
    obtain ⟨h1, h2⟩ := ih fun e he => h e (by simp [he])
    have hd : (d : Rat) ≤ 9 := by exact_mod_cast h d (by simp)
    have hd0 : (0 : Rat) ≤ d := by positivity
    simp only [fracVal]
    constructor
    · positivity
    · rw [div_lt_one (by norm_num)]; linarith

theorem fracVal_append (l r : List Nat) : fracVal (l ++ r) = fracVal l + fracVal r / 10 ^ l.length := by
  induction l with
  | nil => simp [fracVal]
  | cons d l ih =>
    simp only [List.cons_append, fracVal, ih, List.length_cons, pow_succ]
    field_simp
    ring

/-- The nanoseconds read are the fraction rounded down. -/
theorem parseNano_floor {l : List Nat} (h : ∀ d ∈ l, d ≤ 9) :
    ((parseNano (l.map dig) : Nat) : Int) = ⌊fracVal l * 1000000000⌋ := by
  have ht : ∀ d ∈ l.take 9, d ≤ 9 := fun d hd => h d (List.mem_of_mem_take hd)
  have hdr : ∀ d ∈ l.drop 9, d ≤ 9 := fun d hd => h d (List.mem_of_mem_drop hd)
  have hlen : (l.take 9).length ≤ 9 := by simp
  have e : ((parseNano (l.map dig) : Nat) : Rat) = fracVal (l.take 9) * 10 ^ 9 := by
    simp only [parseNano, ← List.map_take, digitsLoop_map ht, Option.getD_some, List.length_map]
    push_cast
    rw [readDigits_val, Nat.cast_zero, zero_add, mul_assoc, ← pow_add, Nat.add_sub_cancel' hlen]
  symm
  rw [Int.floor_eq_iff]
  obtain ⟨r1, r2⟩ := fracVal_range hdr
  have key : fracVal l * 1000000000 = fracVal (l.take 9) * 10 ^ 9 + fracVal (l.drop 9) * (10 ^ 9 / 10 ^ (l.take 9).length) := by
    conv_lhs => rw [← List.take_append_drop 9 l, fracVal_append]
    field_simp
    ring
  have small : 0 ≤ fracVal (l.drop 9) * ((10 : Rat) ^ 9 / 10 ^ (l.take 9).length) ∧
      fracVal (l.drop 9) * ((10 : Rat) ^ 9 / 10 ^ (l.take 9).length) < 1 := by
    by_cases hl : 9 ≤ l.length
    · have : (l.take 9).length = 9 := by simp [hl]
      rw [this, div_self (by positivity), mul_one]; exact ⟨r1, r2⟩
    · have : l.drop 9 = [] := List.drop_eq_nil_of_le (by omega)
      rw [this]; simp [fracVal]
  have e' : (((parseNano (l.map dig) : Nat) : Int) : Rat) = fracVal (l.take 9) * 10 ^ 9 := by
    rw [← e]; simp
  rw [e', key]
  exact ⟨by linarith [small.1], by linarith [small.2]⟩

/-- The seconds of a constant number of days between the two counts. -/
def shift : Int := 145731 * 86400

theorem parse_render {s : Stamp} (h : s.Valid) :
    parseRFC3339 s.render = some (⌊s.instant * 1000000000⌋ + shift * 1000000000) := by
  have y := parseUint_dig4 h.year
  have mo := parseUint_dig2 (n := s.month) (lo := 1) (hi := 12) (by have := h.month; omega) h.month.1 h.month.2
  have dl : s.day ≤ daysIn s.month s.year := by rw [daysIn_eq _ _ h.month.1 h.month.2]; exact h.day.2
  have dm : monthLength s.year s.month ≤ 31 := by unfold monthLength; split <;> split <;> omega
  have d := parseUint_dig2 (n := s.day) (lo := 1) (hi := daysIn s.month s.year) (by have := h.day; omega) h.day.1 dl
  have ho := parseUint_dig2 (n := s.hour) (lo := 0) (hi := 23) (by have := h.hour; omega) (by omega) h.hour
  have mi := parseUint_dig2 (n := s.min) (lo := 0) (hi := 59) (by have := h.min; omega) (by omega) h.min
  have se := parseUint_dig2 (n := s.sec) (lo := 0) (hi := 59) (by have := h.sec; omega) (by omega) h.sec
  have fr := parseFrac_render s.frac s.zone
  have zo := parseZone_render h.zone
  have nano : ((if s.frac = [] then 0 else parseNano (s.frac.map dig) : Nat) : Int) = ⌊fracVal s.frac * 1000000000⌋ := by
    split
    · rename_i e; rw [e]; simp [fracVal]
    · exact parseNano_floor h.frac
  have len : ¬ s.render.length < 19 := by simp [Stamp.render, dig2]
  have sec : dateSec s.year s.month s.day s.hour s.min s.sec =
      (((daysOfYears s.year + daysOfMonths s.year (s.month - 1) + (s.day - 1)) * 86400 +
        s.hour * 3600 + s.min * 60 + s.sec : Nat) : Int) + shift := by
    simp only [dateSec, daysSinceEpoch_eq, monthDays _ _ h.month.1 h.month.2, shift]
    split <;> push_cast <;> ring
  rw [parseRFC3339, if_neg len]
  simp only [Stamp.render, dig2, slice, List.cons_append, List.nil_append, List.append_assoc, List.drop_succ_cons,
    List.drop_zero, List.take_succ_cons, List.take_zero, Nat.reduceSub, Nat.sub_zero, y, mo, d, ho, mi, se,
    Option.bind_eq_bind, Option.bind_some, List.getElem?_cons_succ, List.getElem?_cons_zero, and_self, if_true, fr, zo]
  rw [sec, nano]
  congr 1
  have : s.instant * 1000000000 = ((((((daysOfYears s.year + daysOfMonths s.year (s.month - 1) + (s.day - 1)) * 86400 +
        s.hour * 3600 + s.min * 60 + s.sec : Nat) : Int) - zoneSec s.zone) * 1000000000 : Int) : Rat) +
        fracVal s.frac * 1000000000 := by
    simp only [Stamp.instant]; push_cast; ring
  rw [this, Int.floor_intCast_add]
  ring

/-- C26: `timecmp` of two valid timestamps, in any zones, is the order of the instants rounded down to
nanoseconds. -/
theorem C26_nanoseconds {slow : Bytes → Option Int} {s t : Stamp} (hs : s.Valid) (ht : t.Valid) :
    timeCmp slow s.render t.render = .ok (order ⌊s.instant * 1000000000⌋ ⌊t.instant * 1000000000⌋) := by
  simp only [timeCmp, parseTimestamp, parse_render hs, parse_render ht, order]
  split
  · rw [if_neg (by omega), if_neg (by omega)]
  · split
    · rw [if_pos (by omega)]
    · rw [if_neg (by omega), if_pos (by omega)]

theorem exact_of_short {l : List Nat} (h : l.length ≤ 9) : ∃ n : Int, fracVal l * 1000000000 = n := by
  refine ⟨(readDigits 0 l * 10 ^ (9 - l.length) : Nat), ?_⟩
  push_cast
  rw [readDigits_val, Nat.cast_zero, zero_add, mul_assoc, ← pow_add, Nat.add_sub_cancel' h]
  norm_num

theorem instant_exact {s : Stamp} (h : s.frac.length ≤ 9) :
    ((⌊s.instant * 1000000000⌋ : Int) : Rat) = s.instant * 1000000000 := by
  obtain ⟨n, hn⟩ := exact_of_short h
  have : s.instant * 1000000000 = ((((((daysOfYears s.year + daysOfMonths s.year (s.month - 1) + (s.day - 1)) * 86400 +
        s.hour * 3600 + s.min * 60 + s.sec : Nat) : Int) - zoneSec s.zone) * 1000000000 + n : Int) : Rat) := by
    simp only [Stamp.instant]; push_cast; rw [← hn]; ring
  rw [this, Int.floor_intCast]

/-- C26, the part that holds (missing: fractions of more than nine digits, see `C26_violated`): `timecmp` of two
valid timestamps, in any zones, is the order of the instants. -/
theorem C26_partial {slow : Bytes → Option Int} {s t : Stamp} (hs : s.Valid) (ht : t.Valid)
    (ls : s.frac.length ≤ 9) (lt : t.frac.length ≤ 9) :
    timeCmp slow s.render t.render = .ok (order s.instant t.instant) := by
  rw [C26_nanoseconds hs ht]
  have a := instant_exact ls
  have c := instant_exact lt
  have e : ∀ x y : Stamp, ((⌊x.instant * 1000000000⌋ : Int) : Rat) = x.instant * 1000000000 →
      ((⌊y.instant * 1000000000⌋ : Int) : Rat) = y.instant * 1000000000 →
      (⌊x.instant * 1000000000⌋ < ⌊y.instant * 1000000000⌋ ↔ x.instant < y.instant) := by
    intro x y hx hy
    rw [← Int.cast_lt (R := Rat), hx, hy]
    constructor <;> intro h <;> linarith
  simp only [order, e s t a c, e t s c a]

/-- C26: whatever texts are accepted, the comparison is that of a total order: exchanging the arguments changes
the sign. -/
theorem C26_antisymm {slow : Bytes → Option Int} {x y : Bytes} {v : Int} (h : timeCmp slow x y = .ok v) :
    timeCmp slow y x = .ok (-v) ∧ (v = -1 ∨ v = 0 ∨ v = 1) := by
  simp only [timeCmp] at h ⊢
  cases hx : parseTimestamp slow x with
  | none => simp [hx] at h
  | some t =>
    cases hy : parseTimestamp slow y with
    | none => simp [hx, hy] at h
    | some u =>
      simp only [hx, hy] at h ⊢
      rcases lt_trichotomy t u with c | c | c
      · rw [if_neg (by omega), if_pos c] at h
        cases h
        rw [if_neg (by omega), if_neg (by omega)]
        simp
      · rw [if_pos c] at h
        cases h
        rw [if_pos c.symm]
        simp
      · rw [if_neg (by omega), if_neg (by omega)] at h
        cases h
        rw [if_neg (by omega), if_pos c]
        simp

/-- C26: whatever texts are accepted, "not later" is transitive, and strictly so if one step is strict. -/
theorem C26_trans {slow : Bytes → Option Int} {x y z : Bytes} {v w : Int} (h : timeCmp slow x y = .ok v)
    (h' : timeCmp slow y z = .ok w) (hv : v ≤ 0) (hw : w ≤ 0) :
    ∃ u, timeCmp slow x z = .ok u ∧ u ≤ 0 ∧ (u = 0 ↔ v = 0 ∧ w = 0) := by
  simp only [timeCmp] at h h' ⊢
  cases hx : parseTimestamp slow x with
  | none => simp [hx] at h
  | some t =>
    cases hy : parseTimestamp slow y with
    | none => simp [hx, hy] at h
    | some t' =>
      cases hz : parseTimestamp slow z with
      | none => simp [hy, hz] at h'
      | some t'' =>
        simp only [hx, hy, hz] at h h' ⊢
        have key : ∀ p q : Int, ∀ r : Int, (if p = q then (.ok 0 : Except Unit Int) else if p < q then .ok (-1) else .ok 1) = .ok r →
            r ≤ 0 → p ≤ q ∧ (r = 0 ↔ p = q) := by
          intro p q r hr h0
          split at hr
          · cases hr; omega
          · split at hr <;> cases hr <;> omega
        obtain ⟨a1, a2⟩ := key _ _ _ h hv
        obtain ⟨b1, b2⟩ := key _ _ _ h' hw
        by_cases e : t = t''
        · exact ⟨0, by rw [if_pos e], by omega, by omega⟩
        · exact ⟨-1, by rw [if_neg e, if_pos (by omega)], by omega, by omega⟩

/-- A timestamp with ten digits of fraction. -/
def exTen (d : Nat) : Stamp := ⟨2024, 2, 29, 23, 59, 59, [0, 0, 0, 0, 0, 0, 0, 0, 0, d], some (true, 5, 30)⟩

theorem exTen_valid {d : Nat} (h : d ≤ 9) : (exTen d).Valid :=
  ⟨by simp [exTen], by simp [exTen], by simp [exTen, monthLength, show Leap 2024 by decide], by simp [exTen], by simp [exTen],
    by simp [exTen], by simpa [exTen] using h, by simp [exTen]⟩

/-- C26 is violated: instants less than a nanosecond apart are reported as equal. -/
theorem C26_violated {slow : Bytes → Option Int} :
    (exTen 1).instant < (exTen 2).instant ∧ timeCmp slow (exTen 1).render (exTen 2).render = .ok 0 := by
  refine ⟨by decide +kernel, ?_⟩
  rw [C26_nanoseconds (exTen_valid (by omega)) (exTen_valid (by omega))]
  decide +kernel

/-- 6:00 at +02:00 is 4:00 UTC (the example in datetime.go L130), and a leap day. -/
example : timeCmp (fun _ => none) (b "2024-02-29T06:00:00+02:00") (b "2024-02-29T04:00:00Z") = .ok 0 ∧
    timeCmp (fun _ => none) (b "2023-12-31T23:30:00-01:00") (b "2024-01-01T00:15:00.5Z") = .ok 1 ∧
    timeCmp (fun _ => none) (b "2023-02-29T06:00:00Z") (b "2024-02-29T04:00:00Z") = .error () := by decide +kernel
example : (exTen 0).Valid ∧ (exTen 3).render = b "2024-02-29T23:59:59.0000000003+05:30" :=
  ⟨exTen_valid (by omega), by decide +kernel⟩
/-- A leap second is not accepted by the strict parser, though RFC 3339 allows it. -/
example : parseRFC3339 (b "2016-12-31T23:59:60Z") = none := by decide +kernel

end Verif.Funcs
