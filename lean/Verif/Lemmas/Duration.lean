import Verif.Lemmas.Cty
import Verif.Model.Duration
import Verif.Spec.Duration
set_option linter.unusedSimpArgs false
/-! Reading durations. -/
namespace Verif.Funcs
open Hcl (rd expo IsFloat rd_exact expo_spec roundEven_near pow2_eq pow2_pos)

theorem isDigit_iff {c : UInt8} : isDigit c = true ↔ IsDig c := by
  simp [isDigit, IsDig]

/-- The next digit. -/
def push (x : Nat) (c : UInt8) : Nat := x * 10 + (c.toNat - 48)

theorem decimal_eq (ds : Bytes) : decimal ds = ds.foldl push 0 := rfl

theorem digit_lt {c : UInt8} (h : IsDig c) : c.toNat - 48 < 10 := by
  have := UInt8.le_iff_toNat_le.1 h.2
  simp at this
  omega

theorem foldl_push (x : Nat) (ds : Bytes) : ds.foldl push x = x * 10 ^ ds.length + decimal ds := by
  rw [decimal_eq]
  induction ds generalizing x with
  | nil => simp
  | cons c ds ih =>
    simp only [List.foldl_cons, List.length_cons]
    rw [ih (push x c), ih (push 0 c)]
    simp only [push]
    ring

theorem decimal_lt {ds : Bytes} (h : ∀ c ∈ ds, IsDig c) : decimal ds < 10 ^ ds.length := by
  induction ds with
  | nil => simp [decimal]
  | cons c ds ih =>
    have h1 := ih fun c hc => h c (by simp [hc])
    have h2 := digit_lt (h c (by simp))
    rw [decimal_eq, List.foldl_cons, foldl_push]
    simp only [push, List.length_cons, pow_succ, Nat.zero_mul, Nat.zero_add]
    have : (c.toNat - 48) * 10 ^ ds.length ≤ 9 * 10 ^ ds.length := Nat.mul_le_mul_right _ (by omega)
    omega

theorem push_le (x : Nat) (c : UInt8) (ds : Bytes) : push x c ≤ (c :: ds).foldl push x := by
  rw [List.foldl_cons, foldl_push]
  have := Nat.le_mul_of_pos_right (push x c) (Nat.pos_of_ne_zero (n := 10 ^ ds.length) (by positivity))
  omega

/-- Behind a number. -/
def NoDigit (r : Bytes) : Prop := ∀ c ∈ r.head?, isDigit c = false

theorem leadingInt_eq {r : Bytes} (hr : NoDigit r) : ∀ (ds : Bytes) (x : Nat), (∀ c ∈ ds, IsDig c) → x ≤ 2 ^ 63 →
    leadingInt x (ds ++ r) = if ds.foldl push x ≤ 2 ^ 63 then some (ds.foldl push x, r) else none
  | [], x, _, hx => by
    simp only [List.nil_append, List.foldl_nil, hx, if_true]
    cases r with
    | nil => rfl
    | cons c r => simp only [leadingInt, hr c (by simp), Bool.false_eq_true, if_false]
  | c :: ds, x, h, hx => by
    have hc := isDigit_iff.2 (h c (by simp))
    have hp : x * 10 + (c.toNat - 48) = push x c := rfl
    have hle := push_le x c ds
    simp only [List.cons_append, leadingInt, hc, if_true, hp]
    by_cases h2 : push x c ≤ 2 ^ 63
    · have h1 : ¬ x > 2 ^ 63 / 10 := by simp only [push] at h2; omega
      rw [if_neg h1, if_neg (by omega), leadingInt_eq hr ds _ (fun c hc => h c (by simp [hc])) h2]
      rfl
    · rw [if_neg (show ¬ (c :: ds).foldl push x ≤ 2 ^ 63 by omega)]
      split
      · rfl
      · rw [if_pos (by omega)]

theorem float_ten {i : Nat} (h : i ≤ 22) : IsFloat 53 ((10 : Rat) ^ i) := by
  refine ⟨5 ^ i, i, ?_, ?_⟩
  · rw [zpow_natCast]; push_cast; rw [← mul_pow]; norm_num
  · rw [abs_of_nonneg (by positivity)]
    calc (5 : Int) ^ i ≤ 5 ^ 22 := pow_le_pow_right₀ (by norm_num) h
      _ < 2 ^ 53 := by norm_num

theorem float_nat {n : Nat} (h : n < 2 ^ 53) : IsFloat 53 (n : Rat) :=
  ⟨n, 0, by simp, by rw [abs_of_nonneg (by positivity)]; exact_mod_cast h⟩

theorem leadingFraction_eq {r : Bytes} (hr : NoDigit r) : ∀ (ds : Bytes) (x i : Nat), (∀ c ∈ ds, IsDig c) → x < 10 ^ i →
    i + ds.length ≤ 18 →
    leadingFraction x (10 ^ i) false (ds ++ r) = (ds.foldl push x, 10 ^ (i + ds.length), r)
  | [], x, i, _, _, _ => by
    simp only [List.nil_append, List.foldl_nil, List.length_nil, Nat.add_zero]
    cases r with
    | nil => rfl
    | cons c r => simp only [leadingFraction, hr c (by simp), Bool.false_eq_true, if_false]
  | c :: ds, x, i, h, hx, hi => by
    have hc := isDigit_iff.2 (h c (by simp))
    have hd := digit_lt (h c (by simp))
    simp only [List.length_cons] at hi
    have hp : (10 : Nat) ^ i ≤ 10 ^ 17 := Nat.pow_le_pow_right (by norm_num) (by omega)
    have h1 : ¬ x > (2 ^ 63 - 1) / 10 := by norm_num at hp ⊢; omega
    have h2 : ¬ x * 10 + (c.toNat - 48) > 2 ^ 63 := by norm_num at hp ⊢; omega
    have h3 : rd 53 ((10 : Rat) ^ i * 10) = 10 ^ (i + 1) := by rw [← pow_succ]; exact rd_exact (float_ten (by omega))
    simp only [List.cons_append, leadingFraction, hc, if_true, h1, h2, decide_false, Bool.or_false, Bool.false_eq_true, if_false, h3]
    rw [leadingFraction_eq hr ds _ (i + 1) (fun c hc => h c (by simp [hc])) (by rw [pow_succ]; omega) (by omega)]
    simp only [List.foldl_cons, List.length_cons, Prod.mk.injEq, and_true]
    exact ⟨rfl, by congr 1; omega⟩

theorem leadingFraction_rest : ∀ (s : Bytes) (x : Nat) (sc : Rat) (o : Bool),
    (leadingFraction x sc o s).2.2 = s.dropWhile isDigit
  | [], _, _, _ => rfl
  | c :: s, x, sc, o => by
    unfold leadingFraction
    by_cases hc : isDigit c = true
    · rw [if_pos hc]
      simp only [List.dropWhile_cons, hc, if_true]
      split <;> exact leadingFraction_rest s _ _ _
    · rw [if_neg hc]
      simp [List.dropWhile_cons, hc]

theorem leadingInt_rest : ∀ (s : Bytes) (x v : Nat) (r : Bytes), leadingInt x s = some (v, r) → r = s.dropWhile isDigit
  | [], _, _, _, h => by simp only [leadingInt, Option.some.injEq, Prod.mk.injEq] at h; simp [h.2.symm]
  | c :: s, x, v, r, h => by
    unfold leadingInt at h
    by_cases hc : isDigit c = true
    · rw [if_pos hc] at h
      simp only [List.dropWhile_cons, hc, if_true]
      split at h
      · cases h
      · split at h
        · cases h
        · exact leadingInt_rest s _ _ _ h
    · rw [if_neg hc] at h
      simp only [Option.some.injEq, Prod.mk.injEq] at h
      simp [List.dropWhile_cons, hc, h.2.symm]

/-- What is known of units. -/
structure UnitOk (u : Bytes) (n : Nat) : Prop where
  map : unitMap u = some n
  ne : u ≠ []
  all : ∀ c ∈ u, inUnit c = true
  pos : 0 < n
  lt : n ≤ 3600000000000

theorem unitOk {u : Bytes} {n : Nat} (h : (u, n) ∈ units) : UnitOk u n := by
  simp only [units, List.mem_cons, Prod.mk.injEq, List.not_mem_nil, or_false] at h
  rcases h with ⟨rfl, rfl⟩ | ⟨rfl, rfl⟩ | ⟨rfl, rfl⟩ | ⟨rfl, rfl⟩ | ⟨rfl, rfl⟩ | ⟨rfl, rfl⟩ | ⟨rfl, rfl⟩ | ⟨rfl, rfl⟩ <;>
    exact ⟨by decide, by decide, by decide, by decide, by decide⟩

theorem unitMap_mem {u : Bytes} {n : Nat} (h : unitMap u = some n) : (u, n) ∈ units := by
  unfold unitMap at h
  repeat' split at h
  all_goals first
    | (cases h; done)
    | (injection h with h; subst h; subst_vars; simp [units])

/-- Behind a unit. -/
def NoUnit (r : Bytes) : Prop := ∀ c ∈ r.head?, inUnit c = false

theorem takeWhile_unit {u r : Bytes} (hu : ∀ c ∈ u, inUnit c = true) (hr : NoUnit r) :
    (u ++ r).takeWhile inUnit = u ∧ (u ++ r).dropWhile inUnit = r := by
  induction u with
  | nil =>
    cases r with
    | nil => simp
    | cons c r => have := hr c (by simp); simp [this]
  | cons c u ih =>
    have h := ih fun c hc => hu c (by simp [hc])
    have := hu c (by simp)
    simp [this, h.1, h.2]

theorem inUnit_digit {c : UInt8} (h : inUnit c = true) : isDigit c = false ∧ c ≠ 46 := by
  simp only [inUnit, Bool.not_eq_true', Bool.or_eq_false_iff, beq_eq_false_iff_ne] at h
  exact ⟨h.2, h.1⟩

theorem fractionPart_none {s : Bytes} (h : ∀ c ∈ s.head?, c ≠ 46) : fractionPart s = (0, 1, s, false) := by
  unfold fractionPart
  split
  · exact absurd rfl (h 46 (by simp))
  · rfl

/-- The text after the whole number. -/
def Part.tail (p : Part) : Bytes := pointed p.frac ++ p.name

theorem Part.render_eq (p : Part) : p.render = p.whole ++ p.tail := by
  simp [Part.render, Part.tail]

theorem tail_fraction {p : Part} (hp : p.Valid) (hd : p.digits.length ≤ 18) {r : Bytes} :
    NoDigit (p.tail ++ r) ∧
      fractionPart (p.tail ++ r) = (decimal p.digits, 10 ^ p.digits.length, p.name ++ r, decide (p.digits ≠ [])) := by
  have hu := unitOk hp.unit
  obtain ⟨c, u, hn⟩ : ∃ c u, p.name = c :: u := List.exists_cons_of_ne_nil hu.ne
  have hc := inUnit_digit (hu.all c (by simp [hn]))
  have hnd : NoDigit (p.name ++ r) := by
    intro x hx
    simp only [hn, List.cons_append, List.head?_cons, Option.mem_some_iff] at hx
    subst hx; exact hc.1
  obtain ⟨whole, frac, name, unit⟩ := p
  cases frac with
  | none =>
    refine ⟨by simpa [Part.tail, pointed] using hnd, ?_⟩
    simp only [Part.tail, pointed, List.nil_append, Part.digits, Option.getD]
    rw [fractionPart_none]
    · simp [decimal]
    · intro x hx
      simp only at hn
      simp only [hn, List.cons_append, List.head?_cons, Option.mem_some_iff] at hx
      subst hx; exact hc.2
  | some f =>
    refine ⟨?_, ?_⟩
    · intro x hx
      simp only [Part.tail, pointed, List.cons_append, List.head?_cons, Option.mem_some_iff] at hx
      subst hx; decide
    · have hf : ∀ c ∈ f, IsDig c := hp.frac
      simp only [Part.digits, Option.getD] at hd
      have h := leadingFraction_eq hnd f 0 0 hf (by simp) (by omega)
      simp only [pow_zero, Nat.zero_add] at h
      have e : ({ whole := whole, frac := some f, name := name, unit := unit } : Part).tail ++ r = 46 :: (f ++ (name ++ r)) := by
        simp [Part.tail, pointed]
      rw [e]
      simp only [fractionPart, h]
      refine congrArg₂ _ rfl (congrArg₂ _ rfl (congrArg₂ _ rfl ?_))
      rw [Bool.eq_iff_iff, decide_eq_true_eq, decide_eq_true_eq]
      cases f with
      | nil => simp [Part.digits]
      | cons x f => simp [Part.digits]; omega

theorem render_head {p : Part} (hp : p.Valid) (s : Bytes) : ∃ c t, p.render ++ s = c :: t ∧ inUnit c = false ∧ t.length + 1 = p.render.length + s.length := by
  have key : ∃ c t, p.render = c :: t ∧ inUnit c = false := by
    obtain ⟨whole, frac, name, unit⟩ := p
    cases whole with
    | cons c w =>
      have := isDigit_iff.2 (hp.whole c (by simp))
      exact ⟨c, _, rfl, by simp [inUnit, this]⟩
    | nil =>
      cases frac with
      | none => exact absurd hp.some (by simp [Part.digits])
      | some f => exact ⟨46, _, rfl, by decide⟩
  obtain ⟨c, t, e, hc⟩ := key
  refine ⟨c, t ++ s, by rw [e]; rfl, hc, ?_⟩
  rw [e, List.length_append, List.length_cons]; omega

theorem durationPart_eq {p : Part} (hp : p.Valid) (hd : p.digits.length ≤ 18) {r : Bytes} (hr : NoUnit r) :
    durationPart (p.render ++ r) = if decimal p.whole ≤ 2 ^ 63 then
      (partValue (decimal p.whole) (decimal p.digits) (10 ^ p.digits.length) p.unit).map fun v => (v, r) else none := by
  have hu := unitOk hp.unit
  obtain ⟨h1, h2⟩ := tail_fraction hp hd (r := r)
  obtain ⟨t1, t2⟩ := takeWhile_unit hu.all hr
  obtain ⟨c, s, hs, hs2, -⟩ := render_head hp r
  have hw := leadingInt_eq h1 p.whole 0 hp.whole (by norm_num)
  rw [← List.append_assoc, ← Part.render_eq] at hw
  have hlen : (p.render ++ r).length = p.whole.length + (p.tail ++ r).length := by rw [Part.render_eq]; simp [Nat.add_assoc]
  rw [hs] at hw hlen ⊢
  unfold durationPart
  simp only [hs2, Bool.false_eq_true, if_false, hw]
  rw [← decimal_eq]
  by_cases hle : decimal p.whole ≤ 2 ^ 63
  · simp only [hle, if_true, h2]
    have hsome := hp.some
    have hcond : ¬ ((p.tail ++ r).length = (c :: s).length ∧ decide (p.digits ≠ []) = false) := by
      rw [hlen]
      rintro ⟨a, e⟩
      have : p.whole = [] := List.length_eq_zero_iff.1 (by omega)
      simp only [ne_eq, decide_eq_false_iff_not, not_not] at e
      exact hsome.elim (· this) (· e)
    rw [if_neg hcond]
    simp only [t1, t2, hu.ne, if_false, hu.map]
    cases partValue (decimal p.whole) (decimal p.digits) (10 ^ p.digits.length) p.unit <;> rfl
  · simp only [hle, if_false]

/-- The nanoseconds of a number whose digits fit. -/
def Part.ns (p : Part) : Nat := decimal p.whole * p.unit + decimal p.digits * (p.unit / 10 ^ p.digits.length)

theorem exact_len {p : Part} (hp : p.Valid) (hd : 10 ^ p.digits.length ∣ p.unit) : p.digits.length ≤ 18 := by
  have hu := unitOk hp.unit
  by_contra h
  have h1 : 10 ^ 19 ≤ 10 ^ p.digits.length := Nat.pow_le_pow_right (by norm_num) (by omega)
  have h2 := Nat.le_of_dvd hu.pos hd
  have h3 := hu.lt
  norm_num at h1
  omega

theorem ns_value {p : Part} (hd : 10 ^ p.digits.length ∣ p.unit) : (p.ns : Rat) = p.value := by
  obtain ⟨k, hk⟩ := hd
  have h10 : (10 : Nat) ^ p.digits.length ≠ 0 := by positivity
  unfold Part.ns Part.value
  rw [hk, Nat.mul_div_cancel_left _ (Nat.pos_of_ne_zero h10)]
  push_cast
  have : (10 : Rat) ^ p.digits.length ≠ 0 := by positivity
  field_simp

theorem partValue_exact {v f k unit : Nat} (hu : 0 < unit) (hlt : unit ≤ 3600000000000) (hf : f < 10 ^ k) (hd : 10 ^ k ∣ unit) :
    partValue v f ((10 : Rat) ^ k) unit = if v * unit + f * (unit / 10 ^ k) ≤ 2 ^ 63 then some (v * unit + f * (unit / 10 ^ k)) else none := by
  obtain ⟨q, rfl⟩ := hd
  have h10 : 0 < (10 : Nat) ^ k := by positivity
  rw [Nat.mul_div_cancel_left _ h10]
  have hq : 0 < q := Nat.pos_of_ne_zero fun h => by simp [h] at hu
  have hk : 10 ^ k ≤ 10 ^ k * q := Nat.le_mul_of_pos_right _ hq
  have hfq : f * q ≤ 10 ^ k * q := Nat.mul_le_mul_right _ hf.le
  have hqq : q ≤ 10 ^ k * q := Nat.le_mul_of_pos_left _ h10
  have e1 : rd 53 (f : Rat) = f := rd_exact (float_nat (by norm_num; omega))
  have e2 : ((10 ^ k * q : Nat) : Rat) / (10 : Rat) ^ k = q := by push_cast; field_simp
  have e3 : rd 53 (q : Rat) = q := rd_exact (float_nat (by norm_num; omega))
  have e4 : rd 53 ((f : Rat) * (q : Rat)) = ((f * q : Nat) : Rat) := by
    rw [← Nat.cast_mul]; exact rd_exact (float_nat (by norm_num; omega))
  have e5 : (((f * q : Nat) : Rat).floor).toNat = f * q := by
    have : ((f * q : Nat) : Rat).floor = ((f * q : Nat) : Int) := by
      rw [← Rat.floor_intCast ((f * q : Nat) : Int)]; push_cast; rfl
    rw [this]; exact Int.toNat_natCast _
  unfold partValue
  rw [e2, e1, e3, e4, e5]
  by_cases hv : v > 2 ^ 63 / (10 ^ k * q)
  · rw [if_pos hv, if_neg]
    have := (Nat.div_lt_iff_lt_mul hu).1 hv
    omega
  · have hv' : v * (10 ^ k * q) ≤ 2 ^ 63 := (Nat.le_div_iff_mul_le hu).1 (by omega)
    rw [if_neg hv]
    by_cases hf0 : f > 0
    · simp only [hf0, if_true]
      split <;> split <;> first | rfl | omega
    · have : f = 0 := by omega
      subst this
      simp only [Nat.zero_mul, Nat.add_zero, hv', if_true, gt_iff_lt, Nat.lt_irrefl, if_false]

theorem durationPart_exact {p : Part} (hp : p.Valid) (hd : 10 ^ p.digits.length ∣ p.unit) {r : Bytes} (hr : NoUnit r) :
    durationPart (p.render ++ r) = if p.ns ≤ 2 ^ 63 then some (p.ns, r) else none := by
  have hu := unitOk hp.unit
  rw [durationPart_eq hp (exact_len hp hd) hr, partValue_exact hu.pos hu.lt (decimal_lt hp.frac) hd]
  have : decimal p.whole ≤ p.ns := by
    have := Nat.le_mul_of_pos_right (decimal p.whole) hu.pos
    unfold Part.ns; omega
  change (if decimal p.whole ≤ 2 ^ 63 then Option.map _ (if p.ns ≤ 2 ^ 63 then some p.ns else none) else none) = _
  by_cases h : p.ns ≤ 2 ^ 63
  · simp only [h, if_true, show decimal p.whole ≤ 2 ^ 63 by omega, Option.map_some]
  · simp only [h, if_false, Option.map_none, ite_self]

theorem renderParts_noUnit {ps : List Part} (h : ∀ p ∈ ps, p.Valid) : NoUnit (renderParts ps) := by
  cases ps with
  | nil => intro c hc; simp [renderParts] at hc
  | cons p ps =>
    obtain ⟨c, t, e, hc, -⟩ := render_head (h p (by simp)) (renderParts ps)
    intro x hx
    simp only [renderParts, List.map_cons, List.flatten_cons] at hx
    rw [show (List.map Part.render ps).flatten = renderParts ps from rfl, e] at hx
    simp only [List.head?_cons, Option.mem_some_iff] at hx
    subst hx; exact hc

/-- The loop, for any values of the parts. -/
theorem loop_eq {val : Part → Nat} : ∀ (ps : List Part) (n d : Nat), (renderParts ps).length ≤ n → d ≤ 2 ^ 63 →
    (∀ p ∈ ps, p.Valid ∧ ∀ r, NoUnit r → durationPart (p.render ++ r) = if val p ≤ 2 ^ 63 then some (val p, r) else none) →
    (∀ ps1 p ps2, ps = ps1 ++ p :: ps2 → d + (ps1.map val).sum = 2 ^ 63 → val p ≠ 2 ^ 63) →
    durationLoop n (renderParts ps) d = if d + (ps.map val).sum ≤ 2 ^ 63 then some (d + (ps.map val).sum) else none
  | [], n, d, _, hd, _, _ => by simp only [renderParts, List.map_nil, List.flatten_nil, durationLoop, List.sum_nil, Nat.add_zero, hd, if_true]
  | p :: ps, n, d, hn, hd, hp, hw => by
    have hpp := hp p (by simp)
    have hcons : renderParts (p :: ps) = p.render ++ renderParts ps := by simp [renderParts]
    obtain ⟨c, t, e, -, hl⟩ := render_head hpp.1 (renderParts ps)
    have hpos : 0 < p.render.length := by
      obtain ⟨c', t', e', -, hl'⟩ := render_head hpp.1 []
      simp only [List.append_nil, List.length_nil] at e' hl'
      omega
    have hpart := hpp.2 _ (renderParts_noUnit (ps := ps) fun q hq => (hp q (by simp [hq])).1)
    rw [hcons] at hn ⊢
    rw [e] at hpart hn ⊢
    cases n with
    | zero => simp at hn
    | succ n =>
      simp only [durationLoop, hpart, List.map_cons, List.sum_cons]
      by_cases hv : val p ≤ 2 ^ 63
      · simp only [hv, if_true]
        have hno := hw [] p ps rfl
        simp only [List.map_nil, List.sum_nil, Nat.add_zero] at hno
        have hmod : (d + val p) % 2 ^ 64 = d + val p := Nat.mod_eq_of_lt (by
          by_cases hd' : d = 2 ^ 63
          · have := hno hd'; omega
          · omega)
        rw [hmod]
        by_cases hs : d + val p ≤ 2 ^ 63
        · rw [if_neg (by omega), loop_eq ps n (d + val p) (by simp only [List.length_cons] at hn; omega) hs
            (fun q hq => hp q (by simp [hq])) (fun ps1 q ps2 e' h => hw (p :: ps1) q ps2 (by simp [e'])
              (by simp only [List.map_cons, List.sum_cons]; omega))]
          simp only [Nat.add_assoc]
        · rw [if_pos (by omega), if_neg (by omega)]
      · simp only [hv, if_false]
        rw [if_neg (by omega)]

theorem unsigned_render (sg : Sign) {r : Bytes} (hr : NoUnit r) : unsigned (sg.render ++ r) = (decide (sg = .minus), r) := by
  cases sg with
  | plus => rfl
  | minus => rfl
  | none =>
    simp only [Sign.render, List.nil_append, reduceCtorEq, decide_false]
    unfold unsigned
    split
    · exact absurd (hr 45 (by simp)) (by decide)
    · exact absurd (hr 43 (by simp)) (by decide)
    · rfl

theorem renderParts_ne {ps : List Part} (h : ∀ p ∈ ps, p.Valid) (hne : ps ≠ []) : renderParts ps ≠ [] ∧ renderParts ps ≠ [48] := by
  cases ps with
  | nil => exact absurd rfl hne
  | cons p ps =>
    have hp := h p (by simp)
    have hu := unitOk hp.unit
    obtain ⟨c, u, hn⟩ : ∃ c u, p.name = c :: u := List.exists_cons_of_ne_nil hu.ne
    have hc := hu.all c (by simp [hn])
    have hm : c ∈ renderParts (p :: ps) := by simp [renderParts, Part.render, hn]
    refine ⟨fun e => by simp [e] at hm, fun e => ?_⟩
    rw [e] at hm
    simp only [List.mem_cons, List.not_mem_nil, or_false] at hm
    subst hm
    exact absurd hc (by decide)

theorem parse_eq {val : Part → Nat} (sg : Sign) {ps : List Part} (hne : ps ≠ [])
    (hp : ∀ p ∈ ps, p.Valid ∧ ∀ r, NoUnit r → durationPart (p.render ++ r) = if val p ≤ 2 ^ 63 then some (val p, r) else none)
    (hw : ∀ ps1 p ps2, ps = ps1 ++ p :: ps2 → (ps1.map val).sum = 2 ^ 63 → val p ≠ 2 ^ 63) :
    parseDuration (sg.render ++ renderParts ps) =
      if sg = .minus then (if (ps.map val).sum ≤ 2 ^ 63 then some (-((ps.map val).sum : Int)) else none)
      else (if (ps.map val).sum < 2 ^ 63 then some ((ps.map val).sum : Int) else none) := by
  have hv : ∀ p ∈ ps, p.Valid := fun p h => (hp p h).1
  obtain ⟨n1, n2⟩ := renderParts_ne hv hne
  unfold parseDuration
  rw [unsigned_render sg (renderParts_noUnit hv)]
  simp only [n1, n2, if_false]
  rw [loop_eq ps _ 0 le_rfl (by norm_num) hp (by simpa using hw)]
  simp only [Nat.zero_add, decide_eq_true_eq]
  by_cases hs : (ps.map val).sum ≤ 2 ^ 63
  · simp only [hs, if_true]
    split
    · rfl
    · split
      · rw [if_neg (by omega)]
      · rw [if_pos (by omega)]
  · simp only [hs, if_false]
    split
    · rfl
    · rw [if_neg (by omega)]

/-! ## Rounding -/

theorem rd_error (p : Nat) (q : Rat) : |rd p q - q| ≤ |q| / 2 ^ p := by
  by_cases hq : q = 0
  · simp [rd, hq]
  · obtain ⟨h1, -⟩ := expo_spec hq
    simp only [rd, hq, if_false, pow2_eq]
    have hP : (0 : Rat) < 2 ^ ((p : Int) - 1 - expo q) := by positivity
    have h2 := roundEven_near (q * 2 ^ ((p : Int) - 1 - expo q))
    have e : ((Hcl.roundEven (q * 2 ^ ((p : Int) - 1 - expo q)) : Int) : Rat) / 2 ^ ((p : Int) - 1 - expo q) - q =
        ((Hcl.roundEven (q * 2 ^ ((p : Int) - 1 - expo q)) : Int) - q * 2 ^ ((p : Int) - 1 - expo q)) / 2 ^ ((p : Int) - 1 - expo q) := by
      field_simp
    rw [e, abs_div, abs_of_pos hP]
    calc |(Hcl.roundEven (q * 2 ^ ((p : Int) - 1 - expo q)) : Rat) - q * 2 ^ ((p : Int) - 1 - expo q)| / 2 ^ ((p : Int) - 1 - expo q)
        ≤ (1 / 2) / 2 ^ ((p : Int) - 1 - expo q) := by gcongr
      _ = 2 ^ expo q / 2 ^ p := by
        rw [zpow_sub₀ (by norm_num), zpow_sub₀ (by norm_num), zpow_natCast]
        field_simp
      _ ≤ |q| / 2 ^ p := by gcongr

theorem product_error {f u a c d e : Rat} (hf : 0 ≤ f) (hu : 0 ≤ u) (he0 : 0 ≤ e) (he1 : e ≤ 1) (h1 : |a - f| ≤ f * e) (h2 : |c - u| ≤ u * e)
    (h3 : |d - a * c| ≤ |a * c| * e) : |d - f * u| ≤ f * u * (7 * e) := by
  have hx : 0 ≤ f * u := mul_nonneg hf hu
  have hee : e * e ≤ e := by nlinarith
  have hc : |c| ≤ u * (1 + e) := by
    have : |c| ≤ |c - u| + |u| := by simpa using abs_add_le (c - u) u
    rw [abs_of_nonneg hu] at this
    linarith
  have h4 : |a * c - f * u| ≤ f * u * (3 * e) := by
    have e1 : a * c - f * u = (a - f) * c + f * (c - u) := by ring
    rw [e1]
    refine (abs_add_le _ _).trans ?_
    rw [abs_mul, abs_mul, abs_of_nonneg hf]
    have b1 : |a - f| * |c| ≤ f * e * (u * (1 + e)) := mul_le_mul h1 hc (abs_nonneg _) (mul_nonneg hf he0)
    have b2 : f * |c - u| ≤ f * (u * e) := mul_le_mul_of_nonneg_left h2 hf
    have b3 : f * u * (e * e) ≤ f * u * e := mul_le_mul_of_nonneg_left hee hx
    nlinarith
  have h5 : |a * c| ≤ f * u * 4 := by
    have : |a * c| ≤ |a * c - f * u| + |f * u| := by simpa using abs_add_le (a * c - f * u) (f * u)
    rw [abs_of_nonneg hx] at this
    have b4 : f * u * (3 * e) ≤ f * u * 3 := mul_le_mul_of_nonneg_left (by linarith) hx
    linarith
  have e2 : d - f * u = (d - a * c) + (a * c - f * u) := by ring
  rw [e2]
  refine (abs_add_le _ _).trans ?_
  have b5 : |a * c| * e ≤ f * u * 4 * e := mul_le_mul_of_nonneg_right h5 he0
  nlinarith

theorem partValue_near {v f k unit : Nat} (hu : 0 < unit) (hlt : unit ≤ 3600000000000) (hf : f < 10 ^ k)
    (hv : v * unit + unit + 2 ≤ 2 ^ 63) :
    ∃ w, partValue v f ((10 : Rat) ^ k) unit = some w ∧ |(w : Rat) - (v + f / 10 ^ k) * unit| ≤ 101 / 100 := by
  unfold partValue
  have hv' : ¬ v > 2 ^ 63 / unit := by
    have : v ≤ 2 ^ 63 / unit := (Nat.le_div_iff_mul_le hu).2 (by omega)
    omega
  rw [if_neg hv']
  by_cases hf0 : f > 0
  · rw [if_pos hf0]
    have h10 : (0 : Rat) < 10 ^ k := by positivity
    have hfq : (f : Rat) < 10 ^ k := by exact_mod_cast hf
    have hul : (unit : Rat) ≤ 3600000000000 := by exact_mod_cast hlt
    have hu0 : (0 : Rat) < unit := by exact_mod_cast hu
    have hq0 : (0 : Rat) ≤ unit / 10 ^ k := by positivity
    have h1 := rd_error 53 (f : Rat)
    have h2 := rd_error 53 ((unit : Rat) / 10 ^ k)
    have h3 := rd_error 53 (rd 53 (f : Rat) * rd 53 ((unit : Rat) / 10 ^ k))
    rw [abs_of_nonneg (Nat.cast_nonneg f : (0 : Rat) ≤ f)] at h1
    rw [abs_of_nonneg hq0] at h2
    rw [div_eq_mul_inv] at h1
    rw [div_eq_mul_inv (unit / 10 ^ k : Rat)] at h2
    rw [div_eq_mul_inv |_|] at h3
    have key := product_error (Nat.cast_nonneg f) hq0 (by positivity) (by norm_num) h1 h2 h3
    obtain ⟨x, hx⟩ : ∃ x : Rat, x = f * (unit / 10 ^ k) := ⟨_, rfl⟩
    obtain ⟨d, hd⟩ : ∃ d : Rat, d = rd 53 (rd 53 (f : Rat) * rd 53 ((unit : Rat) / 10 ^ k)) := ⟨_, rfl⟩
    rw [← hx, ← hd] at key
    rw [← hd]
    have hx0 : 0 ≤ x := by rw [hx]; positivity
    have hxu : x ≤ unit := by
      have : x = f / 10 ^ k * unit := by rw [hx]; field_simp
      rw [this]
      exact mul_le_of_le_one_left hu0.le ((div_le_one h10).2 hfq.le)
    have hkey : |d - x| ≤ 1 / 100 := by
      refine key.trans ?_
      have : x * (7 * (2 ^ 53)⁻¹) ≤ 3600000000000 * (7 * (2 ^ 53)⁻¹) := mul_le_mul_of_nonneg_right (hxu.trans hul) (by norm_num)
      refine this.trans (by norm_num)
    have hd0 : 0 ≤ d := by
      have a1 := (abs_le.1 key).1
      have : x * (7 * (2 ^ 53)⁻¹) ≤ x := mul_le_of_le_one_right hx0 (by norm_num)
      linarith
    obtain ⟨k1, k2⟩ := abs_le.1 hkey
    have hfl : d.floor = ⌊d⌋ := rfl
    obtain ⟨z, hz⟩ : ∃ z : Nat, ⌊d⌋ = z := ⟨⌊d⌋.toNat, (Int.toNat_of_nonneg (Int.floor_nonneg.2 hd0)).symm⟩
    have f1 := Int.floor_le d
    have f2 := Int.lt_floor_add_one d
    rw [hz] at f1 f2
    have f1' : (z : Rat) ≤ d := by exact_mod_cast f1
    have f2' : d < z + 1 := by exact_mod_cast f2
    have hzu : z ≤ unit + 1 := by
      have : (z : Rat) ≤ ((unit + 1 : Nat) : Rat) := by push_cast; linarith
      exact_mod_cast this
    simp only [hfl, hz, Int.toNat_natCast]
    rw [if_neg (by omega)]
    refine ⟨_, rfl, ?_⟩
    have e : ((v * unit + z : Nat) : Rat) - (v + f / 10 ^ k) * unit = z - x := by rw [hx]; push_cast; ring
    rw [e, abs_le]
    constructor <;> linarith
  · rw [if_neg hf0]
    refine ⟨_, rfl, ?_⟩
    have : f = 0 := by omega
    subst this
    push_cast
    simp
    norm_num

/-! ## Other texts -/

theorem takeWhile_dig (s : Bytes) : ∀ c ∈ s.takeWhile isDigit, IsDig c := by
  induction s with
  | nil => simp
  | cons x s ih =>
    intro c hc
    by_cases hx : isDigit x = true
    · rw [List.takeWhile_cons, if_pos hx] at hc
      rcases List.mem_cons.1 hc with rfl | hc
      · exact isDigit_iff.1 hx
      · exact ih c hc
    · rw [List.takeWhile_cons, if_neg hx] at hc
      simp at hc

theorem durationPart_sound {s r : Bytes} {v : Nat} (h : durationPart s = some (v, r)) : ∃ p : Part, p.Valid ∧ s = p.render ++ r := by
  unfold durationPart at h
  cases s with
  | nil => cases h
  | cons c s =>
    simp only at h
    split at h
    · cases h
    · cases hl : leadingInt 0 (c :: s) with
      | none => rw [hl] at h; cases h
      | some vs =>
        obtain ⟨v1, s1⟩ := vs
        rw [hl] at h
        simp only at h
        have e1 := leadingInt_rest _ _ _ _ hl
        have key : ∀ (fr : Option Bytes) (s2 : Bytes) (post : Bool),
            s1 = pointed fr ++ s2 → (∀ c ∈ fr.getD [], IsDig c) →
            (post = true → fr.getD [] ≠ []) → ∀ (f : Nat) (sc : Rat),
            (if s1.length = (c :: s).length ∧ post = false then none
              else if s2.takeWhile inUnit = [] then none
              else match unitMap (s2.takeWhile inUnit) with
                | none => none
                | some unit => match partValue v1 f sc unit with
                  | none => none
                  | some w => some (w, s2.dropWhile inUnit)) = some (v, r) →
            ∃ p : Part, p.Valid ∧ c :: s = p.render ++ r := by
          intro fr s2 post es hfr hpost f sc h
          split at h
          · cases h
          · rename_i hc
            split at h
            · cases h
            · cases hu : unitMap (s2.takeWhile inUnit) with
              | none => rw [hu] at h; cases h
              | some unit =>
                rw [hu] at h
                simp only at h
                cases hv : partValue v1 f sc unit with
                | none => rw [hv] at h; cases h
                | some w =>
                  rw [hv] at h
                  simp only [Option.some.injEq, Prod.mk.injEq] at h
                  refine ⟨⟨(c :: s).takeWhile isDigit, fr, s2.takeWhile inUnit, unit⟩,
                    ⟨unitMap_mem hu, takeWhile_dig _, hfr, ?_⟩, ?_⟩
                  · by_contra hn
                    simp only [not_or, ne_eq, not_not, Part.digits] at hn
                    refine hc ⟨?_, ?_⟩
                    · have := List.takeWhile_append_dropWhile (p := isDigit) (l := c :: s)
                      rw [hn.1, List.nil_append] at this
                      rw [e1, this]
                    · cases post with
                      | false => rfl
                      | true => exact absurd hn.2 (hpost rfl)
                  · have a1 := List.takeWhile_append_dropWhile (p := isDigit) (l := c :: s)
                    have a2 := List.takeWhile_append_dropWhile (p := inUnit) (l := s2)
                    rw [← e1, es] at a1
                    rw [← h.2]
                    simp only [Part.render, List.append_assoc]
                    rw [a2, a1]
        generalize hf : fractionPart s1 = q at h
        obtain ⟨f, sc, s2, post⟩ := q
        unfold fractionPart at hf
        split at hf
        · rename_i t
          simp only [Prod.mk.injEq] at hf
          obtain ⟨-, -, h2, h3⟩ := hf
          rw [leadingFraction_rest] at h2 h3
          refine key (some (t.takeWhile isDigit)) s2 post ?_ ?_ ?_ f sc h
          · rw [← h2]; simp only [pointed, List.cons_append, List.takeWhile_append_dropWhile]
          · exact takeWhile_dig t
          · intro hp
            rw [← h3] at hp
            simp only [ne_eq, decide_eq_true_eq] at hp
            intro hn
            simp only [Option.getD] at hn
            have := List.takeWhile_append_dropWhile (p := isDigit) (l := t)
            rw [hn, List.nil_append] at this
            exact hp (by rw [this])
        · simp only [Prod.mk.injEq] at hf
          obtain ⟨-, -, h2, h3⟩ := hf
          exact key none s2 post (by simp [h2, pointed]) (by simp) (by simp [← h3]) f sc h

theorem loop_sound : ∀ (n : Nat) (s : Bytes) (d v : Nat), durationLoop n s d = some v →
    ∃ ps : List Part, (∀ p ∈ ps, p.Valid) ∧ s = renderParts ps
  | _, [], _, _, _ => ⟨[], by simp, rfl⟩
  | 0, _ :: _, _, _, h => by simp [durationLoop] at h
  | n + 1, c :: s, d, v, h => by
    simp only [durationLoop] at h
    cases hp : durationPart (c :: s) with
    | none => rw [hp] at h; cases h
    | some vr =>
      obtain ⟨w, r⟩ := vr
      rw [hp] at h
      simp only at h
      split at h
      · cases h
      · obtain ⟨ps, h1, h2⟩ := loop_sound n r _ v h
        obtain ⟨p, h3, h4⟩ := durationPart_sound hp
        exact ⟨p :: ps, by simpa [h3] using h1, by rw [h4, h2]; simp [renderParts]⟩

end Verif.Funcs
