import Verif.Model.Number
import Verif.Spec.Number
import Verif.Spec.Cty
import Verif.Lemmas.Cty
import Mathlib.Data.Nat.Digits.Lemmas
import Mathlib.Data.Sign.Basic
set_option linter.unusedSimpArgs false
/-! Functions on numbers (C76, C77). -/
namespace Verif.Funcs
open Hcl (IsInt64 IsFloat rd_exact fitsI64)

/-! ### signum -/

theorem toInt_iff (x : Num) (n : Int) : x.toInt = some n ↔ x = .fin n ∧ -(2 ^ 63) ≤ n ∧ n < 2 ^ 63 := by
  cases x with
  | inf _ => simp [Num.toInt]
  | fin q =>
    simp only [Num.toInt, Num.fin.injEq, fitsI64, Bool.and_eq_true, decide_eq_true_eq]
    constructor
    · intro h
      split at h
      · rename_i hc
        obtain ⟨h1, h2⟩ := hc
        simp only [Option.some.injEq] at h
        subst h
        exact ⟨(Rat.den_eq_one_iff q |>.1 h1).symm, h2⟩
      · simp at h
    · rintro ⟨rfl, h⟩
      rw [if_pos ⟨by simp, by simpa using h⟩]
      simp

/-- C77, the part that holds (missing: all other numbers, see `C77_violated`): `signum` answers exactly for
the integers of 64 bits, with their sign. -/
theorem C77_partial (x : Num) (s : Int) :
    signum (.val x) = .ok (.val s) ↔ ∃ q, x = .fin q ∧ IsInt64 q ∧ s = SignType.sign q := by
  simp only [signum, call, signumImpl]
  cases h : x.toInt with
  | none =>
    simp only [reduceCtorEq, false_iff, not_exists, not_and]
    rintro q rfl ⟨n, rfl, hn⟩
    rw [(toInt_iff _ n).2 ⟨rfl, hn⟩] at h
    exact absurd h (by simp)
  | some n =>
    obtain ⟨rfl, hn⟩ := (toInt_iff x n).1 h
    have hq : (∃ q, Num.fin (n : Rat) = .fin q ∧ IsInt64 q ∧ s = SignType.sign q) ↔ s = SignType.sign (n : Rat) := by
      constructor
      · rintro ⟨q, e, _, hs⟩
        rw [Num.fin.injEq] at e
        subst e; exact hs
      · intro hs; exact ⟨n, rfl, ⟨n, rfl, hn⟩, hs⟩
    rw [hq]
    rcases lt_trichotomy n 0 with h0 | h0 | h0
    · have : (n : Rat) < 0 := by exact_mod_cast h0
      simp [h0, sign_neg this, eq_comm]
    · subst h0; simp [eq_comm]
    · have h1 : (0 : Rat) < n := by exact_mod_cast h0
      have h2 : ¬ n < 0 := by omega
      simp [h0, h2, sign_pos h1, eq_comm]

/-- C77 is violated: fractions, large integers and infinities have a sign, but `signum` returns an error. -/
theorem C77_violated :
    (∀ q : Rat, 0 < q → q < 1 → signum (.val (.fin q)) = .error ()) ∧
      signum (.val (.fin (2 ^ 63))) = .error () ∧ signum (.val (.inf true)) = .error () := by
  refine ⟨fun q h0 h1 => ?_, by decide +kernel, rfl⟩
  have : (Num.fin q).toInt = none := by
    by_contra h
    obtain ⟨n, hn⟩ := Option.ne_none_iff_exists'.1 h
    obtain ⟨e, _⟩ := (toInt_iff _ _).1 hn
    simp only [Num.fin.injEq] at e
    subst e
    have h0 : 0 < n := by exact_mod_cast h0
    have h1 : n < 1 := by exact_mod_cast h1
    omega
  simp [signum, call, signumImpl, this]

example : signum (.val (.fin (-17))) = .ok (.val (-1)) := by decide +kernel
example : IsInt64 (-17) := ⟨-17, by norm_num, by norm_num, by norm_num⟩

/-! ### parseint -/

theorem scanDigit_iff {base : Nat} (h2 : 2 ≤ base) (h62 : base ≤ 62) (c : UInt8) (d : Nat) :
    IsDigit base c d ↔ d < base ∧ scanDigit base c = d := by
  unfold IsDigit
  by_cases hd : d < base
  · have hd62 : d < 62 := by omega
    simp only [hd, true_and]
    have key : ∀ small : Bool, ∀ c : Fin 256, ∀ d : Fin 62, (small = true → d.val < 36) →
        ((alphabet[d.val]? = some (UInt8.ofNat c.val) ∨ small = true ∧ 10 ≤ d.val ∧ alphabet[d.val + 26]? = some (UInt8.ofNat c.val)) ↔
          scanDigit (if small then 36 else 62) (UInt8.ofNat c.val) = d.val) := by decide +kernel
    have hs : scanDigit base c = scanDigit (if decide (base ≤ 36) then 36 else 62) c := by
      unfold scanDigit
      by_cases hb : base ≤ 36 <;> simp [hb]
    have := key (decide (base ≤ 36)) ⟨c.toNat, c.toNat_lt⟩ ⟨d, hd62⟩ (by simp; omega)
    simp only [decide_eq_true_eq, UInt8.ofNat_toNat] at this hs
    rw [hs]
    exact this
  · simp [hd]

theorem scanLoop_eq {base : Nat} (h2 : 2 ≤ base) (h62 : base ≤ 62) :
    ∀ (s : Bytes) (z k z' k' : Nat), scanLoop base z k s = (z', k', []) ↔
      ∃ ds, List.Forall₂ (IsDigit base) s ds ∧ k' = k + s.length ∧ z' = z * base ^ s.length + Nat.ofDigits base ds.reverse := by
  intro s
  induction s with
  | nil =>
    intro z k z' k'
    simp only [scanLoop, Prod.mk.injEq, and_true, List.forall₂_nil_left_iff, exists_eq_left, List.length_nil, pow_zero,
      List.reverse_nil, Nat.ofDigits_nil]
    omega
  | cons c s ih =>
    intro z k z' k'
    simp only [scanLoop]
    split
    · rename_i h
      simp only [Prod.mk.injEq, reduceCtorEq, and_false, false_iff, not_exists]
      rintro ds ⟨hf, -⟩
      cases hf with
      | cons h1 _ =>
        obtain ⟨ha, hb⟩ := (scanDigit_iff h2 h62 _ _).1 h1
        omega
    · rename_i h
      rw [ih]
      have hd : IsDigit base c (scanDigit base c) := (scanDigit_iff h2 h62 _ _).2 ⟨by omega, rfl⟩
      constructor
      · rintro ⟨ds, hf, hk, hz⟩
        refine ⟨scanDigit base c :: ds, .cons hd hf, by simp [hk]; omega, ?_⟩
        rw [hz, List.reverse_cons, Nat.ofDigits_append, List.length_reverse, ← hf.length_eq]
        simp only [List.length_cons, Nat.ofDigits_singleton]
        ring
      · rintro ⟨ds, hf, hk, hz⟩
        cases hf with
        | @cons _ d _ ds h1 hf =>
          obtain ⟨_, rfl⟩ := (scanDigit_iff h2 h62 _ _).1 h1
          refine ⟨ds, hf, by simp at hk; omega, ?_⟩
          rw [hz, List.reverse_cons, Nat.ofDigits_append, List.length_reverse, ← hf.length_eq]
          simp only [List.length_cons, Nat.ofDigits_singleton]
          ring

theorem scanLoop_some {base : Nat} (h2 : 2 ≤ base) (h62 : base ≤ 62) (s : Bytes) (neg : Bool) (n : Int) :
    scanEnd neg (scanLoop base 0 0 s) = some n ↔
    ∃ ds, s ≠ [] ∧ List.Forall₂ (IsDigit base) s ds ∧
      n = if neg then -((Nat.ofDigits base ds.reverse : Nat) : Int) else ((Nat.ofDigits base ds.reverse : Nat) : Int) := by
  constructor
  · intro h
    rcases hs : scanLoop base 0 0 s with ⟨z, k, r⟩
    rw [hs] at h
    cases k with
    | zero => simp [scanEnd] at h
    | succ k =>
      cases r with
      | cons _ _ => simp [scanEnd] at h
      | nil =>
        obtain ⟨ds, hf, hk, hz⟩ := (scanLoop_eq h2 h62 s 0 0 z (k + 1)).1 hs
        refine ⟨ds, ?_, hf, ?_⟩
        · rintro rfl; simp at hk
        · simp only [scanEnd, Option.some.injEq] at h
          rw [← h, hz]; simp
  · rintro ⟨ds, hne, hf, hn⟩
    have := (scanLoop_eq h2 h62 s 0 0 (Nat.ofDigits base ds.reverse) s.length).2 ⟨ds, hf, by simp, by simp⟩
    rw [this, hn]
    cases s with
    | nil => exact absurd rfl hne
    | cons c s => rfl

theorem notDigit_sign {base : Nat} (h2 : 2 ≤ base) (h62 : base ≤ 62) (c : UInt8) (d : Nat) (h : IsDigit base c d) :
    c ≠ 45 ∧ c ≠ 43 := by
  obtain ⟨h1, h3⟩ := (scanDigit_iff h2 h62 _ _).1 h
  constructor <;> rintro rfl <;> simp [scanDigit] at h3 <;> omega

/-- `big.Int.SetString` accepts exactly the texts of the grammar, with the number they stand for. -/
theorem bigSetString_iff {base : Nat} (h2 : 2 ≤ base) (h62 : base ≤ 62) (s : Bytes) (n : Int) :
    bigSetString s base = some n ↔ Denotes base s n := by
  unfold bigSetString
  rw [scanLoop_some h2 h62 (scanSign s).2 (scanSign s).1 n]
  have e1 : b "+" = [43] := by decide
  have e2 : b "-" = [45] := by decide
  unfold Denotes
  rw [e1, e2]
  constructor
  · rintro ⟨ds, hne, hf, hn⟩
    have hcase : (scanSign s = (true, (scanSign s).2) ∧ s = [45] ++ (scanSign s).2) ∨
        (scanSign s = (false, (scanSign s).2) ∧ (s = [43] ++ (scanSign s).2 ∨ s = [] ++ (scanSign s).2)) := by
      unfold scanSign
      split <;> simp
    rcases hcase with ⟨h1, hs⟩ | ⟨h1, hs | hs⟩
    · rw [h1] at hn
      exact ⟨[45], _, ds, hs, hne, hf, .inr ⟨rfl, by simpa using hn⟩⟩
    · rw [h1] at hn
      exact ⟨[43], _, ds, hs, hne, hf, .inl ⟨.inr rfl, by simpa using hn⟩⟩
    · rw [h1] at hn
      exact ⟨[], _, ds, hs, hne, hf, .inl ⟨.inl rfl, by simpa using hn⟩⟩
  · rintro ⟨sign, cs, ds, rfl, hne, hf, h⟩
    rcases h with ⟨rfl | rfl, hn⟩ | ⟨rfl, hn⟩
    · cases hf with
      | nil => exact absurd rfl hne
      | @cons c d cs ds hd hf =>
        obtain ⟨ha, hb⟩ := notDigit_sign h2 h62 _ _ hd
        have : scanSign (c :: cs) = (false, c :: cs) := by
          unfold scanSign
          split
          · rename_i h; exact absurd (List.cons.inj h).1 ha
          · rename_i h; exact absurd (List.cons.inj h).1 hb
          · rfl
        simp only [List.nil_append, this]
        exact ⟨d :: ds, hne, .cons hd hf, by simpa using hn⟩
    · exact ⟨ds, hne, hf, by simpa [scanSign] using hn⟩
    · exact ⟨ds, hne, hf, by simpa [scanSign] using hn⟩

theorem bigSetInt_val (n : Int) : (bigSetInt n).val = n := by
  simp only [bigSetInt]
  refine rd_exact ⟨n, 0, by simp, ?_⟩
  by_cases h : n = 0
  · subst h; simp
  · have h1 : n.natAbs < 2 ^ (n.natAbs.log2 + 1) := Nat.lt_log2_self
    have h2 : (2 : Nat) ^ (n.natAbs.log2 + 1) ≤ 2 ^ max (bitLen n) 64 := by
      refine Nat.pow_le_pow_right (by omega) ?_
      simp only [bitLen, if_neg h]; exact le_max_left _ _
    rw [Int.abs_eq_natAbs]
    exact_mod_cast lt_of_lt_of_le h1 h2

/-- C76: `parseint` of a known string and a known base gives a number exactly if the base is a whole number from 2
to 62 and the text is an integer written in that base.  The number is exactly the one the text stands for, however
long it is, and carries the marks of both arguments. -/
theorem C76_value (quote : Bytes → Bytes) (s : Bytes) (ms : List Mark) (q : Num) (ms' : List Mark) (v : Rat) (rm : List Mark) :
    (∃ p, parseInt quote ⟨.val (.str s), ms⟩ ⟨.val q, ms'⟩ = .ok ⟨⟨v, p⟩, rm⟩) ↔
      ∃ base : Nat, q = .fin base ∧ 2 ≤ base ∧ base ≤ 62 ∧ ∃ n, Denotes base s n ∧ v = n ∧ rm = ms ++ ms' := by
  simp only [parseInt, parseIntImpl]
  cases hq : q.toInt with
  | none =>
    simp only [reduceCtorEq, exists_false, false_iff]
    rintro ⟨base, rfl, h2, h62, -⟩
    have := (toInt_iff (.fin base) base).2 ⟨by simp, by omega, by omega⟩
    rw [this] at hq; exact absurd hq (by simp)
  | some bs =>
    obtain ⟨rfl, hb⟩ := (toInt_iff _ _).1 hq
    have hbase : ∀ base : Nat, Num.fin (bs : Rat) = .fin base → bs = base := by
      intro base h; rw [Num.fin.injEq] at h; exact_mod_cast h
    by_cases hr : bs < 2 ∨ 62 < bs
    · simp only [hr, if_true, reduceCtorEq, exists_false, false_iff]
      rintro ⟨base, h, h2, h62, -⟩
      have := hbase base h
      omega
    · simp only [hr, if_false]
      have h2 : 2 ≤ bs.toNat := by omega
      have h62 : bs.toNat ≤ 62 := by omega
      have hcast : (bs.toNat : Int) = bs := by omega
      cases hp : bigSetString s bs.toNat with
      | none =>
        simp only [reduceCtorEq, exists_false, false_iff]
        rintro ⟨base, h, _, _, n, hd, -⟩
        have e := hbase base h
        have e' : bs.toNat = base := by omega
        rw [← e', ← bigSetString_iff h2 h62, hp] at hd
        exact absurd hd (by simp)
      | some n =>
        have hd := (bigSetString_iff h2 h62 s n).1 hp
        simp only [Marked.withMarks, ParseRes.ok.injEq, Marked.mk.injEq, List.nil_append]
        constructor
        · rintro ⟨p, h, hm⟩
          refine ⟨bs.toNat, by rw [← Int.cast_natCast, hcast], h2, h62, n, hd, ?_, hm.symm⟩
          rw [← bigSetInt_val n, h]
        · rintro ⟨base, h, _, _, n', hd', rfl, rfl⟩
          have e := hbase base h
          have e' : bs.toNat = base := by omega
          rw [← e', ← bigSetString_iff h2 h62, hp] at hd'
          simp only [Option.some.injEq] at hd'
          subst hd'
          refine ⟨(bigSetInt n).prec, ?_, rfl⟩
          rw [← bigSetInt_val n]

theorem digit_denotes {base d : Nat} (h : d < base) (h62 : base ≤ 62) : IsDigit base (alphabet.getD d 0) d := by
  refine ⟨h, .inl ?_⟩
  have hl : alphabet.length = 62 := by decide
  rw [List.getD_eq_getElem?_getD, List.getElem?_eq_getElem (by omega)]
  rfl

theorem writeInt_denotes {base : Nat} (h2 : 2 ≤ base) (h62 : base ≤ 62) (n : Int) : Denotes base (writeInt base n) n := by
  by_cases h : n = 0
  · subst h
    refine ⟨[], b "0", [0], by simp [writeInt], by decide, .cons ⟨by omega, .inl (by decide)⟩ .nil, .inl ⟨.inl rfl, by simp⟩⟩
  · have hna : n.natAbs ≠ 0 := by omega
    have hf : List.Forall₂ (IsDigit base) ((Nat.digits base n.natAbs).reverse.map fun d => alphabet.getD d 0)
        (Nat.digits base n.natAbs).reverse := by
      rw [List.forall₂_map_left_iff, List.forall₂_same]
      intro d hd
      exact digit_denotes (Nat.digits_lt_base (by omega) (List.mem_reverse.1 hd)) h62
    have hne : ((Nat.digits base n.natAbs).reverse.map fun d => alphabet.getD d 0) ≠ [] := by
      simp [Nat.digits_ne_nil_iff_ne_zero, hna, h]
    refine ⟨if n < 0 then b "-" else [], _, _, by rw [writeInt, if_neg h], hne, hf, ?_⟩
    rw [List.reverse_reverse, Nat.ofDigits_digits]
    by_cases h0 : n < 0
    · exact .inr ⟨by simp [h0], by omega⟩
    · exact .inl ⟨.inl (by simp [h0]), by omega⟩

/-- C76: every integer is read back from its digits, in every base. -/
theorem C76_back (quote : Bytes → Bytes) {base : Nat} (h2 : 2 ≤ base) (h62 : base ≤ 62) (n : Int) (ms ms' : List Mark) :
    ∃ p, parseInt quote ⟨.val (.str (writeInt base n)), ms⟩ ⟨.val (.fin base), ms'⟩ = .ok ⟨⟨n, p⟩, ms ++ ms'⟩ :=
  (C76_value ..).2 ⟨base, rfl, h2, h62, n, writeInt_denotes h2 h62 n, rfl, rfl⟩

/-- C76: an error message does not depend on a sensitive text, and the message that the text cannot be parsed
does not depend on a sensitive base. -/
theorem C76_redacted {quote : Bytes → Bytes} {s s' : Bytes} {ms : List Mark} {q q' : Num} {ms' : List Mark}
    {i j : Nat} {m m' : Bytes} (hs : s = s' ∨ sensitiveMark ∈ ms)
    (hq : q = q' ∨ sensitiveMark ∈ ms' ∧ i = 0 ∧ j = 0)
    (h : parseInt quote ⟨.val (.str s), ms⟩ ⟨.val q, ms'⟩ = .err i m)
    (h' : parseInt quote ⟨.val (.str s'), ms⟩ ⟨.val q', ms'⟩ = .err j m') : i = j ∧ m = m' := by
  have hrs : redactIfSensitive quote s [ms] = redactIfSensitive quote s' [ms] := by
    rcases hs with rfl | hs
    · rfl
    · simp [redactIfSensitive, hs]
  simp only [parseInt, parseIntImpl] at h h'
  rcases hq with rfl | ⟨hq, rfl, rfl⟩
  · cases hq : q.toInt with
    | none =>
      rw [hq] at h h'
      simp only [ParseRes.err.injEq] at h h'
      exact ⟨h.1.symm.trans h'.1, h.2.symm.trans h'.2⟩
    | some bs =>
      rw [hq] at h h'
      simp only at h h'
      by_cases hr : bs < 2 ∨ 62 < bs
      · simp only [hr, if_true, ParseRes.err.injEq] at h h'
        exact ⟨h.1.symm.trans h'.1, h.2.symm.trans h'.2⟩
      · simp only [hr, if_false] at h h'
        cases hp : bigSetString s bs.toNat <;> cases hp' : bigSetString s' bs.toNat <;>
          simp only [hp, hp', reduceCtorEq, ParseRes.err.injEq] at h h'
        rw [hrs] at h
        exact ⟨h.1.symm.trans h'.1, h.2.symm.trans h'.2⟩
  · have aux : ∀ {s : Bytes} {q : Num} {m : Bytes}, parseInt quote ⟨.val (.str s), ms⟩ ⟨.val q, ms'⟩ = .err 0 m →
        m = b "cannot parse " ++ redactIfSensitive quote s [ms] ++ b " as a base " ++ b "(sensitive value)" ++ b " integer" := by
      intro s q m h
      simp only [parseInt, parseIntImpl] at h
      cases hq' : q.toInt with
      | none => simp [hq'] at h
      | some bs =>
        simp only [hq'] at h
        by_cases hr : bs < 2 ∨ 62 < bs
        · simp [hr] at h
        · simp only [hr, if_false] at h
          cases hp : bigSetString s bs.toNat with
          | some _ => simp [hp] at h
          | none =>
            simp only [hp, ParseRes.err.injEq, true_and] at h
            rw [← h]
            simp [redactIfSensitive, hq]
    refine ⟨rfl, ?_⟩
    rw [aux h, aux h', hrs]

/-- C76 does not extend to arithmetic: parsed integers have just enough precision, so `sum` of two of them may be
off although each is exact. -/
theorem C76_violated_sum :
    ∃ x y r, parseInt id ⟨.val (.str (b "18446744073709551615")), []⟩ ⟨.val (.fin 10), []⟩ = .ok ⟨x, []⟩ ∧
      parseInt id ⟨.val (.str (b "2")), []⟩ ⟨.val (.fin 10), []⟩ = .ok ⟨y, []⟩ ∧
      sum true (.val [.val (some x), .val (some y)]) = .ok (.val r) ∧ r.val ≠ x.val + y.val := by
  refine ⟨⟨18446744073709551615, 64⟩, ⟨2, 64⟩, _, ?_, ?_, rfl, ?_⟩ <;> decide +kernel

example : parseInt id ⟨.val (.str (b "-fF")), [b "x"]⟩ ⟨.val (.fin 16), [b "y"]⟩ = .ok ⟨⟨-255, 64⟩, [b "x", b "y"]⟩ := by
  decide +kernel
example : parseInt id ⟨.val (.str (b "zZ")), []⟩ ⟨.val (.fin 62), []⟩ = .ok ⟨⟨35 * 62 + 61, 64⟩, []⟩ := by decide +kernel
example : Denotes 16 (b "-fF") (-255) := (bigSetString_iff (by omega) (by omega) _ _).1 (by decide)
example : writeInt 16 (-255) = b "-ff" := by simp [writeInt]; decide
example : parseInt id ⟨.val (.str (b "12 ")), [sensitiveMark]⟩ ⟨.val (.fin 10), []⟩ =
    .err 0 (b "cannot parse (sensitive value) as a base 10 integer") := by decide +kernel

end Verif.Funcs
