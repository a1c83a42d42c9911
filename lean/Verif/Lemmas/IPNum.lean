import Verif.Model.IPAddr
import Verif.Spec.IPText
/-! Lemmas about `dtoi`, `xtoi`, `parseIPv4`. -/
set_option linter.unusedSimpArgs false
namespace Verif.IPAddr

/-- Decimal digit as an optional value. -/
def decDigit (c : UInt8) : Option Nat := if isDigit c then some (c - 48).toNat else none

/-- Common shape of the two scanning loops. -/
def gLoop (digit : UInt8 → Option Nat) (base n i : Nat) : Bytes → Option (Nat × Nat)
  | [] => if i = 0 then none else some (n, i)
  | c :: s =>
    match digit c with
    | some d => if n * base + d ≥ big then none else gLoop digit base (n * base + d) (i + 1) s
    | none => if i = 0 then none else some (n, i)

def Num.val (r : Num) : Option (Nat × Nat) := if r.ok then some (r.n, r.i) else none

theorem dtoi_g (s : Bytes) : (dtoi s).val = gLoop decDigit 10 0 0 s := by
  have : ∀ s n i, (dtoiLoop n i s).val = gLoop decDigit 10 n i s := by
    intro s
    induction s with
    | nil => intro n i; simp only [dtoiLoop, gLoop]; split <;> simp [Num.val]
    | cons c s ih =>
      intro n i
      simp only [dtoiLoop, gLoop, decDigit]
      by_cases h : isDigit c
      · simp only [h, if_true]
        split
        · simp [Num.val]
        · exact ih _ _
      · simp only [h]
        simp only [Bool.false_eq_true, if_false]
        split <;> simp [Num.val]
  exact this s 0 0

theorem xtoi_g (s : Bytes) : (xtoi s).val = gLoop hexDigit 16 0 0 s := by
  have : ∀ s n i, (xtoiLoop n i s).val = gLoop hexDigit 16 n i s := by
    intro s
    induction s with
    | nil => intro n i; simp only [xtoiLoop, gLoop]; split <;> simp [Num.val]
    | cons c s ih =>
      intro n i
      simp only [xtoiLoop, gLoop]
      cases h : hexDigit c with
      | some d =>
        dsimp only
        split
        · simp [Num.val]
        · exact ih _ _
      | none => dsimp only; split <;> simp [Num.val]
  exact this s 0 0

/-- The text does not continue with a digit. -/
def Stops (digit : UInt8 → Option Nat) (rest : Bytes) : Prop :=
  ∀ x r, rest = x :: r → digit x = none

/-- All bytes are digits with these values. -/
inductive Digits (digit : UInt8 → Option Nat) : Bytes → List Nat → Prop
  | nil : Digits digit [] []
  | cons {c d t ds} : digit c = some d → Digits digit t ds → Digits digit (c :: t) (d :: ds)

theorem Digits.snoc {digit : UInt8 → Option Nat} {t ds c d} (h : Digits digit t ds)
    (hc : digit c = some d) : Digits digit (t ++ [c]) (ds ++ [d]) := by
  induction h with
  | nil => exact .cons hc .nil
  | cons h _ ih => exact .cons h ih

def valOf (base n : Nat) (ds : List Nat) : Nat := ds.foldl (fun n d => n * base + d) n

theorem le_valOf {base : Nat} (hb : 1 ≤ base) (ds : List Nat) : ∀ n, n ≤ valOf base n ds := by
  induction ds with
  | nil => intro n; exact Nat.le_refl _
  | cons d ds ih =>
    intro n
    have h1 := ih (n * base + d)
    have h2 : n * 1 ≤ n * base := Nat.mul_le_mul_left n hb
    simp only [valOf, List.foldl_cons] at h1 ⊢
    omega

theorem gLoop_iff {digit : UInt8 → Option Nat} {base : Nat} (hb : 1 ≤ base) (s : Bytes) :
    ∀ n i v c, n < big → (gLoop digit base n i s = some (v, c) ↔
      ∃ t rest ds, s = t ++ rest ∧ Digits digit t ds ∧ v = valOf base n ds ∧ c = i + t.length ∧
        v < big ∧ c ≠ 0 ∧ Stops digit rest) := by
  induction s with
  | nil =>
    intro n i v c hn
    simp only [gLoop]
    constructor
    · intro h
      split at h
      · cases h
      · cases h
        exact ⟨[], [], [], rfl, .nil, rfl, rfl, hn, by assumption, by intro x r h; cases h⟩
    · rintro ⟨t, rest, ds, h1, h2, rfl, rfl, _, h3, _⟩
      have : t = [] := by
        cases t with
        | nil => rfl
        | cons a t => simp at h1
      subst this
      cases h2
      simp only [List.length_nil, Nat.add_zero] at h3 ⊢
      rw [if_neg h3]; rfl
  | cons a s ih =>
    intro n i v c hn
    simp only [gLoop]
    cases hd : digit a with
    | none =>
      constructor
      · intro h
        dsimp only at h
        split at h
        · cases h
        · cases h
          refine ⟨[], a :: s, [], rfl, .nil, rfl, rfl, hn, by assumption, ?_⟩
          intro x r h; cases h; exact hd
      · rintro ⟨t, rest, ds, h1, h2, rfl, rfl, _, h3, _⟩
        have : t = [] := by
          cases t with
          | nil => rfl
          | cons b t =>
            simp only [List.cons_append, List.cons.injEq] at h1
            obtain ⟨rfl, _⟩ := h1
            cases h2 with
            | cons h4 _ => rw [hd] at h4; cases h4
        subst this
        cases h2
        simp only [List.length_nil, Nat.add_zero] at h3 ⊢
        rw [if_neg h3]; rfl
    | some d =>
      dsimp only
      constructor
      · intro h
        split at h
        · cases h
        · rename_i hlt
          obtain ⟨t, rest, ds, h1, h2, h3, h4, h5, h6, h7⟩ := (ih _ _ _ _ (by omega)).mp h
          refine ⟨a :: t, rest, d :: ds, by simp [h1], .cons hd h2, h3, ?_, h5, h6, h7⟩
          simp only [List.length_cons]; omega
      · rintro ⟨t, rest, ds, h1, h2, h3, h4, h5, h6, h7⟩
        cases t with
        | nil =>
          simp only [List.nil_append] at h1
          have := h7 a s h1.symm
          rw [hd] at this; cases this
        | cons b t =>
          simp only [List.cons_append, List.cons.injEq] at h1
          obtain ⟨rfl, h1⟩ := h1
          cases h2 with
          | cons h8 h2 =>
            rename_i ds'
            rw [hd] at h8; cases h8
            have h9 := le_valOf hb ds' (n * base + d)
            have h3' : v = valOf base (n * base + d) ds' := h3
            rw [if_neg (by omega)]
            refine (ih _ _ _ _ (by omega)).mpr ⟨t, rest, ds', h1, h2, h3', ?_, h5, h6, h7⟩
            simp only [List.length_cons] at h4; omega

/-- Numerals in terms of digit lists. -/
theorem numeral_iff {digit : UInt8 → Option Nat} {base t v} :
    Numeral (fun c d => digit c = some d) base t v ↔
      t ≠ [] ∧ ∃ ds, Digits digit t ds ∧ v = valOf base 0 ds := by
  constructor
  · intro h
    induction h with
    | @one c d h => exact ⟨by simp, [d], .cons h .nil, by simp [valOf]⟩
    | @snoc t v c d _ h ih =>
      obtain ⟨h1, ds, h2, h3⟩ := ih
      refine ⟨by simp, ds ++ [d], h2.snoc h, ?_⟩
      simp [valOf, h3]
  · rintro ⟨h1, ds, h2, h3⟩
    have key : ∀ (t : Bytes) (ds : List Nat), Digits digit t ds → ∀ t0 v0,
        Numeral (fun c d => digit c = some d) base t0 v0 →
        Numeral (fun c d => digit c = some d) base (t0 ++ t) (valOf base v0 ds) := by
      intro t ds h
      induction h with
      | nil => intro t0 v0 h; simpa [valOf] using h
      | @cons c d t ds hc _ ih =>
        intro t0 v0 h
        have := ih (t0 ++ [c]) _ (.snoc h hc)
        simpa [valOf] using this
    cases h2 with
    | nil => exact absurd rfl h1
    | @cons c d t ds hc h2 =>
      have := key t ds h2 [c] d (.one hc)
      rw [h3]
      simpa [valOf] using this

/-- The scanning loop against the grammar of numerals. -/
theorem scan_iff {digit : UInt8 → Option Nat} {base : Nat} (hb : 1 ≤ base) (s : Bytes) (v c : Nat) :
    gLoop digit base 0 0 s = some (v, c) ↔
      ∃ t rest, s = t ++ rest ∧ Numeral (fun c d => digit c = some d) base t v ∧ c = t.length ∧
        v < big ∧ Stops digit rest := by
  rw [gLoop_iff hb s 0 0 v c (by decide)]
  constructor
  · rintro ⟨t, rest, ds, h1, h2, h3, h4, h5, h6, h7⟩
    simp only [Nat.zero_add] at h4
    refine ⟨t, rest, h1, numeral_iff.mpr ⟨?_, ds, h2, h3⟩, h4, h5, h7⟩
    rintro rfl
    exact h6 h4
  · rintro ⟨t, rest, h1, h2, h4, h5, h7⟩
    obtain ⟨h6, ds, h8, h9⟩ := numeral_iff.mp h2
    refine ⟨t, rest, ds, h1, h8, h9, by omega, h5, ?_, h7⟩
    rw [h4]
    cases t with
    | nil => exact absurd rfl h6
    | cons a t => simp

theorem u8_cases (c : UInt8) : ∃ n, n < 256 ∧ c = UInt8.ofNat n :=
  ⟨c.toNat, c.toNat_lt, by simp⟩

theorem decDigit_iff (c : UInt8) (d : Nat) : decDigit c = some d ↔ IsDec c d := by
  obtain ⟨n, hn, rfl⟩ := u8_cases c
  constructor
  · have key : ∀ n, n < 256 → ∀ d ∈ decDigit (UInt8.ofNat n), d < 10 ∧ UInt8.ofNat n = UInt8.ofNat (48 + d) := by
      decide +kernel
    intro h
    exact key n hn d h
  · rintro ⟨h1, h2⟩
    rw [h2]
    have key : ∀ d, d < 10 → decDigit (UInt8.ofNat (48 + d)) = some d := by decide +kernel
    exact key d h1

theorem hexDigit_iff (c : UInt8) (d : Nat) : hexDigit c = some d ↔ IsHex c d := by
  obtain ⟨n, hn, rfl⟩ := u8_cases c
  constructor
  · have key : ∀ n, n < 256 → ∀ d ∈ hexDigit (UInt8.ofNat n),
        (d < 10 ∧ UInt8.ofNat n = UInt8.ofNat (48 + d)) ∨
        (10 ≤ d ∧ d < 16 ∧ (UInt8.ofNat n = UInt8.ofNat (97 + (d - 10)) ∨ UInt8.ofNat n = UInt8.ofNat (65 + (d - 10)))) := by
      decide +kernel
    intro h
    exact key n hn d h
  · rintro (⟨h1, h2⟩ | ⟨h1, h2, h3 | h3⟩)
    · rw [h2]
      have key : ∀ d, d < 10 → hexDigit (UInt8.ofNat (48 + d)) = some d := by decide +kernel
      exact key d h1
    · rw [h3]
      have key : ∀ d, d < 16 → 10 ≤ d → hexDigit (UInt8.ofNat (97 + (d - 10))) = some d := by decide +kernel
      exact key d h2 h1
    · rw [h3]
      have key : ∀ d, d < 16 → 10 ≤ d → hexDigit (UInt8.ofNat (65 + (d - 10))) = some d := by decide +kernel
      exact key d h2 h1

theorem dec_eq : (fun c d => decDigit c = some d) = IsDec := by
  funext c d; exact propext (decDigit_iff c d)

theorem hex_eq : (fun c d => hexDigit c = some d) = IsHex := by
  funext c d; exact propext (hexDigit_iff c d)

theorem decScan_iff (s : Bytes) (v c : Nat) :
    gLoop decDigit 10 0 0 s = some (v, c) ↔
      ∃ t rest, s = t ++ rest ∧ Numeral IsDec 10 t v ∧ c = t.length ∧ v < big ∧
        Stops decDigit rest := by
  rw [scan_iff (by decide), dec_eq]

theorem hexScan_iff (s : Bytes) (v c : Nat) :
    gLoop hexDigit 16 0 0 s = some (v, c) ↔
      ∃ t rest, s = t ++ rest ∧ Numeral IsHex 16 t v ∧ c = t.length ∧ v < big ∧
        Stops hexDigit rest := by
  rw [scan_iff (by decide), hex_eq]

/-! ## `parseIPv4` -/

/-- `k` octets, each (if `sep`, also the first) preceded by a dot. -/
inductive Octs : Nat → Bool → Bytes → List Nat → Prop
  | nil {f} : Octs 0 f [] []
  | first {k t v u vs} : Octet t v → Octs k true u vs → Octs (k + 1) false (t ++ u) (v :: vs)
  | next {k t v u vs} : Octet t v → Octs k true u vs → Octs (k + 1) true (46 :: (t ++ u)) (v :: vs)

theorem Octs.stops {k u vs} (h : Octs k true u vs) : Stops decDigit u := by
  intro x r hx
  cases h with
  | nil => cases hx
  | next => cases hx; decide

theorem octs_succ {k s vs} : Octs (k + 1) false s vs ↔
    ∃ v c, gLoop decDigit 10 0 0 s = some (v, c) ∧ v ≤ 255 ∧
      ∃ vs', vs = v :: vs' ∧ Octs k true (s.drop c) vs' := by
  constructor
  · intro h
    cases h with
    | @first k t v u vs' h1 h2 =>
      refine ⟨v, t.length, (decScan_iff _ _ _).mpr
        ⟨t, u, rfl, h1.1, rfl, Nat.lt_of_le_of_lt h1.2 (by decide), h2.stops⟩, h1.2, vs', rfl, ?_⟩
      rw [List.drop_left]; exact h2
  · rintro ⟨v, c, h1, h2, vs', rfl, h3⟩
    obtain ⟨t, rest, rfl, h5, rfl, _, _⟩ := (decScan_iff _ _ _).mp h1
    rw [List.drop_left] at h3
    exact .first ⟨h5, h2⟩ h3

theorem parseIPv4Loop_iff : ∀ k i s p, ∃ r, parseIPv4Loop k i s p = some r ∧
    ∀ out, r = some out ↔ ∃ vs, Octs k (decide (i > 0)) s vs ∧ out = ipv4 (p ++ vs.map UInt8.ofNat) := by
  intro k
  induction k with
  | zero =>
    intro i s p
    simp only [parseIPv4Loop]
    cases s with
    | nil =>
      refine ⟨some (ipv4 p), by simp, fun out => ⟨fun h => ?_, ?_⟩⟩
      · cases h; exact ⟨[], .nil, by simp⟩
      · rintro ⟨vs, h, rfl⟩; cases h; simp
    | cons a s =>
      refine ⟨none, by simp, fun out => ⟨fun h => (by cases h), ?_⟩⟩
      rintro ⟨vs, h, _⟩; cases h
  | succ k ih =>
    intro i s p
    -- the body after the separator
    have body : ∀ s1 : Bytes, ∃ r, (if !(dtoi s1).ok || (dtoi s1).n > 0xFF then some none
        else match sliceFrom s1 (dtoi s1).i with
          | none => none
          | some s => parseIPv4Loop k (i + 1) s (p ++ [UInt8.ofNat (dtoi s1).n])) = some r ∧
        ∀ out, r = some out ↔ ∃ vs, Octs (k + 1) false s1 vs ∧ out = ipv4 (p ++ vs.map UInt8.ofNat) := by
      intro s1
      have hg := dtoi_g s1
      simp only [Num.val] at hg
      by_cases hok : (dtoi s1).ok
      · rw [if_pos hok] at hg
        obtain ⟨t, rest, h1, h2, h3, h4, h5⟩ := (decScan_iff _ _ _).mp hg.symm
        by_cases hn : (dtoi s1).n > 0xFF
        · refine ⟨none, by simp [hn], fun out => ⟨fun h => (by cases h), ?_⟩⟩
          rintro ⟨vs, h, _⟩
          obtain ⟨v, c, h6, h7, _⟩ := octs_succ.mp h
          rw [← hg] at h6; cases h6; omega
        · have hle : (dtoi s1).i ≤ s1.length := by rw [h3, h1]; simp
          have hsl : sliceFrom s1 (dtoi s1).i = some (s1.drop (dtoi s1).i) := by simp [sliceFrom, hle]
          obtain ⟨r, h6, h7⟩ := ih (i + 1) (s1.drop (dtoi s1).i) (p ++ [UInt8.ofNat (dtoi s1).n])
          refine ⟨r, ?_, fun out => ?_⟩
          · rw [hsl]
            simp only [hok, Bool.not_true, Bool.false_or, decide_eq_true_eq, if_neg hn]
            exact h6
          · rw [h7]
            constructor
            · rintro ⟨vs, h8, rfl⟩
              refine ⟨(dtoi s1).n :: vs, octs_succ.mpr ⟨_, _, hg.symm, by omega, vs, rfl, by simpa using h8⟩, by simp⟩
            · rintro ⟨vs, h8, rfl⟩
              obtain ⟨v, c, h9, _, vs', rfl, h10⟩ := octs_succ.mp h8
              rw [← hg] at h9; cases h9
              exact ⟨vs', by simpa using h10, by simp⟩
      · rw [if_neg hok] at hg
        refine ⟨none, by simp [hok], fun out => ⟨fun h => (by cases h), ?_⟩⟩
        rintro ⟨vs, h, _⟩
        obtain ⟨v, c, h6, _⟩ := octs_succ.mp h
        rw [← hg] at h6; cases h6
    simp only [parseIPv4Loop]
    cases s with
    | nil =>
      refine ⟨none, by simp, fun out => ⟨fun h => (by cases h), ?_⟩⟩
      rintro ⟨vs, h, _⟩
      exfalso
      by_cases hi : i > 0
      · simp only [hi, decide_true] at h; cases h
      · simp only [hi, decide_false] at h
        obtain ⟨v, c, h6, _⟩ := octs_succ.mp h
        simp [gLoop] at h6
    | cons a s =>
      simp only [List.length_cons, if_false, reduceCtorEq, Nat.succ_ne_zero]
      by_cases hi : i > 0
      · simp only [skipDot, hi, if_true, List.getElem?_cons_zero, decide_true]
        by_cases ha : a = 46
        · subst ha
          have hsl : sliceFrom (46 :: s) 1 = some s := by simp [sliceFrom]
          simp only [ne_eq, not_true, if_false, hsl, Option.map_some]
          obtain ⟨r, h1, h2⟩ := body s
          refine ⟨r, h1, fun out => ?_⟩
          rw [h2]
          constructor
          · rintro ⟨vs, h, rfl⟩
            cases h with
            | first h3 h4 => exact ⟨_, .next h3 h4, rfl⟩
          · rintro ⟨vs, h, rfl⟩
            cases h with
            | next h3 h4 => exact ⟨_, .first h3 h4, rfl⟩
        · simp only [ne_eq, ha, not_false_eq_true, if_true]
          refine ⟨none, rfl, fun out => ⟨fun h => (by cases h), ?_⟩⟩
          rintro ⟨vs, h, _⟩
          cases h with
          | next => exact absurd rfl ha
      · simp only [skipDot, hi, if_false, decide_false]
        exact body (a :: s)

theorem quad_iff {s o} : Quad s o ↔ Octs 4 false s o := by
  constructor
  · rintro ⟨t0, t1, t2, t3, v0, v1, v2, v3, h0, h1, h2, h3, rfl, rfl⟩
    have := Octs.first h0 (.next h1 (.next h2 (.next h3 (.nil (f := true)))))
    simpa using this
  · intro h
    cases h with
    | first h0 h =>
      cases h with
      | next h1 h =>
        cases h with
        | next h2 h =>
          cases h with
          | next h3 h =>
            cases h
            exact ⟨_, _, _, _, _, _, _, _, h0, h1, h2, h3, by simp, rfl⟩

/-- `parseIPv4` accepts exactly the dotted quads. -/
theorem parseIPv4_iff (s : Bytes) : ∃ r, parseIPv4 s = some r ∧
    ∀ out, r = some out ↔ ∃ o, Quad s o ∧ out = mappedPrefix ++ o.map UInt8.ofNat := by
  obtain ⟨r, h1, h2⟩ := parseIPv4Loop_iff 4 0 s []
  refine ⟨r, h1, fun out => ?_⟩
  rw [h2]
  simp only [quad_iff]
  rfl

end Verif.IPAddr
