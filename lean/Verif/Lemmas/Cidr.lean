import Verif.Model.Cidr
import Verif.Spec.Cidr
import Verif.Lemmas.IPNet
/-! Lemmas about the cidr functions. -/
set_option linter.unusedSimpArgs false
namespace Verif.Cidr

/-! ## Arithmetic -/

theorem two_pow_pos (k : Nat) : 0 < 2 ^ k := Nat.pow_pos (by decide)

theorem clearLow_le (x k : Nat) : clearLow x k ≤ x := Nat.div_mul_le_self _ _

theorem lt_clearLow (x k : Nat) : x < clearLow x k + 2 ^ k := by
  have h1 := Nat.div_add_mod x (2 ^ k)
  have h2 := Nat.mod_lt x (two_pow_pos k)
  rw [clearLow, Nat.mul_comm]; omega

theorem clearLow_dvd (x k : Nat) : 2 ^ k ∣ clearLow x k := Nat.dvd_mul_left _ _

theorem clearLow_of_dvd {x k : Nat} (h : 2 ^ k ∣ x) : clearLow x k = x := Nat.div_mul_cancel h

theorem clearLow_zero (x : Nat) : clearLow x 0 = x := by simp [clearLow]

theorem dvd_pow_le {j k : Nat} (h : j ≤ k) : 2 ^ j ∣ 2 ^ k := Nat.pow_dvd_pow 2 h

/-- Numbers `≤ y` aligned and `y` aligned: gaps are at least the alignment. -/
theorem dvd_lt_le {d x y : Nat} (hx : d ∣ x) (hy : d ∣ y) (h : x < y) : x + d ≤ y := by
  obtain ⟨a, rfl⟩ := hx
  obtain ⟨c, rfl⟩ := hy
  have : a < c := Nat.lt_of_mul_lt_mul_left h
  rw [← Nat.mul_succ]
  exact Nat.mul_le_mul_left _ this

theorem alignUp_dvd (x k : Nat) : 2 ^ k ∣ alignUp x k := Nat.dvd_mul_left _ _

theorem le_alignUp (x k : Nat) : x ≤ alignUp x k := by
  have h1 := Nat.div_add_mod (x + 2 ^ k - 1) (2 ^ k)
  have h2 := Nat.mod_lt (x + 2 ^ k - 1) (two_pow_pos k)
  have := two_pow_pos k
  rw [alignUp, Nat.mul_comm]; omega

theorem alignUp_lt (x k : Nat) : alignUp x k < x + 2 ^ k := by
  have h1 := Nat.div_mul_le_self (x + 2 ^ k - 1) (2 ^ k)
  have := two_pow_pos k
  rw [alignUp]; omega

theorem alignUp_succ (x k : Nat) : alignUp (x + 1) k = clearLow x k + 2 ^ k := by
  have := two_pow_pos k
  rw [alignUp, clearLow, show x + 1 + 2 ^ k - 1 = x + 2 ^ k by omega,
    Nat.add_div_right _ (two_pow_pos k), Nat.succ_mul]

theorem alignUp_of_dvd {x k : Nat} (h : 2 ^ k ∣ x) : alignUp x k = x := by
  have h1 := le_alignUp x k
  have h2 := alignUp_lt x k
  rcases Nat.lt_or_ge x (alignUp x k) with h3 | h3
  · have := dvd_lt_le h (alignUp_dvd x k) h3; omega
  · omega

theorem pow_split {j k : Nat} (h : j ≤ k) : 2 ^ k = 2 ^ (k - j) * 2 ^ j := by
  rw [← Nat.pow_add]; congr 1; omega

theorem dvd_trans_pow {j k x : Nat} (h : j ≤ k) (hx : 2 ^ k ∣ x) : 2 ^ j ∣ x :=
  Nat.dvd_trans (dvd_pow_le h) hx

theorem base_lt {w a n} (hb : IsBase w a n) : a < 2 ^ w := by
  have := hb.fits
  have := two_pow_pos (w - n)
  omega

theorem base_mapped {a n} (hb : IsBase 128 a n) (hm : a / 2 ^ 32 = 0xffff) : 96 ≤ n := by
  rcases Nat.lt_or_ge n 96 with h | h
  · have := hb.aligned
    have h33 : 2 ^ 33 ∣ a := dvd_trans_pow (by omega) this
    have : a % 2 ^ 33 = 0 := Nat.mod_eq_zero_of_dvd h33
    omega
  · exact h

/-! ## The external operations on addresses of matching width -/

structure Wide (len : Nat) : Prop where
  h : len = 4 ∨ len = 16

theorem Wide.bits {len} (h : Wide len) : 8 * len = 32 ∨ 8 * len = 128 := by
  rcases h.h with h | h <;> subst h <;> simp

theorem cidrMask_ok {len : Nat} (hw : Wide len) {q : Nat} (hq : q ≤ 8 * len) :
    cidrMask (q : Int) (8 * len) = ⟨8 * len, q⟩ := by
  have := hw.bits
  rw [cidrMask, if_pos ⟨this, by omega, by omega⟩]; simp

theorem applyMask_same {len x q : Nat} (hw : Wide len) :
    (IP.applyMask ⟨len, x⟩ ⟨8 * len, q⟩) = ⟨len, clearLow x (8 * len - q)⟩ := by
  rcases hw.h with rfl | rfl
  · simp [IP.applyMask, IP.mapped]
  · simp [IP.applyMask, IP.mapped]

theorem lastAddr_ok {len c p : Nat} (hw : Wide len) (hp : p ≤ 8 * len) :
    lastAddr ⟨⟨len, c⟩, ⟨8 * len, p⟩⟩ =
      .ok ⟨len, clearLow c (8 * len - p) + (2 ^ (8 * len - p) - 1)⟩ := by
  simp only [lastAddr]
  by_cases h : p = 8 * len
  · rw [if_pos h]; subst h; simp [clearLow]
  · rw [if_neg h, if_neg (by have := hw.h; omega)]

/-- A 16-byte address that the libraries take for an IPv4 one. -/
def Mapped (len x : Nat) : Prop := len = 16 ∧ x / 2 ^ 32 = 0xffff

instance (len x : Nat) : Decidable (Mapped len x) := by unfold Mapped; infer_instance

theorem to4_of_mapped {len x : Nat} (h : Mapped len x) : IP.to4 ⟨len, x⟩ = some ⟨4, x % 2 ^ 32⟩ := by
  obtain ⟨rfl, h⟩ := h
  simp [IP.to4, IP.mapped, h]

theorem to4_getD {len x : Nat} (h : ¬ Mapped len x) : (IP.to4 ⟨len, x⟩).getD ⟨len, x⟩ = ⟨len, x⟩ := by
  simp only [IP.to4]
  split
  · rfl
  · split
    · rename_i h1 h2
      simp [IP.mapped] at h2
      exact absurd h2 h
    · rfl

theorem checkIPv4_of {len x : Nat} (h : ¬ Mapped len x) : checkIPv4 ⟨len, x⟩ = ⟨len, x⟩ := to4_getD h

theorem inc_of {len x : Nat} (h : ¬ Mapped len x) : inc ⟨len, x⟩ = ⟨len, (x + 1) % 2 ^ (8 * len)⟩ := by
  simp only [inc, checkIPv4_of h]

theorem inc_mapped {len x : Nat} (h : Mapped len x) : inc ⟨len, x⟩ = ⟨4, (x % 2 ^ 32 + 1) % 2 ^ 32⟩ := by
  simp [inc, checkIPv4, to4_of_mapped h]

theorem contains_iff {len a n x : Nat} (hw : Wide len) (hm : ¬ Mapped len a) :
    Net.contains ⟨⟨len, a⟩, ⟨8 * len, n⟩⟩ ⟨len, x⟩ = true ↔
      ¬ Mapped len x ∧ clearLow x (8 * len - n) = clearLow a (8 * len - n) := by
  by_cases hx : Mapped len x
  · obtain ⟨rfl, hx2⟩ := hx
    simp only [Net.contains, to4_getD hm, to4_of_mapped ⟨rfl, hx2⟩]
    simp [Mapped, hx2]
  · rcases hw.h with rfl | rfl
    · simp [Net.contains, to4_getD hm, to4_getD hx, hx]
    · simp [Net.contains, to4_getD hm, to4_getD hx, hx]

theorem contains_ne {len a n : Nat} {p : IP} (hw : Wide len) (hm : ¬ Mapped len a)
    (hp : p.len ≠ len) (hp2 : ¬ Mapped p.len p.n) :
    Net.contains ⟨⟨len, a⟩, ⟨8 * len, n⟩⟩ p = false := by
  have : p.to4.getD p = p := to4_getD hp2
  rcases hw.h with rfl | rfl
  · simp [Net.contains, to4_getD hm, this, hp]
  · simp [Net.contains, to4_getD hm, this, hp]

/-- Starts that the code can produce: not zero, and not where `Inc` or `Contains` meet an
IPv4-mapped address. -/
def Good (len s : Nat) : Prop := s ≠ 0 ∧ ¬ (len = 16 ∧ mappedLo ≤ s ∧ s ≤ 2 ^ 48)

theorem mapped_iff {x : Nat} : x / 2 ^ 32 = 0xffff ↔ mappedLo ≤ x ∧ x < 2 ^ 48 := by
  simp only [mappedLo]; omega

theorem applyMask_len (p : IP) (m : Mask) (h : m.bits = 32 ∨ m.bits = 128) (hp : p.len = 4)
    (hm : m.bits = 128) : (p.applyMask m).len ≠ 16 := by
  obtain ⟨l, x⟩ := p
  obtain ⟨bt, o⟩ := m
  dsimp only at hp hm
  subst hp hm
  simp only [IP.applyMask]
  split
  · simp [IP.mapped]
  · simp [IP.mapped, nilIP]

theorem nextSubnet_spec {len c p q a n : Nat} (hw : Wide len) (hp : p ≤ 8 * len) (hq : q ≤ 8 * len)
    (hc : c < 2 ^ (8 * len)) (hb : IsBase (8 * len) a n) (hm : ¬ Mapped len a) (hnq : n ≤ q) :
    ∃ next ro, nextSubnet ⟨⟨len, c⟩, ⟨8 * len, p⟩⟩ q = .ok (next, ro) ∧
      let S := alignUp (clearLow c (8 * len - p) + 2 ^ (8 * len - p)) (8 * len - q)
      ((ro || !Net.contains ⟨⟨len, a⟩, ⟨8 * len, n⟩⟩ next.ip) = false ↔
        Good len S ∧ a ≤ S ∧ S + 2 ^ (8 * len - q) ≤ a + 2 ^ (8 * len - n)) ∧
      ((ro || !Net.contains ⟨⟨len, a⟩, ⟨8 * len, n⟩⟩ next.ip) = false →
        next = ⟨⟨len, S⟩, ⟨8 * len, q⟩⟩) := by
  generalize hk : 8 * len - q = k
  generalize hj : 8 * len - p = j
  have hjw : j ≤ 8 * len := by omega
  have hkw : k ≤ 8 * len := by omega
  have hpj := two_pow_pos j
  have hpk := two_pow_pos k
  -- the last address of the current block
  generalize hL : clearLow c j + (2 ^ j - 1) = L
  have hLlt : L < 2 ^ (8 * len) := by
    have h1 : clearLow c j < 2 ^ (8 * len) := by have := clearLow_le c j; omega
    have := dvd_lt_le (clearLow_dvd c j) (dvd_pow_le hjw) h1
    omega
  have hpos : clearLow c j + 2 ^ j = L + 1 := by omega
  rw [hpos, alignUp_succ]
  generalize hS : clearLow L k + 2 ^ k = S
  have hS1 : clearLow L k + (2 ^ k - 1) = S - 1 := by omega
  have hSle : S ≤ 2 ^ (8 * len) := by
    have h1 : clearLow L k < 2 ^ (8 * len) := by have := clearLow_le L k; omega
    have := dvd_lt_le (clearLow_dvd L k) (dvd_pow_le hkw) h1
    omega
  have hSpos : 0 < S := by omega
  have hSd : 2 ^ k ∣ S := by
    rw [← hS]; exact Nat.dvd_add (clearLow_dvd _ _) (Nat.dvd_refl _)
  have hstep : nextSubnet ⟨⟨len, c⟩, ⟨8 * len, p⟩⟩ q =
      .ok (⟨(inc ⟨len, S - 1⟩).applyMask ⟨8 * len, q⟩, ⟨8 * len, q⟩⟩, (inc ⟨len, S - 1⟩).isZero) := by
    simp only [nextSubnet, lastAddr_ok hw hp, hj, hL, bind, Except.bind, cidrMask_ok hw hq,
      applyMask_same hw, hk, lastAddr_ok hw hq, clearLow_of_dvd (clearLow_dvd L k), hS1]
    rfl
  refine ⟨_, _, hstep, ?_⟩
  dsimp only
  by_cases hmap : Mapped len (S - 1)
  · -- the incremented address is a 4-byte one
    obtain ⟨rfl, hmap2⟩ := hmap
    rw [mapped_iff] at hmap2
    have hbad : ¬ Good 16 S := by
      rintro ⟨_, h⟩; exact h ⟨rfl, by omega, by omega⟩
    have hlen : (inc ⟨16, S - 1⟩).len = 4 := by rw [inc_mapped ⟨rfl, by rw [mapped_iff]; exact hmap2⟩]
    have hne := applyMask_len (inc ⟨16, S - 1⟩) ⟨8 * 16, q⟩ (.inr rfl) hlen rfl
    have : Net.contains ⟨⟨16, a⟩, ⟨8 * 16, n⟩⟩ ((inc ⟨16, S - 1⟩).applyMask ⟨8 * 16, q⟩) = false :=
      contains_ne hw hm hne (fun h => hne h.1)
    rw [this]
    simp [hbad]
  · rw [inc_of hmap, show S - 1 + 1 = S by omega, applyMask_same hw, hk]
    by_cases hfull : S = 2 ^ (8 * len)
    · -- wrapped around
      have hz : (IP.isZero ⟨len, S % 2 ^ (8 * len)⟩) = true := by
        rw [hfull, Nat.mod_self]
        rcases hw.h with rfl | rfl <;> simp [IP.isZero]
      rw [hz]
      have : ¬ (S + 2 ^ k ≤ a + 2 ^ (8 * len - n)) := by
        have := hb.fits; omega
      simp [this]
    · have hmod : S % 2 ^ (8 * len) = S := Nat.mod_eq_of_lt (by omega)
      rw [hmod, clearLow_of_dvd hSd]
      have hzero : IP.isZero ⟨len, S⟩ = true ↔ len = 16 ∧ S = mappedLo := by
        simp only [IP.isZero, mappedLo, Bool.or_eq_true, Bool.and_eq_true, beq_iff_eq]
        omega
      have hin : clearLow S (8 * len - n) = clearLow a (8 * len - n) ↔
          a ≤ S ∧ S + 2 ^ k ≤ a + 2 ^ (8 * len - n) := by
        rw [clearLow_of_dvd hb.aligned]
        constructor
        · intro h
          have h1 := clearLow_le S (8 * len - n)
          have h2 := lt_clearLow S (8 * len - n)
          rw [h] at h1 h2
          refine ⟨h1, dvd_lt_le hSd ?_ h2⟩
          exact Nat.dvd_add (dvd_trans_pow (by omega) hb.aligned) (dvd_pow_le (by omega))
        · rintro ⟨h1, h2⟩
          rcases Nat.lt_trichotomy (clearLow S (8 * len - n)) a with h | h | h
          · have := dvd_lt_le (clearLow_dvd S _) hb.aligned h
            have := lt_clearLow S (8 * len - n)
            omega
          · exact h
          · have := dvd_lt_le hb.aligned (clearLow_dvd S _) h
            have := clearLow_le S (8 * len - n)
            omega
      have hgood : Good len S ↔ ¬ Mapped len S ∧ ¬ (len = 16 ∧ S = mappedLo) := by
        simp only [Good, Mapped, mapped_iff]
        simp only [Mapped, mapped_iff] at hmap
        have : mappedLo < 2 ^ 48 := by decide
        have : 0 < mappedLo := by decide
        constructor
        · rintro ⟨_, h⟩
          refine ⟨fun h' => h ⟨h'.1, h'.2.1, by omega⟩, fun h' => h ⟨h'.1, by omega, by omega⟩⟩
        · rintro ⟨h1, h2⟩
          refine ⟨by omega, fun h' => ?_⟩
          obtain ⟨h3, h4, h5⟩ := h'
          exact h1 ⟨h3, h4, by
            rcases Nat.lt_or_ge S (2 ^ 48) with h | h
            · exact h
            · exact absurd ⟨h3, by omega, by omega⟩ hmap⟩
      refine ⟨?_, fun _ => rfl⟩
      rw [Bool.or_eq_false_iff, Bool.not_eq_false', contains_iff hw hm, hin, hgood,
        Bool.eq_false_iff, Ne, hzero]
      constructor
      · rintro ⟨h1, h2, h3⟩; exact ⟨⟨h2, h1⟩, h3⟩
      · rintro ⟨⟨h2, h1⟩, h3⟩; exact ⟨h1, h2, h3⟩

/-! ## The loop -/

/-- A list of newbits the function accepts. -/
def ValidBits (w n : Nat) (bs : List Nat) : Prop := ∀ e ∈ bs, 1 ≤ e ∧ e ≤ 32 ∧ n + e ≤ w

/-- Every allocated block is inside the base and startable. -/
def AllFit (len a n : Nat) (l : List (Nat × Nat)) : Prop :=
  ∀ s q, (s, q) ∈ l → Good len s ∧ a ≤ s ∧ s + 2 ^ (8 * len - q) ≤ a + 2 ^ (8 * len - n)

def toNet (len : Nat) (x : Nat × Nat) : Net := ⟨⟨len, x.1⟩, ⟨8 * len, x.2⟩⟩

theorem subnetsLoop_iff {len a n : Nat} (hw : Wide len) (hb : IsBase (8 * len) a n)
    (hm : ¬ Mapped len a) (args : List (Option Int)) : ∀ c p, p ≤ 8 * len → c < 2 ^ (8 * len) →
    ∀ pos, clearLow c (8 * len - p) + 2 ^ (8 * len - p) = pos → ∀ out,
    (subnetsLoop ⟨⟨len, a⟩, ⟨8 * len, n⟩⟩ n ⟨⟨len, c⟩, ⟨8 * len, p⟩⟩ args = .ok out ↔
      ∃ bs : List Nat, args = bs.map (fun e : Nat => some (e : Int)) ∧ ValidBits (8 * len) n bs ∧
        AllFit len a n (allocate (8 * len) n pos bs) ∧
        out = (allocate (8 * len) n pos bs).map (toNet len)) := by
  induction args with
  | nil =>
    intro c p hp hc pos hpos out
    simp only [subnetsLoop, Except.ok.injEq]
    constructor
    · rintro rfl
      exact ⟨[], rfl, by simp [ValidBits], by simp [AllFit, allocate], rfl⟩
    · rintro ⟨bs, h1, _, _, h2⟩
      have : bs = [] := by simpa using h1.symm
      subst this; exact h2.symm
  | cons o args ih =>
    intro c p hp hc pos hpos out
    cases o with
    | none =>
      simp only [subnetsLoop]
      constructor
      · intro h; cases h
      · rintro ⟨bs, h1, _⟩
        cases bs with
        | nil => simp at h1
        | cons e es => simp at h1
    | some e =>
      have bad : ∀ (h : ¬ (1 ≤ e ∧ e ≤ 32 ∧ e + n ≤ 8 * len)), ¬ ∃ bs : List Nat,
          some e :: args = bs.map (fun e : Nat => some (e : Int)) ∧ ValidBits (8 * len) n bs ∧
          AllFit len a n (allocate (8 * len) n pos bs) ∧
          out = (allocate (8 * len) n pos bs).map (toNet len) := by
        rintro h ⟨bs, h1, h2, _⟩
        cases bs with
        | nil => simp at h1
        | cons e' es =>
          simp only [List.map_cons, List.cons.injEq, Option.some.injEq] at h1
          have := h2 e' (by simp)
          omega
      simp only [subnetsLoop]
      by_cases h1 : e < 1
      · rw [if_pos h1]
        exact ⟨fun h => (by cases h), fun h => absurd h (bad (by omega))⟩
      rw [if_neg h1]
      by_cases h2 : e > 32
      · rw [if_pos h2]
        exact ⟨fun h => (by cases h), fun h => absurd h (bad (by omega))⟩
      rw [if_neg h2]
      by_cases h3 : e + n > (len * 8 : Nat)
      · rw [if_pos (by simpa using h3)]
        exact ⟨fun h => (by cases h), fun h => absurd h (bad (by omega))⟩
      rw [if_neg (by simpa using h3)]
      obtain ⟨d, rfl⟩ : ∃ d : Nat, e = d := ⟨e.toNat, by omega⟩
      have hq : n + d ≤ 8 * len := by omega
      obtain ⟨next, ro, hn1, hn2, hn3⟩ := nextSubnet_spec (q := n + d) hw hp hq hc hb hm (by omega)
      rw [show ((d : Int) + (n : Int)) = ((n + d : Nat) : Int) by omega, hn1]
      dsimp only
      rw [hpos] at hn2 hn3
      generalize hS : alignUp pos (8 * len - (n + d)) = S at hn2 hn3
      have hSd : 2 ^ (8 * len - (n + d)) ∣ S := hS ▸ alignUp_dvd _ _
      by_cases hfit : Good len S ∧ a ≤ S ∧ S + 2 ^ (8 * len - (n + d)) ≤ a + 2 ^ (8 * len - n)
      · rw [hn2.mpr hfit, hn3 (hn2.mpr hfit)]
        simp only [Bool.false_eq_true, if_false]
        have hfits := hb.fits
        have hSlt : S < 2 ^ (8 * len) := by
          have := two_pow_pos (8 * len - (n + d)); omega
        have := ih S (n + d) hq hSlt (S + 2 ^ (8 * len - (n + d))) (by rw [clearLow_of_dvd hSd])
        cases hl : subnetsLoop ⟨⟨len, a⟩, ⟨8 * len, n⟩⟩ n ⟨⟨len, S⟩, ⟨8 * len, n + d⟩⟩ args with
        | error er =>
          dsimp only
          rw [hl] at this
          constructor
          · intro h; cases h
          · rintro ⟨bs, h4, h5, h6, h7⟩
            cases bs with
            | nil => simp at h4
            | cons e' es =>
              simp only [List.map_cons, List.cons.injEq, Option.some.injEq] at h4
              obtain ⟨h8, h9⟩ := h4
              obtain rfl : d = e' := by omega
              have h10 := (this ((allocate (8 * len) n (S + 2 ^ (8 * len - (n + d))) es).map (toNet len))).mpr
                ⟨es, h9, fun x hx => h5 x (by simp [hx]), by
                  intro s q hs
                  refine h6 s q ?_
                  rw [allocate, hS]; exact List.mem_cons_of_mem _ hs, rfl⟩
              cases h10
        | ok l =>
          dsimp only
          rw [hl] at this
          obtain ⟨es, h4, h5, h6, h7⟩ := (this l).mp rfl
          constructor
          · intro h
            obtain rfl := Except.ok.inj h
            refine ⟨d :: es, by rw [List.map_cons, ← h4], ?_, ?_, ?_⟩
            · intro x hx
              rcases List.mem_cons.mp hx with rfl | hx
              · omega
              · exact h5 x hx
            · intro s q hs
              rw [allocate, hS] at hs
              rcases List.mem_cons.mp hs with he | hs
              · cases he; exact hfit
              · exact h6 s q hs
            · rw [allocate, hS, List.map_cons, ← h7]; rfl
          · rintro ⟨bs, h8, h9, h10, h11⟩
            cases bs with
            | nil => simp at h8
            | cons e' es' =>
              simp only [List.map_cons, List.cons.injEq, Option.some.injEq] at h8
              obtain ⟨h12, h13⟩ := h8
              obtain rfl : d = e' := by omega
              have : es' = es := by
                have hinj : Function.Injective (fun e : Nat => some (e : Int)) := by
                  intro x y h; simp at h; omega
                rw [h4] at h13
                exact (List.map_inj_right (fun x y h => hinj h)).mp h13.symm
              subst this
              rw [h11, allocate, hS, List.map_cons, ← h7]; rfl
      · have : (ro || !Net.contains ⟨⟨len, a⟩, ⟨8 * len, n⟩⟩ next.ip) = true := by
          cases hh : (ro || !Net.contains ⟨⟨len, a⟩, ⟨8 * len, n⟩⟩ next.ip)
          · exact absurd (hn2.mp hh) hfit
          · rfl
        rw [this, if_pos rfl]
        constructor
        · intro h; cases h
        · rintro ⟨bs, h4, h5, h6, h7⟩
          cases bs with
          | nil => simp at h4
          | cons e' es =>
            simp only [List.map_cons, List.cons.injEq, Option.some.injEq] at h4
            obtain rfl : d = e' := by omega
            refine absurd (h6 S (n + d) ?_) hfit
            rw [allocate, hS]; exact List.mem_cons_self

theorem cidrSubnets_iff {len a n : Nat} (hw : Wide len) (hb : IsBase (8 * len) a n)
    (hm : ¬ Mapped len a) (args : List (Option Int)) (out : List Net) :
    cidrSubnets ⟨⟨len, a⟩, ⟨8 * len, n⟩⟩ args = .ok out ↔
      ∃ bs : List Nat, args = bs.map (fun e : Nat => some (e : Int)) ∧ ValidBits (8 * len) n bs ∧
        AllFit len a n (allocate (8 * len) n a bs) ∧
        out = (allocate (8 * len) n a bs).map (toNet len) := by
  match args with
  | [] =>
    simp only [cidrSubnets, Except.ok.injEq]
    constructor
    · rintro rfl
      exact ⟨[], rfl, by simp [ValidBits], by simp [AllFit, allocate], rfl⟩
    · rintro ⟨bs, h1, _, _, h2⟩
      have : bs = [] := by simpa using h1.symm
      subst this; exact h2.symm
  | none :: args =>
    simp only [cidrSubnets]
    constructor
    · intro h; cases h
    · rintro ⟨bs, h1, _⟩
      cases bs with
      | nil => simp at h1
      | cons e es => simp at h1
  | some e :: args =>
    simp only [cidrSubnets]
    by_cases hv : 1 ≤ e ∧ e ≤ 32 ∧ e + n ≤ 8 * len
    · obtain ⟨d, rfl⟩ : ∃ d : Nat, e = d := ⟨e.toNat, by omega⟩
      have hq : n + d ≤ 8 * len := by omega
      have hprev : previousSubnet ⟨⟨len, a⟩, ⟨8 * len, n⟩⟩ ((d : Int) + (n : Int)) =
          ⟨⟨len, clearLow ((a + (2 ^ (8 * len) - 1)) % 2 ^ (8 * len)) (8 * len - (n + d))⟩,
            ⟨8 * len, n + d⟩⟩ := by
        simp only [previousSubnet, dec, checkIPv4_of hm]
        rw [show ((d : Int) + (n : Int)) = ((n + d : Nat) : Int) by omega, cidrMask_ok hw hq,
          applyMask_same hw]
      rw [hprev]
      have hlt : clearLow ((a + (2 ^ (8 * len) - 1)) % 2 ^ (8 * len)) (8 * len - (n + d)) < 2 ^ (8 * len) := by
        have h1 := clearLow_le ((a + (2 ^ (8 * len) - 1)) % 2 ^ (8 * len)) (8 * len - (n + d))
        have h2 := Nat.mod_lt (a + (2 ^ (8 * len) - 1)) (two_pow_pos (8 * len))
        omega
      rw [subnetsLoop_iff hw hb hm _ _ _ hq hlt _ rfl, clearLow_of_dvd (clearLow_dvd _ _)]
      by_cases ha : a = 0
      · -- the base starts at zero: neither can succeed
        subst ha
        have hp := two_pow_pos (8 * len)
        rw [Nat.zero_add, Nat.mod_eq_of_lt (by omega : 2 ^ (8 * len) - 1 < 2 ^ (8 * len)), ← alignUp_succ,
          show 2 ^ (8 * len) - 1 + 1 = 2 ^ (8 * len) by omega,
          alignUp_of_dvd (dvd_pow_le (by omega))]
        constructor
        · rintro ⟨bs, h1, h2, h3, h4⟩
          cases bs with
          | nil => simp at h1
          | cons e es =>
            have h := h3 _ _ (by rw [allocate]; exact List.mem_cons_self)
            have h5 := le_alignUp (2 ^ (8 * len)) (8 * len - (n + e))
            have h6 := hb.fits
            have h7 := two_pow_pos (8 * len - (n + e))
            omega
        · rintro ⟨bs, h1, h2, h3, h4⟩
          cases bs with
          | nil => simp at h1
          | cons e es =>
            have h := h3 _ _ (by rw [allocate]; exact List.mem_cons_self)
            exact absurd (alignUp_of_dvd (Nat.dvd_zero _)) h.1.1
      · have hpos : clearLow ((a + (2 ^ (8 * len) - 1)) % 2 ^ (8 * len)) (8 * len - (n + d)) +
            2 ^ (8 * len - (n + d)) = a := by
          have hlt := base_lt hb
          rw [show a + (2 ^ (8 * len) - 1) = (a - 1) + 2 ^ (8 * len) by omega, Nat.add_mod_right,
            Nat.mod_eq_of_lt (by omega), ← alignUp_succ, show a - 1 + 1 = a by omega,
            alignUp_of_dvd (dvd_trans_pow (by omega) hb.aligned)]
        rw [hpos]
    · have hl : ∀ cur, subnetsLoop ⟨⟨len, a⟩, ⟨8 * len, n⟩⟩ n cur (some e :: args) = .error .err := by
        intro cur
        simp only [subnetsLoop]
        by_cases h1 : e < 1
        · rw [if_pos h1]
        rw [if_neg h1]
        by_cases h2 : e > 32
        · rw [if_pos h2]
        rw [if_neg h2, if_pos (by simp; omega)]
      rw [hl]
      constructor
      · intro h; cases h
      · rintro ⟨bs, h1, h2, _⟩
        cases bs with
        | nil => simp at h1
        | cons e' es =>
          simp only [List.map_cons, List.cons.injEq, Option.some.injEq] at h1
          have := h2 e' (by simp)
          omega

/-! ## IPv4-mapped base, panics -/

theorem applyMask_nil (p : IP) : p.applyMask nilMask = if p.len = 0 then ⟨0, p.n⟩ else nilIP := by
  obtain ⟨l, x⟩ := p
  by_cases h : l = 0
  · subst h; simp [IP.applyMask, nilMask, IP.mapped, clearLow]
  · simp [IP.applyMask, nilMask, nilIP, h]; omega

theorem cidrSubnets_mapped {a n : Nat} (hb : IsBase (8 * 16) a n) (hm : Mapped 16 a)
    (args : List (Option Int)) : cidrSubnets ⟨⟨16, a⟩, ⟨8 * 16, n⟩⟩ args =
      if args = [] then .ok [] else .error .err := by
  have h96 := base_mapped hb hm.2
  match args with
  | [] => rfl
  | none :: args => rfl
  | some e :: args =>
    rw [if_neg (by simp)]
    simp only [cidrSubnets, subnetsLoop]
    by_cases h1 : e < 1
    · rw [if_pos h1]
    rw [if_neg h1]
    by_cases h2 : e > 32
    · rw [if_pos h2]
    rw [if_neg h2]
    split
    · rfl
    have hc : cidrMask (e + (n : Int)) (8 * 4) = nilMask := by
      rw [cidrMask, if_neg (by omega)]
    have hprev : previousSubnet ⟨⟨16, a⟩, ⟨8 * 16, n⟩⟩ (e + (n : Int)) = ⟨nilIP, nilMask⟩ := by
      simp only [previousSubnet, checkIPv4, to4_of_mapped hm, Option.getD_some, hc, applyMask_nil]
      simp [dec, checkIPv4, IP.to4]
    have hnext : nextSubnet ⟨nilIP, nilMask⟩ (e + (n : Int)) = .ok (⟨nilIP, nilMask⟩, false) := by
      simp only [nextSubnet, lastAddr, bind, Except.bind, nilIP, nilMask, cidrMask]
      simp [IP.applyMask, clearLow, inc, checkIPv4, IP.to4, IP.mapped, IP.isZero, nilIP, nilMask, lastAddr]
      rfl
    rw [hprev, hnext]
    have : Net.contains ⟨⟨16, a⟩, ⟨8 * 16, n⟩⟩ nilIP = false := by
      simp only [Net.contains, to4_of_mapped hm]
      simp [nilIP, IP.to4, IP.mapped]
    simp [this]

theorem subnetsLoop_no_panic {len a n : Nat} (hw : Wide len) (hb : IsBase (8 * len) a n)
    (hm : ¬ Mapped len a) (args : List (Option Int)) : ∀ c p, p ≤ 8 * len → c < 2 ^ (8 * len) →
    subnetsLoop ⟨⟨len, a⟩, ⟨8 * len, n⟩⟩ n ⟨⟨len, c⟩, ⟨8 * len, p⟩⟩ args ≠ .error .panic := by
  induction args with
  | nil => intro c p _ _; simp [subnetsLoop]
  | cons o args ih =>
    intro c p hp hc
    cases o with
    | none => simp [subnetsLoop]
    | some e =>
      simp only [subnetsLoop]
      by_cases h1 : e < 1
      · simp [h1]
      rw [if_neg h1]
      by_cases h2 : e > 32
      · simp [h2]
      rw [if_neg h2]
      by_cases h3 : e + n > (len * 8 : Nat)
      · rw [if_pos (by simpa using h3)]; simp
      rw [if_neg (by simpa using h3)]
      obtain ⟨d, rfl⟩ : ∃ d : Nat, e = d := ⟨e.toNat, by omega⟩
      have hq : n + d ≤ 8 * len := by omega
      obtain ⟨next, ro, hn1, hn2, hn3⟩ := nextSubnet_spec (q := n + d) hw hp hq hc hb hm (by omega)
      rw [show ((d : Int) + (n : Int)) = ((n + d : Nat) : Int) by omega, hn1]
      dsimp only
      cases hh : (ro || !Net.contains ⟨⟨len, a⟩, ⟨8 * len, n⟩⟩ next.ip) with
      | true => simp
      | false =>
        have hfit := hn2.mp hh
        rw [hn3 hh]
        simp only [Bool.false_eq_true, if_false]
        have hfits := hb.fits
        have hp2 := two_pow_pos (8 * len - (n + d))
        have := ih _ (n + d) hq (by omega :
          alignUp (clearLow c (8 * len - p) + 2 ^ (8 * len - p)) (8 * len - (n + d)) < 2 ^ (8 * len))
        split
        · rename_i er he
          intro h
          rw [he] at this
          cases h
          exact this rfl
        · simp

/-! ## Allocation -/

theorem allocate_ge {w n : Nat} (bs : List Nat) : ∀ pos s q, (s, q) ∈ allocate w n pos bs → pos ≤ s := by
  induction bs with
  | nil => intro pos s q h; simp [allocate] at h
  | cons e es ih =>
    intro pos s q h
    rw [allocate] at h
    rcases List.mem_cons.mp h with h | h
    · cases h; exact le_alignUp _ _
    · have := ih _ s q h
      have := le_alignUp pos (w - (n + e))
      have := two_pow_pos (w - (n + e))
      omega

theorem allocate_pairwise {w n : Nat} (bs : List Nat) : ∀ pos,
    (allocate w n pos bs).Pairwise fun x y => x.1 + 2 ^ (w - x.2) ≤ y.1 := by
  induction bs with
  | nil => intro pos; exact .nil
  | cons e es ih =>
    intro pos
    rw [allocate]
    refine .cons ?_ (ih _)
    rintro ⟨s, q⟩ h
    exact allocate_ge es _ s q h

theorem allocate_length {w n : Nat} (bs : List Nat) : ∀ pos, (allocate w n pos bs).length = bs.length := by
  induction bs with
  | nil => intro pos; rfl
  | cons e es ih => intro pos; rw [allocate, List.length_cons, ih, List.length_cons]

theorem allocate_get {w n : Nat} (bs : List Nat) : ∀ pos (i : Nat) s q,
    (allocate w n pos bs)[i]? = some (s, q) → ∃ e, bs[i]? = some e ∧ q = n + e ∧ 2 ^ (w - q) ∣ s := by
  induction bs with
  | nil => intro pos i s q h; simp [allocate] at h
  | cons e es ih =>
    intro pos i s q h
    rw [allocate] at h
    cases i with
    | zero =>
      simp only [List.getElem?_cons_zero, Option.some.injEq, Prod.mk.injEq] at h
      obtain ⟨rfl, rfl⟩ := h
      exact ⟨e, rfl, rfl, alignUp_dvd _ _⟩
    | succ i => simpa using ih _ i s q (by simpa using h)

/-! ## The text of the prefix -/

open Verif.IPAddr (natOf setAt)

theorem setBytes_natOf (s : Bytes) : setBytes s = IPAddr.natOf s := by
  have : ∀ s : Bytes, ∀ n, s.foldl (fun n c => n * 256 + c.toNat) n = n * 256 ^ s.length + IPAddr.natOf s := by
    intro s
    induction s with
    | nil => intro n; simp [IPAddr.natOf]
    | cons x s ih =>
      intro n
      rw [List.foldl_cons, ih, IPAddr.natOf, List.length_cons, Nat.pow_succ, Nat.add_mul, Nat.mul_assoc,
        Nat.mul_comm 256, Nat.add_assoc]
  simpa [setBytes] using this s 0

theorem byteOnes_mask : ∀ n < 8, byteOnes (~~~ (UInt8.ofNat (255 / 2 ^ n))) = n ∧
    (~~~ (UInt8.ofNat (255 / 2 ^ n))) ≠ 0xff := by decide +kernel

theorem leadingOnes_mask : ∀ l n, n ≤ 8 * l → leadingOnes (IPAddr.cidrMask n l) = n := by
  intro l
  induction l with
  | zero => intro n hn; simp [IPAddr.cidrMask, leadingOnes]; omega
  | succ l ih =>
    intro n hn
    rw [IPAddr.cidrMask]
    split
    · rename_i h
      rw [leadingOnes, if_pos rfl, ih _ (by omega)]; omega
    · rename_i h
      rw [leadingOnes, if_neg (byteOnes_mask n (by omega)).2, (byteOnes_mask n (by omega)).1]

/-- Every prefix function sees the network the text denotes. -/
theorem withPrefix_eq {α : Type} {s : Bytes} {len a n : Nat} (h : PrefixText s len a n)
    (f : Net → Except CErr α) :
    withPrefix s f = f ⟨⟨len, a⟩, ⟨8 * len, n⟩⟩ ∧ Wide len ∧ IsBase (8 * len) a n := by
  obtain ⟨bytes, ip, hc, rfl, hn, rfl⟩ := h
  have hnet := IPAddr.isNet_of_mask (a := bytes) rfl hn
  obtain ⟨r, h1, h2⟩ := IPAddr.parseCIDR_iff s
  have h3 := (h2 ip ⟨some _, _⟩).mpr ⟨bytes, n, _, hc, rfl, hnet⟩
  have hw : Wide bytes.length := by
    constructor
    cases hc with
    | v4 hq _ _ => obtain ⟨x, y, z, w, rfl⟩ := IPAddr.quad_four hq; simp
    | v6 hg _ _ => rw [IPAddr.groupBytes_len, IPAddr.ipv6_len hg]; simp
  refine ⟨?_, hw, ?_⟩
  · simp only [withPrefix, h1, h3, ofIPNet, setBytes_natOf, hnet.net, hnet.netLen, hnet.maskLen,
      leadingOnes_mask _ _ hn]
  · have hlt := IPAddr.natOf_lt bytes
    rw [IPAddr.pow256] at hlt
    refine ⟨hw.bits, hn, Nat.dvd_mul_left _ _, ?_⟩
    have hle := clearLow_le (IPAddr.natOf bytes) (8 * bytes.length - n)
    exact dvd_lt_le (Nat.dvd_mul_left _ _) (dvd_pow_le (by omega)) (by
      simp only [clearLow] at hle; omega)

/-- Other texts are rejected. -/
theorem withPrefix_err {α : Type} {s : Bytes} (h : ∀ len a n, ¬ PrefixText s len a n)
    (f : Net → Except CErr α) : withPrefix s f = .error .err := by
  obtain ⟨r, h1, h2⟩ := IPAddr.parseCIDR_iff s
  cases r with
  | none => simp [withPrefix, h1]
  | some x =>
    obtain ⟨ip, net⟩ := x
    obtain ⟨bytes, n, nb, hc, _, hnet⟩ := (h2 ip net).mp rfl
    exact absurd ⟨bytes, ip, hc, rfl, hnet.le, rfl⟩ (h bytes.length _ n)

end Verif.Cidr
