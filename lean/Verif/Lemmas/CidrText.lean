import Verif.Model.CidrText
import Verif.Lemmas.Cidr
/-! The texts of addresses and networks are read back. -/
namespace Verif.Cidr
open IPAddr (decText hexText joinWith natOf groupBytes Quad IPv6Text CIDRText Octet)

theorem appendDecimal_eq : ∀ x < 1000, appendDecimal x = decText x := by
  intro x hx
  have hd : ∀ d < 10, digit d = UInt8.ofNat (48 + d) := by decide
  rw [decText]
  by_cases h1 : x < 10
  · rw [if_pos h1]
    simp [appendDecimal, show ¬ 100 ≤ x by omega, show ¬ 10 ≤ x by omega, Nat.mod_eq_of_lt h1, hd x h1]
  · rw [if_neg h1, decText]
    by_cases h2 : x / 10 < 10
    · rw [if_pos h2]
      simp [appendDecimal, show ¬ 100 ≤ x by omega, show 10 ≤ x by omega, Nat.mod_eq_of_lt h2, hd _ h2,
        hd _ (Nat.mod_lt x (by decide : 0 < 10))]
    · rw [if_neg h2, decText]
      have h3 : x / 10 / 10 = x / 100 := by omega
      have h4 : x / 100 < 10 := by omega
      rw [h3, if_pos h4]
      simp [appendDecimal, show 100 ≤ x by omega, show 10 ≤ x by omega, hd _ h4,
        hd _ (Nat.mod_lt x (by decide : 0 < 10)), hd _ (Nat.mod_lt (x / 10) (by decide : 0 < 10))]

theorem appendHex_eq : ∀ x < 65536, appendHex x = hexText x := by
  intro x hx
  have hd : ∀ d < 16, digit d = IPAddr.hexChar d := by decide
  have m := fun y => hd _ (Nat.mod_lt y (by decide : 0 < 16))
  rw [hexText]
  by_cases h1 : x < 16
  · rw [if_pos h1]
    simp [appendHex, show ¬ 4096 ≤ x by omega, show ¬ 256 ≤ x by omega, show ¬ 16 ≤ x by omega, Nat.mod_eq_of_lt h1, hd x h1]
  · rw [if_neg h1, hexText]
    by_cases h2 : x / 16 < 16
    · rw [if_pos h2]
      simp [appendHex, show ¬ 4096 ≤ x by omega, show ¬ 256 ≤ x by omega, show 16 ≤ x by omega, Nat.mod_eq_of_lt h2, hd _ h2, m]
    · rw [if_neg h2, hexText]
      have h3 : x / 16 / 16 = x / 256 := by omega
      rw [h3]
      by_cases h4 : x / 256 < 16
      · rw [if_pos h4]
        simp [appendHex, show ¬ 4096 ≤ x by omega, show 256 ≤ x by omega, show 16 ≤ x by omega, Nat.mod_eq_of_lt h4, hd _ h4, m]
      · rw [if_neg h4, hexText]
        have h5 : x / 256 / 16 = x / 4096 := by omega
        have h6 : x / 4096 < 16 := by omega
        rw [h5, if_pos h6]
        simp [appendHex, show 4096 ≤ x by omega, show 256 ≤ x by omega, show 16 ≤ x by omega, hd _ h6, m]

theorem places_length (base k n : Nat) : (places base k n).length = k := by
  induction k with
  | zero => rfl
  | succ k ih => simp [places, ih]

theorem places_lt {base : Nat} (hb : 0 < base) (k n : Nat) : ∀ g ∈ places base k n, g < base := by
  induction k with
  | zero => simp [places]
  | succ k ih =>
    intro g hg
    simp only [places, List.mem_cons] at hg
    rcases hg with rfl | hg
    · exact Nat.mod_lt _ hb
    · exact ih g hg

theorem split_place (base k n : Nat) : n / base ^ k % base * base ^ k + n % base ^ k = n % base ^ (k + 1) := by
  rw [Nat.pow_succ, Nat.mod_mul]
  rw [Nat.add_comm, Nat.mul_comm]

theorem natOf_places256 (k n : Nat) : natOf ((places 256 k n).map UInt8.ofNat) = n % 256 ^ k := by
  induction k with
  | zero => simp [places, natOf, Nat.mod_one]
  | succ k ih =>
    simp only [places, List.map_cons, natOf, List.length_map, places_length, ih]
    rw [← split_place]
    congr 2
    exact Nat.mod_eq_of_lt (Nat.mod_lt _ (by decide))

theorem natOf_places65536 (k n : Nat) : natOf (groupBytes (places 65536 k n)) = n % 65536 ^ k := by
  induction k with
  | zero => simp [places, groupBytes, natOf, Nat.mod_one]
  | succ k ih =>
    rw [places, IPAddr.groupBytes_cons]
    simp only [List.cons_append, List.nil_append, natOf, List.length_cons, IPAddr.groupBytes_len, places_length, ih]
    rw [← split_place]
    have hg : n / 65536 ^ k % 65536 < 65536 := Nat.mod_lt _ (by decide)
    generalize n / 65536 ^ k % 65536 = g at hg
    have h1 : (UInt8.ofNat (g / 256)).toNat = g / 256 := Nat.mod_eq_of_lt (by omega)
    have h2 : (UInt8.ofNat (g % 256)).toNat = g % 256 := Nat.mod_eq_of_lt (by omega)
    have h3 : 256 ^ (2 * k) = 65536 ^ k := by rw [Nat.pow_mul]
    rw [h1, h2, Nat.pow_succ, h3, ← Nat.add_assoc]
    congr 1
    have h4 := Nat.div_add_mod g 256
    calc g / 256 * (65536 ^ k * 256) + g % 256 * 65536 ^ k = (256 * (g / 256) + g % 256) * 65536 ^ k := by
          rw [Nat.add_mul, Nat.mul_comm (65536 ^ k) 256, ← Nat.mul_assoc, Nat.mul_comm (g / 256) 256]
      _ = g * 65536 ^ k := by rw [h4]

theorem text4_quad (n : Nat) : Quad (text4 n) (places 256 4 n) := by
  have hl := places_lt (by decide : 0 < 256) 4 n
  have hx : ∀ x ∈ places 256 4 n, Octet (appendDecimal x) x := by
    intro x h
    have := hl x h
    rw [appendDecimal_eq x (by omega)]
    exact ⟨IPAddr.decText_num x, by omega⟩
  unfold text4
  simp only [places] at hx ⊢
  exact ⟨_, _, _, _, _, _, _, _, hx _ (by simp), hx _ (by simp), hx _ (by simp), hx _ (by simp), rfl, rfl⟩

theorem colons_eq : ∀ gs : List Nat, (∀ g ∈ gs, g < 65536) → colons gs = joinWith 58 (gs.map hexText) := by
  intro gs
  induction gs with
  | nil => intro _; rfl
  | cons g gs ih =>
    intro h
    have hg := appendHex_eq g (h g (by simp))
    have ih := ih (fun x hx => h x (by simp [hx]))
    cases gs with
    | nil => simp [colons, joinWith, hg]
    | cons g' gs =>
      simp only [colons, List.map_cons, joinWith, hg]
      simp only [List.map_cons] at ih
      rw [ih]

theorem zeros_spec (gs : List Nat) : zeros gs ≤ gs.length ∧ gs = List.replicate (zeros gs) 0 ++ gs.drop (zeros gs) := by
  induction gs with
  | nil => simp [zeros]
  | cons g gs ih =>
    cases g with
    | zero =>
      simp only [zeros, List.length_cons, List.replicate_succ, List.cons_append, List.drop_succ_cons]
      exact ⟨by omega, by rw [← ih.2]⟩
    | succ g => simp [zeros]

/-- A run of zeros. -/
def IsRun (gs : List Nat) (r : Nat × Nat) : Prop :=
  r.2 = 0 ∨ r.1 + r.2 ≤ gs.length ∧ gs = gs.take r.1 ++ List.replicate r.2 0 ++ gs.drop (r.1 + r.2)

theorem findRun_spec (all : List Nat) : ∀ (gs : List Nat) (i : Nat) (best : Nat × Nat), gs = all.drop i → IsRun all best →
    IsRun all (findRun i best gs) := by
  intro gs
  induction gs with
  | nil => intro i best _ hb; exact hb
  | cons g gs ih =>
    intro i best hd hb
    have hd' : gs = all.drop (i + 1) := by rw [← List.drop_drop, ← hd]; rfl
    rw [findRun]
    split
    · apply ih _ _ hd'
      right
      obtain ⟨z1, z2⟩ := zeros_spec (g :: gs)
      have hlen : (g :: gs).length = all.length - i := by rw [hd, List.length_drop]
      refine ⟨by have : (g :: gs).length ≠ 0 := by simp
                 show i + _ ≤ _; omega, ?_⟩
      show all = all.take i ++ _ ++ all.drop (i + _)
      rw [← List.drop_drop, ← hd, List.append_assoc, ← z2, hd, List.take_append_drop]
    · exact ih _ _ hd' hb

theorem text6_ipv6 (n : Nat) : IPv6Text (text6 n) (places 65536 8 n) := by
  have hlen := places_length 65536 8 n
  have hlt := places_lt (by decide : 0 < 65536) 8 n
  have hr := findRun_spec (places 65536 8 n) (places 65536 8 n) 0 (255, 0) rfl (.inl rfl)
  unfold text6
  dsimp only
  generalize findRun 0 (255, 0) (places 65536 8 n) = run at hr
  generalize places 65536 8 n = gs at hlen hlt hr
  have hle : ∀ l : List Nat, (∀ g ∈ l, g ∈ gs) → ∀ g ∈ l, g ≤ 0xFFFF := fun l h g hg => by
    have := hlt g (h g hg); omega
  split
  · rw [colons_eq gs hlt]
    refine .full ?_ hlen
    exact (IPAddr.hexgroups_text gs (by rintro rfl; simp at hlen) (hle gs fun _ h => h)).groups
  · rename_i h0
    rcases hr with hr | ⟨hr1, hr2⟩
    · exact absurd hr h0
    have ht : ∀ g ∈ gs.take run.1, g ∈ gs := fun g h => List.mem_of_mem_take h
    have hd : ∀ g ∈ gs.drop (run.1 + run.2), g ∈ gs := fun g h => List.mem_of_mem_drop h
    rw [colons_eq _ (fun g h => hlt g (ht g h)), colons_eq _ (fun g h => hlt g (hd g h))]
    have l1 : (gs.take run.1).length = run.1 := by rw [List.length_take]; omega
    have l2 : (gs.drop (run.1 + run.2)).length = 8 - (run.1 + run.2) := by rw [List.length_drop, hlen]
    have := IPv6Text.ellipsis (l := joinWith 58 ((gs.take run.1).map hexText))
      (r := joinWith 58 ((gs.drop (run.1 + run.2)).map hexText)) (lg := gs.take run.1) (rg := gs.drop (run.1 + run.2))
      ?_ ?_ (by omega)
    · rw [l1, l2, show 8 - (run.1 + (8 - (run.1 + run.2))) = run.2 by omega, ← hr2] at this
      exact this
    · cases h : gs.take run.1 with
      | nil => exact .inl ⟨rfl, rfl⟩
      | cons g l => rw [← h]; exact .inr (IPAddr.hexgroups_text _ (by rw [h]; simp) (hle _ ht))
    · cases h : gs.drop (run.1 + run.2) with
      | nil => exact .inl ⟨rfl, rfl⟩
      | cons g l => rw [← h]; exact .inr (IPAddr.hexgroups_text _ (by rw [h]; simp) (hle _ hd)).groups

/-- The text of an address that is not IPv4-mapped is read back. -/
theorem ipText_addr {len a : Nat} (hw : Wide len) (hm : ¬ Mapped len a) (ha : a < 2 ^ (8 * len)) :
    AddrText (ipText ⟨len, a⟩) len a := by
  rcases hw.bits with h | h
  · have : len = 4 := by omega
    subst this
    refine .inl ⟨rfl, places 256 4 a, text4_quad a, ?_⟩
    rw [natOf_places256]
    exact Nat.mod_eq_of_lt ha
  · have : len = 16 := by omega
    subst this
    have hm' : IP.to4 ⟨16, a⟩ = none := by
      simp only [IP.to4, IP.mapped]
      simp only [Mapped, true_and] at hm
      simp [hm]
    refine .inr ⟨rfl, places 65536 8 a, ?_, ?_⟩
    · simp only [ipText, hm']
      exact text6_ipv6 a
    · rw [natOf_places65536]
      exact Nat.mod_eq_of_lt ha

/-- So is the text of a network. -/
theorem netText_prefix {len a n : Nat} (hw : Wide len) (hm : ¬ Mapped len a) (ha : a < 2 ^ (8 * len)) (hn : n ≤ 8 * len)
    (hd : 2 ^ (8 * len - n) ∣ a) : PrefixText (netText ⟨⟨len, a⟩, ⟨8 * len, n⟩⟩) len a n := by
  have hdec : IPAddr.Numeral IPAddr.IsDec 10 (appendDecimal n) n := by
    rw [appendDecimal_eq n (by have := hw.bits; omega)]
    exact IPAddr.decText_num n
  have hcl : a / 2 ^ (8 * len - n) * 2 ^ (8 * len - n) = a := Nat.div_mul_cancel hd
  have h := ipText_addr hw hm ha
  rcases h with ⟨rfl, o, ho, hv⟩ | ⟨rfl, gs, hg, hv⟩
  · refine ⟨o.map UInt8.ofNat, _, .v4 ho hdec ?_, ?_, hn, ?_⟩
    · simp [netText, IP.to4]
    · obtain ⟨x, y, z, w, rfl⟩ := IPAddr.quad_four ho; rfl
    · rw [hv, hcl]
  · have hm' : IP.to4 ⟨16, a⟩ = none := by
      simp only [IP.to4, IP.mapped]
      simp only [Mapped, true_and] at hm
      simp [hm]
    refine ⟨groupBytes gs, _, .v6 hg hdec ?_, ?_, hn, ?_⟩
    · simp [netText, hm']
    · rw [IPAddr.groupBytes_len, IPAddr.ipv6_len hg]
    · rw [hv, hcl]

end Verif.Cidr
